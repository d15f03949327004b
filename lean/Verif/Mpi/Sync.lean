import Verif.Mpi.Core
import Mathlib.Tactic.Ring

/-!
# Programs without wildcard receives

If all receives name their source and tag, one complete execution in which every send meets its receive at once
(`SyncRun`) determines all executions: each of them ends, in the same state, whatever is buffered
(`sync_determines`).  This is used for the parts of the library that do not wait for any source.
-/
namespace Verif.Mpi
open Function

variable {S V : Type}

/-- An execution in which every send is received at once. -/
inductive SyncRun (act : Nat → S → Act S V) : Nat → (Nat → S) → (Nat → S) → Prop where
  | nil {τ : Nat → S} : SyncRun act 0 τ τ
  | comm {m q r t : Nat} {τ σ : Nat → S} {v : V} {n : S} {k : Nat → Nat → V → S} (hqr : q ≠ r)
      (hs : act q (τ q) = .send r t v n) (hr : act r (τ r) = .recv (some q) (some t) k)
      (h : SyncRun act m (update (update τ q n) r (k q t v)) σ) : SyncRun act (m + 1) τ σ

/-- Proof device: a communication that is not over; `fly` is the message if it is under way. -/
structure Item (V : Type) where
  q : Nat
  r : Nat
  t : Nat
  fly : Option (V × Bool)

/-- Has rank `p` something to do for this communication? -/
def Item.todo (p : Nat) (x : Item V) : Prop := x.r = p ∨ (x.q = p ∧ x.fly = none)

/-- The message under way. -/
def Item.msg (q r : Nat) (x : Item V) : Option (Msg V) :=
  match x.fly with
  | none => none
  | some (v, b) => if x.q = q ∧ x.r = r then some ⟨x.t, v, b⟩ else none

/-- Carrying out the remaining communications in order leads from `τ` to `σ`. -/
inductive Eval (act : Nat → S → Act S V) : List (Item V) → (Nat → S) → (Nat → S) → Prop where
  | nil {τ : Nat → S} : Eval act [] τ τ
  | pend {L : List (Item V)} {q r t : Nat} {τ σ : Nat → S} {v : V} {n : S} {k : Nat → Nat → V → S} (hqr : q ≠ r)
      (hs : act q (τ q) = .send r t v n) (hr : act r (τ r) = .recv (some q) (some t) k)
      (h : Eval act L (update (update τ q n) r (k q t v)) σ) : Eval act (⟨q, r, t, none⟩ :: L) τ σ
  | fly {L : List (Item V)} {q r t : Nat} {τ σ : Nat → S} {v : V} {b : Bool} {k : Nat → Nat → V → S} (hqr : q ≠ r)
      (hr : act r (τ r) = .recv (some q) (some t) k)
      (h : Eval act L (update τ r (k q t v)) σ) : Eval act (⟨q, r, t, some (v, b)⟩ :: L) τ σ

variable {act : Nat → S → Act S V}

theorem SyncRun.eval {m : Nat} {τ σ : Nat → S} (h : SyncRun act m τ σ) :
    ∃ L, Eval act L τ σ ∧ L.length = m ∧ ∀ x ∈ L, x.fly = none := by
  induction h with
  | nil => exact ⟨[], .nil, rfl, by simp⟩
  | @comm m q r t τ σ v n k hqr hs hr h ih =>
    obtain ⟨L, h1, h2, h3⟩ := ih
    refine ⟨⟨q, r, t, none⟩ :: L, .pend hqr hs hr h1, by simp [h2], fun x hx => ?_⟩
    rw [List.mem_cons] at hx
    rcases hx with rfl | hx
    · rfl
    · exact h3 x hx

/-- The state of a rank does not change until its first communication. -/
theorem Eval.first {pre L : List (Item V)} {p : Nat} {τ σ : Nat → S} (h : Eval act (pre ++ L) τ σ) (hp : ∀ y ∈ pre, ¬ y.todo p) :
    ∃ τ', Eval act L τ' σ ∧ τ' p = τ p := by
  induction pre generalizing τ with
  | nil => exact ⟨τ, h, rfl⟩
  | cons y pre ih =>
    have hy := hp y (by simp)
    have hp' : ∀ y ∈ pre, ¬ y.todo p := fun z hz => hp z (by simp [hz])
    cases h with
    | @pend _ q r t _ _ v n k hqr hs hr h =>
      obtain ⟨τ', h1, h2⟩ := ih h hp'
      refine ⟨τ', h1, ?_⟩
      simp only [Item.todo, not_or, not_and] at hy
      have hq : p ≠ q := fun e => hy.2 e.symm trivial
      rw [h2, update_of_ne (Ne.symm hy.1), update_of_ne hq]
    | @fly _ q r t _ _ v b k hqr hr h =>
      obtain ⟨τ', h1, h2⟩ := ih h hp'
      refine ⟨τ', h1, ?_⟩
      simp only [Item.todo, not_or] at hy
      rw [h2, update_of_ne (Ne.symm hy.1)]

theorem Eval.ne {L : List (Item V)} {τ σ : Nat → S} (h : Eval act L τ σ) : ∀ x ∈ L, x.q ≠ x.r := by
  induction h with
  | nil => simp
  | pend hqr _ _ _ ih =>
    intro x hx
    rw [List.mem_cons] at hx
    rcases hx with rfl | hx
    · exact hqr
    · exact ih x hx
  | fly hqr _ _ ih =>
    intro x hx
    rw [List.mem_cons] at hx
    rcases hx with rfl | hx
    · exact hqr
    · exact ih x hx

theorem Eval.send {pre post : List (Item V)} {q r t : Nat} {τ σ : Nat → S} {v : V} {n : S} (b : Bool)
    (h : Eval act (pre ++ ⟨q, r, t, none⟩ :: post) τ σ) (hp : ∀ y ∈ pre, ¬ y.todo q) (hs : act q (τ q) = .send r t v n) :
    Eval act (pre ++ ⟨q, r, t, some (v, b)⟩ :: post) (update τ q n) σ := by
  induction pre generalizing τ with
  | nil =>
    cases h with
    | pend hqr hs' hr h =>
      rw [hs] at hs'
      obtain ⟨-, -, rfl, rfl⟩ := Act.send.inj hs'
      exact .fly hqr (by rw [update_of_ne (Ne.symm hqr)]; exact hr) h
  | cons y pre ih =>
    have hy := hp y (by simp)
    have hp' : ∀ y ∈ pre, ¬ y.todo q := fun z hz => hp z (by simp [hz])
    cases h with
    | @pend _ q' r' t' _ _ v' n' k hqr hs' hr h =>
      simp only [Item.todo, not_or, not_and] at hy
      have hq : q' ≠ q := fun e => hy.2 e trivial
      have hr' : r' ≠ q := hy.1
      have := ih h hp' (by rw [update_of_ne (Ne.symm hr'), update_of_ne (Ne.symm hq)]; exact hs)
      refine .pend hqr (by rw [update_of_ne hq]; exact hs') (by rw [update_of_ne hr']; exact hr) ?_
      rw [update_comm (Ne.symm hq), update_comm (Ne.symm hr')]
      exact this
    | @fly _ q' r' t' _ _ v' b' k hqr hr h =>
      simp only [Item.todo, not_or] at hy
      have hr' : r' ≠ q := hy.1
      have := ih h hp' (by rw [update_of_ne (Ne.symm hr')]; exact hs)
      refine .fly hqr (by rw [update_of_ne hr']; exact hr) ?_
      rw [update_comm (Ne.symm hr')]
      exact this

theorem Eval.recv {pre post : List (Item V)} {q r t : Nat} {τ σ : Nat → S} {v : V} {b : Bool} {k : Nat → Nat → V → S}
    (h : Eval act (pre ++ ⟨q, r, t, some (v, b)⟩ :: post) τ σ) (hp : ∀ y ∈ pre, ¬ y.todo r)
    (hr : act r (τ r) = .recv (some q) (some t) k) : Eval act (pre ++ post) (update τ r (k q t v)) σ := by
  induction pre generalizing τ with
  | nil =>
    cases h with
    | fly hqr hr' h =>
      rw [hr] at hr'
      obtain ⟨-, -, rfl⟩ := Act.recv.inj hr'
      exact h
  | cons y pre ih =>
    have hy := hp y (by simp)
    have hp' : ∀ y ∈ pre, ¬ y.todo r := fun z hz => hp z (by simp [hz])
    cases h with
    | @pend _ q' r' t' _ _ v' n' k' hqr hs' hr' h =>
      simp only [Item.todo, not_or, not_and] at hy
      have hq : q' ≠ r := fun e => hy.2 e trivial
      have hr2 : r' ≠ r := hy.1
      have := ih h hp' (by rw [update_of_ne (Ne.symm hr2), update_of_ne (Ne.symm hq)]; exact hr)
      refine .pend hqr (by rw [update_of_ne hq]; exact hs') (by rw [update_of_ne hr2]; exact hr') ?_
      rw [update_comm (Ne.symm hq), update_comm (Ne.symm hr2)]
      exact this
    | @fly _ q' r' t' _ _ v' b' k' hqr hr' h =>
      simp only [Item.todo, not_or] at hy
      have hr2 : r' ≠ r := hy.1
      have := ih h hp' (by rw [update_of_ne (Ne.symm hr2)]; exact hr)
      refine .fly hqr (by rw [update_of_ne hr2]; exact hr') ?_
      rw [update_comm (Ne.symm hr2)]
      exact this

/-- The invariant. -/
structure YInv (act : Nat → S → Act S V) (σ : Nat → S) (s : St S V) (L : List (Item V)) : Prop where
  eval : Eval act L s.proc σ
  ord : L.Pairwise fun x y => ∀ vb, y.fly = some vb → ¬ x.todo y.q
  chan : ∀ q r, s.chan q r = L.filterMap (Item.msg q r)
  blk : ∀ q, s.blk q = true → ∃ y ∈ L, y.q = q ∧ ∃ v, y.fly = some (v, true)

def yweight (L : List (Item V)) : Nat := (L.map fun x => if x.fly.isSome then 1 else 2).sum

theorem firstTodo (L : List (Item V)) (p : Nat) : (∀ x ∈ L, ¬ x.todo p) ∨ ∃ pre x post, L = pre ++ x :: post ∧ (∀ y ∈ pre, ¬ y.todo p) ∧ x.todo p := by
  induction L with
  | nil => left; simp
  | cons y L ih =>
    by_cases hy : y.todo p
    · right; exact ⟨[], y, L, rfl, by simp, hy⟩
    · rcases ih with h | ⟨pre, x, post, rfl, h1, h2⟩
      · left
        intro x hx
        rw [List.mem_cons] at hx
        rcases hx with rfl | hx
        · exact hy
        · exact h x hx
      · right
        refine ⟨y :: pre, x, post, rfl, fun z hz => ?_, h2⟩
        rw [List.mem_cons] at hz
        rcases hz with rfl | hz
        · exact hy
        · exact h1 z hz

theorem msg_eq_some {q r : Nat} {x : Item V} {a : Msg V} (h : x.msg q r = some a) :
    x.q = q ∧ x.r = r ∧ x.fly = some (a.val, a.sync) ∧ a.tag = x.t := by
  unfold Item.msg at h
  split at h
  · simp at h
  · rename_i v b hf
    split at h
    · rename_i hqr
      obtain rfl := Option.some.inj h
      exact ⟨hqr.1, hqr.2, hf, rfl⟩
    · simp at h

theorem filterMap_nil_of {q r : Nat} {L : List (Item V)} (h : ∀ x ∈ L, x.q = q → x.r = r → x.fly = none) : L.filterMap (Item.msg q r) = [] := by
  rw [List.filterMap_eq_nil_iff]
  intro x hx
  cases hm : x.msg q r with
  | none => rfl
  | some a =>
    obtain ⟨h1, h2, h3, -⟩ := msg_eq_some hm
    rw [h x hx h1 h2] at h3
    simp at h3

theorem YInv.step {σ : Nat → S} (hσ : ∀ r, act r (σ r) = .stop) {s s' : St S V} {L : List (Item V)} (h : YInv act σ s L)
    (hs : Step act s s') : ∃ L', YInv act σ s' L' ∧ yweight L' < yweight L := by
  have hfirst : ∀ p, act p (s.proc p) ≠ .stop → ∃ pre x post, L = pre ++ x :: post ∧ (∀ y ∈ pre, ¬ y.todo p) ∧ x.todo p := fun p hp => by
    rcases firstTodo L p with hn | hy
    · exfalso
      have he := h.eval
      rw [← List.append_nil L] at he
      obtain ⟨τ', h1, h2⟩ := he.first hn
      cases h1
      rw [← h2] at hp
      exact hp (hσ p)
    · exact hy
  cases hs with
  | @send p d t v n b hact hblk =>
    obtain ⟨pre, x, post, rfl, hpre, hx⟩ := hfirst p (by rw [hact]; simp)
    obtain ⟨τ', he, hτ⟩ := h.eval.first hpre
    rw [← hτ] at hact
    have hxp : x = ⟨p, d, t, none⟩ := by
      cases he with
      | @pend _ q r t' _ _ v' n' k hqr hs' hr' _ =>
        rcases hx with hx | ⟨hx, -⟩
        · simp only at hx
          subst hx
          rw [hact] at hr'
          simp at hr'
        · simp only at hx
          subst hx
          rw [hact] at hs'
          obtain ⟨rfl, rfl, -, -⟩ := Act.send.inj hs'
          rfl
      | @fly _ q r t' _ _ v' b' k hqr hr' _ =>
        rcases hx with hx | ⟨-, hx⟩
        · simp only at hx
          subst hx
          rw [hact] at hr'
          simp at hr'
        · simp at hx
    subst hxp
    rw [hτ] at hact
    have hord := List.pairwise_append.mp h.ord
    have hord2 := List.pairwise_cons.mp hord.2.1
    refine ⟨pre ++ ⟨p, d, t, some (v, b)⟩ :: post, ⟨h.eval.send b hpre hact, ?_, fun q r => ?_, fun q hq => ?_⟩, ?_⟩
    · refine List.pairwise_append.mpr ⟨hord.1, List.pairwise_cons.mpr ⟨fun y hy vb hvb => ?_, hord2.2⟩, fun y hy z hz vb hvb => ?_⟩
      · have := hord2.1 y hy vb hvb
        simp only [Item.todo, not_or, not_and] at this ⊢
        exact ⟨this.1, by simp⟩
      · rw [List.mem_cons] at hz
        rcases hz with rfl | hz
        · exact hpre y hy
        · exact hord.2.2 y hy z (by simp [hz]) vb hvb
    · show setChan s.chan p d _ q r = _
      by_cases hqr : q = p ∧ r = d
      · obtain ⟨rfl, rfl⟩ := hqr
        have hpost : post.filterMap (Item.msg q r) = [] := filterMap_nil_of fun y hy hyq _ => by
          cases hf : y.fly with
          | none => rfl
          | some vb =>
            have := hord2.1 y hy vb hf
            exact absurd (Or.inr ⟨hyq.symm, rfl⟩) this
        rw [setChan_same, h.chan, List.filterMap_append, List.filterMap_append, List.filterMap_cons, List.filterMap_cons, hpost]
        simp [Item.msg]
      · rw [setChan_ne hqr, h.chan, List.filterMap_append, List.filterMap_append, List.filterMap_cons, List.filterMap_cons]
        have : Item.msg q r (⟨p, d, t, some (v, b)⟩ : Item V) = none := by
          unfold Item.msg
          simp only
          rw [if_neg]
          rintro ⟨rfl, rfl⟩
          exact hqr ⟨rfl, rfl⟩
        rw [this]
        simp [Item.msg]
    · replace hq : update s.blk p b q = true := hq
      by_cases hqp : q = p
      · subst hqp
        rw [update_self] at hq
        subst hq
        exact ⟨⟨q, d, t, some (v, true)⟩, by simp, rfl, v, rfl⟩
      · rw [update_of_ne hqp] at hq
        obtain ⟨y, hy, hyq, hyv⟩ := h.blk q hq
        refine ⟨y, ?_, hyq, hyv⟩
        rw [List.mem_append, List.mem_cons] at hy ⊢
        rcases hy with hy | rfl | hy
        · exact Or.inl hy
        · exact absurd hyq.symm hqp
        · exact Or.inr (Or.inr hy)
    · simp [yweight]
  | @recv p q' src tag k pre' post' a hact hblk hsrc htag hch hpre' =>
    obtain ⟨pre, x, post, rfl, hpre, hx⟩ := hfirst p (by rw [hact]; simp)
    obtain ⟨τ', he, hτ⟩ := h.eval.first hpre
    rw [← hτ] at hact
    have hxp : x.r = p ∧ src = some x.q ∧ tag = some x.t := by
      cases he with
      | @pend _ q r t' _ _ v' n' k' hqr hs' hr' _ =>
        rcases hx with hx | ⟨hx, -⟩
        · simp only at hx
          subst hx
          rw [hact] at hr'
          obtain ⟨rfl, rfl, -⟩ := Act.recv.inj hr'
          exact ⟨rfl, rfl, rfl⟩
        · simp only at hx
          subst hx
          rw [hact] at hs'
          simp at hs'
      | @fly _ q r t' _ _ v' b' k' hqr hr' _ =>
        rcases hx with hx | ⟨-, hx⟩
        · simp only at hx
          subst hx
          rw [hact] at hr'
          obtain ⟨rfl, rfl, -⟩ := Act.recv.inj hr'
          exact ⟨rfl, rfl, rfl⟩
        · simp at hx
    obtain ⟨hxr, rfl, rfl⟩ := hxp
    rw [hτ] at hact
    have hq' : q' = x.q := by
      rcases hsrc with h | h
      · simp at h
      · simpa using h.symm
    subst hq'
    have hord := List.pairwise_append.mp h.ord
    have hord2 := List.pairwise_cons.mp hord.2.1
    have hpre0 : ∀ q0, pre.filterMap (Item.msg q0 p) = [] := fun q0 => filterMap_nil_of fun y hy _ hyr => absurd (Or.inl hyr) (hpre y hy)
    rw [h.chan, List.filterMap_append, hpre0, List.nil_append, List.filterMap_cons] at hch
    obtain ⟨xq, xr, xt, xf⟩ := x
    simp only at hxr hch hact htag hpre' hx
    subst hxr
    cases xf with
    | none =>
      exfalso
      have hpost : post.filterMap (Item.msg xq xr) = [] := filterMap_nil_of fun y hy hyq _ => by
        cases hf : y.fly with
        | none => rfl
        | some vb =>
          have := hord2.1 y hy vb hf
          exact absurd (Or.inr ⟨hyq.symm, rfl⟩) this
      simp [Item.msg, hpost] at hch
    | some vb =>
      obtain ⟨v, b⟩ := vb
      simp only [Item.msg, and_self, if_true] at hch
      have hp0 : pre' = [] := by
        cases pre' with
        | nil => rfl
        | cons y ys =>
          rw [List.cons_append, List.cons.injEq] at hch
          exact absurd (Or.inr (by rw [← hch.1])) (hpre' y (by simp))
      subst hp0
      rw [List.nil_append, List.cons.injEq] at hch
      obtain ⟨rfl, hpost'⟩ := hch
      refine ⟨pre ++ post, ⟨h.eval.recv hpre hact, ?_, fun q r => ?_, fun q hq => ?_⟩, ?_⟩
      · refine List.pairwise_append.mpr ⟨hord.1, hord2.2, fun y hy z hz => hord.2.2 y hy z (by simp [hz])⟩
      · show setChan s.chan xq xr _ q r = _
        by_cases hqr : q = xq ∧ r = xr
        · obtain ⟨rfl, rfl⟩ := hqr
          rw [setChan_same, List.filterMap_append, hpre0, ← hpost']
        · rw [setChan_ne hqr, h.chan, List.filterMap_append, List.filterMap_append, List.filterMap_cons]
          have : Item.msg q r (⟨xq, xr, xt, some (v, b)⟩ : Item V) = none := by
            unfold Item.msg
            simp only
            rw [if_neg]
            rintro ⟨rfl, rfl⟩
            exact hqr ⟨rfl, rfl⟩
          rw [this]
      · replace hq : (if b = true then update s.blk xq false else s.blk) q = true := hq
        have hq2 : s.blk q = true ∧ (b = true → q ≠ xq) := by
          split at hq
          · by_cases hqx : q = xq
            · subst hqx; simp at hq
            · rw [update_of_ne hqx] at hq
              exact ⟨hq, fun _ => hqx⟩
          · rename_i hb
            exact ⟨hq, fun hb' => absurd hb' hb⟩
        obtain ⟨y, hy, hyq, v', hyv⟩ := h.blk q hq2.1
        refine ⟨y, ?_, hyq, v', hyv⟩
        rw [List.mem_append, List.mem_cons] at hy
        rw [List.mem_append]
        rcases hy with hy | rfl | hy
        · exact Or.inl hy
        · exfalso
          simp only [Option.some.injEq, Prod.mk.injEq] at hyv
          exact hq2.2 hyv.2 hyq.symm
        · exact Or.inr hy
      · simp [yweight]

theorem YInv.progress {σ : Nat → S} {s : St S V} {L : List (Item V)} (h : YInv act σ s L) (hs : Stuck act s) : L = [] := by
  cases L with
  | nil => rfl
  | cons x post =>
    exfalso
    have hord := List.pairwise_cons.mp h.ord
    have he := h.eval
    have hch := h.chan
    have hblk := h.blk
    cases he with
    | @pend _ q r t _ _ v n k hqr hs' hr' _ =>
      have hb : s.blk q = false := by
        by_contra hb
        obtain ⟨y, hy, hyq, v', hyv⟩ := hblk q (by simpa using hb)
        rw [List.mem_cons] at hy
        rcases hy with rfl | hy
        · simp at hyv
        · exact hord.1 y hy _ hyv (Or.inr ⟨hyq.symm, rfl⟩)
      exact hs _ (Step.send false hs' hb)
    | @fly _ q r t _ _ v b k hqr hr' _ =>
      have hb : s.blk r = false := by
        by_contra hb
        obtain ⟨y, hy, hyq, v', hyv⟩ := hblk r (by simpa using hb)
        rw [List.mem_cons] at hy
        rcases hy with rfl | hy
        · exact hqr hyq
        · exact hord.1 y hy _ hyv (Or.inl hyq.symm)
      exact hs _ (Step.recv (q := q) (pre := []) (post := post.filterMap (Item.msg q r)) (m := ⟨t, v, b⟩) hr' hb (Or.inr rfl) (Or.inr rfl)
        (by rw [hch q r, List.filterMap_cons]; simp [Item.msg]) (by simp))

/-- The state in which no message is under way. -/
def fresh (τ : Nat → S) : St S V where
  proc := τ
  chan _ _ := []
  blk _ := false

/-- If some synchronous execution carries out `m` communications and ends with all ranks stopped in `σ`, then every
execution has at most `2 m` steps, and every execution that cannot go on has ended in `σ` with nothing left over. -/
theorem sync_determines {m : Nat} {τ σ : Nat → S} (h : SyncRun act m τ σ) (hσ : ∀ r, act r (σ r) = .stop) {k : Nat} {s : St S V}
    (hk : Steps act k (fresh τ) s) : k ≤ 2 * m ∧ (Stuck act s → Final act s ∧ s.proc = σ) := by
  obtain ⟨L0, h1, h2, h3⟩ := h.eval
  have hw0 : yweight L0 = 2 * m := by
    rw [← h2]
    clear h1 h2 hk
    induction L0 with
    | nil => rfl
    | cons x L ih =>
      have hx := h3 x (by simp)
      have := ih fun y hy => h3 y (by simp [hy])
      simp only [yweight, List.map_cons, List.sum_cons, hx, List.length_cons] at this ⊢
      simp only [Option.isSome_none, Bool.false_eq_true, if_false]
      omega
  have h0 : YInv act σ (fresh τ) L0 := by
    refine ⟨h1, ?_, fun q r => ?_, fun q hq => by simp [fresh] at hq⟩
    · rw [List.pairwise_iff_forall_sublist]
      intro x y hxy vb hvb
      have := h3 y (hxy.subset (by simp))
      rw [this] at hvb
      simp at hvb
    · rw [filterMap_nil_of fun x hx _ _ => h3 x hx]
      rfl
  obtain ⟨μ, ⟨L, hI, hμ⟩, hle⟩ := Steps.measure (I := fun s μ => ∃ L, YInv act σ s L ∧ μ = yweight L)
    (fun s μ s' ⟨L, hI, hμ⟩ hs => by
      obtain ⟨L', hI', hlt⟩ := hI.step hσ hs
      exact ⟨_, ⟨L', hI', rfl⟩, by rw [hμ]; exact hlt⟩) ⟨L0, h0, rfl⟩ hk
  refine ⟨by omega, fun hs => ?_⟩
  have hL := hI.progress hs
  subst hL
  have he := hI.eval
  have hp : s.proc = σ := by
    cases he
    rfl
  refine ⟨⟨fun r => by rw [hp]; exact hσ r, fun r => ?_, fun q r => by rw [hI.chan]; rfl⟩, hp⟩
  by_contra hb
  obtain ⟨y, hy, -⟩ := hI.blk r (by simpa using hb)
  simp at hy

theorem SyncRun.trans {m m' : Nat} {τ τ' σ : Nat → S} (h : SyncRun act m τ τ') (h' : SyncRun act m' τ' σ) : SyncRun act (m + m') τ σ := by
  induction h with
  | nil => rw [Nat.zero_add]; exact h'
  | @comm m q r t τ σ v n k hqr hs hr h ih =>
    rw [show m + 1 + m' = m + m' + 1 by ring]
    exact .comm hqr hs hr (ih h')

end Verif.Mpi
