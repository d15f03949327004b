import Verif.Mpi.Sync
import Verif.Mpi.FarmFacts

/-!
# One phase of a program after another

A parallel program is a sequence of phases: broadcasts, master/worker loops, hand-shakes.  The phases are not separated by
barriers; a rank that has finished its part goes on while others are still busy.  `phase` shows that nevertheless the
theorems about the single phases add up: if every execution of a phase ends well, and every execution of what follows
ends well from the states in which the phase leaves the ranks, then every execution of the whole ends well.
What is needed is that the receives of a phase name their source, or that
only the master receives from any source and a worker begins what follows by receiving from the master.
-/
namespace Verif.Mpi
open Function

/-- Every execution from `s` has at most `B` steps, and an execution that cannot go on has ended: all ranks have returned, no
message is left, no rank is blocked, and the local states satisfy `Q`. -/
structure Ends {S V : Type} (act : Nat → S → Act S V) (s : St S V) (B : Nat) (Q : (Nat → S) → Prop) : Prop where
  bound : ∀ n s', Steps act n s s' → n ≤ B
  good : ∀ n s', Steps act n s s' → Stuck act s' → Final act s' ∧ Q s'.proc

variable {S V SB VB : Type}

/-! ### General facts about executions -/

section general
variable {act : Nat → S → Act S V}

theorem Steps.stays {n : Nat} {s s' : St S V} (h : Steps act n s s') {r : Nat} (hr : act r (s.proc r) = .stop) : s'.proc r = s.proc r := by
  induction h with
  | nil => rfl
  | @snoc n s s' s'' h hs ih =>
    have ih := ih hr
    cases hs with
    | @send r' d t v n b hact hblk =>
      have : r ≠ r' := fun e => by subst e; rw [ih, hr] at hact; cases hact
      simp only [update_of_ne this]; exact ih
    | @recv r' q src tag k pre post m hact hblk hsrc htag hch hpre =>
      have : r ≠ r' := fun e => by subst e; rw [ih, hr] at hact; cases hact
      simp only [update_of_ne this]; exact ih

theorem Steps.grows {n : Nat} {s s' : St S V} (h : Steps act n s s') {r : Nat} (hr : act r (s.proc r) = .stop) (q : Nat) :
    ∃ l, s'.chan q r = s.chan q r ++ l := by
  induction h with
  | nil => exact ⟨[], by simp⟩
  | @snoc n s s' s'' h hs ih =>
    obtain ⟨l, hl⟩ := ih hr
    have hst := h.stays hr
    cases hs with
    | @send r' d t v n b hact hblk =>
      by_cases hc : q = r' ∧ r = d
      · obtain ⟨rfl, rfl⟩ := hc
        exact ⟨l ++ [⟨t, v, b⟩], by simp only [setChan_same]; rw [hl, List.append_assoc]⟩
      · exact ⟨l, by simp only [setChan_ne hc]; exact hl⟩
    | @recv r' q' src tag k pre post m hact hblk hsrc htag hch hpre =>
      have hne : r ≠ r' := fun e => by subst e; rw [hst, hr] at hact; cases hact
      exact ⟨l, by simp only [setChan_ne (fun hc : q = q' ∧ r = r' => hne hc.2)]; exact hl⟩

theorem Steps.waits {n : Nat} {s s' : St S V} (h : Steps act n s s') {q r : Nat} {tag : Option Nat} {k : Nat → Nat → V → S}
    (hr : act r (s.proc r) = .recv (some q) tag k) (hq : act q (s.proc q) = .stop) (hn : ∀ x ∈ s.chan q r, ¬ fits tag x.tag) :
    s'.proc r = s.proc r ∧ s'.chan q r = s.chan q r := by
  induction h with
  | nil => exact ⟨rfl, rfl⟩
  | @snoc n s s' s'' h hs ih =>
    obtain ⟨h1, h2⟩ := ih hr hq hn
    have hst := h.stays hq
    have hqr : q ≠ r := fun e => by subst e; rw [hr] at hq; cases hq
    cases hs with
    | @send r' d t v n b hact hblk =>
      have hne : r ≠ r' := fun e => by subst e; rw [h1, hr] at hact; cases hact
      have hne' : q ≠ r' := fun e => by subst e; rw [hst, hq] at hact; cases hact
      exact ⟨by simp only [update_of_ne hne]; exact h1, by simp only [setChan_ne (fun hc : q = r' ∧ r = d => hne' hc.1)]; exact h2⟩
    | @recv r' q' src tag' k' pre post m hact hblk hsrc htag hch hpre =>
      have hne : r ≠ r' := fun e => by
        subst e
        rw [h1, hr] at hact
        cases hact
        have : q = q' := by simpa [fits] using hsrc
        subst this
        rw [h2] at hch
        exact hn m (by rw [hch]; simp) htag
      exact ⟨by simp only [update_of_ne hne]; exact h1, by simp only [setChan_ne (fun hc : q = q' ∧ r = r' => hne hc.2)]; exact h2⟩

/-- The sender of a message it has to wait for is blocked, and there is only one such message. -/
structure Blocks (s : St S V) : Prop where
  blk : ∀ q r x, x ∈ s.chan q r → x.sync = true → s.blk q = true
  one : ∀ q r l1 x l2, s.chan q r = l1 ++ x :: l2 → x.sync = true → (∀ y ∈ l1 ++ l2, y.sync = false) ∧ ∀ r', r' ≠ r → ∀ y ∈ s.chan q r', y.sync = false

theorem Blocks.fresh (τ : Nat → S) : Blocks (fresh τ : St S V) where
  blk q r x hx := by simp [Verif.Mpi.fresh] at hx
  one q r l1 x l2 h := by simp [Verif.Mpi.fresh] at h

theorem Blocks.step {s s' : St S V} (hB : Blocks s) (hs : Step act s s') : Blocks s' := by
  cases hs with
  | @send r d t v n b hact hblk =>
    have hno : ∀ c, ∀ y ∈ s.chan r c, y.sync = false := fun c y hy => by
      by_contra hc
      have := hB.blk r c y hy (by simpa using hc)
      rw [hblk] at this; simp at this
    refine ⟨fun q c x hx hsx => ?_, fun q c l1 x l2 hl hsx => ?_⟩
    · show update s.blk r b q = true
      replace hx : x ∈ setChan s.chan r d _ q c := hx
      by_cases hq : q = r
      · subst hq
        rw [update_self]
        by_cases hc : c = d
        · subst hc
          rw [setChan_same, List.mem_append, List.mem_singleton] at hx
          rcases hx with hx | hx
          · rw [hno c x hx] at hsx; simp at hsx
          · subst hx; exact hsx
        · rw [setChan_ne (fun h => hc h.2)] at hx
          rw [hno c x hx] at hsx; simp at hsx
      · rw [update_of_ne hq]
        rw [setChan_ne (fun h => hq h.1)] at hx
        exact hB.blk q c x hx hsx
    · replace hl : setChan s.chan r d _ q c = _ := hl
      show _ ∧ ∀ r', r' ≠ c → ∀ y ∈ setChan s.chan r d _ q r', _
      by_cases hq : q = r
      · subst hq
        by_cases hc : c = d
        · subst hc
          rw [setChan_same] at hl
          refine ⟨?_, fun r' hr' y hy => ?_⟩
          · rcases List.eq_nil_or_concat l2 with rfl | ⟨l2', z, rfl⟩
            · have := List.append_inj' hl (by simp)
              intro y hy
              rw [List.append_nil] at hy
              exact hno c y (by rw [this.1]; exact hy)
            · have h2 : s.chan q c ++ [⟨t, v, b⟩] = (l1 ++ x :: l2') ++ [z] := by rw [hl]; simp
              have := List.append_inj' h2 (by simp)
              have hx : x ∈ s.chan q c := by rw [this.1]; simp
              rw [hno c x hx] at hsx; simp at hsx
          · rw [setChan_ne (fun h => hr' h.2)] at hy
            exact hno r' y hy
        · rw [setChan_ne (fun h => hc h.2)] at hl
          have hx : x ∈ s.chan q c := by rw [hl]; simp
          rw [hno c x hx] at hsx; simp at hsx
      · rw [setChan_ne (fun h => hq h.1)] at hl
        obtain ⟨h1, h2⟩ := hB.one q c l1 x l2 hl hsx
        exact ⟨h1, fun r' hr' y hy => h2 r' hr' y (by rwa [setChan_ne (fun h => hq h.1)] at hy)⟩
  | @recv r q src tag k pre post m hact hblk hsrc htag hch hpre =>
    have hsub : ∀ a c x, x ∈ setChan s.chan q r (pre ++ post) a c → x ∈ s.chan a c := fun a c x hx => by
      by_cases hc : a = q ∧ c = r
      · obtain ⟨rfl, rfl⟩ := hc
        rw [setChan_same] at hx
        rw [hch]
        rw [List.mem_append] at hx
        rcases hx with h | h <;> simp [h]
      · rwa [setChan_ne hc] at hx
    refine ⟨fun a c x hx hsx => ?_, fun a c l1 x l2 hl hsx => ?_⟩
    · have hx' := hsub a c x hx
      have hb := hB.blk a c x hx' hsx
      show (if m.sync then update s.blk q false else s.blk) a = true
      by_cases hm : m.sync = true
      · rw [if_pos hm]
        by_cases ha : a = q
        · subst ha
          exfalso
          obtain ⟨h1, h2⟩ := hB.one a r pre m post hch hm
          replace hx : x ∈ setChan s.chan a r (pre ++ post) a c := hx
          by_cases hc : c = r
          · subst hc
            rw [setChan_same] at hx
            rw [h1 x hx] at hsx; simp at hsx
          · rw [h2 c hc x hx'] at hsx; simp at hsx
        · rw [update_of_ne ha]; exact hb
      · rw [if_neg hm]; exact hb
    · replace hl : setChan s.chan q r (pre ++ post) a c = _ := hl
      show _ ∧ ∀ r', r' ≠ c → ∀ y ∈ setChan s.chan q r (pre ++ post) a r', _
      by_cases hc : a = q ∧ c = r
      · obtain ⟨rfl, rfl⟩ := hc
        rw [setChan_same] at hl
        have hx : x ∈ pre ++ post := by rw [hl]; simp
        rw [List.mem_append] at hx
        have key : ∃ p1 p2, s.chan a c = p1 ++ x :: p2 ∧ ∀ y ∈ l1 ++ l2, y ∈ p1 ++ p2 := by
          rcases List.append_eq_append_iff.mp hl with ⟨w, hw1, hw2⟩ | ⟨w, hw1, hw2⟩
          · -- pre is a prefix of l1
            refine ⟨pre ++ m :: w, l2, by rw [hch, hw2]; simp, fun y hy => ?_⟩
            rw [hw1] at hy
            simp only [List.mem_append, List.mem_cons] at hy ⊢
            tauto
          · -- l1 is a prefix of pre
            cases w with
            | nil =>
              simp only [List.nil_append] at hw2
              simp only [List.append_nil] at hw1
              refine ⟨pre ++ [m], l2, by rw [hch, ← hw2]; simp, fun y hy => ?_⟩
              rw [← hw1] at hy
              simp only [List.mem_append, List.mem_cons] at hy ⊢
              tauto
            | cons w0 w =>
              simp only [List.cons_append, List.cons.injEq] at hw2
              obtain ⟨rfl, rfl⟩ := hw2
              refine ⟨l1, w ++ m :: post, by rw [hch, hw1]; simp, fun y hy => ?_⟩
              simp only [List.mem_append, List.mem_cons] at hy ⊢
              tauto
        obtain ⟨p1, p2, hp, hmem⟩ := key
        obtain ⟨h1, h2⟩ := hB.one a c p1 x p2 hp hsx
        exact ⟨fun y hy => h1 y (hmem y hy), fun r' hr' y hy => h2 r' hr' y (hsub a r' y hy)⟩
      · rw [setChan_ne hc] at hl
        obtain ⟨h1, h2⟩ := hB.one a c l1 x l2 hl hsx
        exact ⟨h1, fun r' hr' y hy => h2 r' hr' y (hsub a r' y hy)⟩

theorem Steps.blocks {n : Nat} {s s' : St S V} (h : Steps act n s s') (hB : Blocks s) : Blocks s' := by
  induction h with
  | nil => exact hB
  | snoc h hs ih => exact (ih hB).step hs

/-- What holds of all payloads that are sent holds of all messages under way. -/
theorem Steps.sent {τ : Nat → S} {ok : V → Prop} (hok : ∀ n s, Steps act n (fresh τ) s → ∀ r d t v nx, act r (s.proc r) = .send d t v nx → ok v)
    {n : Nat} {s : St S V} (h : Steps act n (fresh τ) s) : ∀ q r, ∀ x ∈ s.chan q r, ok x.val := by
  generalize hs0 : (fresh τ : St S V) = s0 at h
  induction h with
  | nil => subst hs0; intro q r x hx; simp [fresh] at hx
  | @snoc n s s' s'' h hs ih =>
    subst hs0
    have ih := ih rfl
    cases hs with
    | @send r d t v nx b hact hblk =>
      intro q c x hx
      replace hx : x ∈ setChan s'.chan r d _ q c := hx
      by_cases hc : q = r ∧ c = d
      · obtain ⟨rfl, rfl⟩ := hc
        rw [setChan_same, List.mem_append, List.mem_singleton] at hx
        rcases hx with hx | rfl
        · exact ih _ _ x hx
        · exact hok _ _ h _ _ _ _ _ hact
      · rw [setChan_ne hc] at hx
        exact ih _ _ x hx
    | @recv r q src tag k pre post m hact hblk hsrc htag hch hpre =>
      intro a c x hx
      replace hx : x ∈ setChan s'.chan q r (pre ++ post) a c := hx
      by_cases hc : a = q ∧ c = r
      · obtain ⟨rfl, rfl⟩ := hc
        rw [setChan_same] at hx
        refine ih a c x ?_
        rw [hch]
        rw [List.mem_append] at hx
        rcases hx with h | h <;> simp [h]
      · rw [setChan_ne hc] at hx
        exact ih _ _ x hx

theorem Steps.trans {n m : Nat} {s s' s'' : St S V} (h : Steps act n s s') (h' : Steps act m s' s'') : Steps act (n + m) s s'' := by
  induction h' with
  | nil => exact h
  | snoc _ hs ih => exact .snoc (ih h) hs

end general

/-! ### Phases -/

/-- How a phase with its own local states and payloads is part of the program: `e r b` is the state of rank `r` in the program
when it is in state `b` of the phase, `ι` and `θ` say how payloads and tags appear there. -/
structure Emb0 (SB VB S V : Type) where
  e : Nat → SB → S
  ι : VB → V
  θ : Nat → Nat
  θ' : Nat → Nat
  θ_inv : ∀ t, θ' (θ t) = t

/-- The same where payloads can be read back. -/
structure Emb (SB VB S V : Type) extends Emb0 SB VB S V where
  un : V → Option VB
  bad : S
  un_ι : ∀ v, un (ι v) = some v

/-- A call of the phase as a call of the program. -/
def Emb.lift (E : Emb SB VB S V) (r : Nat) : Act SB VB → Act S V
  | .stop => .stop
  | .send d t v n => .send d (E.θ t) (E.ι v) (E.e r n)
  | .recv src tag k => .recv src (tag.map E.θ) fun q t v =>
      match E.un v with
      | some x => E.e r (k q (E.θ' t) x)
      | none => E.bad

namespace Emb0
variable (E : Emb0 SB VB S V)

/-- The call `a` of the program is the call of the phase; after a receive the program only has to be right for payloads that are sent (`ok`). -/
def Agrees (ok : VB → Prop) (r : Nat) (a : Act S V) : Act SB VB → Prop
  | .stop => a = .stop
  | .send d t v n => a = .send d (E.θ t) (E.ι v) (E.e r n)
  | .recv src tag k => ∃ k', a = .recv src (tag.map E.θ) k' ∧ ∀ q t v, ok v → k' q (E.θ t) (E.ι v) = E.e r (k q t v)

def msg (m : Msg VB) : Msg V := ⟨E.θ m.tag, E.ι m.val, m.sync⟩

theorem fits_iff (tag : Option Nat) (t : Nat) : fits (tag.map E.θ) (E.θ t) ↔ fits tag t := by
  cases tag with
  | none => simp [fits]
  | some a =>
    simp only [fits, Option.map_some, reduceCtorEq, Option.some.injEq, false_or]
    exact ⟨fun h => by rw [← E.θ_inv a, h, E.θ_inv], fun h => by rw [h]⟩

end Emb0

/-- Rank `r` has finished the phase. -/
def Over' (actB : Nat → SB → Act SB VB) (s : St SB VB) (r : Nat) : Prop := actB r (s.proc r) = .stop ∧ s.blk r = false

/-- The state `s` of the program while some ranks are in the phase (state `sB`) and others beyond it: `sR` is the state of what follows
if the phase ends in `β`. -/
structure PRel (G : Prop) (E : Emb0 SB VB S V) (actB : Nat → SB → Act SB VB) (s : St S V) (sB β : St SB VB) (sR : St S V) : Prop where
  over : ∀ r, Over' actB sB r → s.proc r = sR.proc r
  busy : ∀ r, ¬ Over' actB sB r → s.proc r = E.e r (sB.proc r) ∧ sR.proc r = E.e r (β.proc r) ∧ (∀ d, sR.chan r d = []) ∧ sR.blk r = false
  chan : ∀ q r, s.chan q r = (sB.chan q r).map E.msg ++ sR.chan q r
  blk : ∀ r, s.blk r = (sB.blk r || sR.blk r)
  gate : G → ¬ Over' actB sB 0 → sR = fresh fun r => E.e r (β.proc r)

section phase
variable {G : Prop} {E : Emb0 SB VB S V} {actB : Nat → SB → Act SB VB} {act : Nat → S → Act S V} {τ : Nat → SB} {B B' : Nat}
  {QB : (Nat → SB) → Prop} {Q : (Nat → S) → Prop} {ok : VB → Prop}

/-- The state of the program is explained by a state of the phase and, for every way in which the phase may end, a state of
what follows. -/
def PInv (G : Prop) (E : Emb0 SB VB S V) (actB : Nat → SB → Act SB VB) (act : Nat → S → Act S V) (τ : Nat → SB) (n : Nat) (s : St S V) : Prop :=
  ∃ nB sB, Steps actB nB (fresh τ) sB ∧ ∀ kB β, Steps actB kB sB β → Stuck actB β →
    ∃ nR sR, nB + nR = n ∧ Steps act nR (fresh fun r => E.e r (β.proc r)) sR ∧ PRel G E actB s sB β sR

/-- After a step of the phase a rank that has finished is where what follows begins. -/
theorem PRel.next {s s' : St S V} {sB sB' β : St SB VB} {sR : St S V} (h : PRel G E actB s sB β sR)
    {k : Nat} (hβ : Steps actB k sB' β)
    (hkeep : ∀ r, Over' actB sB r → Over' actB sB' r ∧ s'.proc r = s.proc r)
    (hbusy : ∀ r, ¬ Over' actB sB r → s'.proc r = E.e r (sB'.proc r))
    (hchan : ∀ q r, s'.chan q r = (sB'.chan q r).map E.msg ++ sR.chan q r)
    (hblk : ∀ r, s'.blk r = (sB'.blk r || sR.blk r)) : PRel G E actB s' sB' β sR where
  over r hr := by
    by_cases ho : Over' actB sB r
    · rw [(hkeep r ho).2]; exact h.over r ho
    · rw [hbusy r ho, (h.busy r ho).2.1, hβ.stays hr.1]
  busy r hr := by
    have ho : ¬ Over' actB sB r := fun ho => hr (hkeep r ho).1
    exact ⟨hbusy r ho, (h.busy r ho).2⟩
  chan := hchan
  blk := hblk
  gate hG h0 := h.gate hG fun ho => h0 (hkeep 0 ho).1

theorem pinv_step
    (hB : Ends actB (fresh τ) B QB)
    (hok : ∀ n s, Steps actB n (fresh τ) s → ∀ r d t v nx, actB r (s.proc r) = .send d t v nx → ok v)
    (hlift : ∀ n s, Steps actB n (fresh τ) s → ∀ r, actB r (s.proc r) ≠ .stop → E.Agrees ok r (act r (E.e r (s.proc r))) (actB r (s.proc r)))
    (hrecv : ∀ n s, Steps actB n (fresh τ) s → ∀ r src tag k, actB r (s.proc r) = .recv src tag k → (∃ q, src = some q) ∨ (r = 0 ∧ G))
    (hgate : G → ∀ β, QB β → ∀ r, r ≠ 0 → act r (E.e r (β r)) = .stop ∨ ∃ tag k, act r (E.e r (β r)) = .recv (some 0) tag k)
    {n : Nat} {s s' : St S V} (h : PInv G E actB act τ n s) (hs : Step act s s') : PInv G E actB act τ (n + 1) s' := by
  obtain ⟨nB, sB, hsB, hall⟩ := h
  have hoks := hsB.sent hok
  -- some end of the phase
  obtain ⟨k0, β0, hβ0, hst0⟩ := exists_stuck (act := actB) (s0 := sB) B fun k t ht => by
    have := hB.bound _ _ (hsB.trans ht); omega
  obtain ⟨nR0, sR0, -, hsR0, hrel0⟩ := hall k0 β0 hβ0 hst0
  obtain ⟨hfin0, hQ0⟩ := hB.good _ _ (hsB.trans hβ0) hst0
  have hblocks : Blocks sB := hsB.blocks (Blocks.fresh τ)
  -- channels to a rank that has finished are empty
  have hempty : ∀ r, Over' actB sB r → ∀ q, sB.chan q r = [] := fun r hr q => by
    obtain ⟨l, hl⟩ := hβ0.grows hr.1 q
    rw [hfin0.2.2 q r] at hl
    exact (List.append_eq_nil_iff.mp hl.symm).1
  -- who moves?
  have hcase : ∀ r, s.blk r = false → (∃ a, act r (s.proc r) = a ∧ a ≠ .stop) → Over' actB sB r ∨ (actB r (sB.proc r) ≠ .stop ∧ ¬ Over' actB sB r) := fun r hb _ => by
    by_cases ho : Over' actB sB r
    · exact Or.inl ho
    · refine Or.inr ⟨fun hstop => ho ⟨hstop, ?_⟩, ho⟩
      have := hrel0.blk r
      rw [hb] at this
      simpa using (Bool.or_eq_false_iff.mp this.symm).1
  cases hs with
  | @send r d t v nx b hact hblk =>
    have hbl := hrel0.blk r
    rw [hblk] at hbl
    obtain ⟨hbB, -⟩ := Bool.or_eq_false_iff.mp hbl.symm
    rcases hcase r hblk ⟨_, rfl, by rw [hact]; simp⟩ with ho | ⟨hns, ho⟩
    · -- a step beyond the phase
      have h0 : G → Over' actB sB 0 := by
        intro hG
        by_contra h0
        have hr0 : r ≠ 0 := fun e => h0 (e ▸ ho)
        have hg := hrel0.gate hG h0
        rw [hrel0.over r ho, hg] at hact
        rcases hgate hG _ hQ0 r hr0 with h | ⟨tg, k, h⟩
        · rw [show (fresh fun r => E.e r (β0.proc r) : St S V).proc r = E.e r (β0.proc r) from rfl, h] at hact; cases hact
        · rw [show (fresh fun r => E.e r (β0.proc r) : St S V).proc r = E.e r (β0.proc r) from rfl, h] at hact; cases hact
      refine ⟨nB, sB, hsB, fun kB β hβ hst => ?_⟩
      obtain ⟨nR, sR, hn, hsR, hrel⟩ := hall kB β hβ hst
      have hbR : sR.blk r = false := by
        have := hrel.blk r
        rw [hblk] at this
        exact (Bool.or_eq_false_iff.mp this.symm).2
      rw [hrel.over r ho] at hact
      refine ⟨nR + 1, _, by omega, .snoc hsR (Step.send b hact hbR), ?_⟩
      refine ⟨fun p hp => ?_, fun p hp => ?_, fun p q => ?_, fun p => ?_, fun hG h => absurd (h0 hG) h⟩
      · by_cases hpr : p = r
        · subst hpr; simp
        · simp only [update_of_ne hpr]; exact hrel.over p hp
      · have hpr : p ≠ r := fun e => hp (e ▸ ho)
        obtain ⟨a1, a2, a3, a4⟩ := hrel.busy p hp
        refine ⟨by simp only [update_of_ne hpr]; exact a1, by simp only [update_of_ne hpr]; exact a2, fun d' => ?_, by simp only [update_of_ne hpr]; exact a4⟩
        simp only [setChan_ne (fun hc : p = r ∧ d' = d => hpr hc.1)]; exact a3 d'
      · show setChan s.chan r d _ p q = _ ++ setChan sR.chan r d _ p q
        by_cases hc : p = r ∧ q = d
        · obtain ⟨rfl, rfl⟩ := hc
          rw [setChan_same, setChan_same, hrel.chan, List.append_assoc]
        · rw [setChan_ne hc, setChan_ne hc]; exact hrel.chan p q
      · show update s.blk r b p = (sB.blk p || update sR.blk r b p)
        by_cases hpr : p = r
        · subst hpr; simp [hbB]
        · rw [update_of_ne hpr, update_of_ne hpr]; exact hrel.blk p
    · -- a step of the phase
      rw [(hrel0.busy r ho).1] at hact
      have hag := hlift _ _ hsB r hns
      cases hab : actB r (sB.proc r) with
      | stop => exact absurd hab hns
      | recv src tag k =>
        rw [hab] at hag
        obtain ⟨k', hk', -⟩ := hag
        rw [hk'] at hact; cases hact
      | send dB tB vB nxB =>
        rw [hab] at hag
        rw [show _ = _ from hag] at hact
        simp only [Act.send.injEq] at hact
        obtain ⟨rfl, rfl, rfl, rfl⟩ := hact
        have hstep : Step actB sB _ := Step.send b hab hbB
        refine ⟨nB + 1, _, .snoc hsB hstep, fun kB β hβ hst => ?_⟩
        obtain ⟨nR, sR, hn, hsR, hrel⟩ := hall (1 + kB) β ((Steps.snoc .nil hstep).trans hβ) hst
        refine ⟨nR, sR, by omega, hsR, hrel.next hβ (fun p hp => ?_) (fun p hp => ?_) (fun p q => ?_) (fun p => ?_)⟩
        · have hpr : p ≠ r := fun e => ho (e ▸ hp)
          exact ⟨⟨by simp only [update_of_ne hpr]; exact hp.1, by simp only [update_of_ne hpr]; exact hp.2⟩, by simp only [update_of_ne hpr]⟩
        · by_cases hpr : p = r
          · subst hpr; simp
          · simp only [update_of_ne hpr]; exact (hrel.busy p hp).1
        · show setChan s.chan r dB _ p q = (setChan sB.chan r dB _ p q).map E.msg ++ sR.chan p q
          by_cases hc : p = r ∧ q = dB
          · obtain ⟨rfl, rfl⟩ := hc
            rw [setChan_same, setChan_same, hrel.chan, (hrel.busy p ho).2.2.1 q]
            simp [Emb0.msg]
          · rw [setChan_ne hc, setChan_ne hc]; exact hrel.chan p q
        · show update s.blk r b p = (update sB.blk r b p || sR.blk p)
          by_cases hpr : p = r
          · subst hpr; simp [(hrel.busy p ho).2.2.2]
          · rw [update_of_ne hpr, update_of_ne hpr]; exact hrel.blk p
  | @recv r q src tag k pre post m hact hblk hsrc htag hch hpre =>
    have hbl := hrel0.blk r
    rw [hblk] at hbl
    obtain ⟨hbB, -⟩ := Bool.or_eq_false_iff.mp hbl.symm
    rcases hcase r hblk ⟨_, rfl, by rw [hact]; simp⟩ with ho | ⟨hns, ho⟩
    · -- a step beyond the phase
      have h0 : G → Over' actB sB 0 := by
        intro hG
        by_contra h0
        have hg := hrel0.gate hG h0
        have := hrel0.chan q r
        rw [hempty r ho q, hg, hch] at this
        simp [fresh] at this
      refine ⟨nB, sB, hsB, fun kB β hβ hst => ?_⟩
      obtain ⟨nR, sR, hn, hsR, hrel⟩ := hall kB β hβ hst
      have hbR : sR.blk r = false := by
        have := hrel.blk r
        rw [hblk] at this
        exact (Bool.or_eq_false_iff.mp this.symm).2
      rw [hrel.over r ho] at hact
      have hchR : sR.chan q r = pre ++ m :: post := by
        have := hrel.chan q r
        rw [hempty r ho q, hch] at this
        simpa using this.symm
      have hqo : Over' actB sB q := by
        by_contra hq
        rw [(hrel.busy q hq).2.2.1 r] at hchR
        simp at hchR
      refine ⟨nR + 1, _, by omega, .snoc hsR (Step.recv hact hbR hsrc htag hchR hpre), ?_⟩
      refine ⟨fun p hp => ?_, fun p hp => ?_, fun p p' => ?_, fun p => ?_, fun hG h => absurd (h0 hG) h⟩
      · by_cases hpr : p = r
        · subst hpr; simp
        · simp only [update_of_ne hpr]; exact hrel.over p hp
      · have hpr : p ≠ r := fun e => hp (e ▸ ho)
        have hpq : p ≠ q := fun e => hp (e ▸ hqo)
        obtain ⟨a1, a2, a3, a4⟩ := hrel.busy p hp
        refine ⟨by simp only [update_of_ne hpr]; exact a1, by simp only [update_of_ne hpr]; exact a2, fun d' => ?_, ?_⟩
        · simp only [setChan_ne (fun hc : p = q ∧ d' = r => hpq hc.1)]; exact a3 d'
        · show (if m.sync then update sR.blk q false else sR.blk) p = false
          split
          · rw [update_of_ne hpq]; exact a4
          · exact a4
      · show setChan s.chan q r _ p p' = _ ++ setChan sR.chan q r _ p p'
        by_cases hc : p = q ∧ p' = r
        · obtain ⟨rfl, rfl⟩ := hc
          rw [setChan_same, setChan_same, hempty p' ho p]
          rfl
        · rw [setChan_ne hc, setChan_ne hc]; exact hrel.chan p p'
      · show (if m.sync then update s.blk q false else s.blk) p = (sB.blk p || (if m.sync then update sR.blk q false else sR.blk) p)
        split
        · by_cases hpq : p = q
          · subst hpq; simp [hqo.2]
          · rw [update_of_ne hpq, update_of_ne hpq]; exact hrel.blk p
        · exact hrel.blk p
    · -- a step of the phase
      rw [(hrel0.busy r ho).1] at hact
      have hag := hlift _ _ hsB r hns
      cases hab : actB r (sB.proc r) with
      | stop => exact absurd hab hns
      | send dB tB vB nxB =>
        rw [hab] at hag
        rw [show _ = _ from hag] at hact; cases hact
      | recv srcB tagB kB =>
        rw [hab] at hag
        obtain ⟨k', hk', hagr⟩ := hag
        rw [hk'] at hact
        simp only [Act.recv.injEq] at hact
        obtain ⟨rfl, rfl, rfl⟩ := hact
        -- the message belongs to the phase
        have hsplit : ∃ preB mB postB, sB.chan q r = preB ++ mB :: postB ∧ (∀ x ∈ preB, ¬ fits tagB x.tag) ∧ fits tagB mB.tag ∧
            m = E.msg mB ∧ pre = preB.map E.msg ∧ ∀ sR : St S V, s.chan q r = (sB.chan q r).map E.msg ++ sR.chan q r → post = postB.map E.msg ++ sR.chan q r := by
          have hexm : ∃ x ∈ sB.chan q r, fits tagB x.tag := by
            by_contra hno
            push Not at hno
            have hin : sR0.chan q r = [] → False := fun hnil => by
              have hc := hrel0.chan q r
              rw [hnil, hch] at hc
              have hm : m ∈ (sB.chan q r).map E.msg := by
                have : m ∈ pre ++ m :: post := by simp
                rw [hc] at this
                simpa using this
              obtain ⟨x, hx, rfl⟩ := List.mem_map.mp hm
              exact hno x hx ((E.fits_iff tagB x.tag).mp htag)
            rcases hrecv _ _ hsB r _ _ _ hab with ⟨q', rfl⟩ | ⟨rfl, hG⟩
            · have hqq : q' = q := by
                rcases hsrc with h | h
                · simp at h
                · simpa using h
              subst hqq
              by_cases hqo : Over' actB sB q'
              · obtain ⟨e1, -⟩ := hβ0.waits hab hqo.1 hno
                have := hfin0.1 r
                rw [e1, hab] at this
                cases this
              · exact hin ((hrel0.busy q' hqo).2.2.1 r)
            · exact hin (by rw [hrel0.gate hG ho]; rfl)
          classical
          obtain ⟨preB, mB, postB, hB1, hB2, hB3⟩ : ∃ preB mB postB, sB.chan q r = preB ++ mB :: postB ∧ (∀ x ∈ preB, ¬ fits tagB x.tag) ∧ fits tagB mB.tag := by
            generalize sB.chan q r = l at hexm
            induction l with
            | nil => obtain ⟨x, hx, -⟩ := hexm; simp at hx
            | cons a l ih =>
              by_cases ha : fits tagB a.tag
              · exact ⟨[], a, l, rfl, by simp, ha⟩
              · obtain ⟨x, hx, hf⟩ := hexm
                rw [List.mem_cons] at hx
                rcases hx with rfl | hx
                · exact absurd hf ha
                · obtain ⟨p1, m1, p2, e1, e2, e3⟩ := ih ⟨x, hx, hf⟩
                  refine ⟨a :: p1, m1, p2, by rw [e1]; rfl, fun y hy => ?_, e3⟩
                  rw [List.mem_cons] at hy
                  rcases hy with rfl | hy
                  · exact ha
                  · exact e2 y hy
          -- the first message that fits is unique
          have huniq : ∀ (rest : List (Msg V)), pre ++ m :: post = (preB ++ mB :: postB).map E.msg ++ rest →
              pre = preB.map E.msg ∧ m = E.msg mB ∧ post = postB.map E.msg ++ rest := by
            intro rest heq
            have heq' : pre ++ m :: post = preB.map E.msg ++ E.msg mB :: (postB.map E.msg ++ rest) := by rw [heq]; simp
            have hpreB : ∀ x ∈ preB.map E.msg, ¬ fits (tagB.map E.θ) x.tag := fun x hx => by
              obtain ⟨y, hy, rfl⟩ := List.mem_map.mp hx
              exact fun hf => hB2 y hy ((E.fits_iff tagB y.tag).mp hf)
            have hmB : fits (tagB.map E.θ) (E.msg mB).tag := (E.fits_iff tagB mB.tag).mpr hB3
            rcases List.append_eq_append_iff.mp heq' with ⟨w, hw1, hw2⟩ | ⟨w, hw1, hw2⟩
            · cases w with
              | nil =>
                simp only [List.nil_append, List.cons.injEq] at hw2
                simp only [List.append_nil] at hw1
                exact ⟨hw1.symm, hw2.1, hw2.2⟩
              | cons w0 w =>
                simp only [List.cons_append, List.cons.injEq] at hw2
                exact absurd (hw2.1 ▸ htag) (hpreB w0 (by rw [hw1]; simp))
            · cases w with
              | nil =>
                simp only [List.nil_append, List.cons.injEq] at hw2
                simp only [List.append_nil] at hw1
                exact ⟨hw1, hw2.1.symm, hw2.2.symm⟩
              | cons w0 w =>
                simp only [List.cons_append, List.cons.injEq] at hw2
                exact absurd (hw2.1 ▸ hmB) (hpre w0 (by rw [hw1]; simp))
          refine ⟨preB, mB, postB, hB1, hB2, hB3, ?_, ?_, fun sR hc => ?_⟩
          · have := hrel0.chan q r
            rw [hch, hB1] at this
            exact (huniq _ this).2.1
          · have := hrel0.chan q r
            rw [hch, hB1] at this
            exact (huniq _ this).1
          · rw [hch, hB1] at hc
            exact (huniq _ hc).2.2
        obtain ⟨preB, mB, postB, hB1, hB2, hB3, rfl, rfl, hpost⟩ := hsplit
        have hstep : Step actB sB _ := Step.recv hab hbB hsrc hB3 hB1 hB2
        refine ⟨nB + 1, _, .snoc hsB hstep, fun kB' β hβ hst => ?_⟩
        obtain ⟨nR, sR, hn, hsR, hrel⟩ := hall (1 + kB') β ((Steps.snoc .nil hstep).trans hβ) hst
        have hpost' := hpost sR (hrel.chan q r)
        have hqb : mB.sync = true → ¬ Over' actB sB q := fun hm hov => by
          have := hblocks.blk q r mB (by rw [hB1]; simp) hm
          rw [hov.2] at this; simp at this
        refine ⟨nR, sR, by omega, hsR, hrel.next hβ (fun p hp => ?_) (fun p hp => ?_) (fun p p' => ?_) (fun p => ?_)⟩
        · have hpr : p ≠ r := fun e => ho (e ▸ hp)
          refine ⟨⟨by simp only [update_of_ne hpr]; exact hp.1, ?_⟩, by simp only [update_of_ne hpr]⟩
          show (if mB.sync then update sB.blk q false else sB.blk) p = false
          split
          · by_cases hpq : p = q
            · subst hpq; simp
            · rw [update_of_ne hpq]; exact hp.2
          · exact hp.2
        · by_cases hpr : p = r
          · subst hpr
            simp only [update_self, Emb0.msg]
            exact hagr _ _ _ (hoks q p mB (by rw [hB1]; simp))
          · simp only [update_of_ne hpr]; exact (hrel.busy p hp).1
        · show setChan s.chan q r _ p p' = (setChan sB.chan q r _ p p').map E.msg ++ sR.chan p p'
          by_cases hc : p = q ∧ p' = r
          · obtain ⟨rfl, rfl⟩ := hc
            rw [setChan_same, setChan_same, hpost']
            simp
          · rw [setChan_ne hc, setChan_ne hc]; exact hrel.chan p p'
        · show (if (E.msg mB).sync then update s.blk q false else s.blk) p = ((if mB.sync then update sB.blk q false else sB.blk) p || sR.blk p)
          rw [show (E.msg mB).sync = mB.sync from rfl]
          by_cases hm : mB.sync = true
          · rw [if_pos hm, if_pos hm]
            by_cases hpq : p = q
            · subst hpq; simp [(hrel.busy p (hqb hm)).2.2.2]
            · rw [update_of_ne hpq, update_of_ne hpq]; exact hrel.blk p
          · rw [if_neg hm, if_neg hm]; exact hrel.blk p

/-- **Composition.**  `G` says whether the phase uses receives from any source. -/
theorem phase'
    (hB : Ends actB (fresh τ) B QB)
    (hok : ∀ n s, Steps actB n (fresh τ) s → ∀ r d t v nx, actB r (s.proc r) = .send d t v nx → ok v)
    (hlift : ∀ n s, Steps actB n (fresh τ) s → ∀ r, actB r (s.proc r) ≠ .stop → E.Agrees ok r (act r (E.e r (s.proc r))) (actB r (s.proc r)))
    (hrecv : ∀ n s, Steps actB n (fresh τ) s → ∀ r src tag k, actB r (s.proc r) = .recv src tag k → (∃ q, src = some q) ∨ (r = 0 ∧ G))
    (hgate : G → ∀ β, QB β → ∀ r, r ≠ 0 → act r (E.e r (β r)) = .stop ∨ ∃ tag k, act r (E.e r (β r)) = .recv (some 0) tag k)
    (hrest : ∀ β, QB β → Ends act (fresh fun r => E.e r (β r)) B' Q) :
    Ends act (fresh fun r => E.e r (τ r)) (B + B') Q := by
  have hinv : ∀ n s, Steps act n (fresh fun r => E.e r (τ r)) s → PInv G E actB act τ n s := by
    intro n s h
    generalize hs0 : (fresh fun r => E.e r (τ r) : St S V) = s0 at h
    induction h with
    | nil =>
      subst hs0
      refine ⟨0, fresh τ, .nil, fun kB β hβ hst => ⟨0, _, rfl, .nil, ?_⟩⟩
      refine ⟨fun r hr => ?_, fun r _ => ⟨rfl, rfl, fun _ => rfl, rfl⟩, fun _ _ => rfl, fun _ => rfl, fun _ _ => rfl⟩
      show E.e r (τ r) = E.e r (β.proc r)
      rw [hβ.stays hr.1]
      rfl
    | snoc h hs ih => exact pinv_step hB hok hlift hrecv hgate (ih hs0) hs
  refine ⟨fun n s h => ?_, fun n s h hst => ?_⟩
  · obtain ⟨nB, sB, hsB, hall⟩ := hinv n s h
    obtain ⟨k0, β, hβ, hst0⟩ := exists_stuck (act := actB) (s0 := sB) B fun k t ht => by
      have := hB.bound _ _ (hsB.trans ht); omega
    obtain ⟨nR, sR, hn, hsR, -⟩ := hall k0 β hβ hst0
    have h1 := hB.bound _ _ hsB
    have h2 := (hrest _ (hB.good _ _ (hsB.trans hβ) hst0).2).bound _ _ hsR
    omega
  · obtain ⟨nB, sB, hsB, hall⟩ := hinv n s h
    have hstB : Stuck actB sB := by
      intro sB' hs'
      obtain ⟨k0, β, hβ, hst0⟩ := exists_stuck (act := actB) (s0 := sB) B fun k t ht => by
        have := hB.bound _ _ (hsB.trans ht); omega
      obtain ⟨nR, sR, -, -, hrel⟩ := hall k0 β hβ hst0
      cases hs' with
      | @send r d t v nx b hact hblk =>
        have ho : ¬ Over' actB sB r := fun ho => by rw [ho.1] at hact; cases hact
        refine hst _ (Step.send (r := r) b (d := d) (t := E.θ t) (v := E.ι v) (n := E.e r nx) ?_ ?_)
        · have := hlift _ _ hsB r (by rw [hact]; simp)
          rw [hact] at this
          rw [(hrel.busy r ho).1]
          exact this
        · rw [hrel.blk r, hblk, (hrel.busy r ho).2.2.2]; rfl
      | @recv r q src tag k pre post m hact hblk hsrc htag hch hpre =>
        have ho : ¬ Over' actB sB r := fun ho => by rw [ho.1] at hact; cases hact
        have hag := hlift _ _ hsB r (by rw [hact]; simp)
        rw [hact] at hag
        obtain ⟨k', hk', -⟩ := hag
        refine hst _ (Step.recv (r := r) (q := q) (src := src) (tag := tag.map E.θ) (k := k') (pre := pre.map E.msg) (post := post.map E.msg ++ sR.chan q r)
          (m := E.msg m) (by rw [(hrel.busy r ho).1, hk']) ?_ hsrc ((E.fits_iff tag m.tag).mpr htag) ?_ ?_)
        · rw [hrel.blk r, hblk, (hrel.busy r ho).2.2.2]; rfl
        · rw [hrel.chan q r, hch]; simp
        · intro x hx
          obtain ⟨y, hy, rfl⟩ := List.mem_map.mp hx
          exact fun hf => hpre y hy ((E.fits_iff tag y.tag).mp hf)
    obtain ⟨hfin, hQ⟩ := hB.good _ _ hsB hstB
    obtain ⟨nR, sR, -, hsR, hrel⟩ := hall 0 sB .nil hstB
    have hss : s = sR := by
      have h1 : s.proc = sR.proc := funext fun r => hrel.over r ⟨hfin.1 r, hfin.2.1 r⟩
      have h2 : s.chan = sR.chan := funext fun q => funext fun r => by rw [hrel.chan q r, hfin.2.2 q r]; rfl
      have h3 : s.blk = sR.blk := funext fun r => by rw [hrel.blk r, hfin.2.1 r]; rfl
      cases s; cases sR
      simp only at h1 h2 h3
      subst h1 h2 h3
      rfl
    rw [hss] at hst ⊢
    exact (hrest _ hQ).good _ _ hsR hst

/-- The composition for calls that carry over literally. -/
theorem phase {E : Emb SB VB S V}
    (hB : Ends actB (fresh τ) B QB)
    (hlift : ∀ n s, Steps actB n (fresh τ) s → ∀ r, actB r (s.proc r) ≠ .stop → act r (E.e r (s.proc r)) = E.lift r (actB r (s.proc r)))
    (hrecv : ∀ n s, Steps actB n (fresh τ) s → ∀ r src tag k, actB r (s.proc r) = .recv src tag k → (∃ q, src = some q) ∨ (r = 0 ∧ G))
    (hgate : G → ∀ β, QB β → ∀ r, r ≠ 0 → act r (E.e r (β r)) = .stop ∨ ∃ tag k, act r (E.e r (β r)) = .recv (some 0) tag k)
    (hrest : ∀ β, QB β → Ends act (fresh fun r => E.e r (β r)) B' Q) :
    Ends act (fresh fun r => E.e r (τ r)) (B + B') Q := by
  refine phase' (E := E.toEmb0) (ok := fun _ => True) hB (fun _ _ _ _ _ _ _ _ _ => trivial) (fun n s h r hns => ?_) hrecv hgate hrest
  rw [hlift n s h r hns]
  cases actB r (s.proc r) with
  | stop => rfl
  | send d t v nx => rfl
  | recv src tag k => exact ⟨_, rfl, fun q t v _ => by simp only [E.un_ι, E.θ_inv]⟩

end phase
end Verif.Mpi
