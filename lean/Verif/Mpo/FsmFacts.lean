import Verif.Mpo.Fsm
import Verif.Mpo.PassFacts
/- Closed form of the finite state machine after a history of `AddPath` (helper facts). -/
namespace Verif.Mpo
open SparMat NullElem

/-- Arguments of one `AddPath` call. -/
structure Term where
  head : Nat
  tail : Nat
  ops : List OpRepr

/-- A history of `AddPath` calls on a fresh machine. -/
def buildFsm (N : Nat) (idOps : Nat → OpRepr) (ts : List Term) : Except Err Fsm :=
  ts.foldlM (fun f t => f.addPath t.head t.tail t.ops) (Fsm.new N idOps)

/-- Calls that meet the documented precondition. -/
structure Term.Valid (N : Nat) (t : Term) : Prop where
  ht : t.head ≤ t.tail
  tN : t.tail < N
  len : t.ops.length = t.tail + 1 - t.head

/-- The path is strictly between its first and last operator at bond `b`. -/
def Term.midAt (b : Nat) (t : Term) : Bool := t.head < b && b ≤ t.tail

def statOf (ts : List Term) (k b : Nat) : Int :=
  match ts[k]? with
  | none => 0
  | some t => if b ≤ t.head then kReady else if t.tail < b then kFinal else ((ts.take (k + 1)).countP (Term.midAt b) : Nat)

def opAt (idOps : Nat → OpRepr) (t : Term) (i : Nat) : OpRepr :=
  if i < t.head ∨ t.tail < i then idOps i else t.ops.getD (i - t.head) []

/-! ### counting -/

theorem countP_take_succ {α : Type} (p : α → Bool) (l : List α) (k : Nat) (h : k < l.length) :
    (l.take (k + 1)).countP p = (l.take k).countP p + if p l[k] then 1 else 0 := by
  rw [List.take_succ_eq_append_getElem h, List.countP_append]; simp [List.countP_singleton]

theorem countP_take_mono {α : Type} (p : α → Bool) (l : List α) {j k : Nat} (h : j ≤ k) :
    (l.take j).countP p ≤ (l.take k).countP p := by
  have : l.take j = (l.take k).take j := by rw [List.take_take, Nat.min_eq_left h]
  rw [this]
  exact List.Sublist.countP_le (List.take_sublist _ _)

theorem countP_take_inj {α : Type} (p : α → Bool) (l : List α) {j k : Nat} (hj : j < l.length) (hk : k < l.length)
    (pj : p l[j] = true) (pk : p l[k] = true) (h : (l.take (j + 1)).countP p = (l.take (k + 1)).countP p) : j = k := by
  by_contra hne
  rcases Nat.lt_or_gt_of_ne hne with hlt | hlt
  · have h1 := countP_take_mono p l (show j + 1 ≤ k by omega)
    have h2 := countP_take_succ p l k hk
    rw [if_pos pk] at h2; omega
  · have h1 := countP_take_mono p l (show k + 1 ≤ j by omega)
    have h2 := countP_take_succ p l j hj
    rw [if_pos pj] at h2; omega

theorem countP_take_surj {α : Type} (p : α → Bool) (l : List α) {c : Nat} (h1 : 1 ≤ c) (h2 : c ≤ l.countP p) :
    ∃ k, ∃ hk : k < l.length, p l[k] = true ∧ (l.take (k + 1)).countP p = c := by
  have : ∀ n, n ≤ l.length → c ≤ (l.take n).countP p → ∃ k, ∃ hk : k < l.length, p l[k] = true ∧ (l.take (k + 1)).countP p = c := by
    intro n
    induction n with
    | zero => intro _ h; simp at h; omega
    | succ n ih =>
      intro hn h
      have hs := countP_take_succ p l n (by omega)
      by_cases hc : c ≤ (l.take n).countP p
      · exact ih (by omega) hc
      · by_cases hp : p l[n] = true
        · rw [if_pos hp] at hs
          exact ⟨n, by omega, hp, by omega⟩
        · rw [if_neg hp] at hs; omega
  exact this l.length (Nat.le_refl _) (by rw [List.take_length]; exact h2)

/-! ### closed form -/

theorem nodeLoop (head tail : Nat) (hht : head ≤ tail) (st0 : NodeSt) (n : Nat) :
    let st := (List.range n).foldl (nodeStep head tail) st0
    (∀ b, st.stat b = if 1 ≤ b ∧ b ≤ n then (if b ≤ head then kReady else if tail < b then kFinal else ((st0.mid b + 1 : Nat) : Int))
      else st0.stat b) ∧
    (∀ b, st.mid b = if 1 ≤ b ∧ b ≤ n ∧ head < b ∧ b ≤ tail then st0.mid b + 1 else st0.mid b) ∧
    (∀ b, st.hasR b = (st0.hasR b || (decide (1 ≤ b ∧ b ≤ n ∧ b ≤ head)))) ∧
    (∀ b, st.hasF b = (st0.hasF b || (decide (1 ≤ b ∧ b ≤ n ∧ tail < b)))) := by
  induction n with
  | zero =>
    simp only [List.range_zero, List.foldl_nil]
    refine ⟨fun b => ?_, fun b => ?_, fun b => ?_, fun b => ?_⟩
    · rw [if_neg (by omega)]
    · rw [if_neg (by omega)]
    · rw [decide_eq_false (by omega)]; simp
    · rw [decide_eq_false (by omega)]; simp
  | succ n ih =>
    simp only [List.range_succ, List.foldl_append, List.foldl_cons, List.foldl_nil] at ih ⊢
    generalize (List.range n).foldl (nodeStep head tail) st0 = st at ih ⊢
    obtain ⟨i1, i2, i3, i4⟩ := ih
    unfold nodeStep
    by_cases c1 : n < head
    · simp only [c1, if_true]
      refine ⟨fun b => ?_, fun b => ?_, fun b => ?_, fun b => ?_⟩
      · by_cases hb : b = n + 1
        · subst hb; simp [upd]; omega
        · simp only [upd, hb, if_false, i1]
          by_cases hbn : 1 ≤ b ∧ b ≤ n
          · rw [if_pos hbn, if_pos (show 1 ≤ b ∧ b ≤ n + 1 by omega)]
          · rw [if_neg hbn, if_neg (show ¬ (1 ≤ b ∧ b ≤ n + 1) by omega)]
      · rw [i2]
        by_cases hb : 1 ≤ b ∧ b ≤ n ∧ head < b ∧ b ≤ tail
        · rw [if_pos hb, if_pos (by omega)]
        · rw [if_neg hb, if_neg (by omega)]
      · by_cases hb : b = n + 1
        · subst hb; simp [upd]; omega
        · simp only [upd, hb, if_false, i3]
          congr 1; apply decide_eq_decide.2; omega
      · rw [i4]; congr 1; apply decide_eq_decide.2; omega
    · by_cases c2 : tail ≤ n
      · simp only [c1, c2, if_true, if_false]
        refine ⟨fun b => ?_, fun b => ?_, fun b => ?_, fun b => ?_⟩
        · by_cases hb : b = n + 1
          · subst hb; simp only [upd, if_true]
            rw [if_pos (by omega), if_neg (by omega), if_pos (by omega)]
          · simp only [upd, hb, if_false, i1]
            by_cases hbn : 1 ≤ b ∧ b ≤ n
            · rw [if_pos hbn, if_pos (show 1 ≤ b ∧ b ≤ n + 1 by omega)]
            · rw [if_neg hbn, if_neg (show ¬ (1 ≤ b ∧ b ≤ n + 1) by omega)]
        · rw [i2]
          by_cases hb : 1 ≤ b ∧ b ≤ n ∧ head < b ∧ b ≤ tail
          · rw [if_pos hb, if_pos (by omega)]
          · rw [if_neg hb, if_neg (by omega)]
        · rw [i3]; congr 1; apply decide_eq_decide.2; omega
        · by_cases hb : b = n + 1
          · subst hb; simp [upd]; omega
          · simp only [upd, hb, if_false, i4]
            congr 1; apply decide_eq_decide.2; omega
      · simp only [c1, c2, if_false]
        have hm : st.mid (n + 1) = st0.mid (n + 1) := by rw [i2, if_neg (by omega)]
        refine ⟨fun b => ?_, fun b => ?_, fun b => ?_, fun b => ?_⟩
        · by_cases hb : b = n + 1
          · subst hb; simp only [upd, if_true]
            rw [if_pos (by omega), if_neg (by omega), if_neg (by omega), hm]
          · simp only [upd, hb, if_false, i1]
            by_cases hbn : 1 ≤ b ∧ b ≤ n
            · rw [if_pos hbn, if_pos (show 1 ≤ b ∧ b ≤ n + 1 by omega)]
            · rw [if_neg hbn, if_neg (show ¬ (1 ≤ b ∧ b ≤ n + 1) by omega)]
        · by_cases hb : b = n + 1
          · subst hb; simp only [upd, if_true]; rw [hm, if_pos (by omega)]
          · simp only [upd, hb, if_false, i2]
            by_cases hbn : 1 ≤ b ∧ b ≤ n ∧ head < b ∧ b ≤ tail
            · rw [if_pos hbn, if_pos (by omega)]
            · rw [if_neg hbn, if_neg (by omega)]
        · rw [i3]; congr 1; apply decide_eq_decide.2; omega
        · rw [i4]; congr 1; apply decide_eq_decide.2; omega

/-- The machine after the history `ts`. -/
structure FsmRep (N : Nat) (idOps : Nat → OpRepr) (f : Fsm) (ts : List Term) : Prop where
  hN : f.N = N
  hid : f.idOps = idOps
  mid : ∀ b, b ≤ N → f.mid b = ts.countP (Term.midAt b)
  hasR : ∀ b, b ≤ N → f.hasR b = ts.any (fun t => decide (b ≤ t.head))
  hasF : ∀ b, b ≤ N → f.hasF b = ts.any (fun t => decide (t.tail < b))
  plen : f.paths.length = ts.length
  stat : ∀ (k : Nat) (p : FPath), f.paths[k]? = some p → ∀ b, b ≤ N → p.stat b = statOf ts k b
  op : ∀ (k : Nat) (p : FPath) (t : Term), f.paths[k]? = some p → ts[k]? = some t → p.op = opAt idOps t

theorem fsmRep_new (N : Nat) (idOps : Nat → OpRepr) : FsmRep N idOps (Fsm.new N idOps) [] := by
  refine ⟨rfl, rfl, ?_, ?_, ?_, rfl, ?_, ?_⟩ <;> simp [Fsm.new]

theorem statOf_append {ts : List Term} {t : Term} {k b : Nat} (hk : k < ts.length) :
    statOf (ts ++ [t]) k b = statOf ts k b := by
  unfold statOf
  rw [List.getElem?_append_left hk, List.take_append_of_le_length (by omega)]

theorem fsmRep_addPath {N : Nat} {idOps : Nat → OpRepr} {f : Fsm} {ts : List Term} (h : FsmRep N idOps f ts) {t : Term}
    (ht : t.Valid N) : ∃ f', f.addPath t.head t.tail t.ops = .ok f' ∧ FsmRep N idOps f' (ts ++ [t]) := by
  unfold Fsm.addPath
  have hl : ¬ (t.head + t.ops.length ≠ t.tail + 1) := by
    have := ht.len; have := ht.ht; omega
  rw [if_neg hl]
  refine ⟨_, rfl, ?_⟩
  rw [h.hN]
  obtain ⟨i1, i2, i3, i4⟩ := nodeLoop t.head t.tail ht.ht ⟨fun _ => kReady, f.mid, upd f.hasR 0 true, f.hasF⟩ N
  refine ⟨rfl, h.hid, ?_, ?_, ?_, ?_, ?_, ?_⟩
  · intro b hb
    simp only [i2, List.countP_append, h.mid b hb]
    have : [t].countP (Term.midAt b) = if t.head < b ∧ b ≤ t.tail then 1 else 0 := by
      simp [List.countP_singleton, Term.midAt]
    rw [this]
    by_cases hc : t.head < b ∧ b ≤ t.tail
    · rw [if_pos hc, if_pos (by omega)]
    · rw [if_neg hc, if_neg (by omega)]; simp
  · intro b hb
    simp only [i3, List.any_append, List.any_cons, List.any_nil, Bool.or_false]
    by_cases h0 : b = 0
    · subst h0; simp [upd]
    · simp only [upd, h0, if_false, h.hasR b hb]
      congr 1; apply decide_eq_decide.2; omega
  · intro b hb
    simp only [i4, List.any_append, List.any_cons, List.any_nil, Bool.or_false, h.hasF b hb]
    congr 1; apply decide_eq_decide.2; omega
  · simp [h.plen]
  · intro k p hp b hb
    by_cases hk : k < ts.length
    · rw [statOf_append hk]
      refine h.stat k p ?_ b hb
      rw [← hp, List.getElem?_append_left (by rw [h.plen]; exact hk)]
    · have hk' : k = ts.length := by
        refine Classical.byContradiction fun hcon => ?_
        rw [List.getElem?_eq_none (by simp only [List.length_append, List.length_cons, List.length_nil, h.plen]; omega)] at hp
        cases hp
      subst hk'
      rw [List.getElem?_append_right (by rw [h.plen]), h.plen] at hp
      simp at hp
      rw [← hp]
      simp only [i1]
      unfold statOf
      rw [List.getElem?_append_right (Nat.le_refl _)]
      simp only [Nat.sub_self, List.getElem?_cons_zero]
      by_cases h0 : b = 0
      · subst h0; simp
      · rw [if_pos (by omega)]
        by_cases c1 : b ≤ t.head
        · rw [if_pos c1, if_pos c1]
        · rw [if_neg c1, if_neg c1]
          by_cases c2 : t.tail < b
          · rw [if_pos c2, if_pos c2]
          · rw [if_neg c2, if_neg c2]
            rw [List.take_of_length_le (by simp), List.countP_append, ← h.mid b hb]
            have : [t].countP (Term.midAt b) = 1 := by
              rw [List.countP_singleton, if_pos]; simp [Term.midAt]; omega
            rw [this]
  · intro k p t' hp ht'
    by_cases hk : k < ts.length
    · rw [List.getElem?_append_left hk] at ht'
      rw [List.getElem?_append_left (by rw [h.plen]; exact hk)] at hp
      exact h.op k p t' hp ht'
    · have hk' : k = ts.length := by
        have : k < (ts ++ [t]).length := by
          refine Nat.lt_of_not_le fun hcon => ?_
          rw [List.getElem?_eq_none hcon] at ht'; cases ht'
        simp at this; omega
      subst hk'
      rw [List.getElem?_append_right (by rw [h.plen]), h.plen] at hp
      rw [List.getElem?_append_right (Nat.le_refl _)] at ht'
      simp at hp ht'
      subst ht'
      rw [← hp]
      funext i
      simp only [opAt, h.hid, List.getD_eq_getElem?_getD]

theorem buildFsm_spec (N : Nat) (idOps : Nat → OpRepr) (ts : List Term) (h : ∀ t ∈ ts, t.Valid N) :
    ∃ f, buildFsm N idOps ts = .ok f ∧ FsmRep N idOps f ts := by
  unfold buildFsm
  have : ∀ (ts pre : List Term) (f : Fsm), FsmRep N idOps f pre → (∀ t ∈ ts, t.Valid N) →
      ∃ f', ts.foldlM (fun f t => f.addPath t.head t.tail t.ops) f = .ok f' ∧ FsmRep N idOps f' (pre ++ ts) := by
    intro ts
    induction ts with
    | nil => intro pre f hf _; exact ⟨f, rfl, by simpa using hf⟩
    | cons t ts ih =>
      intro pre f hf hv
      obtain ⟨f1, e1, r1⟩ := fsmRep_addPath hf (hv t (by simp))
      obtain ⟨f2, e2, r2⟩ := ih (pre ++ [t]) f1 r1 (fun x hx => hv x (by simp [hx]))
      refine ⟨f2, ?_, by simpa using r2⟩
      rw [List.foldlM_cons, e1]
      exact e2
  simpa using this ts [] _ (fsmRep_new N idOps) h

/-! ### Numbering of the states -/

/-- Two paths are in the same state at bond `b`. -/
def SameState (ts : List Term) (b j k : Nat) : Prop :=
  ∃ s t, ts[j]? = some s ∧ ts[k]? = some t ∧
    ((b ≤ s.head ∧ b ≤ t.head) ∨ (s.tail < b ∧ t.tail < b) ∨ (j = k ∧ s.head < b ∧ b ≤ s.tail))

/-- Matrix index of the state of path `k` at bond `b`. -/
def Fsm.idx (f : Fsm) (ts : List Term) (b k : Nat) : Nat := (f.statIdx b (statOf ts k b)).toNat

section
variable {N : Nat} {idOps : Nat → OpRepr} {f : Fsm} {ts : List Term} (h : FsmRep N idOps f ts)
  (hv : ∀ t ∈ ts, t.Valid N) {b : Nat} (hb : b ≤ N)
include h hb

theorem idx_ready {k : Nat} {t : Term} (hk : ts[k]? = some t) (hc : b ≤ t.head) :
    f.statIdx b (statOf ts k b) = 0 ∧ f.hasR b = true := by
  have hR : f.hasR b = true := by
    rw [h.hasR b hb, List.any_eq_true]
    exact ⟨t, List.mem_of_getElem? hk, by simpa using hc⟩
  refine ⟨?_, hR⟩
  unfold statOf Fsm.statIdx
  rw [hk]
  simp [hc, hR, kReady, kFinal]

theorem idx_final {k : Nat} {t : Term} (ht : t.head ≤ t.tail) (hk : ts[k]? = some t) (hc : t.tail < b) :
    f.statIdx b (statOf ts k b) = (if f.hasR b then f.mid b + 1 else 0 : Nat) ∧ f.hasF b = true := by
  have hF : f.hasF b = true := by
    rw [h.hasF b hb, List.any_eq_true]
    exact ⟨t, List.mem_of_getElem? hk, by simpa using hc⟩
  refine ⟨?_, hF⟩
  unfold statOf Fsm.statIdx Fsm.finalIdx Fsm.dim
  rw [hk]
  have : ¬ b ≤ t.head := by omega
  simp only [this, hc, hF, if_true, if_false]
  split <;> simp

theorem idx_mid {k : Nat} {t : Term} (hk : ts[k]? = some t) (h1 : t.head < b) (h2 : b ≤ t.tail) :
    f.statIdx b (statOf ts k b) =
      ((if f.hasR b = false ∧ f.hasF b = false then ((ts.take (k + 1)).countP (Term.midAt b) : Int) - 1
        else ((ts.take (k + 1)).countP (Term.midAt b) : Int))) ∧
      1 ≤ (ts.take (k + 1)).countP (Term.midAt b) ∧ (ts.take (k + 1)).countP (Term.midAt b) ≤ f.mid b := by
  have hkl : k < ts.length := by
    refine Nat.lt_of_not_le fun hcon => ?_
    rw [List.getElem?_eq_none hcon] at hk; cases hk
  have hkt : ts[k] = t := by rw [List.getElem?_eq_getElem hkl] at hk; exact Option.some.inj hk
  have hp : Term.midAt b ts[k] = true := by rw [hkt]; simp [Term.midAt]; omega
  have hs := countP_take_succ (Term.midAt b) ts k hkl
  rw [if_pos hp] at hs
  refine ⟨?_, by omega, ?_⟩
  · unfold statOf Fsm.statIdx
    rw [hk]
    have e1 : ¬ b ≤ t.head := by omega
    have e2 : ¬ t.tail < b := by omega
    simp only [e1, e2, if_false]
    rw [if_neg (by unfold kFinal; omega)]
    simp
  · rw [h.mid b hb]
    exact List.Sublist.countP_le (List.take_sublist _ _)

include hv

theorem idx_lt {k : Nat} (hk : k < ts.length) : 0 ≤ f.statIdx b (statOf ts k b) ∧ f.idx ts b k < f.dim b := by
  have hkt : ts[k]? = some ts[k] := List.getElem?_eq_getElem hk
  have hval := hv ts[k] (List.getElem_mem hk)
  unfold Fsm.idx Fsm.dim
  by_cases c1 : b ≤ ts[k].head
  · obtain ⟨e, hR⟩ := idx_ready h hb hkt c1
    rw [e, hR]; simp
  · by_cases c2 : ts[k].tail < b
    · obtain ⟨e, hF⟩ := idx_final h hb hval.ht hkt c2
      rw [e, hF]; simp; split <;> omega
    · obtain ⟨e, g1, g2⟩ := idx_mid h hb hkt (by omega) (by omega)
      rw [e]
      by_cases hRF : f.hasR b = false ∧ f.hasF b = false
      · rw [if_pos hRF]; refine ⟨by omega, ?_⟩; simp only [hRF]; simp; omega
      · rw [if_neg hRF]
        refine ⟨by omega, ?_⟩
        simp only [Int.toNat_natCast]
        cases hR : f.hasR b <;> cases hF : f.hasF b <;> simp_all <;> omega

theorem idx_eq_iff {j k : Nat} (hj : j < ts.length) (hk : k < ts.length) :
    f.idx ts b j = f.idx ts b k ↔ SameState ts b j k := by
  have hjt : ts[j]? = some ts[j] := List.getElem?_eq_getElem hj
  have hkt : ts[k]? = some ts[k] := List.getElem?_eq_getElem hk
  have vj := hv ts[j] (List.getElem_mem hj)
  have vk := hv ts[k] (List.getElem_mem hk)
  have hss : SameState ts b j k ↔ ((b ≤ ts[j].head ∧ b ≤ ts[k].head) ∨ (ts[j].tail < b ∧ ts[k].tail < b) ∨
      (j = k ∧ ts[j].head < b ∧ b ≤ ts[j].tail)) := by
    unfold SameState
    constructor
    · rintro ⟨s, t, h1, h2, h3⟩
      rw [hjt] at h1; rw [hkt] at h2
      cases h1; cases h2; exact h3
    · intro h3; exact ⟨_, _, hjt, hkt, h3⟩
  rw [hss]
  have bnd : ∀ a : Bool, a = false ∨ a = true := by decide
  have hj' := vj.ht; have hk' := vk.ht
  unfold Fsm.idx
  by_cases cj1 : b ≤ ts[j].head
  · obtain ⟨ej, hR⟩ := idx_ready h hb hjt cj1
    rw [ej]
    by_cases ck1 : b ≤ ts[k].head
    · rw [(idx_ready h hb hkt ck1).1]
      simp [cj1, ck1]
    · by_cases ck2 : ts[k].tail < b
      · obtain ⟨ek, hF⟩ := idx_final h hb vk.ht hkt ck2
        rw [ek, hR]; simp; omega
      · obtain ⟨ek, g1, g2⟩ := idx_mid h hb hkt (by omega) (by omega)
        rw [ek, hR]; simp; omega
  · by_cases cj2 : ts[j].tail < b
    · obtain ⟨ej, hF⟩ := idx_final h hb vj.ht hjt cj2
      rw [ej]
      by_cases ck1 : b ≤ ts[k].head
      · obtain ⟨ek, hR⟩ := idx_ready h hb hkt ck1
        rw [ek, hR]; simp; omega
      · by_cases ck2 : ts[k].tail < b
        · rw [(idx_final h hb vk.ht hkt ck2).1]
          simp [cj2, ck2]
        · obtain ⟨ek, g1, g2⟩ := idx_mid h hb hkt (by omega) (by omega)
          rw [ek, hF]
          simp only [Bool.true_eq_false, and_false, if_false, Int.toNat_natCast]
          constructor
          · intro he; split at he <;> omega
          · intro he; omega
    · obtain ⟨ej, gj1, gj2⟩ := idx_mid h hb hjt (by omega) (by omega)
      rw [ej]
      by_cases ck1 : b ≤ ts[k].head
      · obtain ⟨ek, hR⟩ := idx_ready h hb hkt ck1
        rw [ek, hR]
        simp only [Bool.true_eq_false, false_and, if_false, Int.toNat_natCast]
        constructor
        · intro he; omega
        · rintro (e | e | ⟨rfl, e⟩) <;> omega
      · by_cases ck2 : ts[k].tail < b
        · obtain ⟨ek, hF⟩ := idx_final h hb vk.ht hkt ck2
          rw [ek, hF]
          simp only [Bool.true_eq_false, and_false, if_false, Int.toNat_natCast]
          constructor
          · intro he
            by_cases hR : f.hasR b = true
            · rw [if_pos hR] at he; omega
            · rw [if_neg hR] at he; omega
          · rintro (e | e | ⟨rfl, e⟩) <;> omega
        · obtain ⟨ek, gk1, gk2⟩ := idx_mid h hb hkt (by omega) (by omega)
          rw [ek]
          have key : (ts.take (j + 1)).countP (Term.midAt b) = (ts.take (k + 1)).countP (Term.midAt b) ↔ j = k := by
            constructor
            · exact countP_take_inj _ _ hj hk (by simp [Term.midAt]; omega) (by simp [Term.midAt]; omega)
            · intro e; rw [e]
          constructor
          · intro he
            right; right
            refine ⟨key.1 ?_, by omega, by omega⟩
            split at he <;> omega
          · rintro (e | e | e)
            · omega
            · omega
            · rw [e.1]

theorem idx_surj {x : Nat} (hx : x < f.dim b) : ∃ k, k < ts.length ∧ f.idx ts b k = x := by
  have getR : f.hasR b = true → ∃ k, ∃ hk : k < ts.length, b ≤ ts[k].head := by
    intro hR
    rw [h.hasR b hb, List.any_eq_true] at hR
    obtain ⟨t, ht, hc⟩ := hR
    obtain ⟨k, hk, e⟩ := List.getElem_of_mem ht
    exact ⟨k, hk, by rw [e]; simpa using hc⟩
  have getF : f.hasF b = true → ∃ k, ∃ hk : k < ts.length, ts[k].tail < b := by
    intro hF
    rw [h.hasF b hb, List.any_eq_true] at hF
    obtain ⟨t, ht, hc⟩ := hF
    obtain ⟨k, hk, e⟩ := List.getElem_of_mem ht
    exact ⟨k, hk, by rw [e]; simpa using hc⟩
  have getM : ∀ c, 1 ≤ c → c ≤ f.mid b → ∃ k, ∃ hk : k < ts.length, ts[k].head < b ∧ b ≤ ts[k].tail ∧
      (ts.take (k + 1)).countP (Term.midAt b) = c := by
    intro c h1 h2
    rw [h.mid b hb] at h2
    obtain ⟨k, hk, hp, e⟩ := countP_take_surj (Term.midAt b) ts h1 h2
    simp [Term.midAt] at hp
    exact ⟨k, hk, hp.1, hp.2, e⟩
  have useM : ∀ c, 1 ≤ c → c ≤ f.mid b → ∃ k, k < ts.length ∧
      f.idx ts b k = if f.hasR b = false ∧ f.hasF b = false then c - 1 else c := by
    intro c h1 h2
    obtain ⟨k, hk, a1, a2, e⟩ := getM c h1 h2
    refine ⟨k, hk, ?_⟩
    unfold Fsm.idx
    rw [(idx_mid h hb (List.getElem?_eq_getElem hk) a1 a2).1, e]
    split <;> omega
  have useR : f.hasR b = true → ∃ k, k < ts.length ∧ f.idx ts b k = 0 := by
    intro hR
    obtain ⟨k, hk, hc⟩ := getR hR
    exact ⟨k, hk, by unfold Fsm.idx; rw [(idx_ready h hb (List.getElem?_eq_getElem hk) hc).1]; rfl⟩
  have useF : f.hasF b = true → ∃ k, k < ts.length ∧ f.idx ts b k = if f.hasR b then f.mid b + 1 else 0 := by
    intro hF
    obtain ⟨k, hk, hc⟩ := getF hF
    refine ⟨k, hk, ?_⟩
    unfold Fsm.idx
    rw [(idx_final h hb (hv _ (List.getElem_mem hk)).ht (List.getElem?_eq_getElem hk) hc).1, Int.toNat_natCast]
  unfold Fsm.dim at hx
  cases hR : f.hasR b <;> cases hF : f.hasF b <;> simp only [hR, hF] at hx useM useR useF <;> simp at hx useM useR useF
  · obtain ⟨k, hk, e⟩ := useM (x + 1) (by omega) (by omega)
    exact ⟨k, hk, by omega⟩
  · by_cases h0 : x = 0
    · subst h0; exact useF
    · exact useM x (by omega) (by omega)
  · by_cases h0 : x = 0
    · subst h0; exact useR
    · exact useM x (by omega) (by omega)
  · by_cases h0 : x = 0
    · subst h0; exact useR
    · by_cases h1 : x ≤ f.mid b
      · exact useM x (by omega) h1
      · obtain ⟨k, hk, e⟩ := useF
        exact ⟨k, hk, by omega⟩

end
end Verif.Mpo
