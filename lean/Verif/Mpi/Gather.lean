import Verif.Mpi.Collect
import Verif.Mpi.FarmFacts
import Mathlib.Data.Nat.Cast.Basic

/-!
# The loops of the DMRG executor in which the workers send and the master receives
-/
namespace Verif.Mpi
open Function Finset

variable {R O : Type}

/-! ### Hamiltonian times state with the terms the workers own -/

/-- Payloads: a partial sum, an overlap. -/
inductive SPay (R O : Type) where
  | sub (x : R)
  | ovl (y : O)

/-- Master states. -/
inductive SM (R O : Type) where
  | sub (i : Nat) (got : List R)
  | ovl (i : Nat) (got : List R) (ov : O)
  | fin (got : List R) (ov : O)
  | bad

section
variable [AddCommMonoid O] (W : Nat) (ov0 : O)

/-- Loop over the overlaps (`lanczos_dmrg_solver_mpi_master.h:280-285`). -/
def ovAt (i : Nat) (got : List R) (ov : O) : SM R O := if i < W then .ovl i got ov else .fin got ov

/-- Loop over the partial sums (`lanczos_dmrg_solver_mpi_master.h:268-271`); `ov0` is the value of `overlap` before the call. -/
def subAt (i : Nat) (got : List R) : SM R O := if i < W then .sub i got else ovAt W 0 got ov0

/-- `StaticHamiltonianMultiplyState_` (`lanczos_dmrg_solver_mpi_master.h:251-288`): the partial sums come with tag 10085, the
overlaps with tag 10087, both from any source. -/
def swant : SM R O → Option (Want (SM R O) (SPay R O))
  | .sub i got => some
      { src := none
        tag := some 10085
        next := fun _ _ v =>
          match v with
          | .sub x => subAt W ov0 (i + 1) (got ++ [x])
          | .ovl _ => .bad }
  | .ovl i got ov => some
      { src := none
        tag := some 10087
        next := fun _ _ v =>
          match v with
          | .ovl y => ovAt W (i + 1) got (ov + y)
          | .sub _ => .bad }
  | .fin _ _ => none
  | .bad => none

/-- `WorkForStaticHamiltonianMultiplyState_` (`dmrg_mpi_impl_slave.h:388-459`): what rank `r` sends, with `x r` the sum over
the terms it owns (zero if it owns none) and `y r` their contribution to the overlap. -/
def smsgs (x : Nat → R) (y : Nat → O) (r : Nat) : List (Nat × SPay R O) := [(10085, .sub (x r)), (10087, .ovl (y r))]

/-- The invariant: `S` is the set of ranks whose current part has arrived. -/
def SInv (x : Nat → R) (y : Nat → O) : SM R O → (Nat → List (Nat × SPay R O)) → Prop
  | .sub i got, todo => i < W ∧ ∃ S ⊆ Icc 1 W, S.card = i ∧ (got : Multiset R) = S.val.map x ∧
      ∀ r, todo r = if r ∈ Icc 1 W then (if r ∈ S then [(10087, .ovl (y r))] else smsgs x y r) else []
  | .ovl i got ov, todo => i < W ∧ ∃ S ⊆ Icc 1 W, S.card = i ∧ (got : Multiset R) = (Icc 1 W).val.map x ∧ ov = ov0 + ∑ r ∈ S, y r ∧
      ∀ r, todo r = if r ∈ Icc 1 W then (if r ∈ S then [] else [(10087, .ovl (y r))]) else []
  | .fin got ov, todo => (got : Multiset R) = (Icc 1 W).val.map x ∧ ov = ov0 + ∑ r ∈ Icc 1 W, y r ∧ ∀ r, todo r = []
  | .bad, _ => False

theorem sinv_ovAt {x : Nat → R} {y : Nat → O} {i : Nat} {got : List R} {ov : O} {todo : Nat → List (Nat × SPay R O)} {S : Finset Nat}
    (hS : S ⊆ Icc 1 W) (hc : S.card = i) (hg : (got : Multiset R) = (Icc 1 W).val.map x) (hov : ov = ov0 + ∑ r ∈ S, y r)
    (ht : ∀ r, todo r = if r ∈ Icc 1 W then (if r ∈ S then [] else [(10087, .ovl (y r))]) else []) :
    SInv W ov0 x y (ovAt W i got ov) todo := by
  unfold ovAt
  by_cases hi : i < W
  · rw [if_pos hi]
    exact ⟨hi, S, hS, hc, hg, hov, ht⟩
  · rw [if_neg hi]
    have hle := Finset.card_le_card hS
    have hcW : (Icc 1 W).card = W := by simp
    have hSW : S = Icc 1 W := Finset.eq_of_subset_of_card_le hS (by omega)
    refine ⟨hg, by rw [hov, hSW], fun r => ?_⟩
    rw [ht r, hSW]
    split <;> rfl

theorem sinv_subAt {x : Nat → R} {y : Nat → O} {i : Nat} {got : List R} {todo : Nat → List (Nat × SPay R O)} {S : Finset Nat}
    (hS : S ⊆ Icc 1 W) (hc : S.card = i) (hg : (got : Multiset R) = S.val.map x)
    (ht : ∀ r, todo r = if r ∈ Icc 1 W then (if r ∈ S then [(10087, .ovl (y r))] else smsgs x y r) else []) :
    SInv W ov0 x y (subAt W ov0 i got) todo := by
  unfold subAt
  by_cases hi : i < W
  · rw [if_pos hi]
    exact ⟨hi, S, hS, hc, hg, ht⟩
  · rw [if_neg hi]
    have hle := Finset.card_le_card hS
    have hcW : (Icc 1 W).card = W := by simp
    have hSW : S = Icc 1 W := Finset.eq_of_subset_of_card_le hS (by omega)
    refine sinv_ovAt W ov0 (S := ∅) (by simp) rfl (by rw [hg, hSW]) (by simp) fun r => ?_
    rw [ht r, hSW]
    by_cases hr : r ∈ Icc 1 W
    · simp only [if_pos hr]
      simp
    · simp only [if_neg hr]

theorem exists_out {S : Finset Nat} (hS : S ⊆ Icc 1 W) (hc : S.card < W) : ∃ r, 1 ≤ r ∧ r ≤ W ∧ r ∉ S := by
  by_contra hn
  have : Icc 1 W ⊆ S := fun r hr => by
    rw [Finset.mem_Icc] at hr
    by_contra h
    exact hn ⟨r, hr.1, hr.2, h⟩
  have := Finset.card_le_card this
  simp at this
  omega

theorem scoll (x : Nat → R) (y : Nat → O) : Coll W (swant (R := R) W ov0) (SInv W ov0 x y) where
  head m todo w q a b rest hP hw hb ha hfit := by
    cases m with
    | sub i got =>
      simp only [swant, Option.some.injEq] at hw
      subst hw
      obtain ⟨-, S, hS, -, -, ht⟩ := hP
      rw [ht q] at hb ha
      split at hb
      · split at hb
        · rename_i h1 h2
          simp only [if_pos h1, if_pos h2, List.mem_singleton] at ha
          subst ha
          simp [fits] at hfit
        · simp only [smsgs, List.cons.injEq] at hb
          rw [← hb.1]
          exact Or.inr rfl
      · simp at hb
    | ovl i got ov =>
      simp only [swant, Option.some.injEq] at hw
      subst hw
      obtain ⟨-, S, hS, -, -, -, ht⟩ := hP
      rw [ht q] at hb
      split at hb
      · split at hb
        · simp at hb
        · simp only [List.cons.injEq] at hb
          rw [← hb.1]
          exact Or.inr rfl
      · simp at hb
    | fin got ov => simp [swant] at hw
    | bad => simp [swant] at hw
  step m todo w q a rest hP hw h1 h2 hsrc hb hfit := by
    have hq : q ∈ Icc 1 W := by simp [h1, h2]
    cases m with
    | sub i got =>
      simp only [swant, Option.some.injEq] at hw
      subst hw
      obtain ⟨hi, S, hS, hc, hg, ht⟩ := hP
      have htq := ht q
      rw [hb, if_pos hq] at htq
      by_cases hqS : q ∈ S
      · rw [if_pos hqS, List.cons.injEq] at htq
        rw [htq.1] at hfit
        simp [fits] at hfit
      · rw [if_neg hqS] at htq
        simp only [smsgs, List.cons.injEq] at htq
        obtain ⟨rfl, rfl⟩ := htq
        refine sinv_subAt W ov0 (S := insert q S) (Finset.insert_subset hq hS) (by rw [Finset.card_insert_of_notMem hqS, hc]) ?_ fun r => ?_
        · rw [Finset.insert_val_of_notMem hqS, Multiset.map_cons, ← hg, ← Multiset.coe_add, add_comm]
          rfl
        · by_cases hrq : r = q
          · subst hrq; rw [update_self, if_pos hq, if_pos (by simp)]
          · rw [update_of_ne hrq, ht r]
            simp [hrq]
    | ovl i got ov =>
      simp only [swant, Option.some.injEq] at hw
      subst hw
      obtain ⟨hi, S, hS, hc, hg, hov, ht⟩ := hP
      have htq := ht q
      rw [hb, if_pos hq] at htq
      by_cases hqS : q ∈ S
      · rw [if_pos hqS] at htq
        simp at htq
      · rw [if_neg hqS] at htq
        simp only [List.cons.injEq] at htq
        obtain ⟨rfl, rfl⟩ := htq
        refine sinv_ovAt W ov0 (S := insert q S) (Finset.insert_subset hq hS) (by rw [Finset.card_insert_of_notMem hqS, hc]) hg ?_ fun r => ?_
        · rw [Finset.sum_insert hqS, hov]
          abel
        · by_cases hrq : r = q
          · subst hrq; rw [update_self, if_pos hq, if_pos (by simp)]
          · rw [update_of_ne hrq, ht r]
            simp [hrq]
    | fin got ov => simp [swant] at hw
    | bad => simp [swant] at hw
  prog m todo w hP hw := by
    cases m with
    | sub i got =>
      simp only [swant, Option.some.injEq] at hw
      subst hw
      obtain ⟨hi, S, hS, hc, hg, ht⟩ := hP
      obtain ⟨r, r1, r2, r3⟩ := exists_out W hS (by omega)
      exact ⟨r, (10085, .sub (x r)), [(10087, .ovl (y r))], r1, r2, Or.inl rfl, by rw [ht r, if_pos (by simp [r1, r2]), if_neg r3]; rfl, Or.inr rfl⟩
    | ovl i got ov =>
      simp only [swant, Option.some.injEq] at hw
      subst hw
      obtain ⟨hi, S, hS, hc, hg, hov, ht⟩ := hP
      obtain ⟨r, r1, r2, r3⟩ := exists_out W hS (by omega)
      exact ⟨r, (10087, .ovl (y r)), [], r1, r2, Or.inl rfl, by rw [ht r, if_pos (by simp [r1, r2]), if_neg r3], Or.inr rfl⟩
    | fin got ov => simp [swant] at hw
    | bad => simp [swant] at hw
  stop m todo hP hw q q1 q2 := by
    cases m with
    | sub i got => simp [swant] at hw
    | ovl i got ov => simp [swant] at hw
    | fin got ov => exact hP.2.2 q
    | bad => exact hP.elim

theorem static_run (x : Nat → R) (y : Nat → O) {n : Nat} {s : St (CPc (SM R O) (SPay R O)) (SPay R O)}
    (h : Steps (cact (swant W ov0)) n (cinit W (smsgs x y) (subAt W ov0 0 [])) s) :
    n ≤ 4 * W ∧ (Stuck (cact (swant W ov0)) s → Final (cact (swant W ov0)) s ∧
      ∃ got ov, s.proc 0 = .ms (.fin got ov) ∧ (got : Multiset R) = (Icc 1 W).val.map x ∧ ov = ov0 + ∑ r ∈ Icc 1 W, y r) := by
  have h0 : SInv W ov0 x y (subAt W ov0 0 []) (fun r => if 1 ≤ r ∧ r ≤ W then smsgs x y r else []) :=
    sinv_subAt W ov0 (S := ∅) (by simp) rfl (by simp) fun r => by simp
  obtain ⟨h1, h2⟩ := (scoll W ov0 x y).run_ok h0 h
  refine ⟨?_, fun hs => ?_⟩
  · simp only [smsgs, List.length_cons, List.length_nil, Finset.sum_const, Nat.card_Icc, nsmul_eq_mul, Nat.cast_id] at h1
    omega
  · obtain ⟨hf, m, hm, hw, hP⟩ := h2 hs
    refine ⟨hf, ?_⟩
    cases m with
    | sub i got => simp [swant] at hw
    | ovl i got ov => simp [swant] at hw
    | fin got ov => exact ⟨got, ov, hm, hP.1, hP.2.1⟩
    | bad => exact hP.elim
end

/-! ### Growing the block operators -/

/-- Payloads: the number of an operator, an operator. -/
inductive GPay (R : Type) where
  | idx (k : Nat)
  | ten (x : R)

/-- Master states; `got` lists numbers and operators in the order of arrival. -/
inductive GM (R : Type) where
  | idx (i : Nat) (got : List (Nat × R))
  | ten (i : Nat) (got : List (Nat × R)) (w k : Nat)
  | fin (got : List (Nat × R))
  | bad

/-- Head of the loop over the operators. -/
def idxAt (n : Nat) (i : Nat) (got : List (Nat × R)) : GM R := if i < n then .idx i got else .fin got

/-- `GrowLeftBlockOps_`, `GrowRightBlockOps_` (`dmrg_mpi_impl_master.h:640-668`): `n` times, receive the number of an operator from
any source with any tag, then the operator from that source with its rank as tag. -/
def gwant (n : Nat) : GM R → Option (Want (GM R) (GPay R))
  | .idx i got => some
      { src := none
        tag := none
        next := fun q _ v =>
          match v with
          | .idx k => .ten i got q k
          | .ten _ => .bad }
  | .ten i got w k => some
      { src := some w
        tag := some w
        next := fun _ _ v =>
          match v with
          | .ten x => idxAt n (i + 1) (got ++ [(k, x)])
          | .idx _ => .bad }
  | .fin _ => none
  | .bad => none

/-- `WorkForGrowLeftBlockOps_`, `WorkForGrowRightBlockOps_` (`dmrg_mpi_impl_slave.h:462-492`): rank `r` sends, for each operator
it owns, the number and then the operator, both with its rank as tag. -/
def gmsgs (r : Nat) (l : List (Nat × R)) : List (Nat × GPay R) := l.flatMap fun p => [(r, .idx p.1), (r, .ten p.2)]

theorem gmsgs_cons (r : Nat) (p : Nat × R) (l : List (Nat × R)) : gmsgs r (p :: l) = (r, .idx p.1) :: (r, .ten p.2) :: gmsgs r l := rfl

variable (W : Nat) (pairs : Nat → List (Nat × R))

/-- All pairs the workers send. -/
def allPairs : Multiset (Nat × R) := ∑ r ∈ Icc 1 W, (pairs r : Multiset (Nat × R))

/-- The invariant: `rem r` are the pairs of rank `r` of which nothing has arrived. -/
def GInv (n : Nat) : GM R → (Nat → List (Nat × GPay R)) → Prop
  | .idx i got, todo => i < n ∧ got.length = i ∧ ∃ rem : Nat → List (Nat × R),
      (got : Multiset (Nat × R)) + ∑ r ∈ Icc 1 W, (rem r : Multiset (Nat × R)) = allPairs W pairs ∧
      ∀ r, todo r = if r ∈ Icc 1 W then gmsgs r (rem r) else []
  | .ten i got w k, todo => i < n ∧ got.length = i ∧ 1 ≤ w ∧ w ≤ W ∧ ∃ (x : R) (rem : Nat → List (Nat × R)),
      ((got ++ [(k, x)] : List (Nat × R)) : Multiset (Nat × R)) + ∑ r ∈ Icc 1 W, (rem r : Multiset (Nat × R)) = allPairs W pairs ∧
      ∀ r, todo r = if r ∈ Icc 1 W then (if r = w then (w, .ten x) :: gmsgs w (rem w) else gmsgs r (rem r)) else []
  | .fin got, todo => (got : Multiset (Nat × R)) = allPairs W pairs ∧ ∀ r, todo r = []
  | .bad, _ => False

theorem ginv_idxAt {n i : Nat} (hn : (allPairs W pairs).card = n) {got : List (Nat × R)} {todo : Nat → List (Nat × GPay R)}
    (hl : got.length = i) (hi : i ≤ n) (rem : Nat → List (Nat × R))
    (hs : (got : Multiset (Nat × R)) + ∑ r ∈ Icc 1 W, (rem r : Multiset (Nat × R)) = allPairs W pairs)
    (ht : ∀ r, todo r = if r ∈ Icc 1 W then gmsgs r (rem r) else []) : GInv W pairs n (idxAt n i got) todo := by
  unfold idxAt
  by_cases hin : i < n
  · rw [if_pos hin]
    exact ⟨hin, hl, rem, hs, ht⟩
  · rw [if_neg hin]
    have hc := congrArg Multiset.card hs
    rw [Multiset.card_add, hn, Multiset.coe_card, hl] at hc
    have h0 : ∑ r ∈ Icc 1 W, (rem r : Multiset (Nat × R)) = 0 := Multiset.card_eq_zero.mp (by omega)
    refine ⟨by rw [← hs, h0, add_zero], fun r => ?_⟩
    rw [ht r]
    by_cases hr : r ∈ Icc 1 W
    · rw [if_pos hr]
      have := Finset.sum_eq_zero_iff.mp h0 r hr
      have h' : rem r = [] := by simpa using this
      rw [h']; rfl
    · rw [if_neg hr]

theorem sum_rem_update {q : Nat} (hq : q ∈ Icc 1 W) {rem : Nat → List (Nat × R)} {p : Nat × R} {l : List (Nat × R)} (hr : rem q = p :: l) :
    ∑ r ∈ Icc 1 W, (rem r : Multiset (Nat × R)) = {p} + ∑ r ∈ Icc 1 W, ((update rem q l) r : Multiset (Nat × R)) := by
  rw [← Finset.add_sum_erase _ _ hq, ← Finset.add_sum_erase (a := q) _ (fun r => ((update rem q l) r : Multiset (Nat × R))) hq]
  have : ∑ r ∈ (Icc 1 W).erase q, ((update rem q l) r : Multiset (Nat × R)) = ∑ r ∈ (Icc 1 W).erase q, (rem r : Multiset (Nat × R)) :=
    Finset.sum_congr rfl fun r hr => by rw [update_of_ne (Finset.ne_of_mem_erase hr)]
  rw [this, update_self, hr, ← add_assoc]
  rfl

theorem gcoll {n : Nat} (hn : (allPairs W pairs).card = n) : Coll W (gwant (R := R) n) (GInv W pairs n) where
  head m todo w q a b rest hP hw hb ha hfit := by
    cases m with
    | idx i got =>
      simp only [gwant, Option.some.injEq] at hw
      subst hw
      exact Or.inl rfl
    | ten i got w' k =>
      simp only [gwant, Option.some.injEq] at hw
      subst hw
      obtain ⟨-, -, -, -, x, rem, -, ht⟩ := hP
      have htags : ∀ z ∈ todo q, z.1 = q := fun z hz => by
        rw [ht q] at hz
        have hg : ∀ (r : Nat) (l : List (Nat × R)), ∀ z ∈ gmsgs r l, z.1 = r := fun r l z hz => by
          simp only [gmsgs, List.mem_flatMap, List.mem_cons, List.not_mem_nil, or_false] at hz
          obtain ⟨p, -, rfl | rfl⟩ := hz <;> rfl
        split at hz
        · split at hz
          · rename_i hqw
            rw [List.mem_cons] at hz
            rcases hz with rfl | hz
            · exact hqw.symm
            · rw [hg _ _ z hz, hqw]
          · exact hg _ _ z hz
        · simp at hz
      rw [htags b (by rw [hb]; simp), ← htags a ha]
      exact hfit
    | fin got => simp [gwant] at hw
    | bad => simp [gwant] at hw
  step m todo w q a rest hP hw h1 h2 hsrc hb hfit := by
    have hq : q ∈ Icc 1 W := by simp [h1, h2]
    cases m with
    | idx i got =>
      simp only [gwant, Option.some.injEq] at hw
      subst hw
      obtain ⟨hi, hl, rem, hs, ht⟩ := hP
      have htq := ht q
      rw [hb, if_pos hq] at htq
      cases hrem : rem q with
      | nil => rw [hrem] at htq; simp [gmsgs] at htq
      | cons p l =>
        rw [hrem, gmsgs_cons, List.cons.injEq] at htq
        obtain ⟨rfl, rfl⟩ := htq
        refine ⟨hi, hl, h1, h2, p.2, update rem q l, ?_, fun r => ?_⟩
        · rw [← hs, sum_rem_update W hq hrem, ← Multiset.coe_add, add_assoc]
          rfl
        · by_cases hrq : r = q
          · subst hrq
            rw [update_self, if_pos hq, if_pos rfl, update_self]
          · rw [update_of_ne hrq, ht r, if_neg hrq, update_of_ne hrq]
    | ten i got w' k =>
      simp only [gwant, Option.some.injEq] at hw
      subst hw
      obtain ⟨hi, hl, w1, w2, x, rem, hs, ht⟩ := hP
      have hqw : q = w' := by
        rcases hsrc with h | h
        · simp at h
        · simpa using h.symm
      subst hqw
      have htq := ht q
      rw [hb, if_pos hq, if_pos rfl, List.cons.injEq] at htq
      obtain ⟨rfl, rfl⟩ := htq
      refine ginv_idxAt W pairs hn (by simp [hl]) hi rem hs fun r => ?_
      by_cases hrq : r = q
      · subst hrq; rw [update_self, if_pos hq]
      · rw [update_of_ne hrq, ht r, if_neg hrq]
    | fin got => simp [gwant] at hw
    | bad => simp [gwant] at hw
  prog m todo w hP hw := by
    cases m with
    | idx i got =>
      simp only [gwant, Option.some.injEq] at hw
      subst hw
      obtain ⟨hi, hl, rem, hs, ht⟩ := hP
      have hne : ∃ r ∈ Icc 1 W, rem r ≠ [] := by
        by_contra hno
        have h0 : ∑ r ∈ Icc 1 W, (rem r : Multiset (Nat × R)) = 0 := Finset.sum_eq_zero fun r hr => by
          by_contra hc
          exact hno ⟨r, hr, fun h => hc (by rw [h]; rfl)⟩
        have hc := congrArg Multiset.card hs
        rw [h0, add_zero, hn, Multiset.coe_card] at hc
        omega
      obtain ⟨r, hr, hne⟩ := hne
      obtain ⟨p, l, hpl⟩ := List.exists_cons_of_ne_nil hne
      have hr' := Finset.mem_Icc.mp hr
      exact ⟨r, (r, .idx p.1), (r, .ten p.2) :: gmsgs r l, hr'.1, hr'.2, Or.inl rfl, by rw [ht r, if_pos hr, hpl]; rfl, Or.inl rfl⟩
    | ten i got w' k =>
      simp only [gwant, Option.some.injEq] at hw
      subst hw
      obtain ⟨hi, hl, w1, w2, x, rem, hs, ht⟩ := hP
      exact ⟨w', (w', .ten x), gmsgs w' (rem w'), w1, w2, Or.inr rfl, by rw [ht w', if_pos (by simp [w1, w2]), if_pos rfl], Or.inr rfl⟩
    | fin got => simp [gwant] at hw
    | bad => simp [gwant] at hw
  stop m todo hP hw q q1 q2 := by
    cases m with
    | idx i got => simp [gwant] at hw
    | ten i got w' k => simp [gwant] at hw
    | fin got => exact hP.2 q
    | bad => exact hP.elim

theorem grow_run {n : Nat} (hn : (allPairs W pairs).card = n) {k : Nat} {s : St (CPc (GM R) (GPay R)) (GPay R)}
    (h : Steps (cact (gwant n)) k (cinit W (fun r => gmsgs r (pairs r)) (idxAt n 0 [])) s) :
    k ≤ ∑ r ∈ Icc 1 W, 2 * (gmsgs r (pairs r)).length ∧ (Stuck (cact (gwant n)) s → Final (cact (gwant n)) s ∧
      ∃ got, s.proc 0 = .ms (.fin got) ∧ (got : Multiset (Nat × R)) = allPairs W pairs) := by
  have h0 : GInv W pairs n (idxAt n 0 []) (fun r => if 1 ≤ r ∧ r ≤ W then gmsgs r (pairs r) else []) :=
    ginv_idxAt W pairs hn rfl (by omega) pairs (by rw [Multiset.coe_nil, zero_add]; rfl) fun r => by simp
  obtain ⟨h1, h2⟩ := (gcoll W pairs hn).run_ok h0 h
  refine ⟨h1, fun hs => ?_⟩
  obtain ⟨hf, m, hm, hw, hP⟩ := h2 hs
  refine ⟨hf, ?_⟩
  cases m with
  | idx i got => simp [gwant] at hw
  | ten i got w k => simp [gwant] at hw
  | fin got => exact ⟨got, hm, hP.1⟩
  | bad => exact hP.elim

end Verif.Mpi
