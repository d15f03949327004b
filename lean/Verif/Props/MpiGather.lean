import Verif.Mpi.Gather
import Verif.Props.Mpi
import Mathlib.Algebra.BigOperators.Ring.Finset

/-!
# C36 (later products of the DMRG update), C39: the replies of the workers

`did r` are the terms rank `r` owns since the dynamic distribution (C37): each of the terms `0 … n-1` is owned by one rank.
-/
namespace Verif.Props
open Verif.Mpi Finset

variable {R O : Type}

theorem sum_of_onceEach {n W : Nat} {did : Nat → List Nat} (h : OnceEach n W did) :
    ∑ r ∈ Icc 1 W, (did r : Multiset Nat) = (List.range n : List Nat) := by
  ext t
  rw [count_sum, Multiset.coe_count, count_range]
  by_cases ht : t < n
  · obtain ⟨r, r1, r2, r3, r4⟩ := h.1 t ht
    rw [if_pos ht, Finset.sum_eq_single r, r3]
    · intro q hq hqr
      rw [Finset.mem_Icc] at hq
      exact List.count_eq_zero.mpr (r4 q hq.1 hq.2 hqr)
    · intro hr
      exact absurd (Finset.mem_Icc.mpr ⟨r1, r2⟩) hr
  · rw [if_neg ht]
    refine Finset.sum_eq_zero fun r hr => ?_
    rw [Finset.mem_Icc] at hr
    exact List.count_eq_zero.mpr fun hm => ht (h.2 r hr.1 hr.2 t hm)

/-- **C36, later products of a DMRG update.** Each worker sends the sum over the terms it owns and then its part of the overlap, the
master takes both from any source.  Whatever the schedule the execution ends, nothing is left over, and the master
holds the sum over all terms and the full overlap (added to the value `ov0` the variable had before). -/
theorem C36_static [AddCommMonoid R] [AddCommMonoid O] {n W : Nat} {did : Nat → List Nat} (hd : OnceEach n W did)
    (f : Nat → R) (o : Nat → O) (ov0 : O) {k : Nat} {s : St (CPc (SM R O) (SPay R O)) (SPay R O)}
    (h : Steps (cact (swant W ov0)) k
      (cinit W (smsgs (fun r => ((did r).map f).sum) (fun r => ((did r).map o).sum)) (subAt W ov0 0 [])) s) :
    k ≤ 4 * W ∧ (Stuck (cact (swant W ov0)) s → Final (cact (swant W ov0)) s ∧
      ∃ got ov, s.proc 0 = .ms (.fin got ov) ∧ got.sum = ∑ t ∈ range n, f t ∧ ov = ov0 + ∑ t ∈ range n, o t) := by
  obtain ⟨h1, h2⟩ := static_run W ov0 _ _ h
  refine ⟨h1, fun hs => ?_⟩
  obtain ⟨hf, got, ov, a1, a2, a3⟩ := h2 hs
  have hsum := sum_of_onceEach hd
  have key : ∀ {A : Type} [AddCommMonoid A] (g : Nat → A), ∑ r ∈ Icc 1 W, ((did r).map g).sum = ∑ t ∈ range n, g t := fun g => by
    rw [← sum_map_did, hsum, ← sum_list_range]
    simp
  refine ⟨hf, got, ov, a1, ?_, by rw [a3, key o]⟩
  have := congrArg Multiset.sum a2
  rw [Multiset.sum_coe] at this
  rw [this, ← key f]
  rfl

/-- **C39.** Each worker sends pairs of a number and an operator as two messages; the master takes a number from any source and then an
operator from that source.  Whatever the schedule, the execution ends, nothing is left over, and the pairs the master formed
are the pairs the workers sent, each once. -/
theorem C39_pairs_kept {n W : Nat} (pairs : Nat → List (Nat × R)) (hn : n = ∑ r ∈ Icc 1 W, (pairs r).length)
    {k : Nat} {s : St (CPc (GM R) (GPay R)) (GPay R)}
    (h : Steps (cact (gwant n)) k (cinit W (fun r => gmsgs r (pairs r)) (idxAt n 0 [])) s) :
    k ≤ 4 * n ∧ (Stuck (cact (gwant n)) s → Final (cact (gwant n)) s ∧
      ∃ got, s.proc 0 = .ms (.fin got) ∧ (got : Multiset (Nat × R)) = ∑ r ∈ Icc 1 W, (pairs r : Multiset (Nat × R))) := by
  have hc : (allPairs W pairs).card = n := by
    unfold allPairs
    rw [hn, Multiset.card_sum]
    rfl
  obtain ⟨h1, h2⟩ := grow_run W pairs hc h
  refine ⟨h1.trans (le_of_eq ?_), h2⟩
  have hlen : ∀ r, 2 * (gmsgs r (pairs r)).length = 4 * (pairs r).length := fun r => by
    simp [gmsgs, List.length_flatMap]
    omega
  rw [Finset.sum_congr rfl fun r _ => hlen r, ← Finset.mul_sum, ← hn]

/-- **C39, the operators.** With the terms owned as after the dynamic distribution, operator `t` is stored at position `t`. -/
theorem C39_operators_in_place {n W : Nat} {did : Nat → List Nat} (hd : OnceEach n W did) (g : Nat → R)
    {k : Nat} {s : St (CPc (GM R) (GPay R)) (GPay R)}
    (h : Steps (cact (gwant n)) k (cinit W (fun r => gmsgs r ((did r).map fun t => (t, g t))) (idxAt n 0 [])) s)
    (hs : Stuck (cact (gwant n)) s) :
    Final (cact (gwant n)) s ∧ ∃ got, s.proc 0 = .ms (.fin got) ∧ ∀ t, slotsOf n got t = if t < n then some (g t) else none := by
  have hsum := sum_of_onceEach hd
  have hmap : ∑ r ∈ Icc 1 W, (((did r).map fun t => (t, g t) : List (Nat × R)) : Multiset (Nat × R)) =
      ((List.range n).map fun t => (t, g t) : List (Nat × R)) := by
    have e := congrArg (Multiset.map fun t => (t, g t)) hsum
    have e2 := map_sum (Multiset.mapAddMonoidHom fun t => (t, g t)) (fun r => (did r : Multiset Nat)) (Icc 1 W)
    simp only [Multiset.coe_mapAddMonoidHom] at e2
    rw [e2] at e
    simpa using e
  have hn : n = ∑ r ∈ Icc 1 W, ((did r).map fun t => (t, g t)).length := by
    have := congrArg Multiset.card hsum
    rw [Multiset.card_sum] at this
    simpa using this.symm
  obtain ⟨hf, got, a1, a2⟩ := (C39_pairs_kept _ hn h).2 hs
  rw [hmap, Multiset.coe_eq_coe] at a2
  refine ⟨hf, got, a1, slotsOf_eq n g got (fun x hx => ?_) fun t ht => ?_⟩
  · obtain ⟨t, -, rfl⟩ := List.mem_map.mp (a2.subset hx)
    rfl
  · refine List.mem_map.mpr ⟨(t, g t), a2.symm.subset ?_, rfl⟩
    exact List.mem_map.mpr ⟨t, List.mem_range.mpr ht, rfl⟩

/-! ### The hypotheses are met -/

/-- Five terms owned by three workers, the second one owning none. -/
def did5 : Nat → List Nat
  | 1 => [3, 0, 4]
  | 3 => [2, 1]
  | _ => []

theorem did5_once : OnceEach 5 3 did5 := by
  refine onceEach_of_sum (m := 3) (le_refl _) (fun r hr => ?_) (by decide)
  unfold did5
  split <;> first | omega | rfl

example (f o : Nat → Int) : ∃ k s, Steps (cact (swant 3 (0 : Int))) k
    (cinit 3 (smsgs (fun r => ((did5 r).map f).sum) (fun r => ((did5 r).map o).sum)) (subAt 3 (0 : Int) 0 [])) s ∧
    Stuck (cact (swant 3 (0 : Int))) s :=
  exists_stuck 12 fun _ _ h => (C36_static did5_once f o 0 h).1

example (g : Nat → Int) : ∃ k s, Steps (cact (gwant 5)) k (cinit 3 (fun r => gmsgs r ((did5 r).map fun t => (t, g t))) (idxAt 5 0 [])) s ∧
    Stuck (cact (gwant 5)) s :=
  exists_stuck (4 * 5) fun _ _ h => (C39_pairs_kept (n := 5) (W := 3) (fun r => (did5 r).map fun t => (t, g t)) (by
    simp only [List.length_map]
    decide) h).1

end Verif.Props
