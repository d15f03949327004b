import Verif.Mpi.FarmUse
import Mathlib.Data.List.Sort
import Mathlib.Algebra.BigOperators.Intervals

/-!
# Consequences of the theorem about executions
-/
namespace Verif.Mpi
open Finset

/-- If the number of steps is bounded, some execution goes on until nothing can happen. -/
theorem exists_stuck {S V : Type} {act : Nat → S → Act S V} {s0 : St S V} (B : Nat)
    (hB : ∀ k s, Steps act k s0 s → k ≤ B) : ∃ k s, Steps act k s0 s ∧ Stuck act s := by
  by_contra hno
  have hgo : ∀ k, ∃ s, Steps act k s0 s := by
    intro k
    induction k with
    | zero => exact ⟨s0, .nil⟩
    | succ k ih =>
      obtain ⟨s, hs⟩ := ih
      by_contra hc
      exact hno ⟨k, s, hs, fun s' hs' => hc ⟨s', .snoc hs hs'⟩⟩
  obtain ⟨s, hs⟩ := hgo (B + 1)
  have := hB _ _ hs
  omega

/-- A sum of natural numbers is one only if one of them is one and the others vanish. -/
theorem sum_one {g : Nat → Nat} {m : Nat} (h : ∑ r ∈ Icc 1 m, g r = 1) :
    ∃ r, 1 ≤ r ∧ r ≤ m ∧ g r = 1 ∧ ∀ q, 1 ≤ q → q ≤ m → q ≠ r → g q = 0 := by
  have hex : ∃ r ∈ Icc 1 m, g r ≠ 0 := by
    by_contra hn
    have h0 : ∑ r ∈ Icc 1 m, g r = 0 := Finset.sum_eq_zero fun r hr => by
      by_contra hg
      exact hn ⟨r, hr, hg⟩
    omega
  obtain ⟨r, hr, hg⟩ := hex
  have hsplit := Finset.add_sum_erase (Icc 1 m) g hr
  have h1 : g r = 1 ∧ ∑ q ∈ (Icc 1 m).erase r, g q = 0 := by omega
  rw [Finset.sum_eq_zero_iff] at h1
  rw [Finset.mem_Icc] at hr
  exact ⟨r, hr.1, hr.2, h1.1, fun q q1 q2 hq => h1.2 q (by simp [hq, q1, q2])⟩

theorem count_sum (t m : Nat) (d : Nat → List Nat) :
    (∑ r ∈ Icc 1 m, (d r : Multiset Nat)).count t = ∑ r ∈ Icc 1 m, (d r).count t := by
  rw [Multiset.count_sum']
  simp

theorem filter_lt_range (n k : Nat) (h : n ≤ k) : (List.replicate m k ++ List.range n).filter (· < n) = List.range n := by
  rw [List.filter_append]
  have h1 : (List.replicate m k).filter (· < n) = [] := by
    rw [List.filter_eq_nil_iff]
    intro a ha
    rw [List.eq_of_mem_replicate ha]
    simpa using h
  have h2 : (List.range n).filter (· < n) = List.range n := by
    rw [List.filter_eq_self]
    intro a ha
    rw [List.mem_range] at ha
    simpa using ha
  rw [h1, h2]; rfl

theorem count_range (t n : Nat) : (List.range n).count t = if t < n then 1 else 0 := by
  by_cases h : t < n
  · rw [if_pos h]
    exact List.count_eq_one_of_mem List.nodup_range (List.mem_range.mpr h)
  · rw [if_neg h]
    exact List.count_eq_zero.mpr fun hm => h (List.mem_range.mp hm)

theorem sum_list_range {A : Type} [AddCommMonoid A] (f : Nat → A) (n : Nat) : ((List.range n).map f).sum = ∑ t ∈ range n, f t := by
  induction n with
  | zero => rfl
  | succ n ih => rw [List.range_succ, List.map_append, List.sum_append, ih, Finset.sum_range_succ]; simp

theorem sum_map_did {A : Type} [AddCommMonoid A] (o : Nat → A) (did : Nat → List Nat) (m : Nat) :
    ((∑ r ∈ Icc 1 m, (did r : Multiset Nat)).map o).sum = ∑ r ∈ Icc 1 m, ((did r).map o).sum := by
  induction m with
  | zero => rfl
  | succ m ih =>
    rw [Finset.sum_Icc_succ_top (by omega), Finset.sum_Icc_succ_top (by omega), Multiset.map_add, Multiset.sum_add, ih]
    simp

/-! ### The orders exist -/

theorem exists_sortPart (deg : Nat → Nat) (a b : Nat) (l : List Nat) : ∃ l', SortPart deg a b l l' := by
  let rel : Nat → Nat → Prop := fun x y => deg y ≤ deg x
  haveI : DecidableRel rel := fun x y => Nat.decLe _ _
  haveI : Std.Total rel := ⟨fun x y => le_total (deg y) (deg x)⟩
  haveI : IsTrans Nat rel := ⟨fun x y z h1 h2 => le_trans h2 h1⟩
  exact ⟨_, ((l.drop a).take (b - a)).insertionSort rel, List.perm_insertionSort _ _, List.pairwise_insertionSort _ _, rfl⟩

theorem exists_partialSort (deg : Nat → Nat) (k b : Nat) (l : List Nat) : ∃ l', PartialSort deg k b l l' := by
  let rel : Nat → Nat → Prop := fun x y => deg y ≤ deg x
  haveI : DecidableRel rel := fun x y => Nat.decLe _ _
  haveI : Std.Total rel := ⟨fun x y => le_total (deg y) (deg x)⟩
  haveI : IsTrans Nat rel := ⟨fun x y z h1 h2 => le_trans h2 h1⟩
  have hp : ((l.take b).insertionSort rel).Pairwise rel := List.pairwise_insertionSort _ _
  refine ⟨_, (l.take b).insertionSort rel, List.perm_insertionSort _ _, hp.sublist (List.take_sublist _ _), fun x hx y hy => ?_, rfl⟩
  rw [← List.take_append_drop k ((l.take b).insertionSort rel)] at hp
  exact (List.pairwise_append.mp hp).2.2 x hx y hy

theorem exists_mulOrder (deg : Nat → Nat) (n W : Nat) : ∃ l, MulOrder deg n W l := by
  unfold MulOrder
  split
  · obtain ⟨l1, h1⟩ := exists_partialSort deg W (n - W) (iota W n)
    obtain ⟨l2, h2⟩ := exists_sortPart deg W (n - W) l1
    exact ⟨l2, l1, h1, h2⟩
  · split
    · exact exists_sortPart deg 0 (n - W) (iota W n)
    · exact ⟨_, rfl⟩

theorem exists_growOrder (deg : Nat → Nat) (n W : Nat) : ∃ l, GrowOrder deg n W l := exists_sortPart _ _ _ _

/-! ### Slots -/

variable {R : Type}

/-- `multiplication_res[tag] = recv_res` if the tag is a task number
(`lanczos_dmrg_solver_mpi_master.h:208-210, 232-234`; `dmrg_mpi_impl_master.h:529, 544`). -/
def putSlot (n : Nat) (sl : Nat → Option R) (p : Nat × R) : Nat → Option R :=
  if p.1 < n then Function.update sl p.1 (some p.2) else sl

/-- The vector of results after all received messages. -/
def slotsOf (n : Nat) (got : List (Nat × R)) : Nat → Option R := got.foldl (putSlot n) fun _ => none

theorem slots_fold (n : Nat) (f : Nat → R) (got : List (Nat × R)) (hf : ∀ x ∈ got, x.2 = f x.1) (sl : Nat → Option R) (t : Nat) :
    got.foldl (putSlot n) sl t =
      if t < n ∧ t ∈ got.map Prod.fst then some (f t) else sl t := by
  induction got generalizing sl with
  | nil => simp
  | cons p got ih =>
    rw [List.foldl_cons, ih (fun x hx => hf x (by simp [hx]))]
    by_cases h : t < n ∧ t ∈ got.map Prod.fst
    · rw [if_pos h, if_pos ⟨h.1, by rw [List.map_cons]; exact List.mem_cons_of_mem _ h.2⟩]
    · rw [if_neg h]
      unfold putSlot
      by_cases hp : t < n ∧ t = p.1
      · have h1 : t < n ∧ t ∈ (p :: got).map Prod.fst := ⟨hp.1, by rw [hp.2]; simp⟩
        rw [if_pos h1, if_pos (show p.1 < n by rw [← hp.2]; exact hp.1), hp.2, Function.update_self, hf p (by simp)]
      · have h1 : ¬ (t < n ∧ t ∈ (p :: got).map Prod.fst) := by
          rintro ⟨h1, h2⟩
          rw [List.map_cons, List.mem_cons] at h2
          rcases h2 with h2 | h2
          · exact hp ⟨h1, h2⟩
          · exact h ⟨h1, h2⟩
        rw [if_neg h1]
        by_cases hpn : p.1 < n
        · rw [if_pos hpn, Function.update_of_ne]
          rintro rfl
          exact hp ⟨hpn, rfl⟩
        · rw [if_neg hpn]

theorem slotsOf_eq (n : Nat) (f : Nat → R) (got : List (Nat × R)) (hf : ∀ x ∈ got, x.2 = f x.1)
    (hall : ∀ t < n, t ∈ got.map Prod.fst) (t : Nat) : slotsOf n got t = if t < n then some (f t) else none := by
  unfold slotsOf
  rw [slots_fold n f got hf]
  by_cases h : t < n
  · rw [if_pos h, if_pos ⟨h, hall t h⟩]
  · rw [if_neg h, if_neg (fun h' => h h'.1)]

end Verif.Mpi
