import Mathlib.Data.List.Sort
/-
`IsQNCovered` (algorithm/vmps/two_site_update_noise_finite_vmps_impl.h:724-765).
-/
namespace Verif.Algo

/-- The merging loop (two_site_update_noise_finite_vmps_impl.h:752-764) on what is left of the two sorted vectors. `none`: the first iterator is
dereferenced at its end. -/
def coverLoop : List Nat → List Nat → Option Bool
  | _, [] => some true
  | [], _ :: _ => none
  | x :: xs, y :: ys => if x < y then coverLoop xs (y :: ys) else if x = y then coverLoop xs ys else some false

/-- `std::sort` (two_site_update_noise_finite_vmps_impl.h:737-746). -/
def sorted (a : List Nat) : List Nat := a.insertionSort (· ≤ ·)

/-- `IsQNCovered(qnsectors1, qnsectors2)`, the arguments being the hashes of the quantum numbers. `none`: undefined
behaviour, which includes `back()` of an empty vector (two_site_update_noise_finite_vmps_impl.h:748). -/
def isQNCovered (a b : List Nat) : Option Bool :=
  if a.length < b.length then some false
  else match (sorted a).getLast?, (sorted b).getLast? with
    | some x, some y => if x < y then some false else coverLoop (sorted a) (sorted b)
    | _, _ => none

theorem sorted_perm (a : List Nat) : (sorted a).Perm a := List.perm_insertionSort _ a

theorem sorted_sorted (a : List Nat) : (sorted a).Pairwise (· ≤ ·) := List.pairwise_insertionSort _ a

theorem count_sorted (a : List Nat) (x : Nat) : (sorted a).count x = a.count x := (sorted_perm a).count_eq x

theorem coverLoop_true : ∀ {a b : List Nat}, coverLoop a b = some true → ∀ x, b.count x ≤ a.count x
  | a, [], _, x => by simp
  | [], y :: ys, h, _ => by simp [coverLoop] at h
  | x :: xs, y :: ys, h, z => by
    rw [coverLoop] at h
    split at h
    · exact Nat.le_trans (coverLoop_true h z) (by rw [List.count_cons]; omega)
    · split at h
      · rename_i hxy; subst hxy
        have := coverLoop_true h z
        rw [List.count_cons, List.count_cons]; omega
      · simp at h

theorem coverLoop_false : ∀ {a b : List Nat}, a.Pairwise (· ≤ ·) → b.Pairwise (· ≤ ·) → coverLoop a b = some false →
    ∃ z w, a.count z < b.count z ∧ w ∈ a ∧ z < w
  | _, [], _, _, h => by simp [coverLoop] at h
  | [], y :: ys, _, _, h => by simp [coverLoop] at h
  | x :: xs, y :: ys, ha, hb, h => by
    rw [coverLoop] at h
    split at h
    · rename_i hxy
      obtain ⟨z, w, h1, h2, h3⟩ := coverLoop_false (List.pairwise_cons.mp ha).2 hb h
      have hz : z ∈ y :: ys := List.count_pos_iff.mp (by omega)
      have : x ≠ z := by
        rcases List.mem_cons.mp hz with rfl | hz
        · omega
        · have := (List.pairwise_cons.mp hb).1 z hz; omega
      exact ⟨z, w, by rw [List.count_cons_of_ne this]; exact h1, List.mem_cons_of_mem _ h2, h3⟩
    · rename_i hxy
      split at h
      · rename_i hxy'; subst hxy'
        obtain ⟨z, w, h1, h2, h3⟩ := coverLoop_false (List.pairwise_cons.mp ha).2 (List.pairwise_cons.mp hb).2 h
        exact ⟨z, w, by rw [List.count_cons, List.count_cons]; omega, List.mem_cons_of_mem _ h2, h3⟩
      · refine ⟨y, x, ?_, List.mem_cons_self, by omega⟩
        have : y ∉ x :: xs := by
          intro hy
          rcases List.mem_cons.mp hy with rfl | hy
          · omega
          · have := (List.pairwise_cons.mp ha).1 y hy; omega
        rw [List.count_eq_zero_of_not_mem this, List.count_cons_self]; omega

theorem coverLoop_none : ∀ {a b : List Nat} {m : Nat}, a.Pairwise (· ≤ ·) → b.Pairwise (· ≤ ·) → (∀ y, y ∈ b → y ≤ m) →
    (a = [] ∧ (∀ y, y ∈ b → y = m) ∨ a.getLast? = some m) → coverLoop a b = none →
      a.count m < b.count m ∧ ∀ x, x ≠ m → b.count x ≤ a.count x
  | _, [], _, _, _, _, _, h => by simp [coverLoop] at h
  | [], y :: ys, m, _, _, _, h1, _ => by
    rcases h1 with ⟨-, h1⟩ | h1
    · refine ⟨?_, fun x hx => ?_⟩
      · have := h1 y List.mem_cons_self
        subst this
        simp
      · rw [List.count_eq_zero_of_not_mem (fun h => hx (h1 x h))]; omega
    · simp at h1
  | x :: xs, y :: ys, m, ha, hb, hm, h1, h => by
    have h2 : (x :: xs).getLast? = some m := by
      rcases h1 with ⟨h1, -⟩ | h1
      · exact absurd h1 (by simp)
      · exact h1
    rw [coverLoop] at h
    have hym := hm y List.mem_cons_self
    split at h
    · rename_i hxy
      cases xs with
      | nil =>
        simp only [List.getLast?_singleton, Option.some.injEq] at h2
        omega
      | cons x' xs =>
        rw [List.getLast?_cons_cons] at h2
        obtain ⟨g1, g2⟩ := coverLoop_none (List.pairwise_cons.mp ha).2 hb hm (Or.inr h2) h
        refine ⟨?_, fun z hz => Nat.le_trans (g2 z hz) (by rw [List.count_cons (a := z) (b := x)]; omega)⟩
        rw [List.count_cons_of_ne (by omega)]; exact g1
    · split at h
      · rename_i hxy; subst hxy
        have h3 : xs = [] ∧ (∀ y, y ∈ ys → y = m) ∨ xs.getLast? = some m := by
          cases xs with
          | nil =>
            simp only [List.getLast?_singleton, Option.some.injEq] at h2
            refine Or.inl ⟨rfl, fun y hy => ?_⟩
            have e1 := (List.pairwise_cons.mp hb).1 y hy
            have e2 := hm y (List.mem_cons_of_mem _ hy)
            omega
          | cons x' xs => rw [List.getLast?_cons_cons] at h2; exact Or.inr h2
        obtain ⟨g1, g2⟩ := coverLoop_none (List.pairwise_cons.mp ha).2 (List.pairwise_cons.mp hb).2
          (fun y hy => hm y (List.mem_cons_of_mem _ hy)) h3 h
        exact ⟨by rw [List.count_cons, List.count_cons]; omega, fun z hz => by
          have := g2 z hz
          rw [List.count_cons, List.count_cons]; omega⟩
      · simp at h

/-- The last element of a sorted list is its maximum. -/
theorem last_max {a : List Nat} (h : a.Pairwise (· ≤ ·)) {m : Nat} (hm : a.getLast? = some m) : m ∈ a ∧ ∀ x, x ∈ a → x ≤ m := by
  obtain ⟨l, rfl⟩ := List.getLast?_eq_some_iff.mp hm
  refine ⟨by simp, fun x hx => ?_⟩
  rw [List.pairwise_append] at h
  rcases List.mem_append.mp hx with hx | hx
  · exact h.2.2 x hx m (by simp)
  · simp at hx; omega

end Verif.Algo
