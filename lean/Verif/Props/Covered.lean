import Verif.Algo.Covered
/-
Property C41: the sector-coverage test.
-/
namespace Verif.Props
open Verif.Algo

/-- **C41** (exact behaviour on non-empty inputs). The test reads past the end of its first vector exactly if the
largest hash `m` of the first argument is also the largest of the second and occurs there more often, every other
hash of the second occurs as often in the first, and the second argument is not longer. It answers "covered" exactly
if every hash occurs at least as often in the first argument; in all other cases it answers "not covered". -/
theorem C41_exact {a b : List Nat} (ha : a ≠ []) (hb : b ≠ []) :
    (isQNCovered a b = some true ↔ ∀ x, b.count x ≤ a.count x) ∧
    (isQNCovered a b = none ↔ b.length ≤ a.length ∧ ∃ m, m ∈ a ∧ (∀ x, x ∈ a ++ b → x ≤ m) ∧ a.count m < b.count m ∧
      ∀ x, x ≠ m → b.count x ≤ a.count x) := by
  have hle : (∀ x, b.count x ≤ a.count x) → b.length ≤ a.length := fun h =>
    (List.subperm_ext_iff.mpr fun x _ => h x).length_le
  obtain ⟨ma, hma⟩ : ∃ m, (sorted a).getLast? = some m := by
    cases h : (sorted a).getLast? with
    | none => rw [List.getLast?_eq_none_iff] at h; exact absurd ((sorted_perm a).symm.trans (h ▸ .refl _)).eq_nil ha
    | some m => exact ⟨m, rfl⟩
  obtain ⟨mb, hmb⟩ : ∃ m, (sorted b).getLast? = some m := by
    cases h : (sorted b).getLast? with
    | none => rw [List.getLast?_eq_none_iff] at h; exact absurd ((sorted_perm b).symm.trans (h ▸ .refl _)).eq_nil hb
    | some m => exact ⟨m, rfl⟩
  obtain ⟨a1, a2⟩ := last_max (sorted_sorted a) hma
  obtain ⟨b1, b2⟩ := last_max (sorted_sorted b) hmb
  have ca : ∀ x, x ∈ sorted a ↔ x ∈ a := fun x => (sorted_perm a).mem_iff
  have cb : ∀ x, x ∈ sorted b ↔ x ∈ b := fun x => (sorted_perm b).mem_iff
  unfold isQNCovered
  rw [hma, hmb]
  by_cases h1 : a.length < b.length
  · rw [if_pos h1]
    refine ⟨⟨by simp, fun h => ?_⟩, ⟨by simp, fun h => by omega⟩⟩
    have := hle h
    omega
  rw [if_neg h1]
  simp only
  by_cases h2 : ma < mb
  · rw [if_pos h2]
    refine ⟨⟨by simp, fun h => ?_⟩, ⟨by simp, fun ⟨_, m, g1, g2, _⟩ => ?_⟩⟩
    · have : mb ∈ a := List.count_pos_iff.mp (Nat.lt_of_lt_of_le (List.count_pos_iff.mpr ((cb mb).mp b1)) (h mb))
      have := a2 mb ((ca mb).mpr this)
      omega
    · have e1 := a2 m ((ca m).mpr g1)
      have e2 := g2 mb (List.mem_append_right _ ((cb mb).mp b1))
      omega
  rw [if_neg h2]
  have hb2 : ∀ y, y ∈ sorted b → y ≤ ma := fun y hy => by have := b2 y hy; omega
  cases hc : coverLoop (sorted a) (sorted b) with
  | none =>
    obtain ⟨g1, g2⟩ := coverLoop_none (sorted_sorted a) (sorted_sorted b) hb2 (Or.inr hma) hc
    simp only [count_sorted] at g1 g2
    refine ⟨⟨by simp, fun h => ?_⟩, ⟨fun _ => ⟨by omega, ma, (ca ma).mp a1, fun x hx => ?_, g1, g2⟩, fun _ => rfl⟩⟩
    · have := h ma; omega
    · rcases List.mem_append.mp hx with hx | hx
      · exact a2 x ((ca x).mpr hx)
      · exact hb2 x ((cb x).mpr hx)
  | some v =>
    cases v with
    | true =>
      have := coverLoop_true hc
      simp only [count_sorted] at this
      refine ⟨⟨fun _ => this, fun _ => rfl⟩, ⟨by simp, fun ⟨_, m, _, _, g, _⟩ => ?_⟩⟩
      have := this m
      omega
    | false =>
      obtain ⟨z, w, g1, g2, g3⟩ := coverLoop_false (sorted_sorted a) (sorted_sorted b) hc
      simp only [count_sorted] at g1
      refine ⟨⟨by simp, fun h => ?_⟩, ⟨by simp, fun ⟨_, m, q1, q2, q3, q4⟩ => ?_⟩⟩
      · have := h z; omega
      · have := q4 z (fun e => by
          subst e
          have := q2 w (List.mem_append_left _ ((ca w).mp g2))
          omega)
        omega

/-- **C41**. For non-empty lists of sectors without repetition, in which different quantum numbers have different
hashes, the test answers whether every sector of the second argument occurs in the first, and stays in bounds. -/
theorem C41_inclusion {Q : Type} [DecidableEq Q] {hash : Q → Nat} {a b : List Q}
    (hinj : ∀ p q, p ∈ a ++ b → q ∈ a ++ b → hash p = hash q → p = q) (na : a.Nodup) (nb : b.Nodup) (ha : a ≠ []) (hb : b ≠ []) :
    isQNCovered (a.map hash) (b.map hash) = some (decide (∀ q, q ∈ b → q ∈ a)) := by
  have na' : (a.map hash).Nodup := List.nodup_map_iff_inj_on na |>.mpr
    fun p hp q hq h => hinj p q (List.mem_append_left _ hp) (List.mem_append_left _ hq) h
  have nb' : (b.map hash).Nodup := List.nodup_map_iff_inj_on nb |>.mpr
    fun p hp q hq h => hinj p q (List.mem_append_right _ hp) (List.mem_append_right _ hq) h
  obtain ⟨h1, h2⟩ := C41_exact (a := a.map hash) (b := b.map hash) (by simpa using ha) (by simpa using hb)
  have hsub : (∀ x, (b.map hash).count x ≤ (a.map hash).count x) ↔ ∀ q, q ∈ b → q ∈ a := by
    constructor
    · intro h q hq
      have : 0 < (a.map hash).count (hash q) :=
        Nat.lt_of_lt_of_le (List.count_pos_iff.mpr (List.mem_map.mpr ⟨q, hq, rfl⟩)) (h (hash q))
      obtain ⟨p, hp, e⟩ := List.mem_map.mp (List.count_pos_iff.mp this)
      rw [← hinj p q (List.mem_append_left _ hp) (List.mem_append_right _ hq) e]
      exact hp
    · intro h x
      by_cases hx : x ∈ b.map hash
      · obtain ⟨q, hq, rfl⟩ := List.mem_map.mp hx
        rw [List.count_eq_one_of_mem nb' hx, List.count_eq_one_of_mem na' (List.mem_map.mpr ⟨q, h q hq, rfl⟩)]
      · rw [List.count_eq_zero_of_not_mem hx]; omega
  cases hv : isQNCovered (a.map hash) (b.map hash) with
  | none =>
    obtain ⟨-, m, g1, -, g3, -⟩ := h2.mp hv
    rw [List.count_eq_one_of_mem na' g1] at g3
    have := List.nodup_iff_count_le_one.mp nb' m
    omega
  | some v =>
    cases v with
    | true => rw [decide_eq_true (hsub.mp (h1.mp hv))]
    | false =>
      rw [decide_eq_false]
      intro h
      rw [h1.mpr (hsub.mpr h)] at hv
      simp at hv

example : isQNCovered ([3, 1, 2].map id) ([2, 3].map id) = some true ∧ isQNCovered ([3, 1, 2].map id) ([2, 0].map id) = some false := by
  decide +kernel

/-- **C41** (the code). A repeated sector of largest hash makes the test read past the end, and so does an empty
list. -/
theorem C41_out_of_bounds_violation : isQNCovered [1, 5] [5, 5] = none ∧ ∀ a, isQNCovered a [] = none := by
  refine ⟨by decide +kernel, fun a => ?_⟩
  unfold isQNCovered
  rw [if_neg (by simp)]
  cases (sorted a).getLast? <;> simp [sorted]

end Verif.Props
