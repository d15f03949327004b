import Verif.Algo.LanczosNumFacts
import Verif.Algo.LanczosSpec
import Mathlib.Tactic.Module
import Mathlib.Tactic.LinearCombination
/-
The basis vectors span the Krylov space, and the tridiagonal matrix represents the map in it.
-/
namespace Verif.Algo
open Finset

variable {𝕜 V : Type} [RCLike 𝕜] [NormedAddCommGroup V] [InnerProductSpace 𝕜 V] {H : V →ₗ[𝕜] V} {v : V}

theorem combine_eq (n : Nat) (x : Nat → ℝ) (bs : Nat → V) : combine 𝕜 n x bs = ∑ i ∈ range n, (x i : 𝕜) • bs i := by
  induction n with
  | zero => simp [combine]
  | succ n ih =>
    rw [sum_range_succ, ← ih]
    simp [combine, List.range_succ]

/-- The span of the first `n` basis vectors. -/
def kspan (H : V →ₗ[𝕜] V) (v : V) (n : Nat) : Submodule 𝕜 V := Submodule.span 𝕜 (kb H v '' Set.Iio n)

theorem kb_mem {i n : Nat} (h : i < n) : kb H v i ∈ kspan H v n := Submodule.subset_span ⟨i, h, rfl⟩
theorem pow_mem_kry {i n : Nat} (h : i < n) : (H ^ i) v ∈ krySpace H v n := Submodule.subset_span ⟨i, h, rfl⟩

theorem kspan_mono {m n : Nat} (h : m ≤ n) : kspan H v m ≤ kspan H v n :=
  Submodule.span_mono (Set.image_mono (Set.Iio_subset_Iio h))
theorem kry_mono {m n : Nat} (h : m ≤ n) : krySpace H v m ≤ krySpace H v n :=
  Submodule.span_mono (Set.image_mono (Set.Iio_subset_Iio h))

theorem H_kspan {n : Nat} {w : V} (h : w ∈ kspan H v n) : H w ∈ kspan H v (n + 1) := by
  induction h using Submodule.span_induction with
  | mem x hx =>
    obtain ⟨i, hi, rfl⟩ := hx
    have hi : i < n := hi
    rw [krec]
    refine Submodule.add_mem _ (Submodule.add_mem _ (Submodule.smul_mem _ _ (kb_mem (by omega)))
      (Submodule.smul_mem _ _ (kb_mem (by omega)))) ?_
    split
    · exact Submodule.zero_mem _
    · exact Submodule.smul_mem _ _ (kb_mem (by omega))
  | zero => rw [map_zero]; exact Submodule.zero_mem _
  | add x y _ _ hx hy => rw [map_add]; exact Submodule.add_mem _ hx hy
  | smul c x _ hx => rw [map_smul]; exact Submodule.smul_mem _ _ hx

theorem H_kry {n : Nat} {w : V} (h : w ∈ krySpace H v n) : H w ∈ krySpace H v (n + 1) := by
  induction h using Submodule.span_induction with
  | mem x hx =>
    obtain ⟨i, hi, rfl⟩ := hx
    have hi : i < n := hi
    have := pow_mem_kry (H := H) (v := v) (show i + 1 < n + 1 by omega)
    rwa [pow_succ'] at this
  | zero => rw [map_zero]; exact Submodule.zero_mem _
  | add x y _ _ hx hy => rw [map_add]; exact Submodule.add_mem _ hx hy
  | smul c x _ hx => rw [map_smul]; exact Submodule.smul_mem _ _ hx

theorem kb_zero_eq : kb H v 0 = ((‖v‖⁻¹ : ℝ) : 𝕜) • v := rfl

theorem pow_mem_kspan (_hv : v ≠ 0) : ∀ i, (H ^ i) v ∈ kspan H v (i + 1)
  | 0 => by
    have : v = ((‖v‖ : ℝ) : 𝕜) • kb H v 0 := (norm_smul_normalize v).symm
    rw [pow_zero]
    show v ∈ _
    rw [this]
    exact Submodule.smul_mem _ _ (by rw [← this]; exact kb_mem (by omega))
  | i + 1 => by
    rw [pow_succ']
    exact H_kspan (pow_mem_kspan _hv i)

theorem kry_le_kspan (hv : v ≠ 0) (n : Nat) : krySpace H v n ≤ kspan H v n := by
  unfold krySpace
  rw [Submodule.span_le]
  rintro _ ⟨i, hi, rfl⟩
  have hi : i < n := hi
  exact kspan_mono (by omega) (pow_mem_kspan hv i)

theorem kb_mem_kry : ∀ i, kb H v i ∈ krySpace H v (i + 1) := by
  intro i
  induction i using Nat.strong_induction_on with
  | _ i ih =>
    cases i with
    | zero =>
      rw [kb_zero_eq]
      exact Submodule.smul_mem _ _ (by simpa using pow_mem_kry (H := H) (v := v) (show 0 < 0 + 1 by omega))
    | succ m =>
      show normalize 𝕜 (kResid H (m == 0) (krylov H v m)) ∈ _
      unfold normalize
      refine Submodule.smul_mem _ _ ?_
      rw [resid_eq]
      refine Submodule.sub_mem _ (Submodule.sub_mem _ (H_kry (ih m (by omega)))
        (Submodule.smul_mem _ _ (kry_mono (by omega) (ih m (by omega))))) ?_
      split
      · exact Submodule.zero_mem _
      · exact Submodule.smul_mem _ _ (kry_mono (by omega) (ih (m - 1) (by omega)))

theorem kspan_eq_kry (hv : v ≠ 0) (n : Nat) : kspan H v n = krySpace H v n := by
  refine le_antisymm ?_ (kry_le_kspan hv n)
  unfold kspan
  rw [Submodule.span_le]
  rintro _ ⟨i, hi, rfl⟩
  have hi : i < n := hi
  exact kry_mono (by omega) (kb_mem_kry i)

/-- Members of the span are combinations. -/
theorem mem_kspan {n : Nat} {w : V} (h : w ∈ kspan H v n) : ∃ y : Nat → 𝕜, w = ∑ i ∈ range n, y i • kb H v i := by
  induction h using Submodule.span_induction with
  | mem x hx =>
    obtain ⟨i, hi, rfl⟩ := hx
    refine ⟨fun j => if j = i then 1 else 0, ?_⟩
    simp [ite_smul, show i < n from hi]
  | zero => exact ⟨fun _ => 0, by simp⟩
  | add x y _ _ hx hy =>
    obtain ⟨f, rfl⟩ := hx
    obtain ⟨g, rfl⟩ := hy
    exact ⟨fun i => f i + g i, by simp [add_smul, sum_add_distrib]⟩
  | smul c x _ hx =>
    obtain ⟨f, rfl⟩ := hx
    exact ⟨fun i => c * f i, by simp [mul_smul, smul_sum]⟩

/-- No residual of the first `n` basis vectors vanishes. -/
def KGood (H : V →ₗ[𝕜] V) (v : V) (n : Nat) : Prop := ∀ j, 1 ≤ j → j < n → kβ H v j ≠ 0

theorem KGood.ortho (hH : H.IsSymmetric) (hv : v ≠ 0) {n : Nat} (hg : KGood H v n) {i j : Nat} (hi : i < n) (hj : j < n) :
    inner 𝕜 (kb H v i) (kb H v j) = if i = j then (1 : 𝕜) else 0 :=
  kortho hH hv (n - 1) (fun j h1 h2 => hg j h1 (by omega)) i j (by omega) (by omega)

/-- The next vector, times its weight, is orthogonal to all earlier ones. -/
theorem KGood.next (hH : H.IsSymmetric) (hv : v ≠ 0) {n : Nat} (hg : KGood H v n) {i : Nat} (hi : i < n) :
    (kβ H v n : 𝕜) * inner 𝕜 (kb H v i) (kb H v n) = (0 : 𝕜) := by
  by_cases h : kβ H v n = 0
  · simp [h]
  · have : KGood H v (n + 1) := fun j h1 h2 => if hj : j = n then hj ▸ h else hg j h1 (by omega)
    rw [this.ortho hH hv (by omega) (by omega), if_neg (by omega), mul_zero]

theorem inner_sum_kb (hH : H.IsSymmetric) (hv : v ≠ 0) {n : Nat} (hg : KGood H v n) (y z : Nat → 𝕜) :
    inner 𝕜 (∑ i ∈ range n, y i • kb H v i) (∑ i ∈ range n, z i • kb H v i) = ∑ i ∈ range n, (starRingEnd 𝕜) (y i) * z i := by
  rw [sum_inner]
  refine sum_congr rfl fun i hi => ?_
  rw [inner_sum]
  rw [sum_eq_single i]
  · rw [inner_smul_left, inner_smul_right, hg.ortho hH hv (mem_range.mp hi) (mem_range.mp hi), if_pos rfl, mul_one]
  · intro j hj hne
    rw [inner_smul_left, inner_smul_right, hg.ortho hH hv (mem_range.mp hi) (mem_range.mp hj), if_neg (Ne.symm hne), mul_zero, mul_zero]
  · intro h; exact absurd hi h

theorem norm_sum_kb (hH : H.IsSymmetric) (hv : v ≠ 0) {n : Nat} (hg : KGood H v n) (y : Nat → 𝕜) :
    ‖∑ i ∈ range n, y i • kb H v i‖ ^ 2 = ∑ i ∈ range n, ‖y i‖ ^ 2 := by
  have h := inner_sum_kb hH hv hg y y
  rw [inner_self_eq_norm_sq_to_K] at h
  have h2 : ∑ i ∈ range n, (starRingEnd 𝕜) (y i) * y i = ((∑ i ∈ range n, ‖y i‖ ^ 2 : ℝ) : 𝕜) := by
    rw [RCLike.ofReal_sum]
    refine sum_congr rfl fun i _ => ?_
    rw [RCLike.conj_mul]; simp
  rw [h2] at h
  exact_mod_cast h

/-- The map applied to a combination. -/
theorem H_sum_kb (x : Nat → 𝕜) : ∀ n, H (∑ i ∈ range (n + 1), x i • kb H v i) =
    ∑ i ∈ range (n + 1), ((if i = 0 then 0 else (kβ H v i : 𝕜) * x (i - 1)) + (ka H v i : 𝕜) * x i + (kβ H v (i + 1) : 𝕜) * x (i + 1)) • kb H v i
      + ((x n * (kβ H v (n + 1) : 𝕜)) • kb H v (n + 1)) - (x (n + 1) * (kβ H v (n + 1) : 𝕜)) • kb H v n
  | 0 => by
    simp only [zero_add, sum_range_one, map_smul]
    rw [krec]
    simp only [if_true, zero_add]
    module
  | n + 1 => by
    rw [sum_range_succ, map_add, H_sum_kb x n, sum_range_succ _ (n + 1), map_smul, krec H v (n + 1)]
    simp only [Nat.add_one_ne_zero, if_false, Nat.add_sub_cancel]
    module

/-- The quadratic form of a combination. -/
theorem quad_sum_kb (hH : H.IsSymmetric) (hv : v ≠ 0) (y : Nat → 𝕜) : ∀ n, KGood H v n →
    RCLike.re (inner 𝕜 (∑ i ∈ range n, y i • kb H v i) (H (∑ i ∈ range n, y i • kb H v i))) =
      ∑ i ∈ range n, ka H v i * ‖y i‖ ^ 2 + 2 * ∑ i ∈ range (n - 1), kβ H v (i + 1) * RCLike.re ((starRingEnd 𝕜) (y i) * y (i + 1))
  | 0, _ => by simp
  | n + 1, hg => by
    have hg' : KGood H v n := fun j h1 h2 => hg j h1 (by omega)
    rw [sum_range_succ, map_add, inner_add_left, inner_add_right, inner_add_right, map_add, map_add, map_add,
      quad_sum_kb hH hv y n hg']
    -- the diagonal term
    have hd : RCLike.re (inner 𝕜 (y n • kb H v n) (H (y n • kb H v n))) = ka H v n * ‖y n‖ ^ 2 := by
      rw [map_smul, inner_smul_left, inner_smul_right, ← mul_assoc, RCLike.conj_mul]
      have : ((‖y n‖ : 𝕜) ^ 2) = ((‖y n‖ ^ 2 : ℝ) : 𝕜) := by simp
      rw [this, RCLike.re_ofReal_mul, mul_comm]
      rfl
    -- the mixed terms are conjugate
    have hsym : RCLike.re (inner 𝕜 (y n • kb H v n) (H (∑ i ∈ range n, y i • kb H v i))) =
        RCLike.re (inner 𝕜 (∑ i ∈ range n, y i • kb H v i) (H (y n • kb H v n))) := by
      rw [← hH, ← inner_conj_symm, RCLike.conj_re]
    have hm : RCLike.re (inner 𝕜 (∑ i ∈ range n, y i • kb H v i) (H (y n • kb H v n))) =
        if n = 0 then 0 else kβ H v n * RCLike.re ((starRingEnd 𝕜) (y (n - 1)) * y n) := by
      rw [map_smul, inner_smul_right, sum_inner]
      cases n with
      | zero => simp
      | succ m =>
        rw [if_neg (by omega)]
        have : ∑ i ∈ range (m + 1), inner 𝕜 (y i • kb H v i) (H (kb H v (m + 1))) = (starRingEnd 𝕜) (y m) * (kβ H v (m + 1) : 𝕜) := by
          rw [sum_eq_single m]
          · rw [inner_smul_left, krec, inner_add_right, inner_add_right, inner_smul_right, inner_smul_right, if_neg (by omega),
              inner_smul_right, hg.next hH hv (by omega), hg.ortho hH hv (by omega) (by omega), if_neg (by omega),
              Nat.add_sub_cancel, hg.ortho hH hv (by omega) (by omega), if_pos rfl]
            simp
          · intro i hi hne
            have hi := mem_range.mp hi
            rw [inner_smul_left, krec, inner_add_right, inner_add_right, inner_smul_right, inner_smul_right, if_neg (by omega),
              inner_smul_right, hg.next hH hv (by omega), hg.ortho hH hv (by omega) (by omega), if_neg (by omega),
              Nat.add_sub_cancel, hg.ortho hH hv (by omega) (by omega), if_neg hne]
            simp
          · intro h; exact absurd (mem_range.mpr (by omega)) h
        rw [this, Nat.add_sub_cancel, mul_comm ((starRingEnd 𝕜) (y m)), mul_comm, mul_assoc, RCLike.re_ofReal_mul]
    rw [hd, hsym, hm, sum_range_succ]
    cases n with
    | zero => simp
    | succ m =>
      rw [if_neg (by omega)]
      simp only [Nat.add_sub_cancel, sum_range_succ]
      ring

end Verif.Algo
