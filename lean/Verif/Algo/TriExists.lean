import Verif.Algo.LanczosSpec
import Mathlib.Analysis.InnerProductSpace.Spectrum
import Mathlib.Analysis.InnerProductSpace.PiL2
/-
A lowest eigenpair of a symmetric tridiagonal matrix always exists.
-/
namespace Verif.Algo
open Finset

/-- One row of the matrix times a vector. -/
def triRow (a b : Nat → ℝ) (n : Nat) (x : Nat → ℝ) (i : Nat) : ℝ :=
  (if i = 0 then 0 else b (i - 1) * x (i - 1)) + a i * x i + (if i + 1 < n then b i * x (i + 1) else 0)

theorem tri_form (a b x z : Nat → ℝ) (n : Nat) : ∑ i ∈ range n, z i * triRow a b n x i =
    ∑ i ∈ range n, a i * (x i * z i) + ∑ i ∈ range (n - 1), b i * (x i * z (i + 1) + z i * x (i + 1)) := by
  cases n with
  | zero => simp
  | succ k =>
    have h1 : ∑ i ∈ range (k + 1), z i * (if i = 0 then 0 else b (i - 1) * x (i - 1)) = ∑ i ∈ range k, b i * (x i * z (i + 1)) := by
      rw [sum_range_succ']
      simp only [if_true, mul_zero, add_zero, Nat.add_one_ne_zero, if_false, Nat.add_sub_cancel]
      exact sum_congr rfl fun i _ => by ring
    have h2 : ∑ i ∈ range (k + 1), z i * (if i + 1 < k + 1 then b i * x (i + 1) else 0) = ∑ i ∈ range k, b i * (z i * x (i + 1)) := by
      rw [sum_range_succ, if_neg (by omega), mul_zero, add_zero]
      refine sum_congr rfl fun i hi => ?_
      rw [if_pos (by have := mem_range.mp hi; omega)]
      ring
    simp only [triRow, mul_add, sum_add_distrib, Nat.add_sub_cancel]
    rw [h1, h2]
    have h3 : ∑ i ∈ range (k + 1), z i * (a i * x i) = ∑ i ∈ range (k + 1), a i * (x i * z i) := sum_congr rfl fun i _ => by ring
    rw [h3]
    ring

/-- A vector continued by zeros. -/
def ext {n : Nat} (y : EuclideanSpace ℝ (Fin n)) (i : Nat) : ℝ := if h : i < n then y ⟨i, h⟩ else 0

theorem ext_fin {n : Nat} (y : EuclideanSpace ℝ (Fin n)) (i : Fin n) : ext y i.1 = y i := by simp [ext]

/-- The matrix as a map. -/
noncomputable def triMap (a b : Nat → ℝ) (n : Nat) : EuclideanSpace ℝ (Fin n) →ₗ[ℝ] EuclideanSpace ℝ (Fin n) where
  toFun y := WithLp.toLp 2 fun i => triRow a b n (ext y) i.1
  map_add' y z := by
    ext i
    simp only [PiLp.add_apply, triRow]
    have : ∀ j, ext (y + z) j = ext y j + ext z j := fun j => by unfold ext; split <;> simp
    simp only [this]
    split <;> split <;> ring
  map_smul' c y := by
    ext i
    simp only [PiLp.smul_apply, triRow, RingHom.id_apply, smul_eq_mul]
    have : ∀ j, ext (c • y) j = c * ext y j := fun j => by unfold ext; split <;> simp
    simp only [this]
    split <;> split <;> ring

theorem inner_ext {n : Nat} (y z : EuclideanSpace ℝ (Fin n)) : inner ℝ y z = ∑ i ∈ range n, ext z i * ext y i := by
  rw [PiLp.inner_apply, ← Fin.sum_univ_eq_sum_range (fun i => ext z i * ext y i) n]
  exact sum_congr rfl fun i _ => by simp [ext_fin, mul_comm]

theorem ext_triMap (a b : Nat → ℝ) (n : Nat) (y : EuclideanSpace ℝ (Fin n)) {i : Nat} (h : i < n) :
    ext (triMap a b n y) i = triRow a b n (ext y) i := by
  simp [ext, h, triMap]

theorem inner_triMap (a b : Nat → ℝ) (n : Nat) (y z : EuclideanSpace ℝ (Fin n)) : inner ℝ y (triMap a b n z) =
    ∑ i ∈ range n, a i * (ext z i * ext y i) + ∑ i ∈ range (n - 1), b i * (ext z i * ext y (i + 1) + ext y i * ext z (i + 1)) := by
  rw [inner_ext, ← tri_form]
  exact sum_congr rfl fun i hi => by rw [ext_triMap _ _ _ _ (mem_range.mp hi), mul_comm]

theorem triMap_symm (a b : Nat → ℝ) (n : Nat) : (triMap a b n).IsSymmetric := by
  intro y z
  rw [real_inner_comm, inner_triMap, inner_triMap]
  congr 1
  · exact sum_congr rfl fun i _ => by ring
  · exact sum_congr rfl fun i _ => by ring

theorem exists_lowestTri (a b : Nat → ℝ) {n : Nat} (hn : 1 ≤ n) : ∃ p : ℝ × (Nat → ℝ), LowestTri a b n p.1 p.2 := by
  have hT := triMap_symm a b n
  have hd : Module.finrank ℝ (EuclideanSpace ℝ (Fin n)) = n := finrank_euclideanSpace_fin
  have : Nonempty (Fin n) := ⟨⟨0, hn⟩⟩
  obtain ⟨k, hk⟩ := Finite.exists_min (hT.eigenvalues hd)
  let u := hT.eigenvectorBasis hd
  refine ⟨(hT.eigenvalues hd k, ext (u k)), ?_, ?_, ?_⟩
  · intro i hi
    have h := hT.apply_eigenvectorBasis hd k
    have h2 : ext (triMap a b n (u k)) i = ext ((hT.eigenvalues hd k : ℝ) • u k) i := by
      rw [show triMap a b n (u k) = _ from h]; rfl
    rw [ext_triMap _ _ _ _ hi] at h2
    have h3 : ext ((hT.eigenvalues hd k : ℝ) • u k) i = hT.eigenvalues hd k * ext (u k) i := by simp [ext, hi]
    rw [h3] at h2
    exact h2
  · have h : inner ℝ (u k) (u k) = (1 : ℝ) := by
      rw [real_inner_self_eq_norm_sq, u.orthonormal.1 k, one_pow]
    rw [inner_ext] at h
    rw [← h]
    exact sum_congr rfl fun i _ => by ring
  · intro y
    let w : EuclideanSpace ℝ (Fin n) := WithLp.toLp 2 fun i => y i.1
    have hw : ∀ i, i < n → ext w i = y i := fun i hi => by simp [ext, hi, w]
    have e1 : inner ℝ w w = ∑ i ∈ range n, y i ^ 2 := by
      rw [inner_ext]
      exact sum_congr rfl fun i hi => by rw [hw i (mem_range.mp hi)]; ring
    have e2 : inner ℝ w (triMap a b n w) = ∑ i ∈ range n, a i * y i ^ 2 + 2 * ∑ i ∈ range (n - 1), b i * (y i * y (i + 1)) := by
      rw [inner_triMap, mul_sum]
      congr 1
      · exact sum_congr rfl fun i hi => by rw [hw i (mem_range.mp hi)]; ring
      · refine sum_congr rfl fun i hi => ?_
        have := mem_range.mp hi
        rw [hw i (by omega), hw (i + 1) (by omega)]; ring
    rw [← e1, ← e2]
    rw [← u.sum_inner_mul_inner w w, ← u.sum_inner_mul_inner w (triMap a b n w), mul_sum]
    refine sum_le_sum fun i _ => ?_
    have h : inner ℝ (u i) (triMap a b n w) = hT.eigenvalues hd i * inner ℝ (u i) w := by
      rw [← hT, show triMap a b n (u i) = _ from hT.apply_eigenvectorBasis hd i, inner_smul_left]
      rfl
    rw [h, real_inner_comm w (u i)]
    have := hk i
    nlinarith [mul_self_nonneg (inner ℝ (u i) w)]

end Verif.Algo
