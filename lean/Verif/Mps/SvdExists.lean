import Verif.Mps.Entropy
import Mathlib.Analysis.Matrix.Spectrum
import Mathlib.Analysis.Matrix.PosDef
/-
A singular value decomposition as assumed in `SvdRSpec` exists, with no vanishing singular values.
-/
namespace Verif.Mps
open Finset
open scoped ComplexOrder

variable {σ 𝕜 : Type} [RCLike 𝕜] [Fintype σ]

theorem svdMat_exists {ι : Type} [Fintype ι] {l : Nat} (M : Matrix (Fin l) ι 𝕜) : ∃ (d : Nat) (u : Fin l → Fin d → 𝕜) (s : Fin d → ℝ) (v : Fin d → ι → 𝕜),
    (∀ a b, M a b = ∑ j, u a j * (s j : 𝕜) * v j b) ∧ (∀ x y, ∑ a, star (u a x) * u a y = if x = y then 1 else 0) ∧
    (∀ x y, ∑ b, v x b * star (v y b) = if x = y then 1 else 0) ∧ ∀ j, 0 < s j := by
  classical
  have hA : (M * M.conjTranspose).IsHermitian := Matrix.isHermitian_mul_conjTranspose_self M
  have hp : (M * M.conjTranspose).PosSemidef := Matrix.posSemidef_self_mul_conjTranspose M
  let U : Matrix (Fin l) (Fin l) 𝕜 := hA.eigenvectorUnitary
  let ev := hA.eigenvalues
  have hU1 : U.conjTranspose * U = 1 := Matrix.UnitaryGroup.star_mul_self hA.eigenvectorUnitary
  have hU2 : U * U.conjTranspose = 1 := mul_eq_one_comm.mp hU1
  have hs : M * M.conjTranspose = U * Matrix.diagonal (fun j => (ev j : 𝕜)) * U.conjTranspose := hA.spectral_theorem
  have hn : ∀ j, 0 ≤ ev j := hp.eigenvalues_nonneg
  let B := U.conjTranspose * M
  have hB : B * B.conjTranspose = Matrix.diagonal (fun j => (ev j : 𝕜)) := by
    show U.conjTranspose * M * (U.conjTranspose * M).conjTranspose = _
    rw [Matrix.conjTranspose_mul, Matrix.conjTranspose_conjTranspose]
    calc U.conjTranspose * M * (M.conjTranspose * U) = U.conjTranspose * (M * M.conjTranspose) * U := by simp only [Matrix.mul_assoc]
      _ = (U.conjTranspose * U) * Matrix.diagonal (fun j => (ev j : 𝕜)) * (U.conjTranspose * U) := by rw [hs]; simp only [Matrix.mul_assoc]
      _ = _ := by rw [hU1, Matrix.one_mul, Matrix.mul_one]
  have hB' : ∀ x y, ∑ b, B x b * star (B y b) = if x = y then (ev x : 𝕜) else 0 := by
    intro x y
    have := congrFun (congrFun hB x) y
    rw [Matrix.mul_apply, Matrix.diagonal_apply] at this
    exact this
  have hz : ∀ x, ev x = 0 → ∀ b, B x b = 0 := by
    intro x hx b
    have h := hB' x x
    rw [if_pos rfl, hx] at h
    have e : ∀ b, B x b * star (B x b) = ((‖B x b‖ ^ 2 : ℝ) : 𝕜) := fun b => by
      rw [RCLike.star_def, RCLike.mul_conj]; norm_cast
    simp only [e] at h
    rw [← RCLike.ofReal_sum] at h
    have h' := (sum_eq_zero_iff_of_nonneg (fun _ _ => by positivity)).mp (RCLike.ofReal_injective h) b (mem_univ b)
    simpa using h'
  have hM : ∀ a b, M a b = ∑ c, U a c * B c b := by
    intro a b
    have : M = U * B := by
      show M = U * (U.conjTranspose * M)
      rw [← Matrix.mul_assoc, hU2, Matrix.one_mul]
    exact (congrFun (congrFun this a) b).trans (Matrix.mul_apply)
  let S := {c : Fin l // ev c ≠ 0}
  let e : Fin (Fintype.card S) ≃ S := (Fintype.equivFin S).symm
  have sp : ∀ j : S, 0 < √(ev j) := fun j => Real.sqrt_pos.mpr (lt_of_le_of_ne (hn j) (Ne.symm j.2))
  refine ⟨Fintype.card S, fun a j => U a (e j), fun j => √(ev (e j)), fun j b => (√(ev (e j)) : 𝕜)⁻¹ * B (e j) b, fun a b => ?_, fun x y => ?_, fun x y => ?_, fun j => sp (e j)⟩
  · have e1 : ∀ j : Fin (Fintype.card S), U a (e j) * (√(ev (e j)) : 𝕜) * ((√(ev (e j)) : 𝕜)⁻¹ * B (e j) b) = U a (e j) * B (e j) b := by
      intro j
      have : (√(ev (e j)) : 𝕜) ≠ 0 := by
        rw [Ne, RCLike.ofReal_eq_zero]
        exact (sp (e j)).ne'
      field_simp
    rw [sum_congr rfl fun j _ => e1 j, e.sum_comp (fun c : S => U a c * B c b), hM]
    rw [← Finset.sum_subtype (univ.filter fun c => ev c ≠ 0) (by simp) (fun c => U a c * B c b), Finset.sum_filter]
    refine sum_congr rfl fun c _ => ?_
    by_cases h : ev c = 0
    · rw [if_neg (by simpa using h), hz c h, mul_zero]
    · rw [if_pos h]
  · have := congrFun (congrFun hU1 (e x)) (e y)
    rw [Matrix.mul_apply, Matrix.one_apply] at this
    refine this.trans ?_
    simp [Subtype.ext_iff.symm]
  · have e1 : ∀ b, (√(ev (e x)) : 𝕜)⁻¹ * B (e x) b * star ((√(ev (e y)) : 𝕜)⁻¹ * B (e y) b) =
        (√(ev (e x)) : 𝕜)⁻¹ * (√(ev (e y)) : 𝕜)⁻¹ * (B (e x) b * star (B (e y) b)) := by
      intro b
      rw [star_mul', star_inv₀, RCLike.star_def, RCLike.conj_ofReal]
      ring
    rw [sum_congr rfl fun b _ => e1 b, ← Finset.mul_sum, hB']
    by_cases h : x = y
    · subst h
      rw [if_pos rfl, if_pos rfl, ← mul_inv, ← RCLike.ofReal_mul, Real.mul_self_sqrt (hn _)]
      exact inv_mul_cancel₀ (by rw [Ne, RCLike.ofReal_eq_zero]; exact (e x).2)
    · rw [if_neg h, if_neg, mul_zero]
      intro h'
      exact h (e.injective (Subtype.ext h'))

/-- There is a decomposition as assumed, without vanishing singular values. -/
theorem svdR_exists : ∃ svd3 : Ten σ 𝕜 → SvdR σ 𝕜, SvdRSpec svd3 ∧ ∀ t k, k < (svd3 t).vt.l → (svd3 t).s k ≠ 0 := by
  classical
  have key : ∀ t : Ten σ 𝕜, ∃ x : SvdR σ 𝕜, x.vt.r = t.r ∧ (∀ s a b, a < t.l → b < t.r → t.v s a b = ∑ j ∈ range x.vt.l, x.u a j * (x.s j : 𝕜) * x.vt.v s j b) ∧
      (∀ p, p < x.vt.l → ∀ q, q < x.vt.l → ∑ a ∈ range t.l, star (x.u a p) * x.u a q = if p = q then 1 else 0) ∧ RightIso x.vt ∧ ∀ k, k < x.vt.l → x.s k ≠ 0 := by
    intro t
    obtain ⟨d, u, s, v, h1, h2, h3, h4⟩ := svdMat_exists (ι := σ × Fin t.r) (fun (a : Fin t.l) b => t.v b.1 a b.2)
    refine ⟨⟨fun a j => if h : a < t.l ∧ j < d then u ⟨a, h.1⟩ ⟨j, h.2⟩ else 0, fun j => if h : j < d then s ⟨j, h⟩ else 0,
      ⟨d, t.r, fun x j b => if h : j < d ∧ b < t.r then v ⟨j, h.1⟩ (x, ⟨b, h.2⟩) else 0⟩⟩, rfl, ?_, ?_, ?_, ?_⟩
    · intro x a b ha hb
      refine (h1 ⟨a, ha⟩ (x, ⟨b, hb⟩)).trans ?_
      rw [Finset.sum_range]
      exact sum_congr rfl fun j _ => by simp [ha, hb]
    · intro p hp q hq
      have := h2 ⟨p, hp⟩ ⟨q, hq⟩
      simp only [Fin.mk.injEq] at this
      rw [← this, Finset.sum_range]
      exact sum_congr rfl fun a _ => by
        have hp' : p < d := hp
        have hq' : q < d := hq
        simp [hp', hq']
    · intro p hp q hq
      have hp' : p < d := hp
      have hq' : q < d := hq
      have := h3 ⟨p, hp⟩ ⟨q, hq⟩
      simp only [Fin.mk.injEq] at this
      rw [← this, Fintype.sum_prod_type]
      refine sum_congr rfl fun x _ => ?_
      rw [Finset.sum_range]
      exact sum_congr rfl fun b _ => by simp [hp', hq']
    · intro k hk
      have hk' : k < d := hk
      simp only [hk', dif_pos]
      exact (h4 _).ne'
  choose f hf using key
  exact ⟨f, ⟨fun t => (hf t).1, fun t => (hf t).2.1, fun t => (hf t).2.2.1, fun t => (hf t).2.2.2.1⟩, fun t => (hf t).2.2.2.2⟩

end Verif.Mps
