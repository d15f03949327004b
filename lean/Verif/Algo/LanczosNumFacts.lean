import Verif.Algo.LanczosNum
import Mathlib.LinearAlgebra.Span.Basic
import Mathlib.Algebra.BigOperators.Fin
/-
Facts about the Lanczos recursion in exact arithmetic.
-/
namespace Verif.Algo
open Finset

variable {𝕜 V : Type} [RCLike 𝕜] [NormedAddCommGroup V] [InnerProductSpace 𝕜 V]

theorem norm_smul_normalize (γ : V) : ((‖γ‖ : ℝ) : 𝕜) • normalize 𝕜 γ = γ := by
  unfold normalize
  by_cases h : γ = 0
  · simp [h]
  · rw [smul_smul, ← RCLike.ofReal_mul, mul_inv_cancel₀ (norm_ne_zero_iff.mpr h)]
    simp

theorem inner_normalize {γ : V} (h : γ ≠ 0) : inner 𝕜 (normalize 𝕜 γ) (normalize 𝕜 γ) = (1 : 𝕜) := by
  unfold normalize
  rw [inner_smul_left, inner_smul_right, inner_self_eq_norm_sq_to_K, RCLike.conj_ofReal]
  have : (‖γ‖ : 𝕜) ≠ 0 := by simpa using h
  rw [RCLike.ofReal_inv]
  field_simp

section
variable (H : V →ₗ[𝕜] V) (v : V)

/-- The basis vectors. -/
noncomputable def kb (i : Nat) : V := (krylov H v i).cur
/-- The norms of the residuals. -/
noncomputable def kβ (i : Nat) : ℝ := (krylov H v i).β
/-- The diagonal elements. -/
noncomputable def ka (i : Nat) : ℝ := kDiag H (krylov H v i)

theorem krylov_prev (m : Nat) : (krylov H v (m + 1)).prev = kb H v m := rfl

/-- The residual in terms of the basis. -/
theorem resid_eq (m : Nat) : kResid H (m == 0) (krylov H v m) =
    H (kb H v m) - (ka H v m : 𝕜) • kb H v m - (if m = 0 then 0 else (kβ H v m : 𝕜) • kb H v (m - 1)) := by
  cases m with
  | zero => simp [kResid, kb, ka]
  | succ m => simp [kResid, krylov_prev, kb, ka, kβ]

theorem kβ_succ (m : Nat) : kβ H v (m + 1) = ‖kResid H (m == 0) (krylov H v m)‖ := rfl

theorem krec (m : Nat) : H (kb H v m) = (kβ H v (m + 1) : 𝕜) • kb H v (m + 1) + (ka H v m : 𝕜) • kb H v m +
    (if m = 0 then 0 else (kβ H v m : 𝕜) • kb H v (m - 1)) := by
  have h : (kβ H v (m + 1) : 𝕜) • kb H v (m + 1) = kResid H (m == 0) (krylov H v m) := norm_smul_normalize _
  rw [h, resid_eq]
  abel_nf

end

variable {H : V →ₗ[𝕜] V} {v : V}

/-- The basis is orthonormal as long as no residual vanishes. -/
theorem kortho (hH : H.IsSymmetric) (hv : v ≠ 0) : ∀ m, (∀ j, 1 ≤ j → j ≤ m → kβ H v j ≠ 0) →
    ∀ i j, i ≤ m → j ≤ m → inner 𝕜 (kb H v i) (kb H v j) = if i = j then (1 : 𝕜) else 0
  | 0, _, i, j, hi, hj => by
    obtain rfl : i = 0 := by omega
    obtain rfl : j = 0 := by omega
    rw [if_pos rfl]
    exact inner_normalize hv
  | m + 1, hβ, i, j, hi, hj => by
    have ih := kortho hH hv m (fun j h1 h2 => hβ j h1 (by omega))
    have hγ : kResid H (m == 0) (krylov H v m) ≠ 0 := fun h => hβ (m + 1) (by omega) (Nat.le_refl _) (by rw [kβ_succ, h, norm_zero])
    have hnew : inner 𝕜 (kb H v (m + 1)) (kb H v (m + 1)) = (1 : 𝕜) := inner_normalize hγ
    -- orthogonality to the earlier vectors
    have key : ∀ i, i ≤ m → inner 𝕜 (kb H v i) (kResid H (m == 0) (krylov H v m)) = (0 : 𝕜) := by
      intro i hi
      rw [resid_eq, inner_sub_right, inner_sub_right, inner_smul_right, ih i m hi (Nat.le_refl _), ← hH]
      have hreal : inner 𝕜 (kb H v m) (H (kb H v m)) = (ka H v m : 𝕜) := by
        have := RCLike.conj_eq_iff_re.mp (show (starRingEnd 𝕜) (inner 𝕜 (kb H v m) (H (kb H v m))) = _ by
          rw [inner_conj_symm, hH])
        rw [← this]; rfl
      by_cases him : i = m
      · subst him
        rw [if_pos rfl, hH, hreal]
        by_cases h0 : i = 0
        · simp [h0]
        · rw [if_neg h0, inner_smul_right, ih i (i - 1) (by omega) (by omega), if_neg (by omega)]
          simp
      · have hm0 : m ≠ 0 := by omega
        rw [if_neg him, if_neg hm0, krec, inner_add_left, inner_add_left, inner_smul_left, inner_smul_left, inner_smul_right,
          ih i m hi (Nat.le_refl _), if_neg him, ih (i + 1) m (by omega) (Nat.le_refl _), ih i (m - 1) hi (by omega), RCLike.conj_ofReal]
        have hz : inner 𝕜 (if i = 0 then 0 else (kβ H v i : 𝕜) • kb H v (i - 1)) (kb H v m) = (0 : 𝕜) := by
          by_cases h0 : i = 0
          · simp [h0]
          · rw [if_neg h0, inner_smul_left, ih (i - 1) m (by omega) (Nat.le_refl _), if_neg (by omega), mul_zero]
        rw [hz]
        by_cases hi' : i + 1 = m
        · subst hi'
          simp
        · rw [if_neg hi', if_neg (show ¬ i = m - 1 by omega)]
          simp
    have key' : ∀ i, i ≤ m → inner 𝕜 (kb H v i) (kb H v (m + 1)) = (0 : 𝕜) := fun i hi => by
      show inner 𝕜 (kb H v i) (normalize 𝕜 (kResid H (m == 0) (krylov H v m))) = (0 : 𝕜)
      unfold normalize
      rw [inner_smul_right, key i hi, mul_zero]
    rcases Nat.lt_or_ge i (m + 1) with hi' | hi'
    · rcases Nat.lt_or_ge j (m + 1) with hj' | hj'
      · exact ih i j (by omega) (by omega)
      · obtain rfl : j = m + 1 := by omega
        rw [if_neg (by omega)]
        exact key' i (by omega)
    · obtain rfl : i = m + 1 := by omega
      rcases Nat.lt_or_ge j (m + 1) with hj' | hj'
      · rw [if_neg (by omega), ← inner_conj_symm, key' j (by omega), map_zero]
      · obtain rfl : j = m + 1 := by omega
        rw [if_pos rfl]
        exact hnew

end Verif.Algo
