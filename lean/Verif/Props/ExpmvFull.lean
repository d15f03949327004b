import Verif.Algo.ExpmvExact
import Mathlib.Analysis.Matrix.Hermitian
import Mathlib.LinearAlgebra.Matrix.Notation
/-
C58, without a condition on the Krylov space.
-/
namespace Verif.Props
open Finset Verif.Algo

variable {V : Type} [NormedAddCommGroup V] [InnerProductSpace ℂ V] [FiniteDimensional ℂ V]

/-- **C58** (exact). With the tolerance off and an iteration limit above the dimension handed over, which is not less than that of the space, the serial solver returns
exactly `exp(-i δ H) v`. -/
theorem C58_exact_full {H : V →L[ℂ] V} (hH : (H : V →ₗ[ℂ] V).IsSymmetric) {v : V} (hv : v ≠ 0) {eig : EigSolver} (he : Diagonalises eig) (δ : ℝ) {K dim : Nat} {err : ℝ}
    (hK : 2 ≤ K) (herr : err ≤ 0) (hd : Module.finrank ℂ V ≤ dim) (hdK : dim < K) :
    ∃ r, expSolve (H : V →ₗ[ℂ] V) v eig δ K dim err = some r ∧ r.vec = NormedSpace.exp ((-(δ : ℂ) * Complex.I) • H) v := by
  haveI : CompleteSpace V := FiniteDimensional.complete ℂ V
  obtain ⟨r, h1, h2⟩ := C58_exact hH hv he δ hK dim err
  obtain ⟨r', h1', h3, -⟩ := C58_expmv hH hv he δ hK dim err
  obtain ⟨r'', h1'', hz⟩ := expLoop_inv hH hv eig he δ ‖v‖ herr hd hdK K 0 (fun _ => 0) (fun _ => 0) (by omega) (by omega) (fun j a b => by omega)
  obtain rfl := Option.some.inj (h1.symm.trans h1')
  obtain rfl := Option.some.inj (h1.symm.trans h1'')
  exact ⟨r, h1, h2 (pow_mem_of_stop hv h3 hz)⟩

/-- The hypotheses are met: the Pauli matrix `σʸ` on two components, with `K = 3`. -/
example : ∃ (eig : EigSolver) (H : EuclideanSpace ℂ (Fin 2) →L[ℂ] EuclideanSpace ℂ (Fin 2)) (v : EuclideanSpace ℂ (Fin 2)), Diagonalises eig ∧
    (H : EuclideanSpace ℂ (Fin 2) →ₗ[ℂ] EuclideanSpace ℂ (Fin 2)).IsSymmetric ∧ v ≠ 0 ∧ (∀ c : ℂ, H v ≠ c • v) ∧ Module.finrank ℂ (EuclideanSpace ℂ (Fin 2)) ≤ 2 := by
  obtain ⟨eig, he⟩ := eig_exists
  have hM : (!![0, -Complex.I; Complex.I, 0] : Matrix (Fin 2) (Fin 2) ℂ).IsHermitian := by
    ext i j; fin_cases i <;> fin_cases j <;> simp
  refine ⟨eig, LinearMap.toContinuousLinearMap (Matrix.toEuclideanLin !![0, -Complex.I; Complex.I, 0]), EuclideanSpace.single 0 1, he, ?_, ?_, ?_, ?_⟩
  · exact Matrix.isSymmetric_toEuclideanLin_iff.mpr hM
  · simp
  · intro c h
    have := congrArg (fun w : EuclideanSpace ℂ (Fin 2) => w 1) h
    simp [Matrix.toEuclideanLin, Matrix.mulVec, dotProduct, Fin.sum_univ_two] at this
  · simp

end Verif.Props
