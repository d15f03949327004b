import Verif.Algo.ExpmvFacts
/-
C58: the Lanczos exponential solver, in exact arithmetic, conserves norm and energy, and is exact as soon as the Krylov
space it has built is invariant. The MPI version drops the norm of the initial state.
-/
namespace Verif.Props
open Verif.Algo Finset

variable {V : Type} [NormedAddCommGroup V] [InnerProductSpace ℂ V]

/-- The tridiagonal eigensolver does what LAPACK promises. -/
def Diagonalises (eig : EigSolver) : Prop := ∀ a b n, 1 ≤ n → TriEig a b n (eig a b n).1 (eig a b n).2

theorem exp_ok {H : V →ₗ[ℂ] V} (hH : H.IsSymmetric) {v : V} (hv : v ≠ 0) {δ s : ℝ} {r : ExpRes V} (h : ExpOk H v δ s r) :
    ‖r.vec‖ = |s| ∧ r.vec ∈ krySpace H v r.iters ∧
      inner ℂ r.vec (H r.vec) = ((s / ‖v‖) ^ 2 : ℝ) * inner ℂ v (H v) ∧
      ((H ^ r.iters) v ∈ krySpace H v r.iters → ∃ (u : Nat → V) (d : Nat → ℝ),
        (∀ j < r.iters, H (u j) = (d j : ℂ) • u j) ∧ v = ∑ j ∈ range r.iters, u j ∧
        r.vec = ((s / ‖v‖ : ℝ) : ℂ) • ∑ j ∈ range r.iters, Complex.exp ((-δ * d j : ℝ) * Complex.I) • u j) := by
  obtain ⟨hn, hg, d, z, hz, hvec⟩ := h
  have hnv : ‖v‖ ≠ 0 := norm_ne_zero_iff.mpr hv
  have hrow := hz.rows 0 0 hn hn
  rw [if_pos rfl] at hrow
  have hc : ∀ j, ‖phase δ (d j) * (z 0 j : ℂ)‖ ^ 2 = z 0 j * z 0 j := fun j => by
    rw [norm_mul, norm_phase, one_mul, Complex.norm_real, Real.norm_eq_abs, sq_abs, sq]
  refine ⟨?_, ?_, ?_, ?_⟩
  · rw [hvec, norm_smul, Complex.norm_real, Real.norm_eq_abs]
    have h1 := inner_comb hH hv hg hz (fun j => phase δ (d j) * (z 0 j : ℂ)) (fun j => phase δ (d j) * (z 0 j : ℂ))
    have h2 : ∑ j ∈ range r.iters, (starRingEnd ℂ) (phase δ (d j) * (z 0 j : ℂ)) * (phase δ (d j) * (z 0 j : ℂ)) = ((1 : ℝ) : ℂ) := by
      rw [← hrow, Complex.ofReal_sum]
      refine sum_congr rfl fun j _ => ?_
      rw [← Complex.normSq_eq_conj_mul_self, Complex.normSq_eq_norm_sq, hc]
    rw [h2, inner_self_eq_norm_sq_to_K] at h1
    have h3 : ‖∑ j ∈ range r.iters, (phase δ (d j) * (z 0 j : ℂ)) • ritz H v r.iters z j‖ ^ 2 = 1 :=
      Complex.ofReal_injective (by rw [Complex.ofReal_pow]; exact h1)
    rw [(pow_eq_one_iff_of_nonneg (norm_nonneg _) (by norm_num)).mp h3, mul_one]
  · rw [← kspan_eq_kry hv, hvec]
    exact Submodule.smul_mem _ _ (Submodule.sum_mem _ fun j _ => Submodule.smul_mem _ _ (ritz_mem j))
  · have e1 := quad_comb hH hv hg hz hn (fun j => phase δ (d j) * (z 0 j : ℂ))
    have e2 := quad_comb hH hv hg hz hn (fun j => (z 0 j : ℂ))
    rw [← kb_zero_ritz hz hn] at e2
    have e3 : inner ℂ v (H v) = ((‖v‖ ^ 2 : ℝ) : ℂ) * inner ℂ (kb H v 0) (H (kb H v 0)) := by
      have hv' : H v = (‖v‖ : ℂ) • H (kb H v 0) := by rw [← map_smul, ← v_eq_kb]
      have : inner ℂ v (H v) = inner ℂ ((‖v‖ : ℂ) • kb H v 0) (H v) := by rw [← v_eq_kb]
      rw [this, hv', inner_smul_left, inner_smul_right, Complex.conj_ofReal]
      push_cast; ring
    rw [hvec, map_smul, inner_smul_left, inner_smul_right, e1, e3, e2, Complex.conj_ofReal]
    simp only [hc]
    have : ∀ j, z 0 j * z 0 j = ‖(z 0 j : ℂ)‖ ^ 2 := fun j => by rw [Complex.norm_real, Real.norm_eq_abs, sq_abs, sq]
    simp only [this]
    push_cast
    have : (‖v‖ : ℂ) ≠ 0 := by exact_mod_cast hnv
    field_simp
  · intro hi
    obtain ⟨m, hm⟩ : ∃ m, r.iters = m + 1 := ⟨r.iters - 1, by omega⟩
    have hzero : (kβ H v r.iters : ℂ) • kb H v r.iters = 0 := by
      rw [hm] at hg hi ⊢
      exact kb_stop hH hv hg hi
    refine ⟨fun j => ((‖v‖ : ℂ) * (z 0 j : ℂ)) • ritz H v r.iters z j, d, ?_, ?_, ?_⟩
    · intro j hj
      rw [map_smul, ritz_H hz hn hj, mul_smul (z (r.iters - 1) j : ℂ), hzero, smul_zero, add_zero, smul_comm]
    · simp only [mul_smul, ← smul_sum]
      rw [← kb_zero_ritz hz hn]
      exact v_eq_kb
    · rw [hvec]
      simp only [smul_sum, smul_smul]
      refine sum_congr rfl fun j _ => ?_
      congr 1
      have : (‖v‖ : ℂ) ≠ 0 := by exact_mod_cast hnv
      push_cast
      simp only [phase]
      push_cast
      field_simp

/-- The serial solver. For every symmetric effective Hamiltonian, non-zero state, time step, iteration limit of at least
two, dimension and tolerance it returns; the result lies in the Krylov space of as many vectors as it reports iterations;
norm and energy are those of the initial state. -/
theorem C58_expmv {H : V →ₗ[ℂ] V} (hH : H.IsSymmetric) {v : V} (hv : v ≠ 0) {eig : EigSolver} (he : Diagonalises eig) (δ : ℝ)
    {K : Nat} (hK : 2 ≤ K) (dim : Nat) (err : ℝ) :
    ∃ r, expSolve H v eig δ K dim err = some r ∧ 1 ≤ r.iters ∧ r.iters ≤ K ∧ r.vec ∈ krySpace H v r.iters ∧
      ‖r.vec‖ = ‖v‖ ∧ inner ℂ r.vec (H r.vec) = inner ℂ v (H v) := by
  obtain ⟨r, h, ho, hk⟩ := expLoop_ok (H := H) (v := v) eig he δ ‖v‖ K dim err K 0 (fun _ => 0) (fun _ => 0) (by omega) (by omega)
    (fun j a b => by omega)
  obtain ⟨h1, h2, h3, _⟩ := exp_ok hH hv ho
  refine ⟨r, h, ho.1, hk, h2, by rw [h1, abs_of_nonneg (norm_nonneg _)], ?_⟩
  rw [h3, div_self (norm_ne_zero_iff.mpr hv)]
  simp

/-- The serial solver is exact, `exp(-i δ H) v`, if the Krylov space it has built is invariant. (Always the case in finitely
many iterations in finite dimension.) -/
theorem C58_exact [CompleteSpace V] {H : V →L[ℂ] V} (hH : (H : V →ₗ[ℂ] V).IsSymmetric) {v : V} (hv : v ≠ 0) {eig : EigSolver}
    (he : Diagonalises eig) (δ : ℝ) {K : Nat} (hK : 2 ≤ K) (dim : Nat) (err : ℝ) :
    ∃ r, expSolve (H : V →ₗ[ℂ] V) v eig δ K dim err = some r ∧
      (((H : V →ₗ[ℂ] V) ^ r.iters) v ∈ krySpace (H : V →ₗ[ℂ] V) v r.iters → r.vec = NormedSpace.exp ((-(δ : ℂ) * Complex.I) • H) v) := by
  obtain ⟨r, h, ho, hk⟩ := expLoop_ok (H := (H : V →ₗ[ℂ] V)) (v := v) eig he δ ‖v‖ K dim err K 0 (fun _ => 0) (fun _ => 0) (by omega)
    (by omega) (fun j a b => by omega)
  refine ⟨r, h, fun hi => ?_⟩
  obtain ⟨_, _, _, h4⟩ := exp_ok hH hv ho
  obtain ⟨u, d, hu, hsum, hr⟩ := h4 hi
  rw [hr, div_self (norm_ne_zero_iff.mpr hv)]
  have : NormedSpace.exp ((-(δ : ℂ) * Complex.I) • H) v =
      ∑ j ∈ range r.iters, NormedSpace.exp ((-(δ : ℂ) * Complex.I) • H) (u j) := by rw [← map_sum, ← hsum]
  rw [this, Complex.ofReal_one, one_smul]
  refine sum_congr rfl fun j hj => ?_
  rw [exp_eigen (c := (-δ * d j : ℝ) * Complex.I)]
  have hj := hu j (mem_range.mp hj)
  rw [ContinuousLinearMap.smul_apply, show H (u j) = (d j : ℂ) • u j from hj, smul_smul]
  congr 1
  push_cast; ring

/-- The MPI version of the solver does not keep the norm: the result always has norm 1. -/
theorem C58_mpi_norm_violation {H : V →ₗ[ℂ] V} (hH : H.IsSymmetric) {v : V} (hv : v ≠ 0) {eig : EigSolver} (he : Diagonalises eig)
    (δ : ℝ) {K : Nat} (hK : 2 ≤ K) (dim : Nat) (err : ℝ) :
    ∃ r, expSolveMpi H v eig δ K dim err = some r ∧ ‖r.vec‖ = 1 := by
  obtain ⟨r, h, ho, hk⟩ := expLoop_ok (H := H) (v := v) eig he δ 1 K dim err K 0 (fun _ => 0) (fun _ => 0) (by omega) (by omega)
    (fun j a b => by omega)
  obtain ⟨h1, _⟩ := exp_ok hH hv ho
  exact ⟨r, h, by rw [h1, abs_one]⟩

/-- Such an eigensolver exists. -/
theorem eig_exists : ∃ eig : EigSolver, Diagonalises eig := by
  obtain ⟨f, hf⟩ := Classical.axiomOfChoice (fun q : (Nat → ℝ) × (Nat → ℝ) × Nat => exists_triEig q.1 q.2.1 q.2.2)
  exact ⟨fun a b n => f (a, b, n), fun a b n _ => hf (a, b, n)⟩

/-- The hypotheses are met, for a state that is not normalised. -/
example : ∃ (eig : EigSolver) (H : ℂ →L[ℂ] ℂ) (v : ℂ), Diagonalises eig ∧ (H : ℂ →ₗ[ℂ] ℂ).IsSymmetric ∧ v ≠ 0 ∧ ‖v‖ ≠ 1 ∧ H v ≠ v := by
  obtain ⟨eig, he⟩ := eig_exists
  refine ⟨eig, (3 : ℂ) • ContinuousLinearMap.id ℂ ℂ, 2, he, ?_, by norm_num, by norm_num, by norm_num⟩
  intro x y
  simp
  rw [map_ofNat]
  ring

end Verif.Props
