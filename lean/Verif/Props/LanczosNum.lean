import Verif.Algo.LanczosNumLoop
import Verif.Algo.TriExists
/-
C57: the Lanczos solver, in exact arithmetic, returns the best state of the Krylov space it has built.

The only facts used about the tridiagonal eigensolver (LAPACK) are those of `LowestTri`; such an eigenpair always exists
(`solver_exists`).
-/
namespace Verif.Props
open Verif.Algo

variable {𝕜 V : Type} [RCLike 𝕜] [NormedAddCommGroup V] [InnerProductSpace 𝕜 V]

/-- The tridiagonal solver does what LAPACK promises. -/
def Solves (tri : TriSolver) : Prop := ∀ a b n, 1 ≤ n → LowestTri a b n (tri a b n).1 (tri a b n).2

/-- For every symmetric effective Hamiltonian, every non-zero initial vector, iteration limit of at least two, dimension
and tolerance the solver returns, and with `n` the number of iterations it reports: `1 ≤ n ≤ max_iterations`; the vector
is a unit vector of the Krylov space `span{v, …, H^(n-1) v}`; the energy is its expectation value; no vector of this
Krylov space has a lower one (in particular not the initial vector); and if the Krylov space cannot grow the vector is an
exact eigenvector with the energy as eigenvalue. -/
theorem C57_lanczos {H : V →ₗ[𝕜] V} (hH : H.IsSymmetric) {v : V} (hv : v ≠ 0) {tri : TriSolver} (ht : Solves tri)
    {K : Nat} (hK : 2 ≤ K) (dim : Nat) (err : ℝ) :
    ∃ r, gsSolve H v tri K dim err = some r ∧ 1 ≤ r.iters ∧ r.iters ≤ K ∧ ‖r.vec‖ = 1 ∧
      r.vec ∈ krySpace H v r.iters ∧ inner 𝕜 r.vec (H r.vec) = (r.energy : 𝕜) ∧
      (∀ w ∈ krySpace H v r.iters, r.energy * ‖w‖ ^ 2 ≤ RCLike.re (inner 𝕜 w (H w))) ∧
      ((H ^ r.iters) v ∈ krySpace H v r.iters → H r.vec = (r.energy : 𝕜) • r.vec) := by
  obtain ⟨r, x, h, hr, hK', -⟩ := gsSolve_ritz (H := H) (v := v) tri ht hK dim err
  refine ⟨r, h, hr.1, hK', hr.norm_vec hH hv, ?_, hr.energy_eq hH hv, ?_, hr.eigen hH hv⟩
  · rw [← kspan_eq_kry hv]
    exact hr.vec_mem
  · intro w hw
    rw [← kspan_eq_kry hv] at hw
    exact hr.lowest hH hv hw

/-- The energy never exceeds that of the initial state. -/
theorem C57_never_worse {H : V →ₗ[𝕜] V} (hH : H.IsSymmetric) {v : V} (hv : v ≠ 0) {tri : TriSolver} (ht : Solves tri)
    {K : Nat} (hK : 2 ≤ K) (dim : Nat) (err : ℝ) :
    ∃ r, gsSolve H v tri K dim err = some r ∧ r.energy * ‖v‖ ^ 2 ≤ RCLike.re (inner 𝕜 v (H v)) := by
  obtain ⟨r, h, h1, _, _, _, _, hl, _⟩ := C57_lanczos hH hv ht hK dim err
  exact ⟨r, h, hl v (Submodule.subset_span ⟨0, h1, by simp⟩)⟩

/-- The solver does not stop too early: with `n` the number of iterations it reports, `n` is `max_iterations` or the dimension
plus one, or the Krylov space cannot grow, or the energy is less than the tolerance below that of the best unit vector `w` of
the Krylov space of one iteration less. -/
theorem C57_converged {H : V →ₗ[𝕜] V} (hH : H.IsSymmetric) {v : V} (hv : v ≠ 0) {tri : TriSolver} (ht : Solves tri)
    {K : Nat} (hK : 2 ≤ K) (dim : Nat) (err : ℝ) :
    ∃ r, gsSolve H v tri K dim err = some r ∧
      (r.iters = K ∨ r.iters = dim + 1 ∨ (H ^ r.iters) v ∈ krySpace H v r.iters ∨
        ∃ w ∈ krySpace H v (r.iters - 1), ‖w‖ = 1 ∧ RCLike.re (inner 𝕜 w (H w)) - r.energy < err ∧
          ∀ u ∈ krySpace H v (r.iters - 1), RCLike.re (inner 𝕜 w (H w)) * ‖u‖ ^ 2 ≤ RCLike.re (inner 𝕜 u (H u))) := by
  obtain ⟨r, x, h, hr, -, hs⟩ := gsSolve_ritz (H := H) (v := v) tri ht hK dim err
  refine ⟨r, h, ?_⟩
  rcases hs with hs | hs | hs | ⟨r', x', hr', hi, he⟩
  · obtain ⟨n, hn⟩ : ∃ n, r.iters = n + 1 := ⟨r.iters - 1, by have := hr.1; omega⟩
    rw [hn] at hs ⊢
    exact Or.inr (Or.inr (Or.inl (stop_kry hv hs)))
  · exact Or.inr (Or.inl hs)
  · exact Or.inl hs
  · refine Or.inr (Or.inr (Or.inr ⟨r'.vec, ?_, hr'.norm_vec hH hv, ?_, fun u hu => ?_⟩))
    · rw [← kspan_eq_kry hv, show r.iters - 1 = r'.iters by omega]
      exact hr'.vec_mem
    · rw [hr'.energy_eq hH hv, RCLike.ofReal_re]
      exact he
    · rw [hr'.energy_eq hH hv, RCLike.ofReal_re]
      rw [← kspan_eq_kry hv, show r.iters - 1 = r'.iters by omega] at hu
      exact hr'.lowest hH hv hu

/-- Such a tridiagonal solver exists. -/
theorem solver_exists : ∃ tri : TriSolver, Solves tri := by
  have h : ∀ q : (Nat → ℝ) × (Nat → ℝ) × Nat, ∃ p : ℝ × (Nat → ℝ), 1 ≤ q.2.2 → LowestTri q.1 q.2.1 q.2.2 p.1 p.2 := fun q => by
    by_cases hn : 1 ≤ q.2.2
    · obtain ⟨p, hp⟩ := exists_lowestTri q.1 q.2.1 hn
      exact ⟨p, fun _ => hp⟩
    · exact ⟨(0, fun _ => 0), fun h => absurd h hn⟩
  obtain ⟨f, hf⟩ := Classical.axiomOfChoice h
  exact ⟨fun a b n => f (a, b, n), fun a b n hn => hf (a, b, n) hn⟩

/-- The hypotheses are met: a genuinely two-dimensional case, the reflection of the complex plane (as a real space), started
from a vector that is not an eigenvector. -/
example : ∃ (tri : TriSolver) (H : ℂ →ₗ[ℝ] ℂ) (v : ℂ), Solves tri ∧ H.IsSymmetric ∧ v ≠ 0 ∧ H v ≠ v ∧ H v ≠ -v := by
  obtain ⟨tri, ht⟩ := solver_exists
  refine ⟨tri, Complex.conjAe.toLinearMap, 1 + Complex.I, ht, ?_, ?_, ?_, ?_⟩
  · intro x y
    simp [Complex.inner]
  · intro h
    have := congrArg Complex.re h
    simp at this
  · intro h
    have := congrArg Complex.im h
    simp at this
    norm_num at this
  · intro h
    have := congrArg Complex.re h
    simp at this
    norm_num at this

end Verif.Props
