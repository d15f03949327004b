import Verif.Algo.LanczosNum
import Mathlib.Analysis.SpecialFunctions.Exponential
/-
The numbers of the Lanczos solver for `exp(-i δ H) v`, in exact arithmetic
(algorithm/tdvp/lanczos_expmv_solver_impl.h:70-183, algo_mpi/tdvp/lanczos_expmv_solver_mpi.h:30-201). The recursion for the
basis is that of the ground-state solver (`krylov`); `b[m-1]` is the norm of the residual.
-/
namespace Verif.Algo

variable {V : Type} [NormedAddCommGroup V] [InnerProductSpace ℂ V]

/-- What `LAPACKE_dstev(…, 'V', …)` (lanczos_expmv_solver_impl.h:212) returns: eigenvalues and the matrix of eigenvectors (`z[i * n + j]` is `z i j`). -/
abbrev EigSolver := (Nat → ℝ) → (Nat → ℝ) → Nat → (Nat → ℝ) × (Nat → Nat → ℝ)

/-- `TridiagExpme1Solver` (lanczos_expmv_solver_impl.h:200-243): overwrites `res[0..n-1]` and leaves the rest. -/
noncomputable def expme1 (eig : EigSolver) (a b : Nat → ℝ) (n : Nat) (δ : ℝ) (res : Nat → ℂ) : Nat → ℂ :=
  let d := (eig a b n).1
  let z := (eig a b n).2
  fun i => if i < n then ∑ j ∈ Finset.range n, (z i j : ℂ) * (Complex.exp ((-δ * d j : ℝ) * Complex.I) * (z 0 j : ℂ)) else res i

/-- `Distance` (lanczos_expmv_solver_impl.h:253-269, without GPU): the first vector becomes the difference, whose norm is returned. -/
noncomputable def distance (v1 v2 : Nat → ℂ) (n : Nat) : (Nat → ℂ) × ℝ :=
  let w := fun i => if i < n then v1 i - v2 i else v1 i
  (w, Real.sqrt (∑ i ∈ Finset.range n, ‖w i‖ ^ 2))

/-- `LinearCombine(n, coef, bases, 0.0, res)` (lanczos_expmv_solver_impl.h:140, 177). -/
noncomputable def combineC (n : Nat) (x : Nat → ℂ) (bs : Nat → V) : V := ((List.range n).map fun i => x i • bs i).sum

/-- `ExpmvRes` (lanczos_expmv_solver_impl.h:49-52). -/
structure ExpRes (V : Type) where
  iters : Nat
  vec : V

open Classical in
/-- The loop (lanczos_expmv_solver_impl.h:109-183) from the end of round `m`. `scale` is `initial_norm` in the serial version and 1 in the MPI
version, which does not keep the norm of the initial state; `comb`, `last` are the two coefficient arrays. -/
noncomputable def expLoop (H : V →ₗ[ℂ] V) (v : V) (eig : EigSolver) (δ scale : ℝ) (K dim : Nat) (err : ℝ) :
    Nat → Nat → (Nat → ℂ) → (Nat → ℂ) → Option (ExpRes V)
  | 0, _, _, _ => none
  | fuel + 1, m, comb, last =>
    let m := m + 1
    let bs := fun i => (krylov H v i).cur
    let a := fun i => kDiag H (krylov H v i)
    let b := fun i => (krylov H v (i + 1)).β
    if (krylov H v m).β = 0 then
      if m = 1 then some ⟨m, ((scale : ℂ) * Complex.exp ((-δ * a 0 : ℝ) * Complex.I)) • bs 0⟩
      else some ⟨m, combineC m (fun i => (scale : ℂ) * expme1 eig a b m δ comb i) bs⟩
    else
      let comb := expme1 eig a b (m + 1) δ comb
      let ld := distance last comb (m + 1)
      if ld.2 < err ∨ m = dim ∨ m = K - 1 then some ⟨m + 1, combineC (m + 1) (fun i => (scale : ℂ) * comb i) bs⟩
      else expLoop H v eig δ scale K dim err fuel m ld.1 comb

/-- `LanczosExpmvSolver` (lanczos_expmv_solver_impl.h:70-184): both arrays are zero at first. -/
noncomputable def expSolve (H : V →ₗ[ℂ] V) (v : V) (eig : EigSolver) (δ : ℝ) (K dim : Nat) (err : ℝ) : Option (ExpRes V) :=
  expLoop H v eig δ ‖v‖ K dim err K 0 (fun _ => 0) (fun _ => 0)

/-- The MPI version (algo_mpi/tdvp/lanczos_expmv_solver_mpi.h:30-201): the norm of the initial state is dropped. -/
noncomputable def expSolveMpi (H : V →ₗ[ℂ] V) (v : V) (eig : EigSolver) (δ : ℝ) (K dim : Nat) (err : ℝ) : Option (ExpRes V) :=
  expLoop H v eig δ 1 K dim err K 0 (fun _ => 0) (fun _ => 0)

end Verif.Algo
