import Mathlib.Analysis.InnerProductSpace.Basic
import Mathlib.Analysis.InnerProductSpace.Symmetric
/-
The numbers of the Lanczos solver for the lowest state, in exact arithmetic
(algorithm/vmps/lanczos_vmps_solver_impl.h:114-248): the state space is any inner product space and the effective
Hamiltonian any symmetric map. (For fermionic tensors the code has additional signs, which are not modelled.)
-/
namespace Verif.Algo

variable {𝕜 V : Type} [RCLike 𝕜] [NormedAddCommGroup V] [InnerProductSpace 𝕜 V]

/-- `Normalize` (`QuasiNormalize`, lanczos_vmps_solver_impl.h:141, 183): division by the norm; a zero vector stays zero. -/
noncomputable def normalize (𝕜 : Type) {V : Type} [RCLike 𝕜] [NormedAddCommGroup V] [InnerProductSpace 𝕜 V] (v : V) : V :=
  ((‖v‖⁻¹ : ℝ) : 𝕜) • v

/-- The variables of the recursion: `bases[m-1]` (zero in the first round), `bases[m]`, and the norm of the residual
that `bases[m]` comes from. -/
structure KSt (V : Type) where
  prev : V
  cur : V
  β : ℝ

/-- `a[m] = Real(<H bases[m] | bases[m]>)` (lanczos_vmps_solver_impl.h:154-161, 219-227). -/
noncomputable def kDiag (H : V →ₗ[𝕜] V) (s : KSt V) : ℝ := RCLike.re (inner 𝕜 s.cur (H s.cur))

/-- `gamma` before it is normalised: `H bases[m-1] - a[m-1] bases[m-1] - sqrt(N[m-1]) bases[m-2]`, without the last term
in the first round (lanczos_vmps_solver_impl.h:169-182). -/
noncomputable def kResid (H : V →ₗ[𝕜] V) (first : Bool) (s : KSt V) : V :=
  if first then H s.cur - (kDiag H s : 𝕜) • s.cur else H s.cur - (kDiag H s : 𝕜) • s.cur - (s.β : 𝕜) • s.prev

/-- The recursion after `m` rounds (lanczos_vmps_solver_impl.h:141-142, 167-213). -/
noncomputable def krylov (H : V →ₗ[𝕜] V) (v : V) : Nat → KSt V
  | 0 => ⟨0, normalize 𝕜 v, 0⟩
  | m + 1 =>
    let s := krylov H v m
    let γ := kResid H (m == 0) s
    ⟨s.cur, normalize 𝕜 γ, ‖γ‖⟩

/-- What `TridiagGsSolver(a, b, n, …)` returns (lanczos_vmps_solver_impl.h:307-355, LAPACK's `dstev`): the lowest eigenvalue of the symmetric
tridiagonal matrix with diagonal `a` and off-diagonal `b`, and a normalised eigenvector. -/
abbrev TriSolver := (Nat → ℝ) → (Nat → ℝ) → Nat → ℝ × (Nat → ℝ)

/-- `LinearCombine(n, eigvec, bases, 0.0, gs_vec)` (lanczos_vmps_solver_impl.h:196, 238). -/
noncomputable def combine (𝕜 : Type) {V : Type} [RCLike 𝕜] [NormedAddCommGroup V] [InnerProductSpace 𝕜 V] (n : Nat) (x : Nat → ℝ)
    (bs : Nat → V) : V := ((List.range n).map fun i => (x i : 𝕜) • bs i).sum

/-- `LanczosRes` (lanczos_vmps_solver_impl.h:99-103). -/
structure GsRes (V : Type) where
  iters : Nat
  energy : ℝ
  vec : V

open Classical in
/-- The loop (lanczos_vmps_solver_impl.h:167-247) from the end of round `m`; `e` is `energy0`, `K` is `max_iterations`, `fuel` bounds the
rounds (`none` if they do not suffice). -/
noncomputable def gsLoop (H : V →ₗ[𝕜] V) (v : V) (tri : TriSolver) (K dim : Nat) (err : ℝ) : Nat → Nat → ℝ → Option (GsRes V)
  | 0, _, _ => none
  | fuel + 1, m, e =>
    let m := m + 1
    let bs := fun i => (krylov H v i).cur
    let a := fun i => kDiag H (krylov H v i)
    let b := fun i => (krylov H v (i + 1)).β
    if (krylov H v m).β = 0 then
      if m = 1 then some ⟨m, e, bs 0⟩
      else some ⟨m, e, combine 𝕜 m (tri a b m).2 bs⟩
    else
      let e' := (tri a b (m + 1)).1
      if e - e' < err ∨ m = dim ∨ m = K - 1 then some ⟨m + 1, e', combine 𝕜 (m + 1) (tri a b (m + 1)).2 bs⟩
      else gsLoop H v tri K dim err fuel m e'

/-- `LanczosSolver` (lanczos_vmps_solver_impl.h:114-248). -/
noncomputable def gsSolve (H : V →ₗ[𝕜] V) (v : V) (tri : TriSolver) (K dim : Nat) (err : ℝ) : Option (GsRes V) :=
  gsLoop H v tri K dim err K 0 (kDiag H (krylov H v 0))

end Verif.Algo
