import Verif.Mps.Vmps
import Verif.Disk.Tdvp
import Verif.Algo.Expmv
/-
The numbers of two-site TDVP (algorithm/tdvp/two_site_update_finite_tdvp_impl.h, lanczos_expmv_solver_impl.h): the evolutions of a pair and of a single
site with dense complex tensors in exact arithmetic. The order of the evolutions and of the file accesses is that of Verif/Disk/Tdvp.lean, of which this is an
instance. The truncated SVD enters as parameters, LAPACK's eigensolver of the tridiagonal matrix as `eig`.
-/
namespace Verif.Mps
open Finset Verif.Disk Verif.Algo

section
variable {σ : Type} [Fintype σ] [DecidableEq σ]

/-- The coefficient of `state(a', x', b')` in entry `(a, x, b)` of `eff_ham_mul_single_site_state` (lanczos_vmps_solver_impl.h:292-306). -/
def effCoef1 {K : Type} [CommRing K] (e f : Env3 K) (w : Ten (σ × σ) K) (a : Nat) (x : σ) (b a' : Nat) (x' : σ) (b' : Nat) : K :=
  ∑ c1 ∈ range e.d1, ∑ c2 ∈ range f.d1, e.v a c1 a' * w.v (x, x') c1 c2 * f.v b c2 b'

/-- One-site tensors of given bond dimensions as a vector space. -/
abbrev OneV (σ : Type) (l r : Nat) := EuclideanSpace ℂ (Fin l × σ × Fin r)

/-- The vector of a tensor. -/
def toV1 (t : Ten σ ℂ) : OneV σ t.l t.r := WithLp.toLp 2 fun i => t.v i.2.1 i.1 i.2.2

/-- The tensor of a vector. -/
def ofV1 {l r : Nat} (v : OneV σ l r) : Ten σ ℂ := ⟨l, r, fun x a b => if h : a < l ∧ b < r then v (⟨a, h.1⟩, x, ⟨b, h.2⟩) else 0⟩

/-- `eff_ham_mul_single_site_state` (lanczos_vmps_solver_impl.h:292-306). -/
noncomputable def effHam1 (e f : Env3 ℂ) (w : Ten (σ × σ) ℂ) (l r : Nat) : OneV σ l r →ₗ[ℂ] OneV σ l r :=
  Matrix.toEuclideanLin (Matrix.of fun i j : Fin l × σ × Fin r => effCoef1 e f w i.1 i.2.1 i.2.2 j.1 j.2.1 j.2.2)

/-- The parameters of the run: the MPO, the truncated SVDs of a block, the tridiagonal eigensolver, `max_iterations` and `error` of the Lanczos parameters, and
whether the MPI version of the solver is used. -/
structure TdvpPar (σ : Type) where
  w : Nat → Ten (σ × σ) ℂ
  splitR : Blk2 σ ℂ → Ten σ ℂ × Ten σ ℂ
  splitL : Blk2 σ ℂ → Ten σ ℂ × Ten σ ℂ
  eig : EigSolver
  maxIter : Nat
  err : ℝ
  mpi : Bool

/-- `LanczosExpmvSolver` (lanczos_expmv_solver_impl.h:73-183) or `MasterLanczosExpmvSolver` (algo_mpi/tdvp/lanczos_expmv_solver_mpi.h:30-201). -/
noncomputable def TdvpPar.solve (P : TdvpPar σ) {V : Type} [NormedAddCommGroup V] [InnerProductSpace ℂ V] (H : V →ₗ[ℂ] V) (v : V) (δ : ℝ) (dim : Nat) :
    Option (ExpRes V) :=
  if P.mpi then expSolveMpi H v P.eig δ P.maxIter dim P.err else expSolve H v P.eig δ P.maxIter dim P.err

/-- The same parameters with the serial version of the solver. -/
def TdvpPar.serial (P : TdvpPar σ) : TdvpPar σ := { P with mpi := false }

/-- The evolution of the pair `(i, i+1)` and its decomposition (two_site_update_finite_tdvp_impl.h:314-368). If the solver does not return
(`max_iterations < 2`), nothing is said. -/
noncomputable def tdvpPair (P : TdvpPar σ) (dir : Dir) (δ : ℝ) (i : Nat) (e f : Env3 ℂ) (t u : Ten σ ℂ) : Ten σ ℂ × Ten σ ℂ :=
  match P.solve (effHam e f (P.w i) (P.w (i + 1)) (mergeTen t u).l (mergeTen t u).r) (toV (mergeTen t u)) δ
      ((mergeTen t u).l * (Fintype.card σ * Fintype.card σ) * (mergeTen t u).r) with
  | none => (t, u)
  | some r => match dir with
    | .r => P.splitR (ofV r.vec)
    | .l => P.splitL (ofV r.vec)

/-- The backward evolution of site `i` (two_site_update_finite_tdvp_impl.h:433-452). -/
noncomputable def tdvpSite (P : TdvpPar σ) (δ : ℝ) (i : Nat) (e f : Env3 ℂ) (t : Ten σ ℂ) : Ten σ ℂ :=
  match P.solve (effHam1 e f (P.w i) t.l t.r) (toV1 t) δ (t.l * Fintype.card σ * t.r) with
  | none => t
  | some r => ofV1 r.vec

/-- Environments as in the optimisation (`InitEnvs` and `UpdateSiteLenvs`/`UpdateSiteRenvs`); the field `opt` is not used by TDVP. -/
noncomputable def tdvpAlg (N : Nat) (P : TdvpPar σ) : Alg (Ten σ ℂ) (Env3 ℂ) where
  trivL t := unitEnv t.l (P.w 0).l t.l
  trivR t := unitEnv t.r (P.w (N - 1)).r t.r
  growL i e t := siteLenv (P.w i) e t
  growR i e t := siteRenv (P.w i) e t
  opt _ _ _ _ _ t u := (t, u)

/-- The evolutions. The single sites are evolved by the serial solver in the MPI version, too (two_site_update_finite_tdvp_mpi_impl_master.h:404-411). -/
noncomputable def tdvpEvo (P : TdvpPar σ) : Evo (Ten σ ℂ) (Env3 ℂ) where
  ev2 d dt i e f t u := tdvpPair P d dt i e f t u
  ev1 dt i e f t := tdvpSite P.serial dt i e f t

end
end Verif.Mps
