import Verif.Mps.VarProd
import Verif.Disk.TwoSite
import Verif.Algo.LanczosNum
import Mathlib.Analysis.InnerProductSpace.PiL2
/-
The numbers of the two-site variational optimisation (algorithm/vmps/two_site_update_finite_vmps_impl.h, vmps_init.h,
lanczos_vmps_solver_impl.h): environments, effective Hamiltonian and local update with dense tensors over `ℝ` or `ℂ` in exact
arithmetic. The order in which tensors are loaded, used and written is that of Verif/Disk/TwoSite.lean, of which this is an instance.

The truncated SVD enters as parameters `splitR` (`u`, `s·vt`) and `splitL` (`u·s`, `vt`), LAPACK's tridiagonal solver as `tri`.
Contractions of legs with different dimensions are not errors here; the theorems only speak about chains whose legs match.
-/
namespace Verif.Mps
open Finset Verif.Disk Verif.Algo

/-- The block of two neighbouring sites: outer left and right dimensions, the two physical legs, the outer bonds
(two_site_update_finite_vmps_impl.h:278-279). -/
structure Blk2 (σ K : Type) where
  l : Nat
  r : Nat
  v : σ → σ → Nat → Nat → K

section env
variable {σ K : Type} [CommRing K] [StarRing K] [Fintype σ]

/-- `UpdateSiteLenvs` (vmps_init.h:359-373). Legs of an environment: 0 to the conjugated MPS, 1 to the MPO, 2 to the MPS. The MPO
tensor's physical pair is (outgoing, incoming), legs 2 and 1 in the code. -/
def siteLenv (w : Ten (σ × σ) K) (e : Env3 K) (t : Ten σ K) : Env3 K :=
  ⟨t.r, w.r, t.r, fun a' c' b' => ∑ s, ∑ s', ∑ a ∈ range e.d0, ∑ c ∈ range e.d1, ∑ b ∈ range e.d2,
    star (t.v s a a') * w.v (s, s') c c' * t.v s' b b' * e.v a c b⟩

/-- `UpdateSiteRenvs` (vmps_init.h:343-357). -/
def siteRenv (w : Ten (σ × σ) K) (e : Env3 K) (t : Ten σ K) : Env3 K :=
  ⟨t.l, w.l, t.l, fun a c b => ∑ s, ∑ s', ∑ a' ∈ range e.d0, ∑ c' ∈ range e.d1, ∑ b' ∈ range e.d2,
    star (t.v s a a') * w.v (s, s') c c' * t.v s' b b' * e.v a' c' b'⟩

/-- `Contract(&mps[lsite_idx], &mps[rsite_idx], {{2}, {0}}, init_state)` (two_site_update_finite_vmps_impl.h:279). -/
def mergeTen (t u : Ten σ K) : Blk2 σ K := ⟨t.l, u.r, fun x y a b => ∑ k ∈ range t.r, t.v x a k * u.v y k b⟩

/-- The coefficient of `state(a', x', y', b')` in entry `(a, x, y, b)` of `eff_ham_mul_two_site_state` (lanczos_vmps_solver_impl.h:261-290). -/
def effCoef (e f : Env3 K) (w1 w2 : Ten (σ × σ) K) (a : Nat) (x y : σ) (b a' : Nat) (x' y' : σ) (b' : Nat) : K :=
  ∑ c1 ∈ range e.d1, ∑ c2 ∈ range w1.r, ∑ c3 ∈ range f.d1,
    e.v a c1 a' * w1.v (x, x') c1 c2 * w2.v (y, y') c2 c3 * f.v b c3 b'

end env

section upd
variable {σ 𝕜 : Type} [RCLike 𝕜] [Fintype σ] [DecidableEq σ]

/-- Two-site blocks of given outer dimensions as a vector space with the standard inner product. -/
abbrev TwoV (σ 𝕜 : Type) (l r : Nat) := EuclideanSpace 𝕜 (Fin l × σ × σ × Fin r)

/-- The vector of a block. -/
def toV (T : Blk2 σ 𝕜) : TwoV σ 𝕜 T.l T.r := WithLp.toLp 2 fun i => T.v i.2.1 i.2.2.1 i.1 i.2.2.2

/-- The block of a vector. -/
def ofV {l r : Nat} (v : TwoV σ 𝕜 l r) : Blk2 σ 𝕜 :=
  ⟨l, r, fun x y a b => if h : a < l ∧ b < r then v (⟨a, h.1⟩, x, y, ⟨b, h.2⟩) else 0⟩

/-- `eff_ham_mul_two_site_state` (lanczos_vmps_solver_impl.h:261-290). -/
noncomputable def effHam (e f : Env3 𝕜) (w1 w2 : Ten (σ × σ) 𝕜) (l r : Nat) : TwoV σ 𝕜 l r →ₗ[𝕜] TwoV σ 𝕜 l r :=
  Matrix.toEuclideanLin (Matrix.of fun i j : Fin l × σ × σ × Fin r => effCoef e f w1 w2 i.1 i.2.1 i.2.2.1 i.2.2.2 j.1 j.2.1 j.2.2.1 j.2.2.2)

/-- The parameters of the run: the MPO, the truncated SVDs of a block, the tridiagonal solver, `max_iterations` and the tolerance of the
Lanczos solver. -/
structure VmpsPar (σ 𝕜 : Type) where
  w : Nat → Ten (σ × σ) 𝕜
  splitR : Blk2 σ 𝕜 → Ten σ 𝕜 × Ten σ 𝕜
  splitL : Blk2 σ 𝕜 → Ten σ 𝕜 × Ten σ 𝕜
  tri : TriSolver
  maxIter : Nat
  tol : ℝ

/-- The call of `LanczosSolver` in the update of the pair `(i, i+1)` (two_site_update_finite_vmps_impl.h:271-285). -/
noncomputable def lanczosAt (P : VmpsPar σ 𝕜) (i : Nat) (e f : Env3 𝕜) (t u : Ten σ 𝕜) :
    Option (GsRes (TwoV σ 𝕜 (mergeTen t u).l (mergeTen t u).r)) :=
  gsSolve (effHam e f (P.w i) (P.w (i + 1)) (mergeTen t u).l (mergeTen t u).r) (toV (mergeTen t u)) P.tri P.maxIter
    ((mergeTen t u).l * (Fintype.card σ * Fintype.card σ) * (mergeTen t u).r) P.tol

/-- A tensor, and the energy reported by the update that produced it. (The energy is not in the file: it is what
`TwoSiteFiniteVMPSUpdate` prints and returns, two_site_update_finite_vmps_impl.h:361-372.) -/
structure LTen (σ 𝕜 : Type) where
  ten : Ten σ 𝕜
  e0 : Option ℝ

/-- Lanczos, SVD and the two new tensors (two_site_update_finite_vmps_impl.h:271-334); `i` is the left site. If the solver does not return
(`max_iterations < 2`), nothing is said. -/
noncomputable def updTwo (P : VmpsPar σ 𝕜) (dir : Dir) (i : Nat) (e f : Env3 𝕜) (t u : Ten σ 𝕜) : LTen σ 𝕜 × LTen σ 𝕜 :=
  match lanczosAt P i e f t u with
  | none => (⟨t, none⟩, ⟨u, none⟩)
  | some r =>
    match dir with
    | .r => (⟨(P.splitR (ofV r.vec)).1, some r.energy⟩, ⟨(P.splitR (ofV r.vec)).2, some r.energy⟩)
    | .l => (⟨(P.splitL (ofV r.vec)).1, some r.energy⟩, ⟨(P.splitL (ofV r.vec)).2, some r.energy⟩)

/-- The local operations of the optimisation of an `N`-site chain: trivial environments (two_site_update_finite_vmps_impl.h:159-166, 178-186), their
growth (347, 351) and the update. The target site is the left one of the pair when moving right and the right one when moving left. -/
noncomputable def vmpsAlg (N : Nat) (P : VmpsPar σ 𝕜) : Alg (LTen σ 𝕜) (Env3 𝕜) where
  trivL t := unitEnv t.ten.l (P.w 0).l t.ten.l
  trivR t := unitEnv t.ten.r (P.w (N - 1)).r t.ten.r
  growL i e t := siteLenv (P.w i) e t.ten
  growR i e t := siteRenv (P.w i) e t.ten
  opt _ dir i e f t u := updTwo P dir (match dir with | .r => i | .l => i - 1) e f t.ten u.ten

end upd
end Verif.Mps
