import Verif.Mps.Vmps
import Verif.Mps.TdvpNum
import Verif.Disk.SingleSite
/-
The numbers of the single-site variational optimisation with subspace expansion (algorithm/vmps/single_site_update_finite_vmps_impl.h): the
one-site effective Hamiltonian, the expansion of a bond by noise, the truncated decomposition of one site and the local update, with dense tensors
over `ℝ` or `ℂ` in exact arithmetic. The order in which tensors are loaded, used and written is that of Verif/Disk/SingleSite.lean, of which this is an
instance.
-/
namespace Verif.Mps
open Finset Verif.Disk Verif.Algo

section
variable {σ K : Type} [CommRing K] [Fintype σ]

/-- `SingleSiteFiniteVMPSExpand` with 'r' (single_site_update_finite_vmps_impl.h:392-434), `t` the Lanczos vector at the target site, `u` the tensor of the
next site. `Contract` of the left environment, the vector and the MPO tensor leaves the legs (conjugated bond, outgoing site, bond, MPO bond); the last
two are fused to one of dimension `t.r·w.r`, in an order that does not matter, and appended to the right leg. The left leg of the next tensor is filled with zeros. -/
def expandR (ν : K) (e : Env3 K) (w : Ten (σ × σ) K) (t u : Ten σ K) : Ten σ K × Ten σ K :=
  (⟨t.l, t.r + t.r * w.r, fun x a b => if b < t.r then t.v x a b else
      ν * ∑ x', ∑ c ∈ range e.d1, ∑ a' ∈ range e.d2, e.v a c a' * t.v x' a' ((b - t.r) / w.r) * w.v (x, x') c ((b - t.r) % w.r)⟩,
   ⟨t.r + t.r * w.r, u.r, fun y k b => if k < t.r then u.v y k b else 0⟩)

/-- With 'l' (single_site_update_finite_vmps_impl.h:435-475), `u` the Lanczos vector at the target site, `t` the tensor of the next site, which is to the
left. The legs of the noise tensor are (bond, MPO bond, outgoing site, conjugated bond); the first two are fused and appended to the left leg. -/
def expandL (ν : K) (f : Env3 K) (w : Ten (σ × σ) K) (t u : Ten σ K) : Ten σ K × Ten σ K :=
  (⟨t.l, u.l + u.l * w.l, fun x a k => if k < u.l then t.v x a k else 0⟩,
   ⟨u.l + u.l * w.l, u.r, fun y a b => if a < u.l then u.v y a b else
      ν * ∑ y', ∑ c ∈ range f.d1, ∑ b' ∈ range f.d2, u.v y' ((a - u.l) / w.l) b' * f.v b c b' * w.v (y, y') ((a - u.l) % w.l) c⟩)

/-- `need_expand` (single_site_update_finite_vmps_impl.h:258-268): not if the noise is below `1e-15` in size, and not if the bond is as large as it can be seen
from the nearer end of the chain. `d` is the dimension of the site. -/
noncomputable def needExpand (N i : Nat) (ν : ℝ) (l d r : Nat) : Bool := by
  classical
  exact !decide (|ν| < 1e-15) && !decide ((i < N / 2 ∧ l * d ≤ r) ∨ (N / 2 < i ∧ r * d ≤ l))

end

section
variable {σ 𝕜 : Type} [RCLike 𝕜] [Fintype σ] [DecidableEq σ]

/-- One-site tensors of given dimensions as a vector space with the standard inner product. -/
abbrev SiteV (σ 𝕜 : Type) (l r : Nat) := EuclideanSpace 𝕜 (Fin l × σ × Fin r)

/-- The vector of a tensor. -/
def toS (t : Ten σ 𝕜) : SiteV σ 𝕜 t.l t.r := WithLp.toLp 2 fun i => t.v i.2.1 i.1 i.2.2

/-- The tensor of a vector. -/
def ofS {l r : Nat} (v : SiteV σ 𝕜 l r) : Ten σ 𝕜 := ⟨l, r, fun x a b => if h : a < l ∧ b < r then v (⟨a, h.1⟩, x, ⟨b, h.2⟩) else 0⟩

/-- `eff_ham_mul_single_site_state` (lanczos_vmps_solver_impl.h:292-304). -/
noncomputable def siteHam (e f : Env3 𝕜) (w : Ten (σ × σ) 𝕜) (l r : Nat) : SiteV σ 𝕜 l r →ₗ[𝕜] SiteV σ 𝕜 l r :=
  Matrix.toEuclideanLin (Matrix.of fun i j : Fin l × σ × Fin r => effCoef1 e f w i.1 i.2.1 i.2.2 j.1 j.2.1 j.2.2)

/-- The parameters of the run: the MPO, the truncated SVDs of a site tensor (`u` and `s·vt` when moving right, `vt` and `u·s` when moving left), the
tridiagonal solver, `max_iterations` and tolerance of the Lanczos solver, and the noise given to each update, counted over the whole run. (The rule by which
the program chooses the noises is modelled in Verif/Algo/Noise.lean and joined to this run in `ssAdapt` below.) -/
structure SsPar (σ 𝕜 : Type) where
  w : Nat → Ten (σ × σ) 𝕜
  svdR : Ten σ 𝕜 → Ten σ 𝕜 × Mat 𝕜
  svdL : Ten σ 𝕜 → Ten σ 𝕜 × Mat 𝕜
  tri : TriSolver
  maxIter : Nat
  tol : ℝ
  noise : Nat → ℝ

/-- The call of `LanczosSolver` at site `i` (single_site_update_finite_vmps_impl.h:235-249). -/
noncomputable def ssLanczos (P : SsPar σ 𝕜) (i : Nat) (e f : Env3 𝕜) (t : Ten σ 𝕜) : Option (GsRes (SiteV σ 𝕜 t.l t.r)) :=
  gsSolve (siteHam e f (P.w i) t.l t.r) (toS t) P.tri P.maxIter (t.l * Fintype.card σ * t.r) P.tol

/-- The target and the next tensor after the expansion, moving right (single_site_update_finite_vmps_impl.h:257-281); `g` is the Lanczos vector. -/
noncomputable def ssExpR (N : Nat) (P : SsPar σ 𝕜) (ν : ℝ) (i : Nat) (e : Env3 𝕜) (g u : Ten σ 𝕜) : Ten σ 𝕜 × Ten σ 𝕜 :=
  if needExpand N i ν g.l (Fintype.card σ) g.r then expandR (ν : 𝕜) e (P.w i) g u else (g, u)

/-- The same moving left (single_site_update_finite_vmps_impl.h:257-278, 436-470). -/
noncomputable def ssExpL (N : Nat) (P : SsPar σ 𝕜) (ν : ℝ) (i : Nat) (f : Env3 𝕜) (t g : Ten σ 𝕜) : Ten σ 𝕜 × Ten σ 𝕜 :=
  if needExpand N i ν g.l (Fintype.card σ) g.r then expandL (ν : 𝕜) f (P.w i) t g else (t, g)

/-- `SVD` and the two new tensors, moving right (single_site_update_finite_vmps_impl.h:291-323): `u` stays, `s·vt` is absorbed by the next tensor. -/
def ssCutR (P : SsPar σ 𝕜) (q : Ten σ 𝕜 × Ten σ 𝕜) : Ten σ 𝕜 × Ten σ 𝕜 := ((P.svdR q.1).1, mulL (P.svdR q.1).2 (P.svdR q.1).1.r q.2)

/-- Moving left (single_site_update_finite_vmps_impl.h:291-303, 324-334): `vt` stays, `u·s` is absorbed by the next tensor. -/
def ssCutL (P : SsPar σ 𝕜) (q : Ten σ 𝕜 × Ten σ 𝕜) : Ten σ 𝕜 × Ten σ 𝕜 := (mulR q.1 (P.svdL q.2).2 (P.svdL q.2).1.l, (P.svdL q.2).1)

/-- `SingleSiteFiniteVMPSUpdate` without the growth of the environment (single_site_update_finite_vmps_impl.h:200-337), target `i`; `t` and `u` are the tensors of the left
and the right site of the pair of target and next site. Each new tensor carries the energy the update prints and returns (360-375). If the solver does not
return (`max_iterations < 2`), nothing is said. -/
noncomputable def ssUpd (N : Nat) (P : SsPar σ 𝕜) (ν : ℝ) (dir : Dir) (i : Nat) (e f : Env3 𝕜) (t u : Ten σ 𝕜) : LTen σ 𝕜 × LTen σ 𝕜 :=
  match dir with
  | .r => match ssLanczos P i e f t with
    | none => (⟨t, none⟩, ⟨u, none⟩)
    | some g => (⟨(ssCutR P (ssExpR N P ν i e (ofS g.vec) u)).1, some g.energy⟩, ⟨(ssCutR P (ssExpR N P ν i e (ofS g.vec) u)).2, some g.energy⟩)
  | .l => match ssLanczos P i e f u with
    | none => (⟨t, none⟩, ⟨u, none⟩)
    | some g => (⟨(ssCutL P (ssExpL N P ν i f t (ofS g.vec))).1, some g.energy⟩, ⟨(ssCutL P (ssExpL N P ν i f t (ofS g.vec))).2, some g.energy⟩)

/-- The environments of the run: the trivial ones (vmps_init.h:304-341) and their growth (single_site_update_finite_vmps_impl.h:345-352). The update of this
algorithm is `ssOpt`, not the field `opt`. -/
noncomputable def ssAlg (N : Nat) (P : SsPar σ 𝕜) : Alg (LTen σ 𝕜) (Env3 𝕜) where
  trivL t := unitEnv t.ten.l (P.w 0).l t.ten.l
  trivR t := unitEnv t.ten.r (P.w (N - 1)).r t.ten.r
  growL i e t := siteLenv (P.w i) e t.ten
  growR i e t := siteRenv (P.w i) e t.ten
  opt _ _ _ _ _ t u := (t, u)

/-- The local work of the run: the noise of the step, counted in `c`, and the update. -/
noncomputable def ssOpt (N : Nat) (P : SsPar σ 𝕜) : Opt1 (LTen σ 𝕜) (Env3 𝕜) :=
  fun c dir i e f t u => (ssUpd N P (P.noise c) dir i e f t.ten u.ten, c + 1)

/-- `CalEnergyEptSingleSite` (single_site_update_finite_vmps_impl.h:592-620): `H|t⟩` of the one-site Hamiltonian contracted with the conjugated tensor; the
program keeps the real part. -/
noncomputable def ssEnergy (e f : Env3 𝕜) (w : Ten (σ × σ) 𝕜) (t : Ten σ 𝕜) : ℝ :=
  RCLike.re (inner 𝕜 (toS t) (siteHam e f w t.l t.r (toS t)))

end
end Verif.Mps
