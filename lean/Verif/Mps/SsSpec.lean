import Verif.Mps.SsNum
import Verif.Mps.VmpsRunSpec
import Verif.Algo.Noise
/-
Vocabulary for the statements about the single-site optimisation: what is assumed of the decompositions, the order of the updates, the states in
between and the rule of the noise.
-/
namespace Verif.Mps
open Finset Verif.Disk Verif.Algo Verif.Props

section svd
variable {σ K : Type} [CommRing K]

/-- Some entry of the tensor is not zero. -/
def Ten.NZ (t : Ten σ K) : Prop := ∃ x a b, a < t.l ∧ b < t.r ∧ t.v x a b ≠ 0

/-- **Specification**: `q·R` is the tensor. -/
def Ten.IsR (t : Ten σ K) (p : Ten σ K × Mat K) : Prop := ∀ x a b, a < t.l → b < t.r → ∑ j ∈ range p.1.r, p.1.v x a j * p.2 j b = t.v x a b

/-- **Specification**: `R·q` is the tensor. -/
def Ten.IsL (t : Ten σ K) (p : Ten σ K × Mat K) : Prop := ∀ x a b, a < t.l → b < t.r → ∑ j ∈ range p.1.l, p.2 a j * p.1.v x j b = t.v x a b

variable [StarRing K] [Fintype σ]

/-- **Specification**: what the code relies on from the truncated SVD of a site tensor when moving right: `u` is an isometry, `s·vt = u†·T` whichever singular
values are kept, and a tensor that is not zero does not become zero. -/
structure SiteSvdR (svd : Ten σ K → Ten σ K × Mat K) : Prop where
  dim : ∀ t, (svd t).1.l = t.l
  iso : ∀ t, LeftIso (svd t).1
  proj : ∀ t j b, j < (svd t).1.r → b < t.r → (svd t).2 j b = ∑ x, ∑ a ∈ range t.l, star ((svd t).1.v x a j) * t.v x a b
  nz : ∀ t : Ten σ K, t.NZ → ∃ x a b, a < t.l ∧ b < t.r ∧ ∑ j ∈ range (svd t).1.r, (svd t).1.v x a j * (svd t).2 j b ≠ 0

/-- **Specification**: when moving left: `vt` is an isometry and `u·s = T·vt†`. -/
structure SiteSvdL (svd : Ten σ K → Ten σ K × Mat K) : Prop where
  dim : ∀ t, (svd t).1.r = t.r
  iso : ∀ t, RightIso (svd t).1
  proj : ∀ t a j, a < t.l → j < (svd t).1.l → (svd t).2 a j = ∑ x, ∑ b ∈ range t.r, t.v x a b * star ((svd t).1.v x j b)
  nz : ∀ t : Ten σ K, t.NZ → ∃ x a b, a < t.l ∧ b < t.r ∧ ∑ j ∈ range (svd t).1.l, (svd t).2 a j * (svd t).1.v x j b ≠ 0

end svd

section
variable {σ 𝕜 : Type} [RCLike 𝕜] [Fintype σ] [DecidableEq σ]

/-- **Specification**: what is assumed of the run: the MPO is a closed chain and its operator Hermitian, the decompositions and the tridiagonal
solver do what they promise, and at least two Lanczos iterations are allowed (with fewer the solver is undefined, C32). Nothing is assumed of the noises. -/
structure SsOK (N : Nat) (P : SsPar σ 𝕜) : Prop where
  closed : Closed N P.w
  herm : (opM N P.w).IsHermitian
  svR : SiteSvdR P.svdR
  svL : SiteSvdL P.svdL
  tri : Solves P.tri
  iter : 2 ≤ P.maxIter

/-- **Specification**: no decomposition discards anything. -/
def SsPar.NoCut (P : SsPar σ 𝕜) : Prop := (∀ t : Ten σ 𝕜, t.IsR (P.svdR t)) ∧ ∀ t : Ten σ 𝕜, t.IsL (P.svdL t)

/-- **Specification**: all noises are below the threshold of the code. -/
def SsPar.Silent (P : SsPar σ 𝕜) : Prop := ∀ n, |P.noise n| < 1e-15

/-- **Specification**: the updates of one sweep in order, each with its target site: `0 … N-2` moving right, then `N-1 … 1` moving left. -/
def ssSweep (N : Nat) : List (Dir × Nat) := (List.range (N - 1)).map (fun i => (.r, i)) ++ (List.range' 1 (N - 1)).reverse.map (fun i => (.l, i))

/-- **Specification**: the updates of `k` sweeps. -/
def ssUpds (N k : Nat) : List (Dir × Nat) := (List.replicate k (ssSweep N)).flatten

/-- **Specification**: one update in the exact environments of the current MPS. -/
noncomputable def ss1 (N : Nat) (P : SsPar σ 𝕜) (ψ : (Nat → LTen σ 𝕜) × Nat) (u : Dir × Nat) : (Nat → LTen σ 𝕜) × Nat :=
  match u.1 with
  | .r => opt1R (ssAlg N P) (ssOpt N P) N ψ u.2
  | .l => opt1L (ssAlg N P) (ssOpt N P) N ψ u.2

/-- **Specification**: the MPS after `n` of the updates `us`. -/
noncomputable def ssAt (N : Nat) (P : SsPar σ 𝕜) (us : List (Dir × Nat)) (ψ : (Nat → LTen σ 𝕜) × Nat) (n : Nat) : (Nat → LTen σ 𝕜) × Nat :=
  (us.take n).foldl (ss1 N P) ψ

/-- **Specification**: its state. -/
noncomputable def ssState (N : Nat) (P : SsPar σ 𝕜) (us : List (Dir × Nat)) (ψ : (Nat → LTen σ 𝕜) × Nat) (n : Nat) : ChainV σ 𝕜 N :=
  stateV N (tens (ssAt N P us ψ n).1)

/-- **Specification**: update `n` reports the energy `e` (at its target site). -/
def SsReports (N : Nat) (P : SsPar σ 𝕜) (us : List (Dir × Nat)) (ψ : (Nat → LTen σ 𝕜) × Nat) (n : Nat) (e : ℝ) : Prop :=
  ∃ u, us[n]? = some u ∧ ((ssAt N P us ψ (n + 1)).1 u.2).e0 = some e

/-- **Specification**: the state `Ψ` of before is replaced by `Ψ'` and the energy `e` is reported: `e` is at most the energy of `Ψ` and is the energy of a unit
vector `Φ` of which `Ψ'` is an orthogonal projection, all of it in case `ex`. -/
structure HStep (N : Nat) (H : Matrix (Fin N → σ) (Fin N → σ) 𝕜) (ex : Prop) (Ψ : ChainV σ 𝕜 N) (e : ℝ) (Ψ' : ChainV σ 𝕜 N) : Prop where
  better : e * ‖Ψ‖ ^ 2 ≤ expect H Ψ
  unit : ∃ Φ : ChainV σ 𝕜 N, ‖Φ‖ = 1 ∧ inner 𝕜 Φ (Matrix.toEuclideanLin H Φ) = (e : 𝕜) ∧ inner 𝕜 Ψ' Φ = ((‖Ψ'‖ ^ 2 : ℝ) : 𝕜) ∧ (ex → Ψ' = Φ)

/-! ### The rule of the noise -/

open Classical in
/-- Exact real numbers in place of `double` (Verif/Algo/Noise.lean). -/
noncomputable def realDbl : Dbl ℝ := ⟨0, 1, fun a b => a - b, fun a b => a * b, fun a => |a|, fun a b => decide (a ≤ b), fun a b => decide (a < b)⟩

/-- The result of the update `u` in the exact environments with the noise `ν` (single_site_update_finite_vmps_impl.h:153-159, 176-182). -/
noncomputable def ssWith (N : Nat) (P : SsPar σ 𝕜) (ν : ℝ) (ψ : Nat → LTen σ 𝕜) (u : Dir × Nat) : Nat → LTen σ 𝕜 :=
  match u.1 with
  | .r =>
    let p := ssUpd N P ν .r u.2 ((ssAlg N P).lenv ψ u.2) ((ssAlg N P).renv N ψ (N - (u.2 + 1))) (ψ u.2).ten (ψ (u.2 + 1)).ten
    Function.update (Function.update ψ u.2 p.1) (u.2 + 1) p.2
  | .l =>
    let p := ssUpd N P ν .l u.2 ((ssAlg N P).lenv ψ u.2) ((ssAlg N P).renv N ψ (N - (u.2 + 1))) (ψ (u.2 - 1)).ten (ψ u.2).ten
    Function.update (Function.update ψ (u.2 - 1) p.1) u.2 p.2

/-- The scalars before an update: at the beginning of sweep `i` the noise of the list is taken if there is one, else the running one stays, and `e0` and
`actual_laststep_e0` start from zero; an empty list is replaced by one zero (single_site_update_finite_vmps_impl.h:98-106, 128-136). -/
noncomputable def ssReset (ns : List ℝ) (h : NoiseSt ℝ) : Option Nat → NoiseSt ℝ
  | none => h
  | some i => ⟨0, 0, (if ns = [] then [0] else ns)[i]?.getD h.noise⟩

/-- The noise of the update `u`: `actual_e0 = CalEnergyEptSingleSite(…)` and the adaption (single_site_update_finite_vmps_impl.h:142-152, 168-175). -/
noncomputable def ssNoise (N : Nat) (P : SsPar σ 𝕜) (Q : NoiseParams ℝ) (ψ : Nat → LTen σ 𝕜) (h : NoiseSt ℝ) (u : (Dir × Nat) × Option Nat) : ℝ :=
  adapt realDbl Q (ssReset Q.noises h u.2) (ssEnergy ((ssAlg N P).lenv ψ u.1.2) ((ssAlg N P).renv N ψ (N - (u.1.2 + 1))) (P.w u.1.2) (ψ u.1.2).ten)

/-- The scalars after it: `e0` is the energy that the update returned, `actual_laststep_e0` is `actual_e0` (single_site_update_finite_vmps_impl.h:153-160, 176-183). -/
noncomputable def ssScal (N : Nat) (P : SsPar σ 𝕜) (Q : NoiseParams ℝ) (ψ : Nat → LTen σ 𝕜) (h : NoiseSt ℝ) (u : (Dir × Nat) × Option Nat) : NoiseSt ℝ :=
  ⟨((ssWith N P (ssNoise N P Q ψ h u) ψ u.1 u.1.2).e0).getD 0,
   ssEnergy ((ssAlg N P).lenv ψ u.1.2) ((ssAlg N P).renv N ψ (N - (u.1.2 + 1))) (P.w u.1.2) (ψ u.1.2).ten, ssNoise N P Q ψ h u⟩

/-- The updates of `k` sweeps, the first one of sweep `i` marked with `i`. -/
def ssMarked (N k : Nat) : List ((Dir × Nat) × Option Nat) :=
  (List.range k).flatMap fun i => match ssSweep N with
    | [] => []
    | u :: us => (u, some i) :: us.map fun u => (u, none)

/-- The tensors and scalars after the marked updates, in the exact environments, with the noises chosen by the program. -/
noncomputable def ssAdapt (N : Nat) (P : SsPar σ 𝕜) (Q : NoiseParams ℝ) (us : List ((Dir × Nat) × Option Nat)) (s : (Nat → LTen σ 𝕜) × NoiseSt ℝ) :
    (Nat → LTen σ 𝕜) × NoiseSt ℝ :=
  us.foldl (fun s u => (ssWith N P (ssNoise N P Q s.1 s.2 u) s.1 u.1, ssScal N P Q s.1 s.2 u)) s

end
end Verif.Mps
