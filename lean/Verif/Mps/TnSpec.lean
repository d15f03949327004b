import Verif.Mps.TnNum
import Verif.Mps.SsSpec
import Verif.Mps.VmpsGauge
/-
Vocabulary for the statements about the two-site optimisation with noise: its assumptions, the states of the run and the rule of the noise.
-/
namespace Verif.Mps
open Finset Verif.Disk Verif.Algo Verif.Props

section
variable {σ 𝕜 : Type} [RCLike 𝕜] [Fintype σ] [DecidableEq σ]

/-- **Specification**: what is assumed of the run: that of the run without noise (the MPO is a closed chain and its operator Hermitian, the decompositions and the tridiagonal
solver do what they promise, at least two Lanczos iterations are allowed), and that QR is a QR decomposition. Nothing is assumed of the noises, of the MPO tensors used in the
expansions, or of when expansions are skipped. -/
structure TnOK (N : Nat) (P : TnPar σ 𝕜) : Prop extends ParOK N P.toVmpsPar where
  qr : QRSpec P.qr

/-- **Specification**: no decomposition discards anything. -/
def TnPar.NoCut (P : TnPar σ 𝕜) : Prop := (∀ T : Blk2 σ 𝕜, T.Is (P.splitR T)) ∧ ∀ T : Blk2 σ 𝕜, T.Is (P.splitL T)

/-- **Specification**: all noises are below the threshold of the code. -/
def TnPar.Silent (P : TnPar σ 𝕜) : Prop := ∀ n, |P.noise n| < 1e-10

/-- **Specification**: the target site of an update of the pair `(u.2, u.2+1)`. -/
def target : Dir × Nat → Nat
  | (.r, i) => i
  | (.l, i) => i + 1

/-- **Specification**: one update in the exact environments of the current MPS; `u.2` is the left site of the pair, the order of the updates is `upds` (Verif/Mps/VmpsRunSpec.lean). -/
noncomputable def tn1 (N : Nat) (P : TnPar σ 𝕜) (ψ : (Nat → LTen σ 𝕜) × Nat) (u : Dir × Nat) : (Nat → LTen σ 𝕜) × Nat :=
  match u.1 with
  | .r => opt3R (tnAlg N P.toVmpsPar) (tnOpt P) N ψ u.2
  | .l => opt3L (tnAlg N P.toVmpsPar) (tnOpt P) N ψ (u.2 + 1)

/-- **Specification**: the MPS after `n` of the updates `us`. -/
noncomputable def tnAt (N : Nat) (P : TnPar σ 𝕜) (us : List (Dir × Nat)) (ψ : (Nat → LTen σ 𝕜) × Nat) (n : Nat) : (Nat → LTen σ 𝕜) × Nat :=
  (us.take n).foldl (tn1 N P) ψ

/-- **Specification**: its state. -/
noncomputable def tnState (N : Nat) (P : TnPar σ 𝕜) (us : List (Dir × Nat)) (ψ : (Nat → LTen σ 𝕜) × Nat) (n : Nat) : ChainV σ 𝕜 N :=
  stateV N (tens (tnAt N P us ψ n).1)

/-- **Specification**: update `n` reports the energy `e` (at its target site). -/
def TnReports (N : Nat) (P : TnPar σ 𝕜) (us : List (Dir × Nat)) (ψ : (Nat → LTen σ 𝕜) × Nat) (n : Nat) (e : ℝ) : Prop :=
  ∃ u, us[n]? = some u ∧ ((tnAt N P us ψ (n + 1)).1 (target u)).e0 = some e

/-- **Specification**: none of the first `n` updates turns the state into zero. -/
def TnAlive (N : Nat) (P : TnPar σ 𝕜) (us : List (Dir × Nat)) (ψ : (Nat → LTen σ 𝕜) × Nat) (n : Nat) : Prop := ∀ m, m ≤ n → tnState N P us ψ m ≠ 0

/-! ### The rule of the noise -/

/-- The result of the update `u` in the exact environments with the noise `ν` (two_site_update_noise_finite_vmps_impl.h:167-173, 189-195). -/
noncomputable def tnWith (N : Nat) (P : TnPar σ 𝕜) (ν : ℝ) (ψ : Nat → LTen σ 𝕜) (u : Dir × Nat) : Nat → LTen σ 𝕜 :=
  match u.1 with
  | .r =>
    let p := tnUpd P ν .r u.2 ((tnAlg N P.toVmpsPar).lenv ψ u.2) ((tnAlg N P.toVmpsPar).renv N ψ (N - (u.2 + 2))) (ψ u.2).ten (ψ (u.2 + 1)).ten (ψ (u.2 + 2)).ten
    Function.update (Function.update (Function.update ψ u.2 p.1) (u.2 + 1) p.2.1) (u.2 + 2) p.2.2
  | .l =>
    let p := tnUpd P ν .l (u.2 + 1) ((tnAlg N P.toVmpsPar).lenv ψ u.2) ((tnAlg N P.toVmpsPar).renv N ψ (N - (u.2 + 2))) (ψ (u.2 - 1)).ten (ψ u.2).ten (ψ (u.2 + 1)).ten
    Function.update (Function.update (Function.update ψ (u.2 - 1) p.1) u.2 p.2.1) (u.2 + 1) p.2.2

/-- `actual_e0` before the update `u` (two_site_update_noise_finite_vmps_impl.h:156, 182). -/
noncomputable def tnActual (N : Nat) (P : TnPar σ 𝕜) (ψ : Nat → LTen σ 𝕜) (u : Dir × Nat) : ℝ :=
  tnEnergy ((tnAlg N P.toVmpsPar).lenv ψ u.2) ((tnAlg N P.toVmpsPar).renv N ψ (N - (u.2 + 2))) (P.w u.2) (P.w (u.2 + 1)) (ψ u.2).ten (ψ (u.2 + 1)).ten

/-- The scalars before an update: at the beginning of sweep `i` the noise of the list is taken if there is one, else the running one stays, and `e0` and `actual_laststep_e0` start from
zero (two_site_update_noise_finite_vmps_impl.h:110-118, 142, 149). -/
def tnReset (ns : List ℝ) (h : NoiseSt ℝ) : Option Nat → NoiseSt ℝ
  | none => h
  | some i => ⟨0, 0, ns[i]?.getD h.noise⟩

/-- The noise of the update `u`: the adaption (two_site_update_noise_finite_vmps_impl.h:157-166, 183-188). -/
noncomputable def tnNoise (N : Nat) (P : TnPar σ 𝕜) (Q : NoiseParams ℝ) (ψ : Nat → LTen σ 𝕜) (h : NoiseSt ℝ) (u : (Dir × Nat) × Option Nat) : ℝ :=
  adapt realDbl Q (tnReset Q.noises h u.2) (tnActual N P ψ u.1)

/-- The scalars after it: `e0` is the energy that the update returned, `actual_laststep_e0` is `actual_e0` (two_site_update_noise_finite_vmps_impl.h:167-174, 189-196). -/
noncomputable def tnScal (N : Nat) (P : TnPar σ 𝕜) (Q : NoiseParams ℝ) (ψ : Nat → LTen σ 𝕜) (h : NoiseSt ℝ) (u : (Dir × Nat) × Option Nat) : NoiseSt ℝ :=
  ⟨((tnWith N P (tnNoise N P Q ψ h u) ψ u.1 (target u.1)).e0).getD 0, tnActual N P ψ u.1, tnNoise N P Q ψ h u⟩

/-- The updates of `k` sweeps, the first one of sweep `i` marked with `i`. -/
def tnMarked (lb rb k : Nat) : List ((Dir × Nat) × Option Nat) :=
  (List.range k).flatMap fun i => match sweepUpds lb rb with
    | [] => []
    | u :: us => (u, some i) :: us.map fun u => (u, none)

/-- The tensors and scalars after the marked updates, in the exact environments, with the noises chosen by the program. -/
noncomputable def tnAdapt (N : Nat) (P : TnPar σ 𝕜) (Q : NoiseParams ℝ) (us : List ((Dir × Nat) × Option Nat)) (s : (Nat → LTen σ 𝕜) × NoiseSt ℝ) :
    (Nat → LTen σ 𝕜) × NoiseSt ℝ :=
  us.foldl (fun s u => (tnWith N P (tnNoise N P Q s.1 s.2 u) s.1 u.1, tnScal N P Q s.1 s.2 u)) s

end
end Verif.Mps
