import Verif.Props.DmrgHamSpec
import Verif.Props.SsNum
import Verif.Props.TnNum
import Verif.Props.MpiVmpsNum
import Verif.Props.MpiTnNum
import Verif.Props.MpiDmrgNum
/-
Specification for C88: what the programs beside `TwoSiteFiniteVMPS` and the serial DMRG executor do with a Hamiltonian of Fock space.
-/
namespace Verif.Fock
open Finset Verif.Mps Verif.Disk Verif.Algo Verif.Props Verif.Mpi

variable {𝕜 : Type} [RCLike 𝕜] {d N : Nat}

/-- A result `Ψ` with energy `e`, obtained from `Φ`: `Ψ` is not zero and `e` is not below the ground-state energy of `H` in the allowed part of Fock space; if nothing was cut, `Ψ` is
normalised, `e` is its energy in `H`, and `e` is not larger than the energy of `Φ`. -/
structure Finds (dec : Fin d → Occ) (ok : Occ → Prop) (H : Matrix (Conf N) (Conf N) 𝕜) (nocut : Prop) (Φ Ψ : ChainV (Fin d) 𝕜 N) (e : ℝ) : Prop where
  nonzero : Ψ ≠ 0
  above : ∀ E0, LowerBound ok H E0 → E0 ≤ e
  norm : nocut → ‖inFock dec Ψ‖ = 1
  energy : nocut → fockEnergy H (inFock dec Ψ) = e
  lower : nocut → e * ‖inFock dec Φ‖ ^ 2 ≤ fockEnergy H (inFock dec Φ)

/-- `SingleSiteFiniteVMPS` with the MPO `w`: for all decompositions and solvers that do what they promise, with any noises that do not turn the state into zero. -/
def SingleSiteFinds (N : Nat) (w : Nat → Ten (Fin d × Fin d) 𝕜) (dec : Fin d → Occ) (ok : Occ → Prop) (H : Matrix (Conf N) (Conf N) 𝕜) : Prop :=
  ∀ P : SsPar (Fin d) 𝕜, P.w = w → SiteSvdR P.svdR → SiteSvdL P.svdL → Solves P.tri → 2 ≤ P.maxIter →
    ∀ (temp : Bool) (k clk : Nat) (ψ : Nat → LTen (Fin d) 𝕜) (dsk : Dsk (LTen (Fin d) 𝕜) (Env3 𝕜)), k ≠ 0 → OnDisk N ψ dsk → TempOK1 (ssAlg N P) N temp ψ dsk → Mps.Canon N 0 (tens ψ) →
      Alive N P (ssUpds N k) (ψ, clk) (ssUpds N k).length →
      ∃ s' ψ' e, run N N (singleSite (ssAlg N P) (ssOpt N P) N temp k) ⟨Mem.blank clk, dsk⟩ = .ok s' ∧ OnDisk N ψ' s'.dsk ∧ (ψ' 0).e0 = some e ∧
        Finds dec ok H P.NoCut (stateV N (tens ψ)) (stateV N (tens ψ')) e

/-- `TwoSiteFiniteVMPSWithNoise` with the MPO `w`. -/
def NoiseFinds (N : Nat) (w : Nat → Ten (Fin d × Fin d) 𝕜) (dec : Fin d → Occ) (ok : Occ → Prop) (H : Matrix (Conf N) (Conf N) 𝕜) : Prop :=
  ∀ P : TnPar (Fin d) 𝕜, P.w = w → BlkSplitR P.splitR → BlkSplitL P.splitL → QRSpec P.qr → Solves P.tri → 2 ≤ P.maxIter →
    ∀ (fuse : (l : Nat) → Fin l × Fin d ≃ Fin (l * Fintype.card (Fin d))) (dmax : Nat) (bl br : Nat → Bool) (k clk : Nat) (ψ : Nat → LTen (Fin d) 𝕜) (dsk : Dsk (LTen (Fin d) 𝕜) (Env3 𝕜))
      (mem : Mem (LTen (Fin d) 𝕜) (Env3 𝕜)) (c : Nat), k ≠ 0 → NoTensors mem clk → OnDisk N ψ dsk → (∀ k, dsk.r k ≠ .junk) →
      Reusable (tnAlg N P.toVmpsPar) N (lbOf bl N) (rbOf br N) ψ dsk → c ≤ lbOf bl N + 1 → Mps.Canon N c (tens ψ) →
      TnAlive N P (upds (lbOf bl N) (rbOf br N) k) (gauged (vmpsG P.qr fuse dmax) N (lbOf bl N) (rbOf br N) ψ, clk) (upds (lbOf bl N) (rbOf br N) k).length →
      ∃ s' ψ' e, run N N (noised (tnAlg N P.toVmpsPar) (tnOpt P) (tnCanon P) N (vmpsG P.qr fuse dmax) bl br dsk k) ⟨mem, dsk⟩ = .ok s' ∧ OnDisk N ψ' s'.dsk ∧
        (ψ' (lbOf bl N + 1)).e0 = some e ∧ Finds dec ok H P.NoCut (stateV N (tens ψ)) (stateV N (tens ψ')) e

/-- The parallel `TwoSiteFiniteVMPS` with the MPO `w`, with any number of workers and in every execution. -/
def ParallelFinds (N : Nat) (w : Nat → Ten (Fin d × Fin d) 𝕜) (dec : Fin d → Occ) (ok : Occ → Prop) (H : Matrix (Conf N) (Conf N) 𝕜) : Prop :=
  ∀ (P : VmpsPar (Fin d) 𝕜) (SL VL : Type) (L : MpiLib (Fin d) 𝕜 SL) (lact : Nat → SL → Act SL VL) (W : Nat) (qr : Ten (Fin d) 𝕜 → Ten (Fin d) 𝕜 × Mat 𝕜), P.w = w →
    BlkSplitR P.splitR → BlkSplitL P.splitL → QRSpec qr → Solves P.tri → TriLocal P.tri → 2 ≤ P.maxIter → 1 ≤ W → L.OK P lact W →
    ∀ (fuse : (l : Nat) → Fin l × Fin d ≃ Fin (l * Fintype.card (Fin d))) (dmax : Nat) (bl br : Nat → Bool) (k clk : Nat) (ψ : Nat → LTen (Fin d) 𝕜) (dsk : Dsk (LTen (Fin d) 𝕜) (Env3 𝕜))
      (mem : Mem (LTen (Fin d) 𝕜) (Env3 𝕜)) (c : Nat), k ≠ 0 → NoTensors mem clk → OnDisk N ψ dsk → (∀ k, dsk.r k ≠ .junk) →
      Reusable (engAlg N P L) N (lbOf bl N) (rbOf br N) ψ dsk → c ≤ lbOf bl N + 1 → Mps.Canon N c (tens ψ) → stateV N (tens ψ) ≠ 0 →
      ∃ s' ψ' e, Accepted (vmpsEng N P L) lact W .vmps (vmpsStart N P L lact W (vmpsG qr fuse dmax) bl br k ⟨mem, dsk⟩) (.ok s') ∧ OnDisk N ψ' s'.dsk ∧
        (ψ' (lbOf bl N + 1)).e0 = some e ∧ Finds dec ok H (NoCut P) (stateV N (tens ψ)) (stateV N (tens ψ')) e

/-- The parallel `TwoSiteFiniteVMPSWithNoise` with the MPO `w`. -/
def ParallelNoiseFinds (N : Nat) (w : Nat → Ten (Fin d × Fin d) 𝕜) (dec : Fin d → Occ) (ok : Occ → Prop) (H : Matrix (Conf N) (Conf N) 𝕜) : Prop :=
  ∀ (P : TnPar (Fin d) 𝕜) (SL VL : Type) (L : NoiseLib (Fin d) 𝕜 SL) (lact : Nat → SL → Act SL VL) (W : Nat), P.w = w →
    BlkSplitR P.splitR → BlkSplitL P.splitL → QRSpec P.qr → Solves P.tri → TriLocal P.tri → 2 ≤ P.maxIter → 1 ≤ W → L.OKN P lact W →
    ∀ (fuse : (l : Nat) → Fin l × Fin d ≃ Fin (l * Fintype.card (Fin d))) (dmax : Nat) (noises : List ℝ) (bl br : Nat → Bool) (k clk : Nat) (ψ : Nat → LTen (Fin d) 𝕜)
      (dsk : Dsk (LTen (Fin d) 𝕜) (Env3 𝕜)) (mem : Mem (LTen (Fin d) 𝕜) (Env3 𝕜)) (c : Nat), noises ≠ [] → k ≠ 0 → NoTensors mem clk → OnDisk N ψ dsk → (∀ k, dsk.r k ≠ .junk) →
      Reusable (tnAlg N P.toVmpsPar) N (lbOf bl N) (rbOf br N) ψ dsk → c ≤ lbOf bl N + 1 → Mps.Canon N c (tens ψ) →
      TnAlive N (sweepPar P noises (lbOf bl N) (rbOf br N) clk) (upds (lbOf bl N) (rbOf br N) k) (gauged (vmpsG P.qr fuse dmax) N (lbOf bl N) (rbOf br N) ψ, clk)
        (upds (lbOf bl N) (rbOf br N) k).length →
      ∃ s' ψ' e, Accepted (tnEng N P L) lact W .vmps (noiseStart N P L lact W (vmpsG P.qr fuse dmax) noises bl br k ⟨mem, dsk⟩) (.ok s') ∧ OnDisk N ψ' s'.dsk ∧
        (ψ' (lbOf bl N + 1)).e0 = some e ∧ Finds dec ok H P.NoCut (stateV N (tens ψ)) (stateV N (tens ψ')) e

/-- The parallel DMRG executor with the matrices of operators `m`. -/
def ParallelDmrgFinds (N : Nat) (m : Nat → OpMat (Fin d) 𝕜) (dec : Fin d → Occ) (ok : Occ → Prop) (H : Matrix (Conf N) (Conf N) 𝕜) : Prop :=
  ∀ (P : DmrgPar (Fin d) 𝕜) (SL VL : Type) (S : SvdLib (Fin d) 𝕜 SL) (lact : Nat → SL → Act SL VL) (W : Nat), P.m = m →
    BlkSplitR P.splitR → BlkSplitL P.splitL → QRSpec P.qr → Solves P.tri → TriLocal P.tri → 2 ≤ P.maxIter → 1 ≤ W → S.OK P lact W →
    ∀ (bl br : Nat → Bool) (k clk : Nat) (ψ : Nat → LTen (Fin d) 𝕜) (dsk : CDsk (LTen (Fin d) 𝕜) (Option (BOp 𝕜))) (c : Nat), 1 ≤ k → COnDisk N ψ dsk →
      OpsReusable (dmrgAlg P) (bondsOf P) N (lbOf bl N) (rbOf br N) ψ dsk → c ≤ lbOf bl N + 1 → Mps.Canon N c (tens ψ) → stateV N (tens ψ) ≠ 0 →
      ∃ s' ψ' e, DmrgEnds (dmrgEng N P S) lact W (dmrgStart (dmrgEng N P S) lact W (boundaryG P) (postG P) bl br k ⟨Mem.blank clk, dsk⟩) s' ∧ COnDisk N ψ' s'.dsk ∧
        (ψ' (lbOf bl N + 1)).e0 = some e ∧ Finds dec ok H (NoCut P.dense) (stateV N (tens ψ)) (stateV N (tens ψ')) e

/-- All programs that take an MPO. -/
structure AllFind (N : Nat) (w : Nat → Ten (Fin d × Fin d) 𝕜) (dec : Fin d → Occ) (ok : Occ → Prop) (H : Matrix (Conf N) (Conf N) 𝕜) : Prop where
  single : SingleSiteFinds N w dec ok H
  noise : NoiseFinds N w dec ok H
  parallel : ParallelFinds N w dec ok H
  parallelNoise : ParallelNoiseFinds N w dec ok H

end Verif.Fock
