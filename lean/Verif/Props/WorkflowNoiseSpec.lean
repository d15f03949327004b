import Verif.Props.WorkflowSpec
/-
Specification for C92: whole calculations with the programs that take noises. The result is loaded into a new MPS or, after the serial programs,
into the one given to the program, whose flags are modelled in Mps/VmpsObj.
-/
namespace Verif.Fock
open Verif.Mpo Verif.Mps Verif.Disk Verif.Algo Verif.Props Verif.Mpi

variable {𝕜 : Type} [RCLike 𝕜] {d N : Nat}

/-- With the MPO tensors `w` and `SingleSiteFiniteVMPS`, if the noises are below the threshold of the program or the decompositions discard nothing: otherwise noise can turn the state into zero (C77). -/
def CalcSingle (N : Nat) (w : Nat → Ten (Fin d × Fin d) 𝕜) (dec : Fin d → Occ) (ok : Occ → Prop) (H : Matrix (Conf N) (Conf N) 𝕜) : Prop :=
  ∀ P : SsPar (Fin d) 𝕜, P.w = w → SiteSvdR P.svdR → SiteSvdL P.svdL → Solves P.tri → 2 ≤ P.maxIter → P.Silent ∨ P.NoCut → ∀ k, k ≠ 0 →
    Calculates N dec ok H
      (fun f g => ∃ s, run N N (singleSite (ssAlg N P) (ssOpt N P) N false k) ⟨Mem.blank 0, ⟨f, fun _ => .gone, fun _ => .gone⟩⟩ = .ok s ∧ s.dsk.m = g) 0
      (fun m m' => m' = FMps.fresh N ∨ m' = m.after (ssFlags N false k)) P.NoCut

/-- With `TwoSiteFiniteVMPSWithNoise`, wherever the bond dimensions put the first and last site of the sweeps. -/
def CalcNoise (N : Nat) (w : Nat → Ten (Fin d × Fin d) 𝕜) (dec : Fin d → Occ) (ok : Occ → Prop) (H : Matrix (Conf N) (Conf N) 𝕜) : Prop :=
  ∀ P : TnPar (Fin d) 𝕜, P.w = w → BlkSplitR P.splitR → BlkSplitL P.splitL → QRSpec P.qr → Solves P.tri → 2 ≤ P.maxIter → P.Silent ∨ P.NoCut →
    ∀ (fuse : (l : Nat) → Fin l × Fin d ≃ Fin (l * Fintype.card (Fin d))) (dmax : Nat) (bl br : Nat → Bool) (k : Nat), k ≠ 0 →
    Calculates N dec ok H
      (fun f g => ∃ s, run N N (noised (tnAlg N P.toVmpsPar) (tnOpt P) (tnCanon P) N (vmpsG P.qr fuse dmax) bl br ⟨f, fun _ => .gone, fun _ => .gone⟩ k)
        ⟨Mem.blank 0, ⟨f, fun _ => .gone, fun _ => .gone⟩⟩ = .ok s ∧ s.dsk.m = g) (lbOf bl N + 1)
      (fun m m' => m' = FMps.fresh N ∨ ∃ expand, m' = m.after (tnFlags N (lbOf bl N) (rbOf br N) true expand k)) P.NoCut

/-- With the parallel `TwoSiteFiniteVMPSWithNoise`, for any number of workers and in every execution. -/
def CalcNoiseMpi (N : Nat) (w : Nat → Ten (Fin d × Fin d) 𝕜) (dec : Fin d → Occ) (ok : Occ → Prop) (H : Matrix (Conf N) (Conf N) 𝕜) : Prop :=
  ∀ (P : TnPar (Fin d) 𝕜) (SL VL : Type) (L : NoiseLib (Fin d) 𝕜 SL) (lact : Nat → SL → Act SL VL) (W : Nat), P.w = w →
    BlkSplitR P.splitR → BlkSplitL P.splitL → QRSpec P.qr → Solves P.tri → TriLocal P.tri → 2 ≤ P.maxIter → 1 ≤ W → L.OKN P lact W →
    ∀ noises : List ℝ, noises ≠ [] → (∀ x ∈ noises, |x| < 1e-10) ∨ P.NoCut →
    ∀ (fuse : (l : Nat) → Fin l × Fin d ≃ Fin (l * Fintype.card (Fin d))) (dmax : Nat) (bl br : Nat → Bool) (k : Nat), k ≠ 0 →
    Calculates N dec ok H
      (fun f g => ∃ s, Accepted (tnEng N P L) lact W .vmps (noiseStart N P L lact W (vmpsG P.qr fuse dmax) noises bl br k ⟨Mem.blank 0, ⟨f, fun _ => .gone, fun _ => .gone⟩⟩) (.ok s) ∧ s.dsk.m = g)
      (lbOf bl N + 1) (fun _ m' => m' = FMps.fresh N) P.NoCut

/-- All three. -/
structure CalcNoisy (N : Nat) (w : Nat → Ten (Fin d × Fin d) 𝕜) (dec : Fin d → Occ) (ok : Occ → Prop) (H : Matrix (Conf N) (Conf N) 𝕜) : Prop where
  single : CalcSingle N w dec ok H
  noise : CalcNoise N w dec ok H
  parallel : CalcNoiseMpi N w dec ok H

end Verif.Fock
