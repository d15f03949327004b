import Verif.Props.SsNum
import Verif.Props.TnNum
import Verif.Props.Vmps
import Verif.Props.DmrgNum
import Verif.Props.MpiVmpsNum
import Verif.Props.MpiTnNum
import Verif.Props.MpiDmrgNum
/-
Specification for C95: several optimisation programs, one after the other, on the same MPS directory.
-/
namespace Verif.Mps
open Finset Verif.Disk Verif.Algo Verif.Props Verif.Mpi

variable {σ 𝕜 : Type} [Fintype σ] [RCLike 𝕜]

/-- A call of an optimisation program. -/
structure ProgRun (σ 𝕜 : Type) where
  /-- from which to which contents of the MPS directory it leads, the temporary directory being empty at its start -/
  does : (Nat → File (LTen σ 𝕜)) → (Nat → File (LTen σ 𝕜)) → Prop
  /-- a site whose tensor the last update has written -/
  site : Nat
  /-- the last site at which the canonical centre may be at its start -/
  accepts : Nat
  /-- the site of the canonical centre at its end -/
  leaves : Nat
  /-- its decompositions discard nothing -/
  exact : Prop

/-- `r` is a call of one of the programs for the Hamiltonian of the MPO tensors `w`, with at least one sweep, at least two Lanczos steps, and decompositions and tridiagonal solver that do what they
promise; with noise only if it is below the threshold or nothing is discarded (see C77, C78). -/
inductive IsRun (N : Nat) [DecidableEq σ] (w : Nat → Ten (σ × σ) 𝕜) : ProgRun σ 𝕜 → Prop
  /-- `TwoSiteFiniteVMPS` -/
  | vmps (P : VmpsPar σ 𝕜) (k : Nat) : P.w = w → BlkSplitR P.splitR → BlkSplitL P.splitL → Solves P.tri → 2 ≤ P.maxIter → k ≠ 0 →
      IsRun N w ⟨fun f g => ∃ s, run N (N - 1) (twoSite (vmpsAlg N P) N false k) ⟨Mem.blank 0, ⟨f, fun _ => .gone, fun _ => .gone⟩⟩ = .ok s ∧ s.dsk.m = g, 1, 1, 1, NoCut P⟩
  /-- `SingleSiteFiniteVMPS` -/
  | single (P : SsPar σ 𝕜) (k : Nat) : P.w = w → SiteSvdR P.svdR → SiteSvdL P.svdL → Solves P.tri → 2 ≤ P.maxIter → P.Silent ∨ P.NoCut → k ≠ 0 →
      IsRun N w ⟨fun f g => ∃ s, run N N (singleSite (ssAlg N P) (ssOpt N P) N false k) ⟨Mem.blank 0, ⟨f, fun _ => .gone, fun _ => .gone⟩⟩ = .ok s ∧ s.dsk.m = g, 0, 0, 0, P.NoCut⟩
  /-- `TwoSiteFiniteVMPSWithNoise` -/
  | noise (P : TnPar σ 𝕜) (fuse : (l : Nat) → Fin l × σ ≃ Fin (l * Fintype.card σ)) (dmax : Nat) (bl br : Nat → Bool) (k : Nat) :
      P.w = w → BlkSplitR P.splitR → BlkSplitL P.splitL → QRSpec P.qr → Solves P.tri → 2 ≤ P.maxIter → P.Silent ∨ P.NoCut → k ≠ 0 →
      IsRun N w ⟨fun f g => ∃ s, run N N (noised (tnAlg N P.toVmpsPar) (tnOpt P) (tnCanon P) N (vmpsG P.qr fuse dmax) bl br ⟨f, fun _ => .gone, fun _ => .gone⟩ k)
        ⟨Mem.blank 0, ⟨f, fun _ => .gone, fun _ => .gone⟩⟩ = .ok s ∧ s.dsk.m = g, lbOf bl N + 1, lbOf bl N + 1, lbOf bl N + 1, P.NoCut⟩
  /-- `FiniteDMRG`, ended after `n` of at most `k` sweeps -/
  | dmrg (P : DmrgPar σ 𝕜) (bl br : Nat → Bool) (n k : Nat) (sg : Sig) : OpMatsOK N P.m → opM N (fun i => (P.m i).ten) = opM N w → BlkSplitR P.splitR → BlkSplitL P.splitL → QRSpec P.qr →
      Solves P.tri → 2 ≤ P.maxIter → sg.OK → 0 < n → n ≤ k → sg.fin.em = false → (∀ q, q + 1 < n → (sg.look q (2 * (rbOf br N - 1 - lbOf bl N))).stop = false) →
      (n = k ∨ (sg.look (n - 1) (2 * (rbOf br N - 1 - lbOf bl N))).stop = true) →
      IsRun N w ⟨fun f g => ∃ s, dmrg (dmrgAlg P) (bondsOf P) N (boundaryG P) (postG P) bl br k sg ⟨Mem.blank 0, ⟨f, fun _ _ => .gone, fun _ _ => .gone⟩⟩ = .ok s ∧ s.dsk.m = g,
        lbOf bl N + 1, lbOf bl N + 1, 0, NoCut P.dense⟩
  /-- the parallel `TwoSiteFiniteVMPS` -/
  | vmpsMpi (P : VmpsPar σ 𝕜) (SL VL : Type) (L : MpiLib σ 𝕜 SL) (lact : Nat → SL → Act SL VL) (W : Nat) (qr : Ten σ 𝕜 → Ten σ 𝕜 × Mat 𝕜) (fuse : (l : Nat) → Fin l × σ ≃ Fin (l * Fintype.card σ))
      (dmax : Nat) (bl br : Nat → Bool) (k : Nat) : P.w = w → BlkSplitR P.splitR → BlkSplitL P.splitL → QRSpec qr → Solves P.tri → TriLocal P.tri → 2 ≤ P.maxIter → 1 ≤ W → L.OK P lact W → k ≠ 0 →
      IsRun N w ⟨fun f g => ∃ s, Accepted (vmpsEng N P L) lact W .vmps (vmpsStart N P L lact W (vmpsG qr fuse dmax) bl br k ⟨Mem.blank 0, ⟨f, fun _ => .gone, fun _ => .gone⟩⟩) (.ok s) ∧ s.dsk.m = g,
        lbOf bl N + 1, lbOf bl N + 1, lbOf bl N + 1, NoCut P⟩
  /-- the parallel `TwoSiteFiniteVMPSWithNoise` -/
  | noiseMpi (P : TnPar σ 𝕜) (SL VL : Type) (L : NoiseLib σ 𝕜 SL) (lact : Nat → SL → Act SL VL) (W : Nat) (noises : List ℝ) (fuse : (l : Nat) → Fin l × σ ≃ Fin (l * Fintype.card σ))
      (dmax : Nat) (bl br : Nat → Bool) (k : Nat) : P.w = w → BlkSplitR P.splitR → BlkSplitL P.splitL → QRSpec P.qr → Solves P.tri → TriLocal P.tri → 2 ≤ P.maxIter → 1 ≤ W → L.OKN P lact W →
      noises ≠ [] → (∀ x ∈ noises, |x| < 1e-10) ∨ P.NoCut → k ≠ 0 →
      IsRun N w ⟨fun f g => ∃ s, Accepted (tnEng N P L) lact W .vmps (noiseStart N P L lact W (vmpsG P.qr fuse dmax) noises bl br k ⟨Mem.blank 0, ⟨f, fun _ => .gone, fun _ => .gone⟩⟩) (.ok s) ∧
        s.dsk.m = g, lbOf bl N + 1, lbOf bl N + 1, 0, P.NoCut⟩
  /-- the parallel `FiniteDMRG` -/
  | dmrgMpi (P : DmrgPar σ 𝕜) (SL VL : Type) (S : SvdLib σ 𝕜 SL) (lact : Nat → SL → Act SL VL) (W : Nat) (bl br : Nat → Bool) (k : Nat) : OpMatsOK N P.m →
      opM N (fun i => (P.m i).ten) = opM N w → BlkSplitR P.splitR → BlkSplitL P.splitL → QRSpec P.qr → Solves P.tri → TriLocal P.tri → 2 ≤ P.maxIter → 1 ≤ W → S.OK P lact W → 1 ≤ k →
      IsRun N w ⟨fun f g => ∃ s, DmrgEnds (dmrgEng N P S) lact W (dmrgStart (dmrgEng N P S) lact W (boundaryG P) (postG P) bl br k ⟨Mem.blank 0, ⟨f, fun _ _ => .gone, fun _ _ => .gone⟩⟩) s ∧
        s.dsk.m = g, lbOf bl N + 1, lbOf bl N + 1, 0, NoCut P.dense⟩

/-- The programs `rs`, one after the other, lead from the directory `f` to `g`, and `es` are the energies of their last updates. -/
inductive Runs : (Nat → File (LTen σ 𝕜)) → List (ProgRun σ 𝕜) → List ℝ → (Nat → File (LTen σ 𝕜)) → Prop
  | nil (f) : Runs f [] [] f
  | cons {f g h} {r : ProgRun σ 𝕜} {rs : List (ProgRun σ 𝕜)} {e : ℝ} {es : List ℝ} : r.does f g → (∃ t, g r.site = .whole t ∧ t.e0 = some e) → Runs g rs es h → Runs f (r :: rs) (e :: es) h

/-- The programs fit together: each accepts the canonical centre where the one before it, or the initial MPS, has left it. -/
def Fit : Nat → List (ProgRun σ 𝕜) → Prop
  | _, [] => True
  | c, r :: rs => c ≤ r.accepts ∧ Fit r.leaves rs

/-- The site of the canonical centre after the programs. -/
def endAt : Nat → List (ProgRun σ 𝕜) → Nat
  | c, [] => c
  | _, r :: rs => endAt r.leaves rs

/-- The files hold the tensors `ψ`. -/
def Holds (N : Nat) (f : Nat → File (LTen σ 𝕜)) (ψ : Nat → LTen σ 𝕜) : Prop := ∀ j, j < N → f j = .whole (ψ j)

end Verif.Mps
