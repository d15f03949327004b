import Verif.Props.StaticSpec
import Verif.Props.VmpsBoundary
import Verif.Props.HamAllSpec
import Verif.Mps.VmpsObj
import Verif.Mps.MpsIo
import Verif.Mps.Init
/-
Specification for C92: a whole calculation, from the terms of a Hamiltonian to measured values.
-/
namespace Verif.Fock
open Verif.Mpo Verif.Mps Verif.Disk Verif.Algo Verif.Props Verif.Mpi

variable {𝕜 : Type} [RCLike 𝕜] {d N : Nat}

/-- The directory of an MPS as the optimisation sees it: its model remembers with a tensor the energy of the update that made it, none at first. -/
def asFiles (dir : MpsDir (Fin d) 𝕜) (i : Nat) : File (LTen (Fin d) 𝕜) :=
  match dir i with
  | .gone => .gone
  | .junk => .junk
  | .whole t => .whole ⟨t, Option.none⟩

/-- The tensors in the files of an MPS the optimisation has written. -/
def asDir (f : Nat → File (LTen (Fin d) 𝕜)) (i : Nat) : File (Ten (Fin d) 𝕜) :=
  match f i with
  | .gone => .gone
  | .junk => .junk
  | .whole t => .whole t.ten

/-- Loading the files `dir` into the MPS `m` succeeds, and then every measurement returns its value in the state `Ψ`. -/
def Loaded (qr svd : Ten (Fin d) 𝕜 → Ten (Fin d) 𝕜 × Mat 𝕜) (m : FMps (Fin d) 𝕜) (dir : MpsDir (Fin d) 𝕜) (Ψ : ChainV (Fin d) 𝕜 N) : Prop :=
  ∃ r, m.loadDir dir = .ok r ∧
    ∀ {ρ : Type} (measure : (Ten (Fin d) 𝕜 → Ten (Fin d) 𝕜 × Mat 𝕜) → (Ten (Fin d) 𝕜 → Ten (Fin d) 𝕜 × Mat 𝕜) → FMps (Fin d) 𝕜 → Except Mps.Err (FMps (Fin d) 𝕜 × ρ))
      (value : ChainV (Fin d) 𝕜 N → ρ), Measures N measure value → ∃ r', measure qr svd r = .ok (r', value Ψ)

/-- A whole calculation with the Hamiltonian `H` in Fock space and an optimisation program: `prog f g` says that the program, given the MPS files `f` and an empty temporary directory, ends and leaves the
MPS files `g`; the energy it reports last is remembered with the tensor of `site`; `into m m'` says that `m'` may be the MPS the user loads the result into, `m` being the one dumped before.
Whatever was in the MPS directory before, for every product state `labs` and any quantum numbers of its labels: `DirectStateInitMps` on a new MPS, `Dump(path, true)`, the program and `Load(path)` all
succeed. The energy `e` is not below the ground-state energy of `H`. Every measurement of the loaded MPS returns its value in one and the same state `Ψ`, which is not zero. If nothing was discarded,
`Ψ` is normalised, its energy is `e`, and `e` is not above the energy of the product state. -/
def Calculates (N : Nat) (dec : Fin d → Occ) (ok : Occ → Prop) (H : Matrix (Conf N) (Conf N) 𝕜) (prog : (Nat → File (LTen (Fin d) 𝕜)) → (Nat → File (LTen (Fin d) 𝕜)) → Prop) (site : Nat)
    (into : FMps (Fin d) 𝕜 → FMps (Fin d) 𝕜 → Prop) (nocut : Prop) : Prop :=
  ∀ (qr svd : Ten (Fin d) 𝕜 → Ten (Fin d) 𝕜 × Mat 𝕜), QRSpec qr → SVDSpec svd →
    ∀ {Q : Type} [AddCommGroup Q] (qn : Nat → Fin d → Q) (labs : Fin N → Fin d) (dir0 : MpsDir (Fin d) 𝕜),
      ∃ m1 m2 dir files e, ∃ Ψ : ChainV (Fin d) 𝕜 N,
        FMps.history qr svd N (initCalls (directInit qn (List.ofFn labs))) = .ok m1 ∧
        m1.dump true dir0 = .ok (m2, dir) ∧ m2.slots = List.replicate N Option.none ∧
        prog (asFiles dir) files ∧ (∃ t, files site = .whole t ∧ t.e0 = some e) ∧
        (∀ m, into m2 m → Loaded qr svd m (asDir files) Ψ) ∧ (∀ E0, LowerBound ok H E0 → E0 ≤ e) ∧ Ψ ≠ 0 ∧
        (nocut → ‖inFock dec Ψ‖ = 1 ∧ fockEnergy H (inFock dec Ψ) = e ∧ e ≤ RCLike.re (H (fun i => dec (labs i)) fun i => dec (labs i)))

/-- With the MPO tensors `w` and `TwoSiteFiniteVMPS`, for all decompositions and tridiagonal solvers that do what they promise and any number of sweeps but none. The result may be loaded into a new MPS or
into the one given to the program. -/
def CalcVmps (N : Nat) (w : Nat → Ten (Fin d × Fin d) 𝕜) (dec : Fin d → Occ) (ok : Occ → Prop) (H : Matrix (Conf N) (Conf N) 𝕜) : Prop :=
  ∀ P : VmpsPar (Fin d) 𝕜, P.w = w → BlkSplitR P.splitR → BlkSplitL P.splitL → Solves P.tri → 2 ≤ P.maxIter → ∀ k, k ≠ 0 →
    Calculates N dec ok H
      (fun f g => ∃ s, run N (N - 1) (twoSite (vmpsAlg N P) N false k) ⟨Mem.blank 0, ⟨f, fun _ => .gone, fun _ => .gone⟩⟩ = .ok s ∧ s.dsk.m = g) 1
      (fun m m' => m' = FMps.fresh N ∨ m' = m.after (vmpsFlags N false k)) (NoCut P)

/-- With the parallel `TwoSiteFiniteVMPS`, for any number of workers and in every execution. The master's MPS may be used again, too. -/
def CalcVmpsMpi (N : Nat) (w : Nat → Ten (Fin d × Fin d) 𝕜) (dec : Fin d → Occ) (ok : Occ → Prop) (H : Matrix (Conf N) (Conf N) 𝕜) : Prop :=
  ∀ (P : VmpsPar (Fin d) 𝕜) (SL VL : Type) (L : MpiLib (Fin d) 𝕜 SL) (lact : Nat → SL → Act SL VL) (W : Nat) (qr : Ten (Fin d) 𝕜 → Ten (Fin d) 𝕜 × Mat 𝕜), P.w = w →
    BlkSplitR P.splitR → BlkSplitL P.splitL → QRSpec qr → Solves P.tri → TriLocal P.tri → 2 ≤ P.maxIter → 1 ≤ W → L.OK P lact W →
    ∀ (fuse : (l : Nat) → Fin l × Fin d ≃ Fin (l * Fintype.card (Fin d))) (dmax : Nat) (bl br : Nat → Bool) (k : Nat), k ≠ 0 →
    Calculates N dec ok H
      (fun f g => ∃ s, Accepted (vmpsEng N P L) lact W .vmps (vmpsStart N P L lact W (vmpsG qr fuse dmax) bl br k ⟨Mem.blank 0, ⟨f, fun _ => .gone, fun _ => .gone⟩⟩) (.ok s) ∧ s.dsk.m = g)
      (lbOf bl N + 1) (fun m m' => m' = FMps.fresh N ∨ m' = m.after (vmpsFlagsMpi N (lbOf bl N) (rbOf br N) true k)) (NoCut P)

/-- With the matrices of operators `m` and `FiniteDMRG`, which may be stopped by a signal: it ends after `n` of at most `k` sweeps. It has its own MPS object; the result may be loaded into a new MPS or
into the one dumped before, whose flags, from the product state, are true of the tensors `FiniteDMRG` leaves. -/
def CalcDmrg (N : Nat) (m : Nat → OpMat (Fin d) 𝕜) (dec : Fin d → Occ) (ok : Occ → Prop) (H : Matrix (Conf N) (Conf N) 𝕜) : Prop :=
  ∀ P : DmrgPar (Fin d) 𝕜, P.m = m → BlkSplitR P.splitR → BlkSplitL P.splitL → QRSpec P.qr → Solves P.tri → 2 ≤ P.maxIter →
    ∀ (bl br : Nat → Bool) (n k : Nat) (sg : Sig), sg.OK → 0 < n → n ≤ k → sg.fin.em = false →
      (∀ q, q + 1 < n → (sg.look q (2 * (rbOf br N - 1 - lbOf bl N))).stop = false) → (n = k ∨ (sg.look (n - 1) (2 * (rbOf br N - 1 - lbOf bl N))).stop = true) →
      Calculates N dec ok H
        (fun f g => ∃ s, dmrg (dmrgAlg P) (bondsOf P) N (boundaryG P) (postG P) bl br k sg ⟨Mem.blank 0, ⟨f, fun _ _ => .gone, fun _ _ => .gone⟩⟩ = .ok s ∧ s.dsk.m = g)
        (lbOf bl N + 1) (fun m m' => m' = FMps.fresh N ∨ m' = m) (NoCut P.dense)

/-- With the parallel DMRG executor. -/
def CalcDmrgMpi (N : Nat) (m : Nat → OpMat (Fin d) 𝕜) (dec : Fin d → Occ) (ok : Occ → Prop) (H : Matrix (Conf N) (Conf N) 𝕜) : Prop :=
  ∀ (P : DmrgPar (Fin d) 𝕜) (SL VL : Type) (S : SvdLib (Fin d) 𝕜 SL) (lact : Nat → SL → Act SL VL) (W : Nat), P.m = m →
    BlkSplitR P.splitR → BlkSplitL P.splitL → QRSpec P.qr → Solves P.tri → TriLocal P.tri → 2 ≤ P.maxIter → 1 ≤ W → S.OK P lact W →
    ∀ (bl br : Nat → Bool) (k : Nat), 1 ≤ k →
      Calculates N dec ok H
        (fun f g => ∃ s, DmrgEnds (dmrgEng N P S) lact W (dmrgStart (dmrgEng N P S) lact W (boundaryG P) (postG P) bl br k ⟨Mem.blank 0, ⟨f, fun _ _ => .gone, fun _ _ => .gone⟩⟩) s ∧ s.dsk.m = g)
        (lbOf bl N + 1) (fun m m' => m' = FMps.fresh N ∨ m' = m) (NoCut P.dense)

end Verif.Fock
