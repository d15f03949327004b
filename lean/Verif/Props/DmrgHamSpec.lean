import Verif.Props.HamEnergySpec
import Verif.Props.DmrgNum
/-
Specification for the part of C75 about Hamiltonians in Fock space.
-/
namespace Verif.Fock
open Finset Verif.Mps Verif.Disk Verif.Algo Verif.Props

variable {𝕜 : Type} [RCLike 𝕜] {d N : Nat}

/-- What `DMRGExecutor::Execute` does with the matrices of operators `m` if `H` is the Hamiltonian: for all decompositions and tridiagonal solvers that do what they promise, from every
MPS on disk that is not zero and whose centre is not behind the left boundary, ending after `n ≥ 1` of at most `k` sweeps because all are done or because a stop was requested, the call succeeds.
The energy of the last update is not below the ground-state energy of `H`. If nothing was discarded, it is the energy in `H` of the MPS then on disk, which is normalised, and is not
larger than the energy of the initial MPS. -/
def DmrgFinds (N : Nat) (m : Nat → OpMat (Fin d) 𝕜) (dec : Fin d → Occ) (ok : Occ → Prop) (H : Matrix (Conf N) (Conf N) 𝕜) : Prop :=
  ∀ P : DmrgPar (Fin d) 𝕜, P.m = m → BlkSplitR P.splitR → BlkSplitL P.splitL → QRSpec P.qr → Solves P.tri → 2 ≤ P.maxIter →
    ∀ (bl br : Nat → Bool) (clk : Nat) (ψ : Nat → LTen (Fin d) 𝕜) (dsk : CDsk (LTen (Fin d) 𝕜) (Option (BOp 𝕜))) (c : Nat), COnDisk N ψ dsk →
      OpsReusable (dmrgAlg P) (bondsOf P) N (lbOf bl N) (rbOf br N) ψ dsk → c ≤ lbOf bl N + 1 → Canon N c (tens ψ) → stateV N (tens ψ) ≠ 0 →
    ∀ (n k : Nat) (sg : Sig), sg.OK → 0 < n → n ≤ k → sg.fin.em = false → (∀ q, q + 1 < n → (sg.look q (2 * (rbOf br N - 1 - lbOf bl N))).stop = false) →
      (n = k ∨ 0 < n ∧ (sg.look (n - 1) (2 * (rbOf br N - 1 - lbOf bl N))).stop = true) →
      ∃ s' ψ' e, dmrg (dmrgAlg P) (bondsOf P) N (boundaryG P) (postG P) bl br k sg ⟨Mem.blank clk, dsk⟩ = .ok s' ∧ COnDisk N ψ' s'.dsk ∧ stateV N (tens ψ') ≠ 0 ∧
        (ψ' (lbOf bl N + 1)).e0 = some e ∧ (ψ' (lbOf bl N + 2)).e0 = some e ∧ (∀ E0, LowerBound ok H E0 → E0 ≤ e) ∧
        (NoCut P.dense → ‖inFock dec (stateV N (tens ψ'))‖ = 1 ∧ fockEnergy H (inFock dec (stateV N (tens ψ'))) = e ∧
          e * ‖inFock dec (stateV N (tens ψ))‖ ^ 2 ≤ fockEnergy H (inFock dec (stateV N (tens ψ))))

end Verif.Fock
