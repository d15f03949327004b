import Verif.Props.HamSpec
import Verif.Props.Vmps
import Verif.Props.TdvpNum
/-
Specification for C74: energies in Fock space of the states an MPS program works with.
-/
namespace Verif.Fock
open Finset Verif.Mps Verif.Disk Verif.Algo Verif.Props

variable {𝕜 : Type} [RCLike 𝕜] {d N : Nat} {On : Type}

/-- A vector of Fock space: one amplitude for every occupation of the chain. -/
abbrev FockV (𝕜 : Type) (N : Nat) := EuclideanSpace 𝕜 (Conf N)

/-- The Fock space vector of a state of the chain: basis label `k` of a site stands for the occupation `dec k`. -/
noncomputable def inFock (dec : Fin d → Occ) (Φ : ChainV (Fin d) 𝕜 N) : FockV 𝕜 N :=
  WithLp.toLp 2 fun n => ∑ s : Fin N → Fin d, if (fun i => dec (s i)) = n then Φ s else 0

/-- The energy expectation value (not divided by the norm). -/
noncomputable def fockEnergy (H : Matrix (Conf N) (Conf N) 𝕜) (Φ : FockV 𝕜 N) : ℝ := RCLike.re (inner 𝕜 Φ (Matrix.toEuclideanLin H Φ))

/-- `E0` is a lower bound of the Hamiltonian on the states all of whose sites have an occupation that is allowed. The largest such `E0` is the ground-state energy. -/
def LowerBound (ok : Occ → Prop) (H : Matrix (Conf N) (Conf N) 𝕜) (E0 : ℝ) : Prop :=
  ∀ Φ : FockV 𝕜 N, (∀ n : Conf N, (∃ i, ¬ ok (n i)) → Φ n = 0) → E0 * ‖Φ‖ ^ 2 ≤ fockEnergy H Φ

/-- Real coefficients, but the amplitude of a hopping may be complex if the builder conjugates it for the way back. -/
def HamTerm.Real (conj : 𝕜 → 𝕜) : HamTerm On N 𝕜 → Prop
  | .hop t _ _ => conj t = star t
  | .heis J _ _ => star J = J
  | .dens V _ _ => star V = V
  | .site _ c _ => star c = c

def SpinTerm.Real (a : SpinTerm N 𝕜) : Prop := star a.coef = a.coef

/-- What `TwoSiteFiniteVMPS` does with an MPO with tensors `w` if `H` is the Hamiltonian: for all decompositions and tridiagonal solvers that do what they promise, from every MPS on
disk that is not zero and whose centre is at site 0 or 1, with any number of sweeps but none, the call succeeds. The energy returned is not below the ground-state energy of `H`. If
nothing was discarded, it is the energy in `H` of the MPS then on disk, which is normalised, and is not larger than the energy of the initial MPS. -/
def VmpsFinds (N : Nat) (w : Nat → Ten (Fin d × Fin d) 𝕜) (dec : Fin d → Occ) (ok : Occ → Prop) (H : Matrix (Conf N) (Conf N) 𝕜) : Prop :=
  ∀ P : VmpsPar (Fin d) 𝕜, P.w = w → BlkSplitR P.splitR → BlkSplitL P.splitL → Solves P.tri → 2 ≤ P.maxIter →
    ∀ (temp : Bool) (k clk : Nat) (ψ : Nat → LTen (Fin d) 𝕜) (dsk : Dsk (LTen (Fin d) 𝕜) (Env3 𝕜)) (c : Nat), k ≠ 0 → OnDisk N ψ dsk →
      TempOK (vmpsAlg N P) N temp ψ dsk → (c = 0 ∨ c = 1) → Canon N c (tens ψ) → stateV N (tens ψ) ≠ 0 →
      ∃ s' ψ' e, run N (N - 1) (twoSite (vmpsAlg N P) N temp k) ⟨Mem.blank clk, dsk⟩ = .ok s' ∧ OnDisk N ψ' s'.dsk ∧ stateV N (tens ψ') ≠ 0 ∧
        (ψ' 1).e0 = some e ∧ (ψ' 2).e0 = some e ∧ (∀ E0, LowerBound ok H E0 → E0 ≤ e) ∧
        (NoCut P → ‖inFock dec (stateV N (tens ψ'))‖ = 1 ∧ fockEnergy H (inFock dec (stateV N (tens ψ'))) = e ∧
          e * ‖inFock dec (stateV N (tens ψ))‖ ^ 2 ≤ fockEnergy H (inFock dec (stateV N (tens ψ))))

/-- What `TwoSiteFiniteTDVP` (serial) does with an MPO with tensors `w` if `H` is the Hamiltonian: the call succeeds and the norm does not grow. If nothing was discarded, the norm
and the energy in `H` are exactly what they were. -/
def TdvpConserves (N : Nat) (w : Nat → Ten (Fin d × Fin d) ℂ) (dec : Fin d → Occ) (H : Matrix (Conf N) (Conf N) ℂ) : Prop :=
  ∀ P : TdvpPar (Fin d), P.w = w → P.mpi = false → BlkSplitR P.splitR → BlkSplitL P.splitL → Diagonalises P.eig → 2 ≤ P.maxIter →
    ∀ (tau : Rat) (k clk : Nat) (t : Nat → Ten (Fin d) ℂ) (dsk : Dsk (Ten (Fin d) ℂ) (Env3 ℂ)) (c : Nat), OnDisk N t dsk → (c = 0 ∨ c = 1) → Canon N c t →
      stateV N t ≠ 0 →
      ∃ s' t', run N (N - 1) (tdvp (tdvpAlg N P) (tdvpEvo P) N tau k) ⟨Mem.blank clk, dsk⟩ = .ok s' ∧ OnDisk N t' s'.dsk ∧ stateV N t' ≠ 0 ∧
        ‖inFock dec (stateV N t')‖ ≤ ‖inFock dec (stateV N t)‖ ∧
        (P.NoCut → ‖inFock dec (stateV N t')‖ = ‖inFock dec (stateV N t)‖ ∧
          fockEnergy H (inFock dec (stateV N t')) = fockEnergy H (inFock dec (stateV N t)))

end Verif.Fock
