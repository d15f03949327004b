import Verif.Mps.TdvpNum
import Verif.Mps.VmpsSpec
import Verif.Props.Expmv
import Mathlib.LinearAlgebra.Matrix.Hermitian
import Mathlib.Analysis.InnerProductSpace.Projection.Basic
/-
Vocabulary for the statements about the numbers of two-site TDVP.
-/
namespace Verif.Mps
open Verif.Disk Verif.Algo Verif.Props

variable {σ : Type} [Fintype σ] [DecidableEq σ]

/-- **Specification**: what is assumed of the run: the MPO is a closed chain and its operator Hermitian, the decompositions and the tridiagonal
eigensolver do what they promise, and at least two Lanczos iterations are allowed. -/
structure TdvpOK (N : Nat) (P : TdvpPar σ) : Prop where
  closed : Closed N P.w
  herm : (opM N P.w).IsHermitian
  spR : BlkSplitR P.splitR
  spL : BlkSplitL P.splitL
  eig : Diagonalises P.eig
  iter : 2 ≤ P.maxIter

/-- **Specification**: the norm after an evolution from a state of norm `x`: the same, but one with the solver of the MPI version (C58). -/
def TdvpPar.norm (P : TdvpPar σ) (x : ℝ) : ℝ := if P.mpi then 1 else x

/-- **Specification**: the states that differ from that of `t` only in the tensors of the sites where `p` holds, and their combinations. -/
def varSpace (N : Nat) (t : Nat → Ten σ ℂ) (p : Nat → Prop) : Submodule ℂ (ChainV σ ℂ N) :=
  Submodule.span ℂ {Φ | ∃ t', Closed N t' ∧ (∀ j, ¬ p j → t' j = t j) ∧ stateV N t' = Φ}

/-- **Specification**: the sites an evolution works on, its duration, the number of components of its local vector, and the centre it leaves. -/
def actSites : Act → Nat → Prop
  | .bond _ b _, j => j = b ∨ j = b + 1
  | .site s _, j => j = s

@[inherit_doc actSites]
def actTime : Act → ℝ
  | .bond _ _ dt => dt
  | .site _ dt => dt

@[inherit_doc actSites]
def actDim (t : Nat → Ten σ ℂ) : Act → Nat
  | .bond _ b _ => (t b).l * (Fintype.card σ * Fintype.card σ) * (t (b + 1)).r
  | .site s _ => (t s).l * Fintype.card σ * (t s).r

@[inherit_doc actSites]
def actAfter : Act → Nat
  | .bond .r b _ => b + 1
  | .bond .l b _ => b
  | .site s _ => s

/-- **Specification**: the Hamiltonian projected on a subspace, `Π H Π`. -/
noncomputable def projH {N : Nat} (S : Submodule ℂ (ChainV σ ℂ N)) (H : Matrix (Fin N → σ) (Fin N → σ) ℂ) : ChainV σ ℂ N →L[ℂ] ChainV σ ℂ N :=
  S.starProjection ∘L LinearMap.toContinuousLinearMap (Matrix.toEuclideanLin H) ∘L S.starProjection

/-- **Specification**: `Φ` comes from `Ψ` by an evolution for the time `δ` in the space `S`, with `n` components: the norm is that of `Ψ`, the energy `⟨Φ|H|Φ⟩` is
that of `Ψ` up to the normalisation, and if the tolerance of the solver is not used and its iteration limit exceeds `n`, `Φ` is the exact solution of the Schrödinger
equation with the Hamiltonian projected on `S`. -/
structure Evolved (N : Nat) (P : TdvpPar σ) (S : Submodule ℂ (ChainV σ ℂ N)) (n : Nat) (δ : ℝ) (Ψ Φ : ChainV σ ℂ N) : Prop where
  mem : Φ ∈ S
  norm : ‖Φ‖ = P.norm ‖Ψ‖
  energy : inner ℂ Φ (Matrix.toEuclideanLin (opM N P.w) Φ) = ((P.norm ‖Ψ‖ / ‖Ψ‖) ^ 2 : ℝ) * inner ℂ Ψ (Matrix.toEuclideanLin (opM N P.w) Ψ)
  exact : P.err ≤ 0 → n < P.maxIter → Φ = ((P.norm ‖Ψ‖ / ‖Ψ‖ : ℝ) : ℂ) • NormedSpace.exp ((-(δ : ℂ) * Complex.I) • projH S (opM N P.w)) Ψ

/-- **Specification**: nothing is discarded in any decomposition. -/
def TdvpPar.NoCut (P : TdvpPar σ) : Prop := (∀ T : Blk2 σ ℂ, T.Is (P.splitR T)) ∧ ∀ T : Blk2 σ ℂ, T.Is (P.splitL T)

/-- **Specification**: the tensors after the evolutions `as`. -/
noncomputable def evolve (N : Nat) (P : TdvpPar σ) (t : Nat → Ten σ ℂ) (as : List Act) : Nat → Ten σ ℂ := Act.all (tdvpAlg N P) (tdvpEvo P) N t as

/-- **Specification**: the solver an evolution of the loops uses: that of the version of the program for a bond, the serial one for a site. -/
def actPar (P : TdvpPar σ) : Act → TdvpPar σ
  | .bond _ _ _ => P
  | .site _ _ => P.serial

/-- **Specification**: the evolutions of a time step in order, each with its solver. The last one uses the serial solver. -/
def tdvpStep (N : Nat) (P : TdvpPar σ) (tau : Rat) : List (TdvpPar σ × Act) :=
  (tdvpSchedule N tau).dropLast.map (fun a => (actPar P a, a)) ++ [(P.serial, .bond .r 0 (tau / 2))]

/-- **Specification**: the evolutions of `k` time steps in order, each with its solver. -/
def tdvpPlan (N : Nat) (P : TdvpPar σ) (tau : Rat) (k : Nat) : List (TdvpPar σ × Act) := (List.replicate k (tdvpStep N P tau)).flatten

/-- **Specification**: the tensors after these evolutions. -/
noncomputable def evolveP (N : Nat) (t : Nat → Ten σ ℂ) (l : List (TdvpPar σ × Act)) : Nat → Ten σ ℂ := l.foldl (fun t x => evolve N x.1 t [x.2]) t

end Verif.Mps
