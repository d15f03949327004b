import Verif.Mps.Tensor
import Verif.Mps.Vmps
import Mathlib.LinearAlgebra.Matrix.ConjTranspose
/-
Vocabulary for the statements about the energies of the two-site optimisation, independent of the model of the sweep: the state of a chain of
tensors, the operator of a chain of MPO tensors, canonical form, and what is assumed of the truncated SVD.
-/
namespace Verif.Mps
open Finset

section chain
variable {τ K : Type} [CommRing K]

/-- Neighbours share their bonds and the two outer bonds are trivial. -/
def Closed (N : Nat) (t : Nat → Ten τ K) : Prop := (t 0).l = 1 ∧ (t (N - 1)).r = 1 ∧ ∀ j, j + 1 < N → (t j).r = (t (j + 1)).l

/-- The chain is canonical with its centre at site `c`: left isometries before it and right isometries after it. -/
def Canon [StarRing K] [Fintype τ] (N c : Nat) (t : Nat → Ten τ K) : Prop :=
  Closed N t ∧ (∀ j, j < c → LeftIso (t j)) ∧ ∀ j, c < j → j < N → RightIso (t j)

end chain

section split
variable {σ K : Type} [CommRing K] [StarRing K] [Fintype σ]

/-- Some entry of the block is not zero. -/
def Blk2.NZ (T : Blk2 σ K) : Prop := ∃ x y a b, a < T.l ∧ b < T.r ∧ T.v x y a b ≠ 0

/-- Nothing is discarded: the two tensors represent the block. -/
def Blk2.Is (T : Blk2 σ K) (p : Ten σ K × Ten σ K) : Prop :=
  ∀ x y a b, a < T.l → b < T.r → ∑ k ∈ range p.1.r, p.1.v x a k * p.2.v y k b = T.v x y a b

/-- What the code relies on from the truncated SVD of a block when moving right: `u` is an isometry, `s·vt = u†·T` whichever singular values
are kept, and a block that is not zero does not become zero (at least one non-zero singular value is kept). -/
structure BlkSplitR (split : Blk2 σ K → Ten σ K × Ten σ K) : Prop where
  dimL : ∀ T, (split T).1.l = T.l
  dimR : ∀ T, (split T).2.r = T.r
  mid : ∀ T, (split T).1.r = (split T).2.l
  iso : ∀ T, LeftIso (split T).1
  proj : ∀ (T : Blk2 σ K) y j b, j < (split T).1.r → b < T.r →
    (split T).2.v y j b = ∑ x, ∑ a ∈ range T.l, star ((split T).1.v x a j) * T.v x y a b
  nz : ∀ T : Blk2 σ K, T.NZ → ∃ x y a b, a < T.l ∧ b < T.r ∧ ∑ k ∈ range (split T).1.r, (split T).1.v x a k * (split T).2.v y k b ≠ 0

/-- When moving left: `vt` is an isometry and `u·s = T·vt†`. -/
structure BlkSplitL (split : Blk2 σ K → Ten σ K × Ten σ K) : Prop where
  dimL : ∀ T, (split T).1.l = T.l
  dimR : ∀ T, (split T).2.r = T.r
  mid : ∀ T, (split T).1.r = (split T).2.l
  iso : ∀ T, RightIso (split T).2
  proj : ∀ (T : Blk2 σ K) x a j, a < T.l → j < (split T).2.l →
    (split T).1.v x a j = ∑ y, ∑ b ∈ range T.r, T.v x y a b * star ((split T).2.v y j b)
  nz : ∀ T : Blk2 σ K, T.NZ → ∃ x y a b, a < T.l ∧ b < T.r ∧ ∑ k ∈ range (split T).1.r, (split T).1.v x a k * (split T).2.v y k b ≠ 0

end split

section state
variable {σ 𝕜 : Type} [RCLike 𝕜] [Fintype σ] [DecidableEq σ]

/-- Vectors of the whole chain. -/
abbrev ChainV (σ 𝕜 : Type) (N : Nat) := EuclideanSpace 𝕜 (Fin N → σ)

/-- The state of a chain of MPS tensors. -/
def stateV (N : Nat) (t : Nat → Ten σ 𝕜) : ChainV σ 𝕜 N := WithLp.toLp 2 fun s => amp ((List.range N).map t) (List.ofFn s) 0 0

/-- The operator of a chain of MPO tensors: row = configuration of the outgoing legs, column = of the incoming legs. -/
def opM (N : Nat) (w : Nat → Ten (σ × σ) 𝕜) : Matrix (Fin N → σ) (Fin N → σ) 𝕜 :=
  Matrix.of fun s s' => amp ((List.range N).map w) (List.ofFn fun i => (s i, s' i)) 0 0

/-- The energy expectation value `⟨Φ|H|Φ⟩` (not divided by the norm). -/
noncomputable def expect {N : Nat} (H : Matrix (Fin N → σ) (Fin N → σ) 𝕜) (Φ : ChainV σ 𝕜 N) : ℝ :=
  RCLike.re (inner 𝕜 Φ (Matrix.toEuclideanLin H Φ))

end state
end Verif.Mps
