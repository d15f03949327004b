import Verif.Mps.VmpsSpec
import Mathlib.LinearAlgebra.Matrix.Hermitian
import Verif.Props.LanczosNum
/-
Vocabulary for the statements about the run of the two-site optimisation: its assumptions, the order of its updates and the states in between.
-/
namespace Verif.Mps
open Verif.Disk Verif.Algo Verif.Props

section
variable {σ 𝕜 : Type} [RCLike 𝕜] [Fintype σ] [DecidableEq σ]

/-- The tensors without the energies. -/
def tens (ψ : Nat → LTen σ 𝕜) (j : Nat) : Ten σ 𝕜 := (ψ j).ten

/-- **Specification**: what is assumed of the run: the MPO is a closed chain and its operator Hermitian, the decompositions and the tridiagonal
solver do what they promise, and at least two Lanczos iterations are allowed (with fewer the solver is undefined, C32). -/
structure ParOK (N : Nat) (P : VmpsPar σ 𝕜) : Prop where
  closed : Closed N P.w
  herm : (opM N P.w).IsHermitian
  spR : BlkSplitR P.splitR
  spL : BlkSplitL P.splitL
  tri : Solves P.tri
  iter : 2 ≤ P.maxIter

end

section
variable {T E : Type} (A : Alg T E) (N : Nat)

/-- **Specification**: the updates of one sweep between `lb` and `rb` in order, each with its left site: the pairs `(i, i+1)` for `i = lb … rb-2` moving
right, then for `i = rb-1 … lb+1` moving left. -/
def sweepUpds (lb rb : Nat) : List (Dir × Nat) :=
  (List.range' lb (rb - 1 - lb)).map (fun i => (.r, i)) ++ (List.range' (lb + 1) (rb - 1 - lb)).reverse.map (fun i => (.l, i))

/-- **Specification**: the updates of `k` sweeps. -/
def upds (lb rb k : Nat) : List (Dir × Nat) := (List.replicate k (sweepUpds lb rb)).flatten

/-- **Specification**: one update of the file-free sweep. -/
def opt1 (ψ : (Nat → T) × Nat) (u : Dir × Nat) : (Nat → T) × Nat :=
  match u.1 with
  | .r => optR A N ψ u.2
  | .l => optL A N ψ (u.2 + 1)

end

section
variable {σ 𝕜 : Type} [RCLike 𝕜] [Fintype σ] [DecidableEq σ]

/-- **Specification**: the states of the run: after `n` of the updates `us`. -/
noncomputable def runAt (N : Nat) (P : VmpsPar σ 𝕜) (us : List (Dir × Nat)) (ψ : (Nat → LTen σ 𝕜) × Nat) (n : Nat) : (Nat → LTen σ 𝕜) × Nat :=
  (us.take n).foldl (opt1 (vmpsAlg N P) N) ψ

end
end Verif.Mps
