import Verif.Props.SequenceSpec
import Verif.Props.WorkflowSpec
/-
Specification for C95 in Fock space: a whole calculation with several programs.
-/
namespace Verif.Fock
open Verif.Mpo Verif.Mps Verif.Disk Verif.Algo Verif.Props Verif.Mpi

variable {𝕜 : Type} [RCLike 𝕜] {d N : Nat}

/-- A whole calculation (`Calculates`) whose optimisation is any sequence of programs that fit together, from the product state on. The result is loaded into a new MPS. -/
def CalcSeq (N : Nat) (w : Nat → Ten (Fin d × Fin d) 𝕜) (dec : Fin d → Occ) (ok : Occ → Prop) (H : Matrix (Conf N) (Conf N) 𝕜) : Prop :=
  ∀ (rs : List (ProgRun (Fin d) 𝕜)) (r : ProgRun (Fin d) 𝕜), (∀ q ∈ rs ++ [r], IsRun N w q) → Fit 0 (rs ++ [r]) →
    Calculates N dec ok H (fun f g => ∃ es, Runs f (rs ++ [r]) es g) r.site (fun _ m' => m' = FMps.fresh N) (∀ q ∈ rs ++ [r], q.exact)

end Verif.Fock
