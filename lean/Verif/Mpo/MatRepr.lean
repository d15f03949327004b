import Verif.Mpo.Tensors
/-
`MPOGenerator::GenMatReprMPO` (one_dim_tn/mpo/mpogen/mpogen_impl.h:333-361): the compressed matrices of the state machine with their entries turned into
operators. This is the form in which `DMRGExecutor` takes an MPO.

Simplification: all sites have the same number `d` of local basis states.
-/
namespace Verif.Mpo
variable {K : Type} {d : Nat}

/-- Elements that are tensors; the null element is the default tensor, which has no legs. An operator made by `Realize` has two legs and never equals it. -/
instance {β : Type} : NullElem (Option β) := ⟨none, Option.isNone, by intro a; cases a <;> simp⟩

section
variable [Zero K] [Add K] [Mul K]

/-- The body of the loops (mpogen_impl.h:352-355). -/
def matReprElem (cs : List K) (os : List (Op d K)) (m : SparMat OpRepr) (r : SparMat (Option (Op d K))) (x y : Nat) :
    Except Err (SparMat (Option (Op d K))) :=
  if m.get x y = [] then .ok r
  else do
    let op ← OpRepr.realize cs os (m.get x y)
    r.setElem x y (some op)

/-- The matrix of one site (mpogen_impl.h:349-358). -/
def matReprSite (cs : List K) (os : List (Op d K)) (m : SparMat OpRepr) : Except Err (SparMat (Option (Op d K))) :=
  (List.range m.rows).foldlM (fun r x => (List.range m.cols).foldlM (fun r y => matReprElem cs os m r x y) r) (SparMat.mk' m.rows m.cols)

/-- `GenMatReprMPO` (mpogen_impl.h:333-361). The state machine makes one matrix for each of the `N_` sites. -/
def Generator.genMatReprMpo (g : Generator K (Op d K)) : Except Err (List (SparMat (Option (Op d K)))) := do
  let ms ← g.fsm.genCompressed
  ms.mapM (matReprSite g.coefHub g.opHub)

end
end Verif.Mpo
