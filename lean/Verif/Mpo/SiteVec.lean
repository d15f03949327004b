import Verif.Mpo.SparMat
/-
The local Hilbert spaces of a system (/repo/include/qlmps/site_vec.h) and the comparison of sparse matrices (sparse_mat.h).
-/
namespace Verif.Mpo

/-- `SparMat::operator==` (sparse_mat.h:103-120). -/
def SparMat.eqMat {α : Type} [NullElem α] [DecidableEq α] (m m' : SparMat α) : Bool :=
  if m.rows ≠ m'.rows then false
  else if m.cols ≠ m'.cols then false
  else (List.range m.rows).all fun x => (List.range m.cols).all fun y => m.get x y == m'.get x y

/-- An `Index`: its sectors, each with its degeneracy, and its direction. -/
structure SiteIdx (Q : Type) where
  sectors : List (Q × Nat)
  out : Bool
deriving DecidableEq

variable {Q K : Type}

/-- `dim()`. -/
def SiteIdx.dim (i : SiteIdx Q) : Nat := (i.sectors.map (·.2)).sum

/-- `InverseIndex`, of the tensor library. -/
def SiteIdx.inv (i : SiteIdx Q) : SiteIdx Q := ⟨i.sectors, !i.out⟩

/-- `SetIndexDirOut` (site_vec.h:31-38). -/
def setDirOut (i : SiteIdx Q) : SiteIdx Q := if i.out then i else i.inv

/-- An operator on a site: its two legs and its entries. -/
structure SiteOp (Q K : Type) where
  leg0 : SiteIdx Q
  leg1 : SiteIdx Q
  v : Nat → Nat → K

/-- `op(i, j) = x`. -/
def SiteOp.set (o : SiteOp Q K) (i j : Nat) (x : K) : SiteOp Q K := { o with v := fun a b => if a = i ∧ b = j then x else o.v a b }

/-- `GenIdOp` (site_vec.h:40-46): a tensor of zeros whose diagonal is set to 1. -/
def genIdOp [Zero K] [One K] (out : SiteIdx Q) : SiteOp Q K :=
  (List.range out.dim).foldl (fun o i => o.set i i 1) ⟨out.inv, out, fun _ _ => 0⟩

/-- `class SiteVec` (site_vec.h:55-138). -/
structure SiteVec (Q K : Type) where
  size : Nat
  sites : List (SiteIdx Q)
  idOps : List (SiteOp Q K)

/-- `GenIdOpsVec_` (site_vec.h:140-146): for `i = 0 … size-1`. -/
def genIdOps [Zero K] [One K] (size : Nat) (sites : List (SiteIdx Q)) : List (SiteOp Q K) := (sites.take size).map genIdOp

/-- `SiteVec(N, local_hilbert_space)` (site_vec.h:68-73). -/
def SiteVec.uniform [Zero K] [One K] (n : Nat) (i : SiteIdx Q) : Except Err (SiteVec Q K) :=
  if n = 0 then .error .assertFail
  else
    let sites := List.replicate n (setDirOut i)
    .ok ⟨n, sites, genIdOps n sites⟩

/-- `SiteVec(local_hilbert_spaces)` (site_vec.h:82-90). -/
def SiteVec.ofList [Zero K] [One K] (l : List (SiteIdx Q)) : Except Err (SiteVec Q K) :=
  if l.length = 0 then .error .assertFail
  else
    let sites := l.map setDirOut
    .ok ⟨l.length, sites, genIdOps l.length sites⟩

/-- `operator==` (site_vec.h:121-123): only the sites are compared. -/
def SiteVec.eqv [DecidableEq Q] (s s' : SiteVec Q K) : Bool := s.sites == s'.sites

end Verif.Mpo
