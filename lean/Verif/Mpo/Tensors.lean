import Verif.Mpo.Gen
import Verif.Mpo.Models
/-
The last part of `MPOGenerator::Gen`: the symbolic entries of the site matrices are turned into numbers and written into the MPO tensors.
Sources: /repo/include/qlmps/one_dim_tn/mpo/mpogen/mpogen_impl.h:287-331, 443-548 and symb_alg/coef_op_alg.h.

Simplifications: all sites have the same number `d` of local basis states; a tensor is its array of elements. That an element written lies in a block
allowed by the quantum numbers of the tensor is the subject of C12 (`Consistent`).
-/
namespace Verif.Mpo
variable {K : Type} {d : Nat}

section
variable [Zero K] [Add K] [Mul K]

/-- `CoefRepr::Realize` (coef_op_alg.h:109-115). Reading a label that is not in the table is out of bounds. -/
def CoefRepr.realize (cs : List K) (c : CoefRepr) : Except Err K :=
  c.foldlM (fun acc l => (cs[l]?).elim (.error .oob) fun x => .ok (acc + x)) 0

/-- Coefficient times operator for one entry of the map (coef_op_alg.h:282-283, 285-286, 290-291). -/
def realizeTerm (cs : List K) (os : List (Op d K)) (kc : Label × CoefRepr) : Except Err (Op d K) := do
  let c ← CoefRepr.realize cs kc.2
  (os[kc.1]?).elim (.error .oob) fun o => .ok fun x y => c * o x y

/-- `OpRepr::Realize` (coef_op_alg.h:274-295). For the null operator it returns a tensor without legs, whose legs may not be read; the
callers below leave null entries out. -/
def OpRepr.realize (cs : List K) (os : List (Op d K)) : OpRepr → Except Err (Op d K)
  | [] => .error .oob
  | kc :: rest => do
    let op ← realizeTerm cs os kc
    rest.foldlM (fun op kc => do
      let t ← realizeTerm cs os kc
      return fun x y => op x y + t x y) op

end

/-- An MPO tensor with legs (left bond, incoming, outgoing, right bond): dimensions of the bonds and elements. -/
structure MpoTen (d : Nat) (K : Type) where
  l : Nat
  r : Nat
  e : Nat → Fin d → Fin d → Nat → K

/-- The dimension of a bond. -/
def bondDim {Q : Type} (vb : List (Q × Nat)) : Nat := (vb.map (·.2)).sum

/-- `(*pmpo_ten)(a, i, o, b) = x` (mpogen_impl.h:514, 527, 543). -/
def MpoTen.set (t : MpoTen d K) (a : Nat) (i o : Fin d) (b : Nat) (x : K) : Except Err (MpoTen d K) :=
  if a < t.l ∧ b < t.r then .ok { t with e := fun a' i' o' b' => if a' = a ∧ i' = i ∧ o' = o ∧ b' = b then x else t.e a' i' o' b' }
  else .error .oob

section
variable [Zero K] [Add K] [Mul K] [DecidableEq K]

/-- `AddOpToHeadMpoTen`, `AddOpToTailMpoTen`, `AddOpToCentMpoTen` (mpogen_impl.h:508-548); the first two are called with `a = 0` and `b = 0`. -/
def MpoTen.addOp (t : MpoTen d K) (op : Op d K) (a b : Nat) : Except Err (MpoTen d K) :=
  (List.finRange d).foldlM (fun t i => (List.finRange d).foldlM (fun t o => if op i o ≠ 0 then t.set a i o b (op i o) else .ok t) t) t

/-- The body of the loops over the matrix (mpogen_impl.h:454-458, 474-478, 496-500). -/
def addElem (cs : List K) (os : List (Op d K)) (m : SparMat OpRepr) (t : MpoTen d K) (x y : Nat) : Except Err (MpoTen d K) :=
  if m.get x y = [] then .ok t
  else do
    let op ← OpRepr.realize cs os (m.get x y)
    t.addOp op x y

variable {Q : Type}

/-- The tensor before anything is written (mpogen_impl.h:452, 472, 493). -/
def emptyTen (s : SiteTen Q) : MpoTen d K := ⟨bondDim s.lvb, bondDim s.rvb, fun _ _ _ _ => 0⟩

/-- `HeadMpoTenRepr2MpoTen_` (mpogen_impl.h:443-462). -/
def headTen (cs : List K) (os : List (Op d K)) (s : SiteTen Q) : Except Err (MpoTen d K) :=
  (List.range s.mat.cols).foldlM (fun t y => addElem cs os s.mat t 0 y) (emptyTen s)

/-- `TailMpoTenRepr2MpoTen_` (mpogen_impl.h:464-482). -/
def tailTen (cs : List K) (os : List (Op d K)) (s : SiteTen Q) : Except Err (MpoTen d K) :=
  (List.range s.mat.rows).foldlM (fun t x => addElem cs os s.mat t x 0) (emptyTen s)

/-- `CentMpoTenRepr2MpoTen_` (mpogen_impl.h:484-504). -/
def centTen (cs : List K) (os : List (Op d K)) (s : SiteTen Q) : Except Err (MpoTen d K) :=
  (List.range s.mat.rows).foldlM (fun t x => (List.range s.mat.cols).foldlM (fun t y => addElem cs os s.mat t x y) t) (emptyTen s)

/-- The sites after the first (mpogen_impl.h:316-329): the last one is the tail. -/
def restTens (cs : List K) (os : List (Op d K)) : List (SiteTen Q) → Except Err (List (MpoTen d K))
  | [] => .ok []
  | [s] => do return [← tailTen cs os s]
  | s :: s2 :: rest => do
    let t ← centTen cs os s
    let ts ← restTens cs os (s2 :: rest)
    return t :: ts

/-- All sites (mpogen_impl.h:308-329). -/
def allTens (cs : List K) (os : List (Op d K)) : List (SiteTen Q) → Except Err (List (MpoTen d K))
  | [] => .ok []
  | s :: rest => do
    let t ← headTen cs os s
    let ts ← restTens cs os rest
    return t :: ts

/-- `MPOGenerator::Gen(compress)` (mpogen_impl.h:287-331) with its tensors. -/
def Generator.genMpo [DecidableEq Q] [Sub Q] (g : Generator K (Op d K)) (tdiv : Op d K → Q) (zero : Q) (compress : Bool) :
    Except Err (List (MpoTen d K)) := do
  let l ← g.gen tdiv zero compress
  allTens g.coefHub g.opHub l

end
end Verif.Mpo
