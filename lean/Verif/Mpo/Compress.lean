import Verif.Mpo.SparMat
/-
Model of the MPO compression (delinearisation of rows/columns).
Source: /repo/include/qlmps/one_dim_tn/mpo/mpogen/symb_alg/coef_op_alg.h:405-935

The C++ has a row version and a column version of every function, mirror images of each other. The model
has one definition per pair, parameterised by the axis; where the two C++ versions differ (the equal-row
shortcut of `CalcRowLinCmb`) the definition branches on the axis. A "line" is a row for axis `row` and a
column for axis `col`; `at ax m i x` is the entry number `x` of line number `i`.
-/
namespace Verif.Mpo
open SparMat

inductive Axis where
  | row
  | col
deriving DecidableEq, Repr

def Axis.other : Axis → Axis
  | .row => .col
  | .col => .row

variable {α : Type} [NullElem α]

/-- number of lines -/
def lines (ax : Axis) (m : SparMat α) : Nat := match ax with | .row => m.rows | .col => m.cols
/-- length of a line -/
def cross (ax : Axis) (m : SparMat α) : Nat := match ax with | .row => m.cols | .col => m.rows
/-- entry `x` of line `i` -/
def atL (ax : Axis) (m : SparMat α) (i x : Nat) : α := match ax with | .row => m.get i x | .col => m.get x i
def nullL (ax : Axis) (m : SparMat α) (i x : Nat) : Bool :=
  match ax with | .row => m.isNullAt i x | .col => m.isNullAt x i
def setL (ax : Axis) (m : SparMat α) (i x : Nat) (e : α) : Except Err (SparMat α) :=
  match ax with | .row => m.setElem i x e | .col => m.setElem x i e
def removeLine (ax : Axis) (m : SparMat α) (i : Nat) : Except Err (SparMat α) :=
  match ax with | .row => m.removeRow i | .col => m.removeCol i
def transposeLines (ax : Axis) (m : SparMat α) (perm : List Nat) : Except Err (SparMat α) :=
  match ax with | .row => m.transposeRows perm | .col => m.transposeCols perm
/-- `GetRow`/`GetCol` -/
def getLine (ax : Axis) (m : SparMat α) (i : Nat) : List α :=
  match ax with | .row => m.getRow i | .col => m.getCol i
/-- `SparMat(r, c)` with `l` lines of length `x` -/
def mkL (ax : Axis) (l x : Nat) : SparMat α := match ax with | .row => SparMat.mk' l x | .col => SparMat.mk' x l

/-- `GenSortRowsMapping_`/`GenSortColsMapping_` (coef_op_alg.h:560-583): number of non-null entries paired
with the line index. -/
def genSortMapping (ax : Axis) (m : SparMat α) : List (Nat × Nat) :=
  (List.range (lines ax m)).map (fun i =>
    (((List.range (cross ax m)).filter (fun x => !nullL ax m i x)).length, i))

/-- Lexicographic `<=` of `std::pair<size_t, size_t>`. -/
def pairLe (a b : Nat × Nat) : Bool := a.1 < b.1 || (a.1 == b.1 && a.2 ≤ b.2)

/-- The `sorted_row_idxs` of `SortRows`/`SortCols` (coef_op_alg.h:430-450). The pairs are distinct, so
`std::sort` has a unique result, the one of merge sort. -/
def sortedIdxs (ax : Axis) (m : SparMat α) : List Nat :=
  ((genSortMapping ax m).mergeSort pairLe).map (·.2)

/-- `GetOpReprCoef` (coef_op_alg.h:402-404). -/
def opCoef (op : OpRepr) : CoefRepr := (separate op).1

/-- Loop of `TryCatchRowCommonDivisorCoef` after its first non-null entry (coef_op_alg.h:468-474). -/
def commonCoefGo (last : CoefRepr) : List OpRepr → CoefRepr
  | [] => last
  | op :: ops => if CoefRepr.eqv last (opCoef op) then commonCoefGo (opCoef op) ops else kIdCoef

/-- The non-null entries of a line, in order. -/
def nonNullEntries (ax : Axis) (m : SparMat OpRepr) (i : Nat) : List OpRepr :=
  ((List.range (cross ax m)).filter (fun x => !nullL ax m i x)).map (fun x => atL ax m i x)

/-- `TryCatchRowCommonDivisorCoef`/`TryCatchColCommonDivisorCoef` (coef_op_alg.h:457-506). -/
def tryCatchCoef (ax : Axis) (m : SparMat OpRepr) (i : Nat) : CoefRepr :=
  match nonNullEntries ax m i with
  | [] => kNullCoef
  | op :: ops => commonCoefGo (opCoef op) ops

/-- `RemoveRowCoef`/`RemoveColCoef` (coef_op_alg.h:508-528). -/
def removeCoef (ax : Axis) (m : SparMat OpRepr) (i : Nat) : Except Err (SparMat OpRepr) :=
  (List.range (cross ax m)).foldlM (fun m x =>
    if nullL ax m i x then .ok m else setL ax m i x (separate (atL ax m i x)).2) m

/-- Loop of `CalcRowOverlap_`/`CalcColOverlap_` (coef_op_alg.h:588-642) over the pairs
(target entry, base entry) at the positions where the base line is non-null; `first` is
`poss_overlaps[0]`. -/
def overlapGo (first : Option CoefRepr) : List (OpRepr × OpRepr) → CoefRepr
  | [] => first.getD kNullCoef
  | (t, b) :: rest =>
    if OpRepr.eqv t b then
      match first with
      | none => overlapGo (some kIdCoef) rest
      | some f => if CoefRepr.eqv kIdCoef f then overlapGo (some f) rest else kNullCoef
    else if OpRepr.eqv (separate t).2 b then
      match first with
      | none => overlapGo (some (separate t).1) rest
      | some f => if CoefRepr.eqv (separate t).1 f then overlapGo (some f) rest else kNullCoef
    else kNullCoef

/-- `CalcRowOverlap_`/`CalcColOverlap_` (coef_op_alg.h:588-642) of line `i` with base line `y`. -/
def overlap (ax : Axis) (m : SparMat OpRepr) (i y : Nat) : CoefRepr :=
  overlapGo none (((List.range (cross ax m)).filter (fun x => !nullL ax m y x)).map
    (fun x => (atL ax m i x, atL ax m y x)))

/-- `operator==` of `std::vector<OpRepr>`. -/
def vecEqv : List OpRepr → List OpRepr → Bool
  | [], [] => true
  | a :: as, b :: bs => OpRepr.eqv a b && vecEqv as bs
  | _, _ => false

/-- `CalcRowLinCmb`/`CalcColLinCmb` (coef_op_alg.h:531-556). Only the row version starts with the search
for an equal earlier row. -/
def calcLinCmb (ax : Axis) (m : SparMat OpRepr) (i : Nat) : List CoefRepr :=
  match (if ax = .row then (List.range i).find? (fun x => vecEqv (getLine ax m i) (getLine ax m x)) else none) with
  | some x0 => (List.range i).map (fun x => if x = x0 then kIdCoef else kNullCoef)
  | none => (List.range i).map (fun y => overlap ax m i y)

/-- Body of `CalcSparOpReprMatRowLinCmb`/`...ColLinCmb` for one entry (coef_op_alg.h:769-786, 800-818):
add `cmb_coef` times the base entry. A failing `assert` is an error. -/
def linCmbStep (c : CoefRepr) (acc elem : OpRepr) : Except Err OpRepr :=
  if CoefRepr.eqv c kIdCoef then .ok (OpRepr.add acc elem)
  else if CoefRepr.eqv c kNullCoef then .ok acc
  else if elem.all (fun kc => CoefRepr.eqv kc.2 kIdCoef) then
    .ok (OpRepr.add acc (elem.map (fun kc => (kc.1, c))))
  else .error .assertFail

/-- `CalcSparOpReprMatRowLinCmb`/`...ColLinCmb` (coef_op_alg.h:763-821). The C++ loops over base lines
outside and entries inside; each entry's accumulator is independent, so the loops are exchanged here. -/
def linCmb (ax : Axis) (m : SparMat OpRepr) (cmb : List CoefRepr) : Except Err (List OpRepr) :=
  if cmb.length = 0 then .error .assertFail
  else (List.range (cross ax m)).mapM (fun x =>
    (List.range cmb.length).foldlM (fun acc i => linCmbStep (cmb.getD i []) acc (atL ax m i x)) [])

/-- One result entry of the incomplete products (coef_op_alg.h:670-713): line `j` (new bond index), cross
position `z` of the follower: the sum over the old bond index `i` of `T(i,j) * F(i,z)`. -/
def multKernel (ax : Axis) (t : SparMat CoefRepr) (f : SparMat OpRepr) (j z : Nat) : Except Err OpRepr :=
  (List.range (lines ax t)).foldlM (fun acc i =>
    if nullL ax t i j || nullL ax.other f i z then .ok acc
    else do
      let r ← incompleteMulti (atL ax t i j) (atL ax.other f i z)
      return OpRepr.add acc r) []

/-- `SparCoefReprMatSparOpReprMatIncompleteMulti` (axis `col`: `T * F`) and
`SparOpReprMatSparCoefReprMatIncompleteMulti` (axis `row`: `F * T`), coef_op_alg.h:716-757. Loops run over
the lines of the result and their entries; the C++ column version visits the entries in the same order,
the row version in transposed order, which only affects the storage order of independent entries. -/
def multMat (ax : Axis) (t : SparMat CoefRepr) (f : SparMat OpRepr) : Except Err (SparMat OpRepr) :=
  if lines ax t ≠ lines ax.other f then .error .assertFail
  else (List.range (cross ax t)).foldlM (fun res j =>
    (List.range (cross ax.other f)).foldlM (fun res z => do
      let e ← multKernel ax t f j z
      setL ax.other res j z e) res) (mkL ax.other (cross ax t) (cross ax.other f))

/-- Main loop of `SparOpReprMatRowDelinearize`/`...ColDelinearize` (coef_op_alg.h:832-847, 866-882).
Every iteration either deletes line `i` (so the line count drops) or advances `i`; hence the number `k` of
remaining iterations is `line count - i`, used as the structural recursion argument. `d` is
`deleted_row_size`. -/
def delinLoop (ax : Axis) : Nat → Nat → Nat → SparMat OpRepr → SparMat CoefRepr →
    Except Err (SparMat OpRepr × SparMat CoefRepr)
  | 0, _, _, tgt, trans => .ok (tgt, trans)
  | k + 1, i, d, tgt, trans => do
    let cmb := calcLinCmb ax tgt i
    let lin ← linCmb ax tgt cmb
    if vecEqv lin (getLine ax tgt i) then
      let tgt ← removeLine ax tgt i
      let trans ← removeLine ax.other trans (lines ax.other trans - 1)
      let trans ← (List.range i).foldlM (fun t j => setL ax t (i + d) j (cmb.getD j [])) trans
      delinLoop ax k i (d + 1) tgt trans
    else
      let trans ← setL ax trans (i + d) i kIdCoef
      delinLoop ax k (i + 1) d tgt trans

/-- `SparOpReprMatRowDelinearize`/`SparOpReprMatColDelinearize` (coef_op_alg.h:823-889). -/
def delinearize (ax : Axis) (tgt flw : SparMat OpRepr) : Except Err (SparMat OpRepr × SparMat OpRepr) := do
  let n := lines ax tgt
  let trans ← setL ax (mkL ax n n : SparMat CoefRepr) 0 0 kIdCoef
  let (tgt, trans) ← delinLoop ax (n - 1) 1 0 tgt trans
  if cross ax trans < lines ax trans then
    let flw ← multMat ax trans flw
    return (tgt, flw)
  else return (tgt, flw)

/-- Loop "Separate row/col coefficients" of the compressers (coef_op_alg.h:901-913, 937-952);
state: (target, diagonal coefficient matrix, need_separate flag). -/
def sepLoop (ax : Axis) (n : Nat) (tgt : SparMat OpRepr) :
    Except Err (SparMat OpRepr × SparMat CoefRepr × Bool) :=
  (List.range n).foldlM (fun (s : SparMat OpRepr × SparMat CoefRepr × Bool) i => do
    let c := tryCatchCoef ax s.1 i
    let cm ← setL ax s.2.1 i i (if !CoefRepr.eqv c kNullCoef then c else kIdCoef)
    if !CoefRepr.eqv c kNullCoef && !CoefRepr.eqv c kIdCoef then
      let t ← removeCoef ax s.1 i
      return (t, cm, true)
    else return (s.1, cm, s.2.2)) (tgt, mkL ax n n, false)

/-- `SparOpReprMatRowCompresser`/`SparOpReprMatColCompresser` (coef_op_alg.h:892-960). -/
def compress (ax : Axis) (tgt flw : SparMat OpRepr) : Except Err (SparMat OpRepr × SparMat OpRepr) :=
  if lines ax tgt ≠ lines ax.other flw then .error .assertFail
  else if lines ax tgt = 1 then .ok (tgt, flw)
  else do
    let perm := sortedIdxs ax tgt
    let tgt ← transposeLines ax tgt perm
    let flw ← transposeLines ax.other flw perm
    let (tgt, cm, need) ← sepLoop ax (lines ax tgt) tgt
    let flw ← (if need then multMat ax cm flw else .ok flw : Except Err (SparMat OpRepr))
    delinearize ax tgt flw

/-- The column sweep of `FSM::GenCompressedMatReprs` (fsm.h, `for i < size - 1: SparOpReprMatColCompresser`):
each matrix is compressed against its right neighbour, which is modified in turn. -/
def colPass (a : SparMat OpRepr) : List (SparMat OpRepr) → Except Err (List (SparMat OpRepr))
  | [] => .ok [a]
  | w :: rest => do
    let (a', b) ← compress .col a w
    let l ← colPass b rest
    return a' :: l

/-- The row sweep of `FSM::GenCompressedMatReprs` (fsm.h, `for i = size-1 downto 1:
SparOpReprMatRowCompresser(m[i], m[i-1])`). -/
def rowPass : List (SparMat OpRepr) → Except Err (List (SparMat OpRepr))
  | [] => .ok []
  | [a] => .ok [a]
  | a :: b :: rest => do
    let l ← rowPass (b :: rest)
    match l with
    | [] => .error .oob
    | b' :: rest' =>
      let (b'', a') ← compress .row b' a
      return a' :: b'' :: rest'

end Verif.Mpo
