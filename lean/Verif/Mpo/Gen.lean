import Verif.Mpo.Fsm
/-
Model of `MPOGenerator`: label tables, the three `AddTerm` overloads, and `Gen`.
Sources: /repo/include/qlmps/one_dim_tn/mpo/mpogen/mpogen_impl.h, fsm.h:305-342
-/
namespace Verif.Mpo
open SparMat NullElem

/-! ### LabelConvertor -/

/-- `LabelConvertor::Convert` (fsm.h:319-338): position of the first equal object, appended if absent.
The debug-only warning (fsm.h:326-331) has no effect on the table. Returns the label and the table. -/
def convert {α : Type} [DecidableEq α] (hub : List α) (a : α) : Nat × List α :=
  match hub.idxOf? a with
  | some k => (k, hub)
  | none => (hub.length, hub ++ [a])

/-! ### Numbers and operators as the generator sees them -/

/-- What `AddTerm` needs to know about coefficients `C` and operator tensors `T`.
`tooSmall c` is `abs(c) < kDoubleEpsilon` (mpogen_impl.h:99); `negFirst t` is
`Real(t.GetFirstNonZeroElement()) < 0` (mpogen_impl.h:130-131); `tneg`, `cneg` are `*= (-1)`. -/
class GenTypes (C T : Type) where
  czero : C
  cone : C
  cneg : C → C
  tooSmall : C → Bool
  tneg : T → T
  negFirst : T → Bool

open GenTypes

/-- `class MPOGenerator` (mpogen.h:83-93): chain length, identity operators, both label tables, the machine.
The physical indices and `zero_div_` only enter the tensor assembly and are left out here. -/
structure Generator (C T : Type) where
  N : Nat
  ids : List T
  coefHub : List C
  opHub : List T
  fsm : Fsm

section
variable {C T : Type} [DecidableEq C] [DecidableEq T] [G : GenTypes C T]

/-- Labels of a list of objects converted in order (mpogen_impl.h:38-47, the loop of `GenIdOpReprs`). -/
def convertAll {α : Type} [DecidableEq α] : List α → List α → List Nat × List α
  | hub, [] => ([], hub)
  | hub, a :: as =>
    let (l, hub) := convert hub a
    let (ls, hub) := convertAll hub as
    (l :: ls, hub)

/-- `MPOGenerator(site_vec, zero_div)` (mpogen_impl.h:62-79): the coefficient table starts as `{1}`, the
operator table holds the identity operators of the sites. -/
def Generator.new (ids : List T) : Generator C T :=
  let (ls, hub) := convertAll [] ids
  { N := ids.length, ids := ids, coefHub := [G.cone], opHub := hub,
    fsm := Fsm.new ids.length (fun i => OpRepr.ofLabel (ls.getD i 0)) }

/-- The sign loop of `AddTerm` (mpogen_impl.h:127-135). -/
def normalize (c : C) : List T → C × List T
  | [] => (c, [])
  | t :: ts =>
    let (c, t) := if negFirst C t then (cneg T c, tneg C t) else (c, t)
    let (c, ts) := normalize c ts
    (c, t :: ts)

/-- The sorting step of `AddTerm` (mpogen_impl.h:110-124). `std::sort` is not stable; for repeated sites the
order is unspecified, here a stable sort is used. -/
def sortBySite (l : List (Nat × T)) : List (Nat × T) :=
  if l.Pairwise (fun a b => a.1 ≤ b.1) then l else l.mergeSort (fun a b => a.1 ≤ b.1)

/-- One iteration of the loop over `[head, tail]` in `AddTerm` (mpogen_impl.h:142-155): the first operator listed
for site `s` (`std::find`), or the identity operator; the first list element carries the coefficient label. -/
def siteRepr (ids : List T) (clabel : Nat) (l : List (Nat × T)) (hub : List T) (s : Nat) : Except Err (OpRepr × List T) :=
  match l[l.findIdx (fun a => a.1 == s)]? with
  | some a => .ok (if l.findIdx (fun a => a.1 == s) = 0 then OpRepr.single [clabel] (convert hub a.2).1
      else OpRepr.ofLabel (convert hub a.2).1, (convert hub a.2).2)
  | none => match ids[s]? with
    | some t => .ok (OpRepr.ofLabel (convert hub t).1, (convert hub t).2)
    | none => .error .oob

/-- The loop over `[head, tail]` in `AddTerm` (mpogen_impl.h:141-156). `sites` are the sites to visit. -/
def mkReprs (ids : List T) (clabel : Nat) (l : List (Nat × T)) : List T → List Nat → Except Err (List OpRepr × List T)
  | hub, [] => .ok ([], hub)
  | hub, s :: ss => do
    let (o, hub) ← siteRepr ids clabel l hub s
    let (os, hub) ← mkReprs ids clabel l hub ss
    return (o :: os, hub)

/-- `AddTerm(coef, local_ops, local_ops_idxs)` (mpogen_impl.h:91-162), debug build. The check that each
operator lives on its site's Hilbert space (104-108) is reduced to its access `site_vec_.sites[site]`. -/
def Generator.addTerm (g : Generator C T) (coef : C) (ops : List T) (idxs : List Nat) : Except Err (Generator C T) :=
  if ops.length ≠ idxs.length then .error .assertFail
  else if coef = czero T then .ok g
  else if tooSmall T coef then .ok g
  else if idxs.any (fun s => g.N ≤ s) then .error .oob
  else
    let l := sortBySite (idxs.zip ops)
    match l.head?, l.getLast? with
    | some hd, some lt =>
      if g.N ≤ lt.1 then .error .assertFail
      else
        let (c, ts) := normalize coef (l.map (·.2))
        let l := (l.map (·.1)).zip ts
        let (cl, chub) := convert g.coefHub c
        do
          let (reprs, hub) ← mkReprs g.ids cl l g.opHub (List.range' hd.1 (lt.1 + 1 - hd.1))
          let fsm ← g.fsm.addPath hd.1 lt.1 reprs
          return { g with coefHub := chub, opHub := hub, fsm := fsm }
    | _, _ => .error .oob

/-- The physical/insertion list built by the second `AddTerm` (mpogen_impl.h:191-234). `insts` is
`inst_ops`, `sets = none` is `inst_ops_idxs_set == kNullUintVecVec`. Elements are read with the bounds the
assertions give. -/
def instList (N : Nat) (phys : List (Nat × T)) (insts : List T) (sets : Option (List (List Nat))) :
    Except Err (List (Nat × T)) :=
  if phys.length < 2 then .error .assertFail
  else if insts.length + 1 ≠ phys.length ∧ insts.length ≠ phys.length then .error .assertFail
  else if (match sets with | some ss => decide (ss.length ≠ insts.length) | none => false) then .error .assertFail
  else do
    let body ← (List.range (phys.length - 1)).mapM (fun i =>
      match phys[i]?, phys[i + 1]?, insts[i]? with
      | some p, some q, some t =>
        match sets with
        | none => .ok (p :: (List.range' (p.1 + 1) (q.1 - (p.1 + 1))).map (fun j => (j, t)))
        | some ss => match ss[i]? with
          | some js => .ok (p :: js.map (fun j => (j, t)))
          | none => .error .oob
      | _, _, _ => .error .oob : Nat → Except Err (List (Nat × T)))
    match phys.getLast? with
    | none => .error .oob
    | some last =>
      let tail := if insts.length = phys.length then
          match insts.getLast?, sets with
          | some t, none => (List.range' last.1 (N - last.1)).map (fun j => (j, t))
          | some t, some ss => (ss.getLastD []).map (fun j => (j, t))
          | none, _ => []
        else []
      return body.flatten ++ last :: tail

/-- `AddTerm(coef, phys_ops, phys_ops_idxs, inst_ops, inst_ops_idxs_set)` (mpogen_impl.h:183-237). -/
def Generator.addTermInst (g : Generator C T) (coef : C) (phys : List (Nat × T)) (insts : List T)
    (sets : Option (List (List Nat))) : Except Err (Generator C T) := do
  let l ← instList g.N phys insts sets
  g.addTerm coef (l.map (·.2)) (l.map (·.1))

/-- `AddTerm(coef, op1, op1_idx, op2, op2_idx, inst_op, inst_op_idxs)` (mpogen_impl.h:254-285). A default
constructed tensor argument is `none`, an empty `inst_op_idxs` is `[]`. -/
def Generator.addTerm2 (g : Generator C T) (coef : C) (op1 : T) (i1 : Nat) (op2 : Option T) (i2 : Nat) (inst : Option T)
    (instIdxs : List Nat) : Except Err (Generator C T) :=
  match op2 with
  | none => g.addTerm coef [op1] [i1]
  | some op2 =>
    if i2 = 0 then .error .assertFail
    else match inst with
      | none => g.addTerm coef [op1, op2] [i1, i2]
      | some t =>
        if instIdxs = [] then
          if i2 ≤ i1 then .error .assertFail
          else g.addTermInst coef [(i1, op1), (i2, op2)] [t] none
        else g.addTermInst coef [(i1, op1), (i2, op2)] [t] (some [instIdxs])

end

/-! ### Column grouping by quantum number and `Gen` -/

section
variable {Q : Type} [DecidableEq Q]

/-- `Index::GetQNSctFromActualCoor(x)` (used in mpogen_impl.h:378): quantum number of the sector holding
coordinate `x`. -/
def sectorOf : List (Q × Nat) → Nat → Except Err Q
  | [], _ => .error .oob
  | (q, d) :: vb, x => if x < d then .ok q else sectorOf vb (x - d)

/-- Insertion of a column into the group of its quantum number (mpogen_impl.h:412-429): the column is put at
the beginning of its group. -/
def insertCol (q : Q) (col : Nat) : Nat → List (Q × Nat) → List Nat → List (Q × Nat) × List Nat
  | offset, [], perm => ([(q, 1)], perm.take offset ++ col :: perm.drop offset)
  | offset, (q', d) :: pairs, perm =>
    if q' = q then ((q', d + 1) :: pairs, perm.take offset ++ col :: perm.drop offset)
    else
      let (pairs', perm') := insertCol q col (offset + d) pairs perm
      ((q', d) :: pairs', perm')

/-- `CalcTgtRvbQN_` (mpogen_impl.h:372-381): left quantum number minus the divergence of the first operator. -/
def calcRvbQN [Sub Q] (div : Label → Q) (vb : List (Q × Nat)) (row : Nat) (elem : OpRepr) : Except Err Q :=
  match elem with
  | [] => .error .oob
  | (l, _) :: _ => do let q ← sectorOf vb row; return q - div l

/-- The row loop for one column (mpogen_impl.h:398-432): quantum number of the first non-null entry; later
entries must agree (`assert`). `none` for an empty column. -/
def colQN [Sub Q] (div : Label → Q) (vb : List (Q × Nat)) (m : SparMat OpRepr) (col : Nat) : Except Err (Option Q) :=
  (List.range m.rows).foldlM (fun acc row =>
    if (m.get row col).isEmpty then .ok acc
    else do
      let q ← calcRvbQN div vb row (m.get row col)
      match acc with
      | none => .ok (some q)
      | some q0 => if q = q0 then .ok acc else .error .assertFail) none

/-- One iteration of the column loop of `SortSparOpReprMatColsByQN_` (mpogen_impl.h:397-433). -/
def sortStep [Sub Q] (div : Label → Q) (vb : List (Q × Nat)) (m : SparMat OpRepr) (st : List (Q × Nat) × List Nat)
    (col : Nat) : Except Err (List (Q × Nat) × List Nat) := do
  match ← colQN div vb m col with
  | none => .ok st
  | some q => .ok (insertCol q col 0 st.1 st.2)

/-- `SortSparOpReprMatColsByQN_` (mpogen_impl.h:391-441): permuted matrix, right bond sectors, permutation. -/
def sortColsByQN [Sub Q] (div : Label → Q) (vb : List (Q × Nat)) (m : SparMat OpRepr) :
    Except Err (SparMat OpRepr × List (Q × Nat) × List Nat) := do
  let (pairs, perm) ← (List.range m.cols).foldlM (sortStep div vb m) ([], [])
  let m' ← m.transposeCols perm
  return (m', pairs, perm)

/-- One MPO tensor before the operators are written into its blocks: the permuted site matrix and the sectors
of its left and right virtual bond (mpogen_impl.h:443-504). -/
structure SiteTen (Q : Type) where
  mat : SparMat OpRepr
  lvb : List (Q × Nat)
  rvb : List (Q × Nat)

/-- Loop of `Gen` from the second site on (mpogen_impl.h:313-329). `perm`, `vb` are `transposed_idxs`,
`trans_vb`. The last site is `TailMpoTenRepr2MpoTen_` (464-482), which reads `lvb.GetQNSct(0)` to build the
trivial right bond; the others are `CentMpoTenRepr2MpoTen_` (484-504). -/
def genLoop [Sub Q] (div : Label → Q) : List Nat → List (Q × Nat) → List (SparMat OpRepr) →
    Except Err (List (SiteTen Q))
  | _, _, [] => .ok []
  | perm, vb, [m] => do
    let m ← m.transposeRows perm
    match vb with
    | [] => .error .oob
    | (q, _) :: _ => return [⟨m, vb, [(q - q, 1)]⟩]
  | perm, vb, m :: m2 :: rest => do
    let m ← m.transposeRows perm
    let (m, vb', perm) ← sortColsByQN div vb m
    let l ← genLoop div perm vb' (m2 :: rest)
    return ⟨m, vb, vb'⟩ :: l

/-- `Gen` (mpogen_impl.h:287-331) up to the copying of tensor elements. `zero` is `zero_div_`. The first site is
`HeadMpoTenRepr2MpoTen_` (443-462), which reads `rvb.GetQNSct(0)` to build the trivial left bond. -/
def genMats [Sub Q] (div : Label → Q) (zero : Q) (ms : List (SparMat OpRepr)) : Except Err (List (SiteTen Q)) :=
  match ms with
  | [] => .ok []
  | m :: rest => do
    let (m, vb, perm) ← sortColsByQN div [(zero, 1)] m
    match vb with
    | [] => .error .oob
    | (q, _) :: _ =>
      let l ← genLoop div perm vb rest
      return ⟨m, [(q - q, 1)], vb⟩ :: l

/-- `MPOGenerator::Gen(compress)` (mpogen_impl.h:287-331): the matrices of the state machine, compressed or not, then
the tensors. `tdiv` is `Div` of an operator tensor. -/
def Generator.gen {C T : Type} [DecidableEq C] [DecidableEq T] [Sub Q] (g : Generator C T) (tdiv : T → Q) (zero : Q)
    (compress : Bool) : Except Err (List (SiteTen Q)) := do
  let ms ← (if compress then g.fsm.genCompressed else g.fsm.genMatRepr : Except Err (List (SparMat OpRepr)))
  genMats (fun l => (g.opHub[l]?).elim zero tdiv) zero ms

end
end Verif.Mpo
