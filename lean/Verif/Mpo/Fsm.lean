import Verif.Mpo.Compress
/-
Model of the finite state machine behind the MPO generator.
Source: /repo/include/qlmps/one_dim_tn/mpo/mpogen/fsm.h

Vectors whose length is fixed by the constructor (`phys_site_num_ + 1` or `phys_site_num_`) and that are only
indexed below that length are functions on `Nat`; reads of caller-supplied vectors are checked.
-/
namespace Verif.Mpo
open SparMat NullElem

/-- Update of a fixed-length vector. -/
def upd {β : Type} (f : Nat → β) (i : Nat) (v : β) : Nat → β := fun j => if j = i then v else f j

/-- `kFSMReadyStatIdx`, `kFSMFinalStatIdx` (fsm.h:169-171). -/
def kReady : Int := 0
def kFinal : Int := -1

/-- `struct FSMPath` (fsm.h:80-104). `stat b` is `fsm_nodes[b].fsm_stat_idx`; `fsm_nodes[b].fsm_site_idx` is
always `b` and is left out. -/
structure FPath where
  stat : Nat → Int
  op : Nat → OpRepr

/-- `class FSM` (fsm.h:108-166). -/
structure Fsm where
  N : Nat
  mid : Nat → Nat
  hasR : Nat → Bool
  hasF : Nat → Bool
  paths : List FPath
  idOps : Nat → OpRepr

/-- `FSM(phys_site_num, id_ops)` (fsm.h:110-120). -/
def Fsm.new (N : Nat) (idOps : Nat → OpRepr) : Fsm :=
  ⟨N, fun _ => 0, fun _ => false, fun _ => false, [], idOps⟩

/-- State of the node loop of `AddPath` (fsm.h:190-206). -/
structure NodeSt where
  stat : Nat → Int
  mid : Nat → Nat
  hasR : Nat → Bool
  hasF : Nat → Bool

/-- Body of the node loop of `AddPath` (fsm.h:190-206). -/
def nodeStep (head tail : Nat) (st : NodeSt) (i : Nat) : NodeSt :=
  if i < head then { st with stat := upd st.stat (i + 1) kReady, hasR := upd st.hasR (i + 1) true }
  else if tail ≤ i then { st with stat := upd st.stat (i + 1) kFinal, hasF := upd st.hasF (i + 1) true }
  else
    let m := st.mid (i + 1) + 1
    { st with stat := upd st.stat (i + 1) (m : Int), mid := upd st.mid (i + 1) m }

/-- `FSM::AddPath` (fsm.h:173-208). -/
def Fsm.addPath (f : Fsm) (head tail : Nat) (ops : List OpRepr) : Except Err Fsm :=
  if head + ops.length ≠ tail + 1 then .error .assertFail
  else
    let st0 : NodeSt := ⟨fun _ => kReady, f.mid, upd f.hasR 0 true, f.hasF⟩
    let st := (List.range f.N).foldl (nodeStep head tail) st0
    let op := fun i => if i < head ∨ tail < i then f.idOps i else ops.getD (i - head) []
    .ok { f with mid := st.mid, hasR := st.hasR, hasF := st.hasF, paths := f.paths ++ [⟨st.stat, op⟩] }

/-- `CalcFSMSiteDims_` (fsm.h:225-234). -/
def Fsm.dim (f : Fsm) (b : Nat) : Nat :=
  f.mid b + (if f.hasR b then 1 else 0) + (if f.hasF b then 1 else 0)

/-- `CalcFinalStatDimIdxs_` (fsm.h:236-249). -/
def Fsm.finalIdx (f : Fsm) (b : Nat) : Int :=
  if f.hasF b then (if f.hasR b then (f.dim b : Int) - 1 else 0) else -1

/-- The row/column index computation of `CastFSMPathToMatRepr_` (fsm.h:261-274). -/
def Fsm.statIdx (f : Fsm) (b : Nat) (s : Int) : Int :=
  if s = kFinal then f.finalIdx b
  else if (!f.hasR b) && (!f.hasF b) then s - 1
  else s

/-- The entry update of `CastFSMPathToMatRepr_` (fsm.h:276-283) as a function of the old entry. -/
def comb (e o : OpRepr) : OpRepr :=
  if e.isEmpty then o else if !(OpRepr.eqv e o) then OpRepr.add e o else e

/-- One iteration of `CastFSMPathToMatRepr_` (fsm.h:256-284) on the matrix of site `i`. A negative index is
converted to a huge `size_t`: out of bounds. In the branch "do nothing" the entry is rewritten with itself. -/
def Fsm.castSite (f : Fsm) (i : Nat) (m : SparMat OpRepr) (p : FPath) : Except Err (SparMat OpRepr) :=
  let r := f.statIdx i (p.stat i)
  let c := f.statIdx (i + 1) (p.stat (i + 1))
  if r < 0 ∨ c < 0 then .error .oob
  else if m.rows ≤ r.toNat ∨ m.cols ≤ c.toNat then .error .oob
  else m.setElem r.toNat c.toNat (comb (m.get r.toNat c.toNat) (p.op i))

/-- `CastFSMPathToMatRepr_` (fsm.h:251-285). -/
def Fsm.castPath (f : Fsm) (ms : Nat → SparMat OpRepr) (p : FPath) : Except Err (Nat → SparMat OpRepr) :=
  (List.range f.N).foldlM (fun ms i => do
    let m ← f.castSite i (ms i) p
    return upd ms i m) ms

/-- `GenMatRepr` (fsm.h:210-223). -/
def Fsm.genMatRepr (f : Fsm) : Except Err (List (SparMat OpRepr)) := do
  let ms ← f.paths.foldlM f.castPath (fun i => SparMat.mk' (f.dim i) (f.dim (i + 1)))
  return (List.range f.N).map ms

/-- `GenCompressedMatRepr` (fsm.h:287-303). For `N = 0` the loop bound `phys_site_num_ - 1` wraps around. -/
def Fsm.genCompressed (f : Fsm) : Except Err (List (SparMat OpRepr)) := do
  let ms ← f.genMatRepr
  match ms with
  | [] => .error .oob
  | a :: rest =>
    let l ← colPass a rest
    rowPass l

end Verif.Mpo
