import Verif.Mpi.ProgFarm
import Verif.Disk.Dmrg

/-!
# The parallel DMRG executor: the program of the master and the program of the workers

`FiniteDMRG` with at least two processes (`dmrg_mpi.h`): `DMRGMPIMasterExecutor::Execute` and `DMRGMPISlaveExecutor::Execute`.
The numerical work is abstract (`DEng`).  The memory of the master and its files are those of `Verif.Disk.Dmrg`, with
one file per block operator; in each step the program reads and writes what the C++ program reads and writes.

Simplifications: the task number and the Hamiltonian terms that follow it are one message (`Verif.Mpi.Handover` treats
the parts), and so is a tensor.  A broadcast is one message to each worker.
-/
namespace Verif.Mpi
open Function
open Verif.Disk (Alg CSys Op Err Dir Gauge Mem)

/-- The numerical part.
`M` tensors of the state, `B` block operators, `Hs` entries of the Hamiltonian's matrices, `St` two-site states, `Cb` and `Cs` the operators
"block times site" and "site times block", `O` real numbers, `L` the state of a Lanczos run, `SL` states inside the linear algebra library. -/
structure DEng (M B Hs St Cb Cs O L SL : Type) where
  /-- the number of sites -/
  N : Nat
  /-- the dimension of the bond of the Hamiltonian to the left of a site: rows of the matrix of site `i`, columns of that of site `i - 1` -/
  w : Nat → Nat
  /-- the block operators of empty blocks -/
  trivL : M → List B
  trivR : M → List B
  /-- site, block operators, component: the terms of a component of "block times site" and of "site times block"
  (`SetEffectiveHamiltonianTerms_`, dmrg_mpi_impl_master.h:278-303) -/
  bgrp : Nat → List B → Nat → List (B × Hs)
  sgrp : Nat → List B → Nat → List (Hs × B)
  /-- contraction of the terms, sum, transposition (dmrg_mpi_impl_slave.h:302-357) -/
  mkB : List (B × Hs) → Cb
  mkS : List (Hs × B) → Cs
  /-- the product with a state (dmrg_mpi_impl_slave.h:365-366, 440-441) -/
  mul : Cb → Cs → St → St
  /-- state, product: the real part of the overlap (dmrg_mpi_impl_slave.h:464-470, lanczos_dmrg_solver_mpi_master.h:80-87) -/
  ovl : St → St → O
  /-- a new block operator (dmrg_mpi_impl_slave.h:488-489, 503-504, 160-163, 193-195) -/
  absL : Cb → M → B
  absR : Cs → M → B
  /-- the normalised initial state of an update -/
  start : M → M → St
  /-- Lanczos: the old tensors (which give the first state), the first product, the overlap; the state to be multiplied next, `none` if the run is over; take in a product and its overlap
  (lanczos_dmrg_solver_mpi_master.h:82-165) -/
  lz0 : M → M → St → O → L
  lzVec : L → Option St
  lzTake : L → St → O → L
  /-- `max_iterations` -/
  iters : Nat
  /-- the decomposition: arguments of the master, state of the workers, and the new tensors from its result; the arguments are the number of the update,
  its direction and site, the old tensors and the Lanczos result (dmrg_mpi_impl_master.h:209-238) -/
  svdIn : M → M → L → SL
  svdWk : SL
  svdOut : Nat → Dir → Nat → M → M → L → SL → M × M
  /-- the new tensors if one process computes the decomposition -/
  svdVal : Nat → Dir → Nat → M → M → L → M × M

/-- The tensors and bundles of tensors in messages. -/
inductive DT (M B Hs St : Type) where
  | mps (x : M)
  | op (x : B)
  | state (x : St)
  /-- a default-constructed tensor -/
  | empty
  /-- a task of the first product: number and terms -/
  | task (j : Nat) (bs : List (B × Hs)) (ss : List (Hs × B))
  /-- a task of the initialisation: number and terms -/
  | row (j : Nat) (ss : List (Hs × B))
  /-- terms without number -/
  | grp (ss : List (Hs × B))

/-- Where the loops of a worker begin.  `ops` is `ops_num_table_`, `block_site_ops_`, `site_block_ops_` (dmrg_mpi_impl_slave.h:51-53). -/
inductive DHead (M St Cb Cs : Type) where
  /-- beginning of `Execute` -/
  | start
  /-- loop of `DMRGInit_` -/
  | init
  /-- loop over task numbers in `UpdateRightBlockOpsSlave_` -/
  | row (t : M) (n : Nat)
  /-- loop of `Execute` -/
  | main (ops : List (Nat × Cb × Cs))
  /-- loop of `SlaveLanczosSolver_` -/
  | lz (ops : List (Nat × Cb × Cs))
  /-- loop of `WorkForDynamicHamiltonianMultiplyState_` -/
  | dyn (v : St) (n : Nat) (ops : List (Nat × Cb × Cs))

section
variable {M B Hs St Cb Cs O L SL VL : Type} [AddCommMonoid O] [AddCommMonoid St]

/-- The programs: tensors, real numbers, library, loops of the workers, and what a rank returns with (the master its memory and files). -/
abbrev DProc (M B Hs St Cb Cs O SL VL : Type) := Proc (DT M B Hs St) O SL VL (DHead M St Cb Cs) (Option (CSys M B))
abbrev DPV (M B Hs St O VL : Type) := PV (DT M B Hs St) O VL

def DT.unState : DT M B Hs St → Option St
  | .state x => some x
  | _ => none

def DT.unOp : DT M B Hs St → Option B
  | .op x => some x
  | _ => none

/-- A single tensor, not a bundle of terms. -/
def DT.isRes : DT M B Hs St → Bool
  | .mps _ | .op _ | .state _ | .empty => true
  | _ => false

/-- `FinalSignal(n)` (mps_algo_order.h:64-66). -/
def finalSignal (n : Nat) : Nat := n + 10086

variable (W : Nat)

/-! ### Parts of the master's program -/

/-- Receive a result from any worker and answer it, for each answer in the list
(lanczos_dmrg_solver_mpi_master.h:204-241, dmrg_mpi_impl_master.h:524-545). -/
def mGather (k : List (Nat × DT M B Hs St) → DProc M B Hs St Cb Cs O SL VL) :
    List (DPV M B Hs St O VL) → List (Nat × DT M B Hs St) → DProc M B Hs St Cb Cs O SL VL
  | [], got => k got
  | v :: vs, got => .recvAny none fun q t x =>
      match x with
      | .ten y => if y.isRes then .send q (q + 1) v (mGather k vs (got ++ [(t - 1, y)])) else .crash
      | _ => .crash

/-- The sum of the received products; `none` if one of them is missing (lanczos_dmrg_solver_mpi_master.h:243-247). -/
def mSum (n : Nat) (got : List (Nat × DT M B Hs St)) : Option St :=
  ((List.range n).mapM fun t => (slotsOf n got t).bind DT.unState).map List.sum

/-- The received block operators. -/
def mOpList (n : Nat) (got : List (Nat × DT M B Hs St)) : Option (List B) := (List.range n).mapM fun t => (slotsOf n got t).bind DT.unOp

/-- The answers of the first product: `n` tasks, then the final signal for every worker. -/
def dynReplies (n : Nat) (bs : Nat → List (B × Hs)) (ss : Nat → List (Hs × B)) : List (DPV M B Hs St O VL) :=
  (List.range n).map (fun j => .ten (.task j (bs j) (ss j))) ++ List.replicate W (.num (finalSignal n))

/-- `DynamicHamiltonianMultiplyState_` (lanczos_dmrg_solver_mpi_master.h:180-248) with the order before it (line 71). -/
def mDynamic (n : Nat) (bs : Nat → List (B × Hs)) (ss : Nat → List (Hs × B)) (v : St) (k : St → DProc M B Hs St Cb Cs O SL VL) :
    DProc M B Hs St Cb Cs O SL VL :=
  bcast W (.order .matVecDynamic) (bcast W (.num n) (bcast W (.ten (.state v))
    (mGather (fun got =>
      match mSum n got with
      | some x => k x
      | none => .crash) (dynReplies W n bs ss) [])))

/-- Receive the overlaps (lanczos_dmrg_solver_mpi_master.h:280-285). -/
def mOvls (k : O → DProc M B Hs St Cb Cs O SL VL) : Nat → O → DProc M B Hs St Cb Cs O SL VL
  | 0, ov => k ov
  | m + 1, ov => .recvAny (some (10087 + 1)) fun _ _ x =>
      match x with
      | .real y => mOvls k m (ov + y)
      | _ => .crash

/-- Receive the partial sums, then the overlaps (lanczos_dmrg_solver_mpi_master.h:269-285). -/
def mSubs (k : List St → O → DProc M B Hs St Cb Cs O SL VL) : Nat → List St → DProc M B Hs St Cb Cs O SL VL
  | 0, got => mOvls (k got) W 0
  | m + 1, got => .recvAny (some (10085 + 1)) fun _ _ x =>
      match x with
      | .ten (.state y) => mSubs k m (got ++ [y])
      | _ => .crash

/-- `StaticHamiltonianMultiplyState_` (lanczos_dmrg_solver_mpi_master.h:251-287) with the order before it (line 137); `a[m]` is 0 before. -/
def mStatic (v : St) (k : St → O → DProc M B Hs St Cb Cs O SL VL) : DProc M B Hs St Cb Cs O SL VL :=
  bcast W (.order .matVecStatic) (bcast W (.ten (.state v)) (mSubs W (fun got ov => k got.sum ov) W []))

variable (E : DEng M B Hs St Cb Cs O L SL)

/-- The loop of `LanczosSolver_` (lanczos_dmrg_solver_mpi_master.h:93-165), at most the given number of products. -/
def mLanczosD (k : L → DProc M B Hs St Cb Cs O SL VL) : Nat → L → DProc M B Hs St Cb Cs O SL VL
  | 0, l =>
    match E.lzVec l with
    | none => bcast W (.order .lanczosFinish) (k l)
    | some _ => .crash
  | m + 1, l =>
    match E.lzVec l with
    | none => bcast W (.order .lanczosFinish) (k l)
    | some v => mStatic W v fun x ov => mLanczosD k m (E.lzTake l x ov)

/-- Receive `n` numbered block operators (`GrowLeftBlockOps_`, `GrowRightBlockOps_`, dmrg_mpi_impl_master.h:647-652, 662-667). -/
def mGrow (k : List (Nat × DT M B Hs St) → DProc M B Hs St Cb Cs O SL VL) : Nat → List (Nat × DT M B Hs St) → DProc M B Hs St Cb Cs O SL VL
  | 0, got => k got
  | m + 1, got => .recvAny none fun q _ x =>
      match x with
      | .num j => .recv q (q + 1) fun y =>
          match y with
          | .ten z => mGrow k m (got ++ [(j, z)])
          | _ => .crash
      | _ => .crash

variable (lact : Nat → SL → Act SL VL)

/-- `TwoSiteUpdate_` up to the new tensors (dmrg_mpi_impl_master.h:183-238), `l` the left site, `e` and `f` the block operators;
the overlap of the first product is computed by the master. -/
def mTwoSite (clk : Nat) (dir : Dir) (i l : Nat) (e f : List B) (t u : M) (k : M × M → DProc M B Hs St Cb Cs O SL VL) :
    DProc M B Hs St Cb Cs O SL VL :=
  bcast W (.order .lanczos) (bcast W (.num l)
    (mDynamic W (E.w (l + 1)) (E.bgrp l e) (E.sgrp (l + 1) f) (E.start t u) fun x =>
      mLanczosD W E (fun res =>
        bcast W (.order .svd) (wrapL lact 0 (fun s => k (E.svdOut clk dir i t u res s)) (E.svdIn t u res)))
        E.iters (E.lz0 t u x (E.ovl (E.start t u) x))))

/-- The growth of the block operators after an update: order, tensor, results (dmrg_mpi_impl_master.h:247-258, 641-668). -/
def mGrowOps (o : Order) (t : M) (n : Nat) (k : List B → DProc M B Hs St Cb Cs O SL VL) : DProc M B Hs St Cb Cs O SL VL :=
  bcast W (.order o) (bcast W (.ten (.mps t)) (mGrow (fun got =>
    match mOpList n got with
    | some g => k g
    | none => .crash) n []))

/-- `TwoSiteUpdate_` moving right with `l_site_ = i` (dmrg_mpi_impl_master.h:183-275). -/
def mUpdR (i : Nat) (k : CSys M B → DProc M B Hs St Cb Cs O SL VL) (s : CSys M B) : DProc M B Hs St Cb Cs O SL VL :=
  match s.mem.l i, s.mem.r (E.N - (i + 2)), s.mem.m i, s.mem.m (i + 1) with
  | some e, some f, some t, some u =>
    mTwoSite W E lact s.mem.clk .r i i e f t u fun p =>
      mGrowOps W .growLeft p.1 (E.w (i + 1)) fun g =>
        k ⟨{ s.mem with
              m := update (update s.mem.m i (some p.1)) (i + 1) (some p.2)
              l := update s.mem.l (i + 1) (some g)
              clk := s.mem.clk + 1 }, s.dsk⟩
  | _, _, _, _ => .crash

/-- `TwoSiteUpdate_` moving left with `r_site_ = i` (dmrg_mpi_impl_master.h:183-275). -/
def mUpdL (i : Nat) (k : CSys M B → DProc M B Hs St Cb Cs O SL VL) (s : CSys M B) : DProc M B Hs St Cb Cs O SL VL :=
  match s.mem.l (i - 1), s.mem.r (E.N - 1 - i), s.mem.m (i - 1), s.mem.m i with
  | some e, some f, some t, some u =>
    mTwoSite W E lact s.mem.clk .l i (i - 1) e f t u fun p =>
      mGrowOps W .growRight p.2 (E.w i) fun g =>
        k ⟨{ s.mem with
              m := update (update s.mem.m (i - 1) (some p.1)) i (some p.2)
              r := update s.mem.r (E.N - i) (some g)
              clk := s.mem.clk + 1 }, s.dsk⟩
  | _, _, _, _ => .crash

/-- Work of the master alone, on its memory and files. -/
def mOps (ops : List (Op M (List B))) (k : CSys M B → DProc M B Hs St Cb Cs O SL VL) (s : CSys M B) : DProc M B Hs St Cb Cs O SL VL :=
  match Disk.crun E.w E.N ops s with
  | .ok s1 => k s1
  | .error _ => .crash

/-- A loop. -/
def mEach (step : Nat → (CSys M B → DProc M B Hs St Cb Cs O SL VL) → CSys M B → DProc M B Hs St Cb Cs O SL VL) :
    List Nat → (CSys M B → DProc M B Hs St Cb Cs O SL VL) → CSys M B → DProc M B Hs St Cb Cs O SL VL
  | [], k, s => k s
  | i :: is, k, s => step i (mEach step is k) s

/-- One iteration of the first loop of `DMRGSweep_` (dmrg_mpi_impl_master.h:147-154); loading and dumping as in the serial program
(dmrg_mpi_impl_master.h:306-394). -/
def mStepR (lb i : Nat) (k : CSys M B → DProc M B Hs St Cb Cs O SL VL) : CSys M B → DProc M B Hs St Cb Cs O SL VL :=
  mOps E (Disk.dLoadR E.N lb i) (mUpdR W E lact i (mOps E (Disk.dDumpR E.N i) k))

/-- One iteration of the second loop (dmrg_mpi_impl_master.h:157-164). -/
def mStepL (rb i : Nat) (k : CSys M B → DProc M B Hs St Cb Cs O SL VL) : CSys M B → DProc M B Hs St Cb Cs O SL VL :=
  mOps E (Disk.dLoadL E.N rb i) (mUpdL W E lact i (mOps E (Disk.dDumpL E.N i) k))

/-- `DMRGSweep_` (dmrg_mpi_impl_master.h:144-166). -/
def mSweep (lb rb : Nat) (k : CSys M B → DProc M B Hs St Cb Cs O SL VL) : CSys M B → DProc M B Hs St Cb Cs O SL VL :=
  mEach (mStepR W E lact lb) (Disk.sitesR lb rb) (mEach (mStepL W E lact rb) (Disk.sitesL lb rb) k)

/-- The loop over the sweeps (dmrg_mpi_impl_master.h:130-136). -/
def mSweeps (lb rb : Nat) : Nat → (CSys M B → DProc M B Hs St Cb Cs O SL VL) → CSys M B → DProc M B Hs St Cb Cs O SL VL
  | 0, k => k
  | n + 1, k => mSweep W E lact lb rb (mSweeps lb rb n k)

/-! ### Initialisation -/

/-- Send the terms of the tasks `i, i + 1, …` (`n` of them) to the workers with the following ranks, without numbers (dmrg_mpi_impl_master.h:496-505). -/
def mSendGrps (ss : Nat → List (Hs × B)) (next : DProc M B Hs St Cb Cs O SL VL) : Nat → Nat → DProc M B Hs St Cb Cs O SL VL
  | 0, _ => next
  | n + 1, i => .send (i + 1) (2 * (i + 1) + 1) (.ten (.grp (ss i))) (mSendGrps ss next n (i + 1))

/-- Receive the operators from these workers (dmrg_mpi_impl_master.h:506-508). -/
def mRecvOps (k : List B → DProc M B Hs St Cb Cs O SL VL) : Nat → Nat → List B → DProc M B Hs St Cb Cs O SL VL
  | 0, _, got => k got
  | n + 1, i, got => .recv (i + 1) (i + 1) fun x =>
      match x with
      | .ten (.op y) => mRecvOps k n (i + 1) (got ++ [y])
      | _ => .crash

/-- Give every worker a first task (dmrg_mpi_impl_master.h:511-523). -/
def mHand (ss : Nat → List (Hs × B)) (next : DProc M B Hs St Cb Cs O SL VL) : Nat → Nat → DProc M B Hs St Cb Cs O SL VL
  | 0, _ => next
  | n + 1, i => .send (i + 1) (i + 1 + 1) (.ten (.row i (ss i))) (mHand ss next n (i + 1))

/-- The answers: the remaining tasks, then the final signal for every worker (dmrg_mpi_impl_master.h:524-545). -/
def rowReplies (n : Nat) (ss : Nat → List (Hs × B)) : List (DPV M B Hs St O VL) :=
  (List.range (n - W)).map (fun i => .ten (.row (W + i) (ss (W + i)))) ++ List.replicate W (.num (finalSignal n))

/-- `InitUpdateRightBlockOps_` (dmrg_mpi_impl_master.h:476-550) with the order before it (line 466). -/
def mInitGrow (n : Nat) (ss : Nat → List (Hs × B)) (t : M) (k : List B → DProc M B Hs St Cb Cs O SL VL) : DProc M B Hs St Cb Cs O SL VL :=
  bcast W (.order .initGrowEnvGrow) (bcast W (.num n) (bcast W (.ten (.mps t))
    (if n ≤ W then mSendGrps ss (mRecvOps k n 0 []) n 0
    else mHand ss (mGather (fun got =>
      match mOpList n got with
      | some g => k g
      | none => .crash) (rowReplies W n ss) []) W 0)))

/-- One iteration of the loop of `InitBlockOps_` (dmrg_mpi_impl_master.h:464-471). -/
def mInitStep (i : Nat) (k : CSys M B → DProc M B Hs St Cb Cs O SL VL) : CSys M B → DProc M B Hs St Cb Cs O SL VL :=
  mOps E (if 1 < i then [.ldM (E.N - i)] else []) fun s =>
    match s.mem.reg, s.mem.m (E.N - i) with
    | some e, some t =>
      mInitGrow W (E.w (E.N - i)) (E.sgrp (E.N - i) e) t fun g =>
        mOps E [.wrR i, .frM (E.N - i)] k ⟨{ s.mem with reg := some g }, s.dsk⟩
    | _, _ => .crash

/-- The numerical work of one process that does everything itself: all terms of a product, all components of a group of block operators. -/
def DEng.prod (l : Nat) (e f : List B) (v : St) : St :=
  ((List.range (E.w (l + 1))).map fun j => E.mul (E.mkB (E.bgrp l e j)) (E.mkS (E.sgrp (l + 1) f j)) v).sum

/-- A Lanczos run with the product `H`, at most the given number of further products. -/
def DEng.lzRun (H : St → St) : Nat → L → Option L
  | 0, l =>
    match E.lzVec l with
    | none => some l
    | some _ => none
  | m + 1, l =>
    match E.lzVec l with
    | none => some l
    | some v => DEng.lzRun H m (E.lzTake l (H v) (E.ovl v (H v)))

/-- The left site of an update. -/
def leftSite : Dir → Nat → Nat
  | .r, i => i
  | .l, i => i - 1

/-- The serial algorithm with the same numerical work. -/
def DEng.alg : Alg M (List B) where
  trivL := E.trivL
  trivR := E.trivR
  growL i e t := (List.range (E.w (i + 1))).map fun j => E.absL (E.mkB (E.bgrp i e j)) t
  growR i e t := (List.range (E.w i)).map fun j => E.absR (E.mkS (E.sgrp i e j)) t
  opt clk dir i e f t u :=
    let H := E.prod (leftSite dir i) e f
    let v := E.start t u
    match E.lzRun H E.iters (E.lz0 t u (H v) (E.ovl v (H v))) with
    | some res => E.svdVal clk dir i t u res
    | none => (t, u)

/-- `DMRGInit_` (dmrg_mpi_impl_master.h:397-443) in a directory with the block operators of `d`, `InitBlockOps_` (446-473), `UpdateBoundaryBlockOpsMaster` (580-638). -/
def mInit (G : Gauge M) (bl br : Nat → Bool) (k : CSys M B → DProc M B Hs St Cb Cs O SL VL) (s : CSys M B) : DProc M B Hs St Cb Cs O SL VL :=
  let lb := Disk.lbOf bl E.N
  let rb := Disk.rbOf br E.N
  let rest := fun s1 => bcast W (.order .initGrowEnvFinish) (mOps E (Disk.boundOps E.alg E.N lb rb) k s1)
  mOps E (Disk.checkBoundary G bl br E.N)
    (if Disk.needOps E.w E.N lb rb s.dsk then
      mOps E [.ldM (E.N - 1), .calc (Disk.startR E.alg E.N), .wrR 0] (mEach (mInitStep W E) (List.range' 1 (E.N - (lb + 2))) rest)
    else rest) s

/-- `DMRGMPIMasterExecutor::Execute` with `n` sweeps (dmrg_mpi_impl_master.h:121-141). -/
def mExecute (G P : Gauge M) (bl br : Nat → Bool) (n : Nat) (s : CSys M B) : DProc M B Hs St Cb Cs O SL VL :=
  let lb := Disk.lbOf bl E.N
  let rb := Disk.rbOf br E.N
  bcast W (.order .programStart) (mInit W E G bl br
    (mOps E [.ldM (lb + 1)] (mSweeps W E lact lb rb n (mOps E (.dpM (lb + 1) true :: Disk.dmrgPost P lb) fun s1 =>
      bcast W (.order .programFinal) (.halt (some s1))))) s)

/-! ### The workers -/

/-- Send the messages one after the other. -/
def wSend : List (Nat × DPV M B Hs St O VL) → DProc M B Hs St Cb Cs O SL VL → DProc M B Hs St Cb Cs O SL VL
  | [], next => next
  | (t, v) :: l, next => .send 0 (t + 1) v (wSend l next)

/-- The sum over the terms a worker owns (dmrg_mpi_impl_slave.h:418-452). -/
def wSub (ops : List (Nat × Cb × Cs)) (v : St) : St := (ops.map fun o => E.mul o.2.1 o.2.2 v).sum

/-- The overlap a worker reports (dmrg_mpi_impl_slave.h:456-473). -/
def wOvl (ops : List (Nat × Cb × Cs)) (v : St) : O := if ops.length > 0 then E.ovl v (wSub E ops v) else 0

/-- What rank `r` sends in `WorkForGrowLeftBlockOps_` and `WorkForGrowRightBlockOps_` (dmrg_mpi_impl_slave.h:482-509): for each operator its number
and the operator. -/
def wPairs (r : Nat) (ops : List (Nat × Cb × Cs)) (f : Cb × Cs → B) : List (Nat × DPV M B Hs St O VL) :=
  ops.flatMap fun o => [(r, .num o.1), (r, .ten (.op (f o.2)))]

/-- The code of the worker with rank `r` from the head of a loop on. -/
def wBodyD (r : Nat) : DHead M St Cb Cs → DProc M B Hs St Cb Cs O SL VL
  -- dmrg_mpi_impl_slave.h:77-85
  | .start => .recv 0 0 fun v =>
      match v with
      | .order .programStart => .head .init
      | _ => .crash
  -- dmrg_mpi_impl_slave.h:119-205
  | .init => .recv 0 0 fun v =>
      match v with
      | .order .initGrowEnvFinish => .head (.main [])
      | .order .initGrowEnvGrow => .recv 0 0 fun v =>
          match v with
          | .num n => .recv 0 0 fun v =>
              match v with
              | .ten (.mps t) =>
                if n ≤ W then
                  (if r ≤ n then .recv 0 (2 * r + 1) fun v =>
                      match v with
                      | .ten (.grp ss) => .send 0 (r - 1 + 1) (.ten (.op (E.absR (E.mkS ss) t))) (.head .init)
                      | _ => .crash
                  else .head .init)
                else .head (.row t n)
              | _ => .crash
          | _ => .crash
      | _ => .crash
  -- dmrg_mpi_impl_slave.h:172-202
  | .row t n => .recv 0 (r + 1) fun v =>
      match v with
      | .ten (.row j ss) => if j < n then .send 0 (j + 1) (.ten (.op (E.absR (E.mkS ss) t))) (.head (.row t n)) else .crash
      | .num j => if j < n then .crash else .head .init
      | _ => .crash
  -- dmrg_mpi_impl_slave.h:87-113; an unknown order is skipped
  | .main ops => .recv 0 0 fun v =>
      match v with
      | .order .lanczos => .recv 0 0 fun v =>
          match v with
          | .num _ => .recv 0 0 fun v =>
              -- dmrg_mpi_impl_slave.h:241-244, 273-285
              match v with
              | .order .matVecDynamic => .recv 0 0 fun v =>
                  match v with
                  | .num n => .recv 0 0 fun v =>
                      match v with
                      | .ten (.state v) => .send 0 (finalSignal n + 1) (.ten .empty) (.head (.dyn v n []))
                      | _ => .crash
                  | _ => .crash
              | _ => .crash
          | _ => .crash
      | .order .svd => wrapL lact r (fun _ => .head (.main ops)) E.svdWk
      | .order .growLeft => .recv 0 0 fun v =>
          match v with
          | .ten (.mps t) => wSend (wPairs r ops fun o => E.absL o.1 t) (.head (.main ops))
          | _ => .crash
      | .order .growRight => .recv 0 0 fun v =>
          match v with
          | .ten (.mps t) => wSend (wPairs r ops fun o => E.absR o.2 t) (.head (.main ops))
          | _ => .crash
      | .order .programFinal => .halt none
      | .order _ => .head (.main ops)
      | _ => .crash
  -- dmrg_mpi_impl_slave.h:245-250, 406-479
  | .lz ops => .recv 0 0 fun v =>
      match v with
      | .order .lanczosFinish => .head (.main ops)
      | .order .matVecStatic => .recv 0 0 fun v =>
          match v with
          | .ten (.state v) => wSend [(10085, .ten (.state (wSub E ops v))), (10087, .real (wOvl E ops v))] (.head (.lz ops))
          | _ => .crash
      | _ => .crash
  -- dmrg_mpi_impl_slave.h:290-394
  | .dyn v n ops => .recv 0 (r + 1) fun x =>
      match x with
      | .ten (.task j bs ss) =>
        if j > n then .crash
        else .send 0 (j + 1) (.ten (.state (E.mul (E.mkB bs) (E.mkS ss) v))) (.head (.dyn v n (ops ++ [(j, E.mkB bs, E.mkS ss)])))
      | .num j => if j > n then .head (.lz ops) else .crash
      | _ => .crash

end
end Verif.Mpi
