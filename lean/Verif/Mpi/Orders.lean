import Verif.Mpi.ProgFarm

/-!
# The parallel two-site programs: orders of the master, loop of the workers

`TwoSiteFiniteVMPS`, its noised version and `TwoSiteFiniteTDVP` with MPI.  The numerical work is abstract (`Eng`): what is modelled is
who sends what to whom in which order, the temporaries of the workers, and which data enter each computation.
-/
namespace Verif.Mpi
open Function Finset

/-- The numerical part of the programs.
`T` tensors, `O` real numbers, `D` the memory of the master (tensors in memory and files), `L` the state of a Lanczos run,
`P` parameters of one update, `U` the result of a singular value decomposition, `SL` states inside the linear algebra library. -/
structure Eng (T O D L P U SL : Type) where
  /-- the number of sites -/
  N : Nat
  /-- the Hamiltonian -/
  mpo : Nat → T
  /-- the sectors of the first and of the last index of a tensor, and their degeneracies -/
  sect0 : T → Nat
  sect2 : T → Nat
  deg0 : T → Nat → Nat
  deg2 : T → Nat → Nat
  /-- the contributions of one sector to the product of the effective Hamiltonian with a state, and to the overlap -/
  mulPart : T → T → T → T → T → Nat → T
  ovPart : T → T → T → T → T → Nat → O
  /-- the contributions of one sector to the environments: environment, Hamiltonian, state -/
  growLPart : T → T → T → Nat → T
  growRPart : T → T → T → Nat → T
  /-- the contributions of one sector to the expansions: effective Hamiltonian, state, noise -/
  expRPart : T → T → T → T → O → Nat → T
  expLPart : T → T → T → T → O → Nat → T
  /-- the environments and tensors of the state the master has access to -/
  lenv : D → Nat → T
  renv : D → Nat → T
  mps : D → Nat → T
  putL : D → Nat → T → D
  putR : D → Nat → T → D
  /-- generation of the right environments: load the tensor of site `N - i`; the environment of the last `i - 1` sites; take in that of the last `i` sites -/
  loadE : D → Nat → D
  envE : D → Nat → T
  putE : D → Nat → T → D
  /-- the product of the tensors on two sites -/
  pair : D → Nat → T
  /-- Lanczos: start with a normalised state; the state to be multiplied next; take in a product; is the new vector zero?; is the run over?; result -/
  lzStart : P → T → L
  lzVec : L → T
  lzTake : L → T → O → L
  lzZero : L → Bool
  lzStop : L → Bool
  lzRes : L → T
  maxIter : P → Nat
  /-- is there anything to expand at this site? the noise; what the expansion does to the state vector and to the next tensor -/
  needExp : D → Bool → Nat → O → Bool
  expVec : D → Bool → Nat → T → T → T
  expMps : D → Bool → Nat → T → T → D
  /-- the decomposition: arguments of the master, state of the workers, result, its use together with the result of Lanczos -/
  svdIn : D → Nat → T → SL
  svdWk : SL
  svdRes : SL → U
  setSvd : D → Bool → Nat → T → U → D
  /-- `std::partial_sort` and `std::sort` of the tasks -/
  sortMul : (Nat → Nat) → Nat → Nat → List Nat
  sortGrow : (Nat → Nat) → Nat → Nat → List Nat

section
variable {T O D L P U SL VL : Type} [AddCommMonoid T] [AddCommMonoid O]

/-! ### Workers -/

/-- A pointer of a worker to a temporary tensor (two_site_update_finite_vmps_mpi_impl_slave.h:60-88). -/
inductive Cell (T : Type) where
  | null
  | live (x : T)
  | freed

/-- `eff_ham` of a worker (`two_site_update_finite_vmps_mpi_impl_slave.h:47`): the pointers 0 and 3, and the site to whose tensors of the Hamiltonian the
pointers 1 and 2 point. -/
structure Heap (T : Type) where
  e0 : Cell T
  e3 : Cell T
  site : Option Nat

/-- Heads of the loops of a worker: main loop (`two_site_update_finite_vmps_mpi_impl_slave.h:50-51`), loop over the initial environments
(`vmps_mpi_init_slave.h:20-25`), loop over the products (`lanczos_solver_mpi_slave.h:52-55`). -/
inductive WHd (T : Type) where
  | main (hp : Heap T)
  | init (hp : Heap T)
  | lz (hp : Heap T)

/-- What a rank leaves behind: the memory of the master, the pointers of a worker. -/
inductive Fin' (T D : Type) where
  | master (d : D)
  | worker (hp : Heap T)

/-- The two versions of the main loop. -/
inductive Kind where
  | vmps
  | tdvp
deriving DecidableEq

abbrev Pg (T O D SL VL : Type) := Proc T O SL VL (WHd T) (Fin' T D)

/-- `delete`: deleting the null pointer does nothing, deleting twice is an error. -/
def Cell.del {T : Type} : Cell T → Option (Cell T)
  | .null => some .null
  | .live _ => some .freed
  | .freed => none

/-- Dereference. -/
def Cell.get {T : Type} : Cell T → Option T
  | .live x => some x
  | _ => none

/-- Is the old tensor gone when the pointer is overwritten? -/
def Cell.gone {T : Type} : Cell T → Bool
  | .live _ => false
  | _ => true

/-- Go on with a value or crash. -/
def need {A : Type} (x : Option A) (k : A → Pg T O D SL VL) : Pg T O D SL VL :=
  match x with
  | some a => k a
  | none => .crash

/-- Receive a tensor, a number, a real number in a broadcast. -/
def getTen (k : T → Pg T O D SL VL) : Pg T O D SL VL := .recv 0 0 fun v => match v with
  | .ten x => k x
  | _ => .crash
def getNum (k : Nat → Pg T O D SL VL) : Pg T O D SL VL := .recv 0 0 fun v => match v with
  | .num x => k x
  | _ => .crash
def getReal (k : O → Pg T O D SL VL) : Pg T O D SL VL := .recv 0 0 fun v => match v with
  | .real x => k x
  | _ => .crash
/-- `SlaveGetBroadcastOrder` (mps_algo_order.h:56-62). -/
def getOrder (k : Order → Pg T O D SL VL) : Pg T O D SL VL := .recv 0 0 fun v => match v with
  | .order x => k x
  | _ => .crash

namespace Eng
variable (E : Eng T O D L P U SL) (lact : Nat → SL → Act SL VL) (W : Nat)

/-- Access to a tensor of the Hamiltonian. -/
def mpoAt (i : Nat) : Option T := if i < E.N then some (E.mpo i) else none

/-- `slave_two_site_eff_ham_mul_state` (`lanczos_solver_mpi_slave.h:71-187`). -/
def wMul (r : Nat) (e0 e1 e2 e3 : T) (k : Pg T O D SL VL) : Pg T O D SL VL :=
  getTen fun st =>
    let F := mulFarm (E.sect0 e0) W []
    wrapF F (E.mulPart e0 e1 e2 e3 st) (E.ovPart e0 e1 e2 e3 st) (fun _ _ => k) (F.start0 r)

/-- `SlaveGrowLeftEnvironment` (`env_ten_update_slave.h:32-113`). -/
def wGrowL (r : Nat) (lenv mpo : T) (k : Pg T O D SL VL) : Pg T O D SL VL :=
  getTen fun x =>
    let F := growFarm (E.sect2 x) W [] 0
    wrapF F (E.growLPart lenv mpo x) (fun _ => 0) (fun _ _ => k) (F.start0 r)

/-- `SlaveGrowRightEnvironment` (`env_ten_update_slave.h:117-206`). -/
def wGrowR (r : Nat) (renv mpo : T) (k : Pg T O D SL VL) : Pg T O D SL VL :=
  getTen fun x => wBarrier <|
    let F := growFarm (E.sect0 x) W [] 0
    wrapF F (E.growRPart renv mpo x) (fun _ => 0) (fun _ _ => k) (F.start0 r)

/-- `SlaveTwoSiteFiniteVMPSRightMovingExpand` (`two_site_update_noised_finite_vmps_mpi_impl.h:602-706`). -/
def wExpR (r : Nat) (e0 e1 e2 : T) (k : Pg T O D SL VL) : Pg T O D SL VL :=
  getTen fun gs => getReal fun nz =>
    let F := growFarm (E.sect0 e0) W [] 0
    wrapF F (E.expRPart e0 e1 e2 gs nz) (fun _ => 0) (fun _ _ => k) (F.start0 r)

/-- `SlaveTwoSiteFiniteVMPSLeftMovingExpand` (`two_site_update_noised_finite_vmps_mpi_impl.h:829-935`). -/
def wExpL (r : Nat) (e1 e2 e3 : T) (k : Pg T O D SL VL) : Pg T O D SL VL :=
  getTen fun gs => getReal fun nz =>
    let F := growFarm (E.sect0 e3) W [] 0
    wrapF F (E.expLPart e1 e2 e3 gs nz) (fun _ => 0) (fun _ _ => k) (F.start0 r)

/-- The four tensors a worker's `eff_ham` points to, if all pointers are valid. -/
def eff (hp : Heap T) : Option (T × T × T × T) :=
  match hp.e0.get, hp.e3.get, hp.site with
  | some e0, some e3, some l =>
    match E.mpoAt l, E.mpoAt (l + 1) with
    | some e1, some e2 => some (e0, e1, e2, e3)
    | _, _ => none
  | _, _, _ => none

/-- The main loop of a worker: `SlaveTwoSiteFiniteVMPS` (`two_site_update_finite_vmps_mpi_impl_slave.h:37-96`) and
`SlaveTwoSiteFiniteTDVP` (`two_site_update_finite_tdvp_mpi_impl_slave.h:24-85`).  An order that is not understood is
printed and ignored by the code; here it ends the worker like a crash, so that a run without crash is one in which every order was understood. -/
def wMain (kind : Kind) (r : Nat) (hp : Heap T) : Order → Pg T O D SL VL
  | .programStart => .send 0 (2 * r + 1) (.num r) (.head (.main hp))
  | .initGrowEnv => if kind = .vmps then .head (.init hp) else .crash
  | .lanczos =>
    getNum fun l =>
      -- the pointers are overwritten with new default tensors, which the broadcasts then fill
      if hp.e0.gone && hp.e3.gone then
        getTen fun x0 => getTen fun x3 =>
          let hp' : Heap T := ⟨.live x0, .live x3, some l⟩
          need (E.eff hp') fun (e0, e1, e2, e3) => E.wMul W r e0 e1 e2 e3 (.head (.lz hp'))
      else .crash
  | .svd => wrapL lact r (fun _ => .head (.main hp)) E.svdWk
  | .expandRight =>
    if kind = .vmps then need (E.eff hp) fun (e0, e1, e2, _) => E.wExpR W r e0 e1 e2 (.head (.main hp)) else .crash
  | .expandLeft =>
    if kind = .vmps then need (E.eff hp) fun (_, e1, e2, e3) => E.wExpL W r e1 e2 e3 (.head (.main hp)) else .crash
  | .growLeft =>
    need hp.e3.del fun c3 => need hp.e0.get fun e0 => need hp.site fun l => need (E.mpoAt l) fun e1 =>
      E.wGrowL W r e0 e1 (need hp.e0.del fun c0 => .head (.main ⟨c0, c3, hp.site⟩))
  | .growRight =>
    need hp.e0.del fun c0 => need hp.e3.get fun e3 => need hp.site fun l => need (E.mpoAt (l + 1)) fun e2 =>
      E.wGrowR W r e3 e2 (need hp.e3.del fun c3 => .head (.main ⟨c0, c3, hp.site⟩))
  | .programFinal => .halt (.worker hp)
  | _ => .crash

/-- The code of a worker from the head of a loop on. -/
def wBody (kind : Kind) (r : Nat) : WHd T → Pg T O D SL VL
  | .main hp => getOrder fun o => E.wMain lact W kind r hp o
  -- vmps_mpi_init_slave.h:19-28, env_ten_update_slave.h:218-225
  | .init hp => getOrder fun o =>
      if o ≠ .initGrowEnvFinish then
        if o = .initGrowEnvGrow then getTen fun m => getTen fun renv => E.wGrowR W r renv m (.head (.init hp)) else .crash
      else .head (.main hp)
  -- lanczos_solver_mpi_slave.h:52-57
  | .lz hp => getOrder fun o =>
      if o = .matVecDynamic then need (E.eff hp) fun (e0, e1, e2, e3) => E.wMul W r e0 e1 e2 e3 (.head (.lz hp))
      else if o = .lanczosFinish then .head (.main hp) else .crash

/-- A worker at the beginning (`std::vector<TenT *> eff_ham(4)` holds null pointers). -/
def wStart : Pg T O D SL VL := .head (.main ⟨.null, .null, none⟩)

/-! ### Master -/

/-- `MasterBroadcastOrder` (`mps_algo_order.h:50-54`). -/
def order (o : Order) (k : Pg T O D SL VL) : Pg T O D SL VL := bcast W (.order o) k

/-- `master_two_site_eff_ham_mul_state` (`lanczos_solver_mpi_master.h:244-353`): `CollectiveLinearCombine` adds up `res_list`, which may have entries that were not
filled (`:311-313`).  The master computes no contribution itself, hence the zero functions. -/
def mMul (e0 st : T) (k : T → O → Pg T O D SL VL) : Pg T O D SL VL :=
  bcast W (.ten st) <|
    let n := E.sect0 e0
    let F := mulFarm n W (E.sortMul (E.deg0 e0) n W)
    wrapF F (fun _ => 0) (fun _ => 0)
      (fun g ov => k (g.map Prod.snd ++ List.replicate (if n > 2 * W then n - W - 1 else 0) 0).sum ov) (F.handAt 0)

/-- `MasterGrowLeftEnvironment` (`env_ten_update_master.h:41-110`); the workers have the environment. -/
def mGrowL (x : T) (k : T → Pg T O D SL VL) : Pg T O D SL VL :=
  bcast W (.ten x) <|
    let n := E.sect2 x
    let F := growFarm n W (E.sortGrow (E.deg2 x) n W) (2 * n)
    wrapF F (fun _ => 0) (fun _ => 0) (fun g _ => k (g.map Prod.snd).sum) (F.handAt 0)

/-- `MasterGrowRightEnvironment` (`env_ten_update_master.h:113-198`). -/
def mGrowR (x : T) (k : T → Pg T O D SL VL) : Pg T O D SL VL :=
  bcast W (.ten x) <| mBarrier W <|
    let n := E.sect0 x
    let F := growFarm n W (E.sortGrow (E.deg0 x) n W) (n + 10086)
    wrapF F (fun _ => 0) (fun _ => 0) (fun g _ => k (g.map Prod.snd).sum) (F.handAt 0)

/-- The distributed part of `MasterTwoSiteFiniteVMPSRightMovingExpand` (`two_site_update_noised_finite_vmps_mpi_impl.h:478-572`). -/
def mExpR (e0 gs : T) (nz : O) (k : T → Pg T O D SL VL) : Pg T O D SL VL :=
  bcast W (.ten gs) <| bcast W (.real nz) <|
    let n := E.sect0 e0
    let F := growFarm n W (E.sortGrow (E.deg0 e0) n W) (2 * n)
    wrapF F (fun _ => 0) (fun _ => 0) (fun g _ => k (g.map Prod.snd).sum) (F.handAt 0)

/-- The distributed part of `MasterTwoSiteFiniteVMPSLeftMovingExpand` (`two_site_update_noised_finite_vmps_mpi_impl.h:708-800`). -/
def mExpL (e3 gs : T) (nz : O) (k : T → Pg T O D SL VL) : Pg T O D SL VL :=
  bcast W (.ten gs) <| bcast W (.real nz) <|
    let n := E.sect0 e3
    let F := growFarm n W (E.sortGrow (E.deg0 e3) n W) (n + 10086)
    wrapF F (fun _ => 0) (fun _ => 0) (fun g _ => k (g.map Prod.snd).sum) (F.handAt 0)

/-- The loop of `MasterLanczosSolver` (`lanczos_solver_mpi_master.h:104-228`) and of `MasterLanczosExpmvSolver`
(`lanczos_expmv_solver_mpi.h:95-196`).  `left` is `max_iterations - m`; with `left = 0` the code writes beyond the end of `bases`. -/
def mLoop (e0 : T) (k : T → Pg T O D SL VL) : Nat → L → Pg T O D SL VL
  | 0, s => if E.lzZero s then order W .lanczosFinish (k (E.lzRes s)) else .crash
  | left + 1, s =>
    if E.lzZero s then order W .lanczosFinish (k (E.lzRes s))
    else order W .matVecDynamic <| E.mMul W e0 (E.lzVec s) fun x ov =>
      let s' := E.lzTake s x ov
      if E.lzStop s' || left = 0 then order W .lanczosFinish (k (E.lzRes s')) else mLoop e0 k left s'

/-- `MasterLanczosSolver` (`lanczos_solver_mpi_master.h:44-230`), `MasterLanczosExpmvSolver` (`lanczos_expmv_solver_mpi.h:30-197`). -/
def mLanczos (p : P) (e0 e3 st : T) (k : T → Pg T O D SL VL) : Pg T O D SL VL :=
  bcast W (.ten e0) <| bcast W (.ten e3) <|
    let s := E.lzStart p st
    E.mMul W e0 (E.lzVec s) fun x ov => E.mLoop W e0 k (E.maxIter p - 1) (E.lzTake s x ov)

/-- One update: direction (`true` is `'r'`), target site, parameters, noise of the noised algorithm. -/
structure Upd (P O : Type) where
  right : Bool
  site : Nat
  par : P
  noise : Option O

/-- `lsite_idx`, `renv_len` (`two_site_update_finite_vmps_mpi_impl_master.h:191-207`); `lenv_len` is `lsite_idx`. -/
def lsite (u : Upd P O) : Nat := if u.right then u.site else u.site - 1
def renvLen (u : Upd P O) : Nat := if u.right then E.N - (u.site + 2) else E.N - u.site - 1

/-- The end of an update: decomposition, new tensors, new environment
(`two_site_update_finite_vmps_mpi_impl_master.h:244-319`, `two_site_update_noised_finite_vmps_mpi_impl.h:391-455`,
`two_site_update_finite_tdvp_mpi_impl_master.h:296-366`). -/
def mSvd (u : Upd P O) (gs : T) (d : D) (k : D → Pg T O D SL VL) : Pg T O D SL VL :=
  order W .svd <| wrapL lact 0 (fun s =>
    let d := E.setSvd d u.right (lsite u) gs (E.svdRes s)
    if u.right then
      order W .growLeft <| E.mGrowL W (E.mps d u.site) fun x => k (E.putL d (lsite u + 1) x)
    else
      order W .growRight <| E.mGrowR W (E.mps d u.site) fun x => k (E.putR d (E.renvLen u + 1) x))
    (E.svdIn d (lsite u) gs)

/-- `MasterTwoSiteFiniteVMPSUpdate` (`two_site_update_finite_vmps_mpi_impl_master.h:170-338` and
`two_site_update_noised_finite_vmps_mpi_impl.h:259-473`), `MasterTwoSiteFiniteTDVPEvolution`
(`two_site_update_finite_tdvp_mpi_impl_master.h:239-380`). -/
def mUpdate (u : Upd P O) (d : D) (k : D → Pg T O D SL VL) : Pg T O D SL VL :=
  let l := lsite u
  let e0 := E.lenv d l
  let e3 := E.renv d (E.renvLen u)
  order W .lanczos <| bcast W (.num l) <| E.mLanczos W u.par e0 e3 (E.pair d l) fun gs =>
    match u.noise with
    | none => E.mSvd lact W u gs d k
    | some nz =>
      if E.needExp d u.right u.site nz then
        if u.right then
          order W .expandRight <| E.mExpR W e0 gs nz fun x => E.mSvd lact W u (E.expVec d u.right u.site gs x) (E.expMps d u.right u.site gs x) k
        else
          order W .expandLeft <| E.mExpL W e3 gs nz fun x => E.mSvd lact W u (E.expVec d u.right u.site gs x) (E.expMps d u.right u.site gs x) k
      else E.mSvd lact W u gs d k

/-- What the master does after the start: local work (reading and writing files, local evolution, measurements), an update, or the generation of one
right environment. -/
inductive Job (D P O : Type) where
  | loc (f : D → D)
  | upd (u : Upd P O)
  /-- `InitEnvsMaster` for this many environments (`vmps_mpi_init_master.h:133-183`) -/
  | envs (n : Nat)

/-- The loop of `InitEnvsMaster` (`vmps_mpi_init_master.h:155-167`) from environment `i` on, `n` of them;
`MasterGrowRightEnvironmentInit` (`env_ten_update_master.h:200-229`). -/
def mEnvs (k : D → Pg T O D SL VL) : Nat → Nat → D → Pg T O D SL VL
  | 0, _, d => order W .initGrowEnvFinish (k d)
  | n + 1, i, d =>
    let d := E.loadE d i
    order W .initGrowEnvGrow <| bcast W (.ten (E.mpo (E.N - i))) <| bcast W (.ten (E.envE d (i - 1))) <|
      E.mGrowR W (E.mps d (E.N - i)) fun x => mEnvs k n (i + 1) (E.putE d i x)

/-- The jobs one after another, then the end. -/
def mJobs : List (Job D P O) → D → Pg T O D SL VL
  | [], d => order W .programFinal (.halt (.master d))
  | .loc f :: js, d => mJobs js (f d)
  | .upd u :: js, d => E.mUpdate lact W u d fun d => mJobs js d
  | .envs n :: js, d => order W .initGrowEnv <| E.mEnvs W (fun d => mJobs js d) n 1 d

def isNum (d : Nat) : PV T O VL → Bool
  | .num n => n == d
  | _ => false

/-- The start of the programs: every worker answers with its rank (`two_site_update_finite_vmps_mpi_impl_master.h:104-115`). -/
def mStart (js : List (Job D P O)) (d : D) : Pg T O D SL VL :=
  order W .programStart <| recvEach (fun r => 2 * r + 1) isNum (E.mJobs lact W js d) W 1

/-! ### The jobs of the programs -/

/-- `a, a + 1, …` (`n` numbers) and `b, b - 1, …`. -/
def up (a n : Nat) : List Nat := (List.range n).map (a + ·)
def down (b n : Nat) : List Nat := (List.range n).map (b - ·)

/-- A sweep of the VMPS programs (`two_site_update_finite_vmps_mpi_impl_master.h:142-165`): `i = lb … rb - 2` to the right,
`i = rb … lb + 2` to the left, each between loading and dumping tensors. -/
def sweepJobs (load dump : Bool → Nat → D → D) (lb rb : Nat) (par : P) (noise : Option O) : List (Job D P O) :=
  (up lb (rb - 1 - lb)).flatMap (fun i => [.loc (load true i), .upd ⟨true, i, par, noise⟩, .loc (dump true i)]) ++
  (down rb (rb - 1 - lb)).flatMap (fun i => [.loc (load false i), .upd ⟨false, i, par, noise⟩, .loc (dump false i)])

/-- `MasterTwoSiteFiniteVMPS` and `MasterTwoSiteFiniteVMPSWithNoise` after the start: preparation, right environments if needed, sweeps with
the given noises (`none` for the version without noise), end (two_site_update_finite_vmps_mpi_impl_master.h:115-130, two_site_update_noised_finite_vmps_mpi_impl.h:104-138). -/
def vmpsJobs (pre mid post : D → D) (gen : Bool) (load dump : Bool → Nat → D → D) (N lb rb : Nat) (par : P) (noises : List (Option O)) : List (Job D P O) :=
  .loc pre :: (if gen then [.envs (N - (lb + 2))] else []) ++ [.loc mid] ++ noises.flatMap (sweepJobs load dump lb rb par) ++ [.loc post]

/-- A step of the TDVP program (`two_site_update_finite_tdvp_mpi_impl_master.h:196-235`): `back` is the local evolution backwards in time,
`last` the evolution of the last two sites; the first update to the left uses the doubled time step. -/
def tdvpSweep (load dump : Bool → Nat → D → D) (back : Nat → D → D) (last : D → D) (N : Nat) (par full : P) : List (Job D P O) :=
  (up 0 (N - 2)).flatMap (fun i => [.loc (load true i), .upd ⟨true, i, par, none⟩, .loc (back (i + 1)), .loc (dump true i)]) ++
  (down (N - 1) (N - 2)).flatMap (fun i =>
    [.loc (load false i), .upd ⟨false, i, if i = N - 1 then full else par, none⟩, .loc (back (i - 1)), .loc (dump false i)]) ++ [.loc last]

/-- `MasterTwoSiteFiniteTDVP` after the start (`two_site_update_finite_tdvp_mpi_impl_master.h:110-170`). -/
def tdvpJobs (pre : D → D) (measure : Nat → D → D) (load dump : Bool → Nat → D → D) (back : Nat → D → D) (last : D → D) (N : Nat) (par full : P) (steps : Nat) :
    List (Job D P O) :=
  .loc pre :: .loc (measure 0) :: (List.range steps).flatMap fun s => tdvpSweep load dump back last N par full ++ [.loc (measure (s + 1))]

end Eng
end
end Verif.Mpi
