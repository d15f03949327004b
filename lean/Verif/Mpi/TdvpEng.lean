import Verif.Algo.ExpmvStep
import Verif.Mps.TdvpProg
import Verif.Mpi.VmpsEng
/-
The numbers of parallel two-site TDVP: an instance of `Eng` (Verif/Mpi/Orders.lean) with dense complex tensors in exact arithmetic, in the notation of Verif/Mps/TdvpNum.lean, and the
jobs of the master. The memory of the master is that of `tdvpMaster` (Verif/Mps/TdvpProg.lean) with the tensors of the current sweep, or the error that stopped it.
-/
namespace Verif.Mpi
open Finset Verif.Mps Verif.Algo Verif.Disk

/-! ### Sectors -/

/-- Does the entry `a` of a leg with sectors of the degeneracies `ds` belong to sector `j`? The functions that stand for tensors are also defined beyond the legs, without a meaning; these
entries are counted to the last sector. -/
def inSecT (ds : List Nat) (j a : Nat) : Bool := (ds.take j).sum ≤ a && (a < (ds.take (j + 1)).sum || j + 1 == ds.length)

section
variable {σ : Type} [Fintype σ] [DecidableEq σ]

/-- The environment with its first leg restricted to sector `j` (`TensorContraction1SectorExecutor`), the tensor with its last or first leg restricted to sector `j`. -/
def selET {𝕜 : Type} [RCLike 𝕜] (ds : List Nat) (j : Nat) (e : Env3 𝕜) : Env3 𝕜 := ⟨e.d0, e.d1, e.d2, fun a c b => if inSecT ds j a then e.v a c b else 0⟩
def selRT {𝕜 : Type} [RCLike 𝕜] (ds : List Nat) (j : Nat) (t : Ten σ 𝕜) : Ten σ 𝕜 := ⟨t.l, t.r, fun s a b => if inSecT ds j b then t.v s a b else 0⟩
def selLT {𝕜 : Type} [RCLike 𝕜] (ds : List Nat) (j : Nat) (t : Ten σ 𝕜) : Ten σ 𝕜 := ⟨t.l, t.r, fun s a b => if inSecT ds j a then t.v s a b else 0⟩

/-- The three contractions of `SlaveGrowRightEnvironment` (env_ten_update_slave.h:160-173): the conjugated tensor is restricted to the sector of the task. As in `siteRenv`, the dimension of
the contracted legs is read off the environment. -/
def partRT (w : Ten (σ × σ) ℂ) (e : Env3 ℂ) (bra ket : Ten σ ℂ) : Env3 ℂ :=
  ⟨bra.l, w.l, ket.l, fun a c b => ∑ s, ∑ s', ∑ a' ∈ range e.d0, ∑ c' ∈ range e.d1, ∑ b' ∈ range e.d2,
    star (bra.v s a a') * w.v (s, s') c c' * ket.v s' b b' * e.v a' c' b'⟩

/-- The decomposition of one process. -/
def splitT (P : TdvpPar σ) : Dir → Blk2 σ ℂ → Ten σ ℂ × Ten σ ℂ
  | .r => P.splitR
  | .l => P.splitL

/-- **Specification**: what is assumed of the libraries. The sectors of a leg, at least one, make up the leg; the sorting functions sort; the parallel decomposition ends, with the result of
the serial one at the master. -/
structure MpiLib.OKT {SL VL : Type} (L : MpiLib σ ℂ SL) (P : TdvpPar σ) (lact : Nat → SL → Act SL VL) (W : Nat) : Prop where
  some : ∀ k x, L.sec k x ≠ []
  env : ∀ e, (L.sec 0 (.val (.env e))).sum = e.d0
  left : ∀ t, (L.sec 0 (.val (.site t))).sum = t.l
  right : ∀ t, (L.sec 2 (.val (.site t))).sum = t.r
  sortMul : ∀ deg n, MulOrder deg n W (L.sortMul deg n W)
  sortGrow : ∀ deg n, GrowOrder deg n W (L.sortGrow deg n W)
  svd : ∀ T, LibOk lact W (L.svd.inp T) L.svd.wk fun s => ∀ dir, L.svd.out dir s = splitT P dir T

/-! ### The solver at the master -/

/-- The run: before the first product, later, or with undefined tensors. -/
inductive ExSt (V : Type) where
  | start (v : V)
  | run (s : ExM V)
  | broken

/-- The run together with the legs of the state and the time step. -/
structure ExX (σ : Type) [Fintype σ] where
  l : Nat
  r : Nat
  δ : ℝ
  st : ExSt (TwoV σ ℂ l r)

/-- The state to be multiplied next. -/
noncomputable def ExX.vec (s : ExX σ) : TX σ ℂ :=
  match s.st with
  | .start v => .val (.two (ofV v))
  | .run m => .val (.two (ofV (m.bs m.m)))
  | .broken => .bad

/-- `Normalize` of the initial state (lanczos_expmv_solver_mpi.h:67-68); the parameter is the length of the step. -/
noncomputable def exStartX (dt : Rat) : TX σ ℂ → ExX σ
  | .val (.two B) => ⟨B.l, B.r, dt, .start (normalize ℂ (toV B))⟩
  | _ => ⟨0, 0, dt, .broken⟩

/-- What the master does with a product and its overlap (lanczos_expmv_solver_mpi.h:84-200). -/
noncomputable def ExX.take (P : TdvpPar σ) (s : ExX σ) (x : TX σ ℂ) (ov : ℝ) : ExX σ :=
  match x with
  | .val (.two B) =>
    if B.l = s.l ∧ B.r = s.r then
      ⟨s.l, s.r, s.δ, match s.st with
        | .start v => .run (exBegin P.eig s.δ (s.l * (Fintype.card σ * Fintype.card σ) * s.r) v (vecOf s.l s.r B) ov)
        | .run m => .run (exNext P.eig s.δ P.maxIter P.err m (vecOf s.l s.r B) ov)
        | .broken => .broken⟩
    else ⟨s.l, s.r, s.δ, .broken⟩
  | _ => ⟨s.l, s.r, s.δ, .broken⟩

/-- Is there a result? In the code there are two places with the same end: a zero vector (lanczos_expmv_solver_mpi.h:117-148), convergence or the last iteration (lanczos_expmv_solver_mpi.h:173-198). -/
def ExX.over (s : ExX σ) : Bool :=
  match s.st with
  | .run m => m.res.isSome
  | _ => false

/-- The result. If there is none, nothing is said about the entries. -/
noncomputable def ExX.result (s : ExX σ) : TX σ ℂ :=
  match s.st with
  | .run m => match m.res with
    | some g => .val (.gs (ofV g.vec) none)
    | none => .val (.gs (ofV (0 : TwoV σ ℂ s.l s.r)) none)
  | _ => .val (.gs (ofV (0 : TwoV σ ℂ s.l s.r)) none)

/-! ### Memory of the master -/

/-- Directories and MPS of the caller, the tensors of the current sweep, `mps_norm`, `measure_res`. -/
structure TdvpD (σ : Type) where
  sys : TdvpSys σ
  mem : Mem (Ten σ ℂ) (Env3 ℂ)
  nrm : ℝ
  res : List (Option (Mps.Cell ℂ))

/-- After a sweep program with this result. -/
def TdvpD.after (x : TdvpD σ) (s : Sys (Ten σ ℂ) (Env3 ℂ)) : TdvpD σ := { x with sys := { x.sys with dsk := s.dsk }, mem := s.mem }

/-- The memory, or the error that stopped the master. -/
abbrev MT (σ : Type) := Except Mps.Err (TdvpD σ)

/-- A slot of the MPS as a tensor. -/
def slotT : Option (Ten σ ℂ) → TX σ ℂ
  | some t => .val (.site t)
  | none => .bad

/-- Look at the tensors in memory. -/
def MT.see (d : MT σ) (f : Mem (Ten σ ℂ) (Env3 ℂ) → TX σ ℂ) : TX σ ℂ :=
  match d with
  | .ok x => f x.mem
  | .error _ => .bad

/-- Change them. -/
def MT.upd (d : MT σ) (f : Mem (Ten σ ℂ) (Env3 ℂ) → Mem (Ten σ ℂ) (Env3 ℂ)) : MT σ :=
  match d with
  | .ok x => .ok { x with mem := f x.mem }
  | .error e => .error e

/-- Operations on memory and files. -/
def MT.run (N : Nat) (ops : List (Disk.Op (Ten σ ℂ) (Env3 ℂ))) (d : MT σ) : MT σ :=
  match d with
  | .ok x => match Verif.Disk.run N (N - 1) ops ⟨x.mem, x.sys.dsk⟩ with
    | .ok s => .ok (x.after s)
    | .error e => .error (toErr e)
  | .error e => .error e

/-- The numerical work of master and workers on a chain of `N` sites; the parameter of an update is the length of its time step. -/
noncomputable def tdvpEng {SL : Type} (N : Nat) (P : TdvpPar σ) (L : MpiLib σ ℂ SL) :
    Eng (TX σ ℂ) ℝ (MT σ) (ExX σ) Rat (Dir → Ten σ ℂ × Ten σ ℂ) SL where
  N := N
  mpo i := .val (.op (P.w i))
  sect0 x := (L.sec 0 x).length
  sect2 x := (L.sec 2 x).length
  deg0 x t := (L.sec 0 x).getD t 0
  deg2 x t := (L.sec 2 x).getD t 0
  -- lanczos_solver_mpi_slave.h:111-133, 146-164: the left environment restricted to the task, the other contractions in full
  mulPart e0 e1 e2 e3 st j :=
    match e0, e1, e2, e3, st with
    | .val (.env e), .val (.op w1), .val (.op w2), .val (.env f), .val (.two B) =>
      .val (.two (ofV (effHam (selET (L.sec 0 e0) j e) f w1 w2 B.l B.r (toV B))))
    | _, _, _, _, _ => .bad
  -- lanczos_solver_mpi_slave.h:128-133
  ovPart e0 e1 e2 e3 st j :=
    match e0, e1, e2, e3, st with
    | .val (.env e), .val (.op w1), .val (.op w2), .val (.env f), .val (.two B) =>
      RCLike.re (inner ℂ (toV B) (effHam (selET (L.sec 0 e0) j e) f w1 w2 B.l B.r (toV B)))
    | _, _, _, _, _ => 0
  growLPart e m x j :=
    match e, m, x with
    | .val (.env e), .val (.op w), .val (.site t) => .val (.env (partL w e t (selRT (L.sec 2 x) j t)))
    | _, _, _ => .bad
  growRPart e m x j :=
    match e, m, x with
    | .val (.env e), .val (.op w), .val (.site t) => .val (.env (partRT w e (selLT (L.sec 0 x) j t) t))
    | _, _, _ => .bad
  expRPart _ _ _ _ _ _ := .default
  expLPart _ _ _ _ _ _ := .default
  lenv d k := d.see fun m => slotE (m.l k)
  renv d k := d.see fun m => slotE (m.r k)
  mps d i := d.see fun m => slotT (m.m i)
  -- two_site_update_finite_tdvp_mpi_impl_master.h:346, 354: `lenvs(lenv_len + 1) = …`, `renvs(renv_len + 1) = …`
  putL d k x := d.upd fun m => { m with l := Function.update m.l k (some (toEnv x)) }
  putR d k x := d.upd fun m => { m with r := Function.update m.r k (some (toEnv x)) }
  -- not used by TDVP
  loadE d _ := d
  envE _ _ := .bad
  putE d _ _ := d
  -- two_site_update_finite_tdvp_mpi_impl_master.h:283-284
  pair d l := d.see fun m =>
    match m.m l, m.m (l + 1) with
    | some t, some u => .val (.two (mergeTen t u))
    | _, _ => .bad
  lzStart := exStartX
  lzVec := ExX.vec
  lzTake := ExX.take P
  lzZero := ExX.over
  lzStop := ExX.over
  lzRes := ExX.result
  maxIter _ := P.maxIter
  needExp _ _ _ _ := false
  expVec _ _ _ gs _ := gs
  expMps d _ _ _ _ := d
  svdIn _ _ gs := L.svd.inp (gsB gs)
  svdWk := L.svd.wk
  svdRes s dir := L.svd.out dir s
  -- two_site_update_finite_tdvp_mpi_impl_master.h:325-336
  setSvd d right l _ u := d.upd fun m => { m with
    m := Function.update (Function.update m.m l (some (u (dirOf right)).1)) (l + 1) (some (u (dirOf right)).2) }
  sortMul := L.sortMul
  sortGrow := L.sortGrow

/-- The same as a whole: the sums of the contributions of all sectors. -/
noncomputable def tdvpFull {SL : Type} (N : Nat) (P : TdvpPar σ) (L : MpiLib σ ℂ SL) : Full (TX σ ℂ) ℝ (MT σ) (Dir → Ten σ ℂ × Ten σ ℂ) where
  mul e0 e1 e2 e3 st := ∑ t ∈ range (L.sec 0 e0).length, (tdvpEng N P L).mulPart e0 e1 e2 e3 st t
  ov e0 e1 e2 e3 st := ∑ t ∈ range (L.sec 0 e0).length, (tdvpEng N P L).ovPart e0 e1 e2 e3 st t
  growL e m x := ∑ t ∈ range (L.sec 2 x).length, (tdvpEng N P L).growLPart e m x t
  growR e m x := ∑ t ∈ range (L.sec 0 x).length, (tdvpEng N P L).growRPart e m x t
  expR _ _ _ _ _ := .default
  expL _ _ _ _ _ := .default
  svd _ _ gs := fun dir => splitT P dir (gsB gs)

/-! ### The master's program -/

/-- Local work on memory and files as a job. -/
def opsJobT (N : Nat) (ops : List (Disk.Op (Ten σ ℂ) (Env3 ℂ))) : Eng.Job (MT σ) Rat ℝ := .loc (MT.run N ops)

/-- Other local work; after an error nothing more happens. -/
def locJT (f : TdvpD σ → Except Mps.Err (TdvpD σ)) : Eng.Job (MT σ) Rat ℝ := .loc fun d => Except.bind d f

/-- The body of the first loop of `TwoSiteFiniteTDVPSweep` (two_site_update_finite_tdvp_mpi_impl_master.h:196-201): the pair by `tau / 2` with the workers, the site backwards by the master alone. -/
noncomputable def jobsRT (N : Nat) (P : TdvpPar σ) (tau : Rat) (i : Nat) : List (Eng.Job (MT σ) Rat ℝ) :=
  [opsJobT N (loadR2 N 0 i), .upd ⟨true, i, tau / 2, none⟩, opsJobT N (.calc (tdvp1 (tdvpEvo P) N (N - 1) tau (i + 1)) :: dumpR2 N i)]

/-- The body of the second loop (two_site_update_finite_tdvp_mpi_impl_master.h:203-212); at the right end the whole step. -/
noncomputable def jobsLT (N : Nat) (P : TdvpPar σ) (tau : Rat) (i : Nat) : List (Eng.Job (MT σ) Rat ℝ) :=
  [opsJobT N (loadL2 N (N - 1) i), .upd ⟨false, i, (if i = N - 1 then tau * 2 else tau) / 2, none⟩, opsJobT N (.calc (tdvp1 (tdvpEvo P) N (N - 1) tau (i - 1)) :: dumpL2 N i)]

/-- `TwoSiteFiniteTDVPSweep` of the master (two_site_update_finite_tdvp_mpi_impl_master.h:175-237): MPS and environments are local variables, empty at first; the last evolution is that of the
serial program. -/
noncomputable def sweepJT (N : Nat) (P : TdvpPar σ) (tau : Rat) : List (Eng.Job (MT σ) Rat ℝ) :=
  .loc (fun d => d.upd fun _ => Mem.blank 0) :: opsJobT N [.calc freshAll, .ldM 1] :: ((List.range (N - 2)).flatMap (jobsRT N P tau) ++
    ((List.range' 2 (N - 2)).reverse.flatMap (jobsLT N P tau) ++ [opsJobT N (lastT (tdvpAlg N P) (tdvpEvo P.serial) N tau)]))

/-- Before the first measurement (two_site_update_finite_tdvp_mpi_impl_master.h:107-136): the copy of the initial state, the initial operator, normalisation, the environments (by the master
alone), an empty table. -/
noncomputable def preT (qr svd : Ten σ ℂ → Ten σ ℂ × Mat ℂ) (P : TdvpPar σ) (o : TdvpObs σ) (x : TdvpD σ) : Except Mps.Err (TdvpD σ) := do
  let N := x.sys.m.size
  let s1 ← tdvpCopy x.sys
  let y ← tdvpPrepareM qr svd o.op0 o.inst0 o.site0 (complete s1.dsk.m N, s1.m)
  let s2 : TdvpSys σ := { s1 with dsk := { s1.dsk with m := rewrite y.1 s1.dsk.m }, m := y.2.1 }
  let s3 ← tdvpFiles N (initEnvs (tdvpAlg N P) N 1) s2
  pure { x with sys := s3, nrm := y.2.2, res := List.replicate (N * (o.step + 1)) Option.none }

/-- The measurement before the first step (two_site_update_finite_tdvp_mpi_impl_master.h:138-146). -/
noncomputable def meas0T (N : Nat) (o : TdvpObs σ) (x : TdvpD σ) : Except Mps.Err (TdvpD σ) := do
  let y ← tdvpMeasM N o x.nrm x.sys
  let res ← writeCells N o.site0 0 0 y.2 x.res
  pure { x with sys := y.1, res := res }

/-- The measurement after step `k` (two_site_update_finite_tdvp_mpi_impl_master.h:155-167). -/
noncomputable def measT (N : Nat) (o : TdvpObs σ) (k : Nat) (x : TdvpD σ) : Except Mps.Err (TdvpD σ) := do
  let y ← tdvpMeasM N o x.nrm x.sys
  let res ← writeCells N o.site0 ((k + 1) * o.tau) ((k + 1) * N) (y.2.map (tdvpPhase o.e0 ((k + 1) * o.tau))) x.res
  pure { x with sys := y.1, res := res }

/-- `MasterTwoSiteFiniteTDVP` after the start (two_site_update_finite_tdvp_mpi_impl_master.h:104-172). -/
noncomputable def masterJT (qr svd : Ten σ ℂ → Ten σ ℂ × Mat ℂ) (N : Nat) (P : TdvpPar σ) (o : TdvpObs σ) : List (Eng.Job (MT σ) Rat ℝ) :=
  locJT (preT qr svd P o) :: locJT (meas0T N o) :: (List.range o.step).flatMap fun k => sweepJT N P o.tau ++ [locJT (measT N o k)]

end
end Verif.Mpi
