import Verif.Mps.TdvpMeasure
import Verif.Mps.TdvpNum
import Verif.Mps.Fmpo
/-
The whole of `TwoSiteFiniteTDVP` (two_site_update_finite_tdvp_impl.h:123-202): the copy of the initial state, the initial operator, the environments, the time steps and the
measurements, on the four directories of the parameters. The table is returned; the file that `DumpMeasuRes` writes of it is not modelled.
-/
namespace Verif.Mps
open Finset Verif.Disk Verif.Algo

section
variable {σ : Type} [Fintype σ] [DecidableEq σ]

/-- The directories `mps_path` and `temp_path` (`dsk`), `initial_mps_path` (`none`: it does not exist), `measure_temp_path`, and the caller's MPS object. -/
structure TdvpSys (σ : Type) where
  dsk : Dsk (Ten σ ℂ) (Env3 ℂ)
  init : Option (List (Ten σ ℂ))
  files : Nat → Option (Blk ℂ)
  m : FMps σ ℂ

/-- The parameters used outside the sweeps (tdvp_evolve_params.h:19-84); `inst = none` is a default-constructed insertion operator. -/
structure TdvpObs (σ : Type) where
  tau : Rat
  step : Nat
  site0 : Nat
  corr : Bool
  op0 : Op σ ℂ
  inst0 : Option (Op σ ℂ)
  op1 : Op σ ℂ
  inst1 : Option (Op σ ℂ)
  e0 : ℝ

/-- A directory of tensors as a list: its files up to the first that is missing or incomplete. -/
def complete {T : Type} (f : Nat → File T) : Nat → List T
  | 0 => []
  | n + 1 => match f n with
    | .whole t => if (complete f n).length = n then complete f n ++ [t] else complete f n
    | _ => complete f n

/-- The files of a directory after those of the list were written. -/
def rewrite {T : Type} (ts : List T) (f : Nat → File T) : Nat → File T := fun j => match ts[j]? with
  | some t => .whole t
  | none => f j

/-- Errors of the file programs; `badFile` and `noFile` are both exceptions thrown by `LoadTen`. -/
def toErr : Disk.Err → Err
  | .ub => .ub
  | .assertFail => .assertFail
  | .noFile => .noFile
  | .badFile => .noFile

/-- The body of the loop that copies the directory (two_site_update_finite_tdvp_impl.h:138-141). -/
def copyStep (ts : List (Ten σ ℂ)) (x : List (Ten σ ℂ) × FMps σ ℂ) (i : Nat) : Except Err (List (Ten σ ℂ) × FMps σ ℂ) := do
  let m1 ← loadTen ts x.2 i
  let t ← m1.read i
  let m2 ← m1.dealloc i
  pure (x.1 ++ [t], m2)

/-- The copy of the initial state, made only if its directory does not exist (two_site_update_finite_tdvp_impl.h:135-142). -/
def tdvpCopy (s : TdvpSys σ) : Except Err (TdvpSys σ) :=
  match s.init with
  | some _ => .ok s
  | none => do
    let x ← (List.range s.m.size).foldlM (copyStep (complete s.dsk.m s.m.size)) ([], s.m)
    pure { s with init := some x.1, m := x.2 }

/-- A file program without tensors in memory at its start: `InitEnvs`, which gets an empty MPS, and the sweep, which has its own (two_site_update_finite_tdvp_impl.h:158, 183, 213-216). -/
def tdvpFiles (N : Nat) (p : List (Disk.Op (Ten σ ℂ) (Env3 ℂ))) (s : TdvpSys σ) : Except Err (TdvpSys σ) :=
  match Disk.run N (N - 1) p ⟨Mem.blank 0, s.dsk⟩ with
  | .ok r => .ok { s with dsk := r.dsk }
  | .error e => .error (toErr e)

/-- `CalPsi1OpPsi2` on the directories (two_site_update_finite_tdvp_impl.h:172, 188). -/
def tdvpMeas (N : Nat) (o : TdvpObs σ) (s : TdvpSys σ) : Except Err (TdvpSys σ × List ℂ) := do
  let x ← calPsi1OpPsi2 (complete s.dsk.m N) (s.init.getD []) N o.op1 o.inst1 s.files
  pure ({ s with files := x.1.files }, x.2)

/-- The factor of the value at time `x` (two_site_update_finite_tdvp_impl.h:193-194). -/
noncomputable def tdvpPhase (e0 : ℝ) (x : Rat) (v : ℂ) : ℂ := v * Complex.exp (Complex.I * (e0 : ℂ) * (x : ℂ))

/-- `TwoSiteFiniteTDVP` (two_site_update_finite_tdvp_impl.h:123-202). -/
noncomputable def tdvpProgram (qr svd : Ten σ ℂ → Ten σ ℂ × Mat ℂ) (P : TdvpPar σ) (o : TdvpObs σ) (s : TdvpSys σ) : Except Err (TdvpSys σ × List (Option (Cell ℂ))) := do
  let N := s.m.size
  let s1 ← tdvpCopy s
  let x ← tdvpPrepare qr svd o.corr o.op0 o.inst0 o.site0 (complete s1.dsk.m N, s1.m)
  let s2 : TdvpSys σ := { s1 with dsk := { s1.dsk with m := rewrite x.1 s1.dsk.m }, m := x.2 }
  let s3 ← tdvpFiles N (initEnvs (tdvpAlg N P) N 1) s2
  tdvpRun o.corr N o.site0 o.step o.tau (tdvpFiles N (sweepT (tdvpAlg N P) (tdvpEvo P) N o.tau)) (tdvpMeas N o) (tdvpPhase o.e0) s3

/-! ### The master of the MPI version (two_site_update_finite_tdvp_mpi_impl_master.h) -/

/-- The 2-norm of a tensor, the value of `Normalize()`. -/
noncomputable def tenNorm (t : Ten σ ℂ) : ℝ := Real.sqrt (∑ a ∈ range t.l, ∑ b ∈ range t.r, ∑ s, ‖t.v s a b‖ ^ 2)

/-- The tensor after `Normalize()`. -/
noncomputable def unitTen (t : Ten σ ℂ) : Ten σ ℂ := scaleTen ((tenNorm t)⁻¹ : ℝ) t

/-- The preparation of the initial state (two_site_update_finite_tdvp_mpi_impl_master.h:115-123): as `tdvpPrepare`, always from `site_0`, and the first tensor is normalised before it is
dumped. The norm is the third result; a division by zero is undefined. -/
noncomputable def tdvpPrepareM (qr svd : Ten σ ℂ → Ten σ ℂ × Mat ℂ) (op : Op σ ℂ) (inst : Option (Op σ ℂ)) (site : Nat) (st : List (Ten σ ℂ) × FMps σ ℂ) :
    Except Err (List (Ten σ ℂ) × FMps σ ℂ × ℝ) :=
  open Classical in do
  let (d1, m1) ← actOperator op inst site st
  let m2 ← (match d1[site]? with
    | some t => m1.load site t
    | Option.none => .error .noFile)
  let (d2, m3) ← (List.range' 1 site).reverse.foldlM (canonStep qr svd) (d1, m2)
  let t ← m3.read 0
  if tenNorm t = 0 then .error .ub
  else do
    let m4 ← m3.dealloc 0
    pure (d2.set 0 (unitTen t), m4, tenNorm t)

/-- A measurement and the factor `mps_norm` (two_site_update_finite_tdvp_mpi_impl_master.h:138-145, 157-167). The code multiplies when it stores the values. -/
noncomputable def tdvpMeasM (N : Nat) (o : TdvpObs σ) (nrm : ℝ) (s : TdvpSys σ) : Except Err (TdvpSys σ × List ℂ) := do
  let x ← tdvpMeas N o s
  pure (x.1, x.2.map fun v => (nrm : ℂ) * v)

/-- `MasterTwoSiteFiniteTDVP` (two_site_update_finite_tdvp_mpi_impl_master.h:80-173) without the messages to the workers, which are the subject of C38. It does not look at
`local_op_corr`. The evolutions inside a sweep are those of the parallel solver (`P.mpi`), the single sites and the last bond those of the serial one. -/
noncomputable def tdvpMaster (qr svd : Ten σ ℂ → Ten σ ℂ × Mat ℂ) (P : TdvpPar σ) (o : TdvpObs σ) (s : TdvpSys σ) : Except Err (TdvpSys σ × List (Option (Cell ℂ))) := do
  let N := s.m.size
  let s1 ← tdvpCopy s
  let x ← tdvpPrepareM qr svd o.op0 o.inst0 o.site0 (complete s1.dsk.m N, s1.m)
  let s2 : TdvpSys σ := { s1 with dsk := { s1.dsk with m := rewrite x.1 s1.dsk.m }, m := x.2.1 }
  let s3 ← tdvpFiles N (initEnvs (tdvpAlg N P) N 1) s2
  tdvpRun true N o.site0 o.step o.tau (tdvpFiles N (sweepTM (tdvpAlg N P) (tdvpEvo P) N (tdvpEvo P.serial) o.tau)) (tdvpMeasM N o x.2.2) (tdvpPhase o.e0) s3

end
end Verif.Mps
