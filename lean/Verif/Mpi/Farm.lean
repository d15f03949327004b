import Verif.Mpi.Core
import Mathlib.Algebra.BigOperators.Group.Finset.Basic
import Mathlib.Algebra.BigOperators.Group.List.Basic

/-!
# The master/worker loops of the distributed contractions

The library has several master/worker loops of the same form.  `Farm` collects what differs;
`Verif.Mpi.FarmUse` gives the values for each function.  Rank 0 is the master, ranks `1 … workers` are
the workers.  `f j` is the tensor a worker sends for the number `j`, `o j` its contribution to the overlap.
-/
namespace Verif.Mpi

/-- What distinguishes the loops. -/
structure Farm where
  /-- `mpi_size - 1` -/
  workers : Nat
  /-- the number of tasks -/
  tasks : Nat
  /-- does the worker of this rank take part, or does it return at once? -/
  joins : Nat → Bool
  /-- the number the worker of this rank starts with -/
  start : Nat → Nat
  /-- the master sends the first numbers itself (DMRG initialisation) -/
  handout : Bool
  /-- how many first numbers the master hands out -/
  handouts : Nat
  /-- how many results the master receives -/
  total : Nat
  /-- the number the master sends after the `i`-th result -/
  reply : Nat → Nat
  /-- does a worker go on after receiving this number? -/
  more : Nat → Bool
  /-- tag of the messages from the master to this rank -/
  tag : Nat → Nat
  /-- do the workers report the overlap at the end? -/
  closing : Bool
  /-- with how many workers the master then talks -/
  closers : Nat
  /-- the final signal and the tags of the final exchange -/
  signal : Nat
  sigTag : Nat → Nat
  ovTag : Nat → Nat

variable {R O : Type} [AddCommMonoid O]

/-- Payloads: a result tensor, a number, the final signal, an overlap. -/
inductive Pay (R O : Type) where
  | res (x : R)
  | job (j : Nat)
  | sig (k : Nat)
  | ov (x : O)

/-- Local states of a process. -/
inductive Pc (R O : Type) where
  /-- worker: about to execute `j` and to send the result -/
  | comp (j : Nat) (did : List Nat) (ov : O)
  /-- worker: about to receive the next number -/
  | wait (did : List Nat) (ov : O)
  /-- worker: about to receive the final signal -/
  | fin (did : List Nat) (ov : O)
  /-- worker: about to send the overlap -/
  | ans (did : List Nat) (ov : O)
  /-- worker: returned -/
  | over (did : List Nat) (ov : O)
  /-- a rank that does not take part -/
  | idle
  /-- master: about to send the first number to rank `i + 1` -/
  | hand (i : Nat)
  /-- master: about to receive the `i`-th result; `got` lists tags and tensors received so far -/
  | gather (i : Nat) (got : List (Nat × R))
  /-- master: about to answer rank `w` after the `i`-th result -/
  | reply (i : Nat) (got : List (Nat × R)) (w : Nat)
  /-- master: about to send the final signal to rank `i + 1` -/
  | close (i : Nat) (got : List (Nat × R)) (ov : O)
  /-- master: about to receive the overlap of rank `i + 1` -/
  | closing (i : Nat) (got : List (Nat × R)) (ov : O)
  /-- master: returned -/
  | done (got : List (Nat × R)) (ov : O)
  /-- a message of the wrong kind or with a wrong content arrived -/
  | bad

namespace Farm
variable (F : Farm) (f : Nat → R) (o : Nat → O)

/-- Head of the master's loop over the final exchange
(`lanczos_solver_mpi_master.h:336-343`). -/
def closeAt (i : Nat) (got : List (Nat × R)) (ov : O) : Pc R O :=
  if F.closing = true ∧ i < F.closers then .close i got ov else .done got ov

/-- Head of the master's loop over the results
(`lanczos_solver_mpi_master.h:306-333`, `env_ten_update_master.h:89-100`,
`lanczos_dmrg_solver_mpi_master.h:196-231`, `dmrg_mpi_impl_master.h:512-535`). -/
def gatherAt (i : Nat) (got : List (Nat × R)) : Pc R O :=
  if i < F.total then .gather i got else F.closeAt 0 got 0

/-- Head of the loop handing out the first numbers (`dmrg_mpi_impl_master.h:498-511`). -/
def handAt (i : Nat) : Pc R O :=
  if F.handout = true ∧ i < F.handouts then .hand i else F.gatherAt 0 []

/-- After a number was received a worker goes on or leaves its loop
(`lanczos_solver_mpi_slave.h:145-180`, `env_ten_update_slave.h:93-110`,
`dmrg_mpi_impl_slave.h:279-282`, `dmrg_mpi_impl_slave.h:172`). -/
def took (j : Nat) (did : List Nat) (ov : O) : Pc R O :=
  if F.more j then .comp j did ov else if F.closing then .fin did ov else .over did ov

/-- The executed tasks after the number `j`: a number that is no task (the greeting of the DMRG workers,
`dmrg_mpi_impl_slave.h:270-271`) is not counted. -/
def note (j : Nat) (did : List Nat) : List Nat := if j < F.tasks then did ++ [j] else did

/-- The overlap accumulated after the number `j`. -/
def addOv (j : Nat) (ov : O) : O := if j < F.tasks then ov + o j else ov

/-- The next MPI call of each rank. -/
def act (r : Nat) : Pc R O → Act (Pc R O) (Pay R O)
  -- lanczos_solver_mpi_slave.h:141-142, 172-173; env_ten_update_slave.h:88-89; dmrg_mpi_impl_slave.h:271, 369
  | .comp j did ov => .send 0 j (.res (f j)) (.wait (F.note j did) (F.addOv o j ov))
  | .wait did ov => .recv (some 0) (some (F.tag r)) fun _ _ v =>
      match v with
      | .job j => F.took j did ov
      | _ => .bad
  -- lanczos_solver_mpi_slave.h:184-186
  | .fin did ov => .recv (some 0) (some (F.sigTag r)) fun _ _ v =>
      match v with
      | .sig k => if k = F.signal then .ans did ov else .bad
      | _ => .bad
  | .ans did ov => .send 0 (F.ovTag r) (.ov ov) (.over did ov)
  -- dmrg_mpi_impl_master.h:500
  | .hand i => .send (i + 1) (F.tag (i + 1)) (.job (F.start (i + 1))) (F.handAt (i + 1))
  -- lanczos_solver_mpi_master.h:306-309, 320-323, 330-332
  | .gather i got => .recv none none fun q t v =>
      match v with
      | .res x => .reply i (got ++ [(t, x)]) q
      | _ => .bad
  | .reply i got w => .send w (F.tag w) (.job (F.reply i)) (F.gatherAt (i + 1) got)
  -- lanczos_solver_mpi_master.h:337-342
  | .close i got ov => .send (i + 1) (F.sigTag (i + 1)) (.sig F.signal) (.closing i got ov)
  | .closing i got ov => .recv (some (i + 1)) (some (F.ovTag (i + 1))) fun _ _ v =>
      match v with
      | .ov x => F.closeAt (i + 1) got (ov + x)
      | _ => .bad
  | .over _ _ => .stop
  | .idle => .stop
  | .done _ _ => .stop
  | .bad => .stop

/-- The state of a worker when the loop begins. -/
def start0 (r : Nat) : Pc R O :=
  if 1 ≤ r ∧ r ≤ F.workers ∧ F.joins r = true then
    (if F.handout then .wait [] 0 else .comp (F.start r) [] 0)
  else .idle

/-- All ranks when the loop begins, no message under way. -/
def init : St (Pc R O) (Pay R O) where
  proc r := if r = 0 then F.handAt 0 else F.start0 r
  chan _ _ := []
  blk _ := false

end Farm
end Verif.Mpi
