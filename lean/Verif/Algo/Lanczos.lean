import Mathlib.Data.Multiset.AddSub
/-
The control flow, array accesses and memory of the Lanczos solvers
(algorithm/vmps/lanczos_vmps_solver_impl.h, algorithm/dmrg/lanczos_dmrg_solver_impl.h,
algo_mpi/vmps/lanczos_solver_mpi_master.h, algo_mpi/dmrg/lanczos_dmrg_solver_mpi_master.h,
algorithm/tdvp/lanczos_expmv_solver_impl.h, algo_mpi/tdvp/lanczos_expmv_solver_mpi.h).

The numbers are not modelled: whether a residual vanishes and whether the convergence test succeeds are arbitrary.
-/
namespace Verif.Algo

/-- Undefined behaviour; `noEnd` if the loop does not end within the given number of rounds. -/
inductive LErr
  /-- an index that is not below the size of the vector -/
  | oob
  /-- an element that was not computed before -/
  | unset
  /-- a pointer to no live object -/
  | dead
  | noEnd
  deriving DecidableEq, Repr

/-- The heap (live objects and the next address), the vectors `bases`, `a`, `b`, `N`, and the pointer
`last_mat_mul_vec_res`; `prods` counts the matrix-vector products. -/
structure LSt where
  live : Multiset Nat
  next : Nat
  bases : Nat → Option Nat
  last : Nat
  wa : Nat → Bool
  wb : Nat → Bool
  wn : Nat → Bool
  prods : Nat

namespace LSt

/-- `new`. -/
def new (s : LSt) : Nat × LSt := (s.next, { s with live := s.next ::ₘ s.live, next := s.next + 1 })

/-- `delete`; deleting a null pointer does nothing. -/
def del (p : Option Nat) (s : LSt) : Except LErr LSt :=
  match p with
  | none => .ok s
  | some q => if q ∈ s.live then .ok { s with live := s.live.erase q } else .error .dead

/-- Following a pointer. -/
def use (p : Option Nat) (s : LSt) : Except LErr Unit :=
  match p with
  | none => .error .dead
  | some q => if q ∈ s.live then .ok () else .error .dead

/-- `*bases[i]`. -/
def useB (K i : Nat) (s : LSt) : Except LErr Unit := if i < K then s.use (s.bases i) else .error .oob

/-- Reading an element of `a`, `b` or `N`. -/
def rd (K : Nat) (w : Nat → Bool) (i : Nat) : Except LErr Unit :=
  if i < K then if w i then .ok () else .error .unset else .error .oob

/-- All of a list of checks. -/
def all (f : Nat → Except LErr Unit) : List Nat → Except LErr Unit
  | [] => .ok ()
  | i :: is => do f i; all f is

/-- Deleting several pointers. -/
def delAll : List (Option Nat) → LSt → Except LErr LSt
  | [], s => .ok s
  | p :: ps, s => do
    let s ← s.del p
    delAll ps s

end LSt

open LSt

/-- The solvers differ in the array that holds the residual norms (`N` or only `b`), in the form of `LanczosFree` at
the two exits after the first round (all of `bases`, or only the used ones), and in the reported number of
iterations at the last exit. -/
structure LVariant where
  useN : Bool
  allZero : Bool
  allEnd : Bool
  plusOne : Bool

/-- `LanczosSolver` of the serial algorithms and of the MPI DMRG master (lanczos_vmps_solver_impl.h:114-248,
lanczos_dmrg_solver_impl.h:61-196, lanczos_dmrg_solver_mpi_master.h:42-162). -/
def lvSerial : LVariant := ⟨true, false, false, true⟩
/-- `MasterLanczosSolver` (lanczos_solver_mpi_master.h:48-236). -/
def lvMpi : LVariant := ⟨false, true, true, false⟩

/-- The memory of `TridiagGsSolver(a, b, n, …, jobz)` and `TridiagExpme1Solver`: `n` elements of `a` and `n-1` of `b`
are read; three work arrays are allocated and freed; for `'V'` the eigenvector is allocated
(lanczos_vmps_solver_impl.h:307-355, lanczos_expmv_solver_impl.h:187-232). -/
def tridiag (K n : Nat) (vec : Bool) (s : LSt) : Except LErr (Option Nat × LSt) := do
  let (d, s) := s.new
  all (rd K s.wa) (List.range n)
  let (e, s) := s.new
  all (rd K s.wb) (List.range (n - 1))
  let (z, s) := s.new
  let (v, s) := if vec then let r := s.new; (some r.1, r.2) else (none, s)
  let s ← s.del (some d)
  let s ← s.del (some e)
  let s ← s.del (some z)
  .ok (v, s)

/-- `LanczosFree` (lanczos_vmps_solver_impl.h:64-95) with `k` the number of basis vectors to free. -/
def lanczosFree (K k : Nat) (v : Option Nat) (s : LSt) : Except LErr LSt := do
  let s ← s.del v
  if k ≤ K then
    let s ← delAll ((List.range k).map s.bases) s
    s.del (some s.last)
  else .error .oob

/-- What a call of a solver leaves: the reported `iters`, the resulting tensor and the final state. -/
structure LRes where
  iters : Nat
  vec : Nat
  fin : LSt

/-- `LinearCombine({…}, {bases[m-1], bases[m-2]}, 1.0, gamma)` in round `m` (lanczos_vmps_solver_impl.h:173-182). -/
def residual (v : LVariant) (K m : Nat) (s : LSt) : Except LErr Unit := do
  rd K s.wa (m - 1)
  s.useB K (m - 1)
  if m ≠ 1 then
    if v.useN then rd K s.wn (m - 1) else rd K s.wb (m - 2)
    s.useB K (m - 2)
  s.use (some s.last)

/-- Storing the norm and the new basis vector, and multiplying it with the Hamiltonian
(lanczos_vmps_solver_impl.h:205-227). -/
def extend (v : LVariant) (K m : Nat) (s : LSt) : Except LErr LSt := do
  if v.useN && !decide (m < K) then .error .oob
  if !decide (m - 1 < K) then .error .oob
  if !decide (m < K) then .error .oob
  let s := { s with wn := Function.update s.wn m true }
  let s := { s with wb := Function.update s.wb (m - 1) true }
  let s := { s with bases := Function.update s.bases m (some s.last) }
  s.useB K m
  let (p, s) := s.new
  .ok { s with last := p, wa := Function.update s.wa m true, prods := s.prods + 1 }

/-- `new TenT(bases[0]->GetIndexes())` and `LinearCombine(k, …, bases, 0.0, gs_vec)`, then `LanczosFree`
(lanczos_vmps_solver_impl.h:194-201, 235-243). -/
def finish (K k : Nat) (iters : Nat) (freeAll : Bool) (vec : Option Nat) (s : LSt) : Except LErr LRes := do
  s.useB K 0
  let (g, s) := s.new
  s.use vec
  all (s.useB K) (List.range k)
  let s ← lanczosFree K (if freeAll then K else k) vec s
  .ok ⟨iters, g, s⟩

/-- The loop of the solvers for the lowest state, from the end of round `m`. `zero m`: the residual of round `m`
vanishes; `conv m`: the energy changed by less than the tolerance; `dim` is `eff_ham_eff_dim`. The subtraction in
`m == params.max_iterations - 1` cannot wrap, since `bases[0]` exists (lanczos_vmps_solver_impl.h:167-247). -/
def lanczosLoop (v : LVariant) (K dim : Nat) (zero conv : Nat → Bool) : Nat → Nat → LSt → Except LErr LRes
  | 0, _, _ => .error .noEnd
  | fuel + 1, m, s => do
    let m := m + 1
    residual v K m s
    if zero m then
      if m = 1 then
        s.useB K 0
        let (g, s) := s.new
        let s ← lanczosFree K K none s
        .ok ⟨m, g, s⟩
      else
        let (w, s) ← tridiag K m true s
        finish K m m v.allZero w s
    else
      let s ← extend v K m s
      let (_, s) ← tridiag K (m + 1) false s
      if conv m || m == dim || m == K - 1 then
        let (w, s) ← tridiag K (m + 1) true s
        finish K (m + 1) (if v.plusOne then m + 1 else m) v.allEnd w s
      else lanczosLoop v K dim zero conv fuel m s

/-- The part before the loop: `p` is `pinit_state`, `K` is `max_iterations` (lanczos_vmps_solver_impl.h:120-165). -/
def lanczosInit (K p : Nat) (live : Multiset Nat) (next : Nat) : Except LErr LSt := do
  let s : LSt := ⟨live, next, fun _ => none, 0, fun _ => false, fun _ => false, fun _ => false, 0⟩
  if K = 0 then .error .oob
  let s := { s with bases := Function.update s.bases 0 (some p) }
  s.useB K 0
  let (q, s) := s.new
  .ok { s with last := q, wa := Function.update s.wa 0 true, wn := Function.update s.wn 0 true, prods := 1 }

/-- A call of a solver for the lowest state; `fuel` bounds the rounds. -/
def lanczos (v : LVariant) (K dim : Nat) (zero conv : Nat → Bool) (fuel p : Nat) (live : Multiset Nat) (next : Nat) :
    Except LErr LRes := do
  let s ← lanczosInit K p live next
  lanczosLoop v K dim zero conv fuel 0 s

/-- The loop of `LanczosExpmvSolver`; `comb` and `lastc` are the two coefficient arrays, which are swapped
(lanczos_expmv_solver_impl.h:107-178, lanczos_expmv_solver_mpi.h:90-195). -/
def expmvLoop (K dim : Nat) (zero conv : Nat → Bool) : Nat → Nat → Nat → Nat → LSt → Except LErr LRes
  | 0, _, _, _, _ => .error .noEnd
  | fuel + 1, m, comb, lastc, s => do
    let m := m + 1
    residual lvMpi K m s
    if zero m then
      if m = 1 then
        let (g, s) := s.new
        rd K s.wa 0
        s.useB K 0
        let s ← lanczosFree K K (some comb) s
        let s ← s.del (some lastc)
        .ok ⟨m, g, s⟩
      else
        let (_, s) ← tridiag K m false s
        s.use (some comb)
        let r ← finish K m m true (some comb) s
        let s ← r.fin.del (some lastc)
        .ok ⟨r.iters, r.vec, s⟩
    else
      let s ← extend lvMpi K m s
      let (_, s) ← tridiag K (m + 1) false s
      s.use (some comb)
      s.use (some lastc)
      if conv m || m == dim || m == K - 1 then
        let r ← finish K (m + 1) (m + 1) true (some comb) s
        let s ← r.fin.del (some lastc)
        .ok ⟨r.iters, r.vec, s⟩
      else expmvLoop K dim zero conv fuel m lastc comb s

/-- A call of `LanczosExpmvSolver` (lanczos_expmv_solver_impl.h:69-180). -/
def expmv (K dim : Nat) (zero conv : Nat → Bool) (fuel p : Nat) (live : Multiset Nat) (next : Nat) : Except LErr LRes := do
  let s ← lanczosInit K p live next
  let (comb, s) := s.new
  let (lastc, s) := s.new
  expmvLoop K dim zero conv fuel 0 comb lastc s

end Verif.Algo
