import Mathlib.Data.Rat.Defs
import Mathlib.Algebra.Field.Rat
import Verif.Disk.TwoSite
/-
The two-site TDVP sweep on disk (algorithm/tdvp/two_site_update_finite_tdvp_impl.h). The master of the MPI version
(algo_mpi/tdvp/two_site_update_finite_tdvp_mpi_impl_master.h) makes the same sequence of loads, evolutions and dumps, but the last evolution is
that of the serial version.
-/
namespace Verif.Disk

variable {T E : Type}

/-- The numerical work of TDVP, arbitrary: `ev2 d dt i e f t u` evolves the pair `(t, u)` of the sites `(i, i+1)` by the time
`dt` in the environments `e`, `f` and splits it with the centre moved in direction `d`
(two_site_update_finite_tdvp_impl.h:314-368); `ev1 dt i e f t` evolves the tensor `t` of site `i` (two_site_update_finite_tdvp_impl.h:433-452). -/
structure Evo (T E : Type) where
  ev2 : Dir → Rat → Nat → E → E → T → T → T × T
  ev1 : Rat → Nat → E → E → T → T

/-- A pair evolution changes only the leg between the two sites. -/
structure Evo.Legs (A : Alg T E) (B : Evo T E) : Prop where
  left : ∀ d x i e f t u, A.trivL (B.ev2 d x i e f t u).1 = A.trivL t
  right : ∀ d x i e f t u, A.trivR (B.ev2 d x i e f t u).2 = A.trivR u

section
variable (A : Alg T E) (B : Evo T E) (N : Nat)

/-- `TwoSiteFiniteTDVPEvolution<…,'r'>` at target site `i` with the parameter `tau` (two_site_update_finite_tdvp_impl.h:272-403): the pair `(i, i+1)` by
`tau/2`, then the left environment `i+1`. -/
def tdvp2R (n : Nat) (tau : Rat) (i : Nat) (s : Mem T E) : Except Err (Mem T E) :=
  if i + 2 ≤ N ∧ i + 1 < n ∧ N - (i + 2) < n then do
    let e ← use (s.l i)
    let f ← use (s.r (N - (i + 2)))
    let t ← use (s.m i)
    let u ← use (s.m (i + 1))
    let p := B.ev2 .r (tau / 2) i e f t u
    pure { s with
      m := Function.update (Function.update s.m i (some p.1)) (i + 1) (some p.2)
      l := Function.update s.l (i + 1) (some (A.growL i e p.1)) }
  else .error .ub

/-- `TwoSiteFiniteTDVPEvolution<…,'l'>` at target site `i`: the pair `(i-1, i)`, then the right environment `N-i`. -/
def tdvp2L (n : Nat) (tau : Rat) (i : Nat) (s : Mem T E) : Except Err (Mem T E) :=
  if 1 ≤ i ∧ i < N ∧ i - 1 < n ∧ N - i < n then do
    let e ← use (s.l (i - 1))
    let f ← use (s.r (N - i - 1))
    let t ← use (s.m (i - 1))
    let u ← use (s.m i)
    let p := B.ev2 .l (tau / 2) (i - 1) e f t u
    pure { s with
      m := Function.update (Function.update s.m (i - 1) (some p.1)) i (some p.2)
      r := Function.update s.r (N - i) (some (A.growR i f p.2)) }
  else .error .ub

/-- `SingleSiteFiniteTDVPBackwardEvolution<…,'n'>` at site `i` (two_site_update_finite_tdvp_impl.h:405-531): by `-tau/2`. -/
def tdvp1 (n : Nat) (tau : Rat) (i : Nat) (s : Mem T E) : Except Err (Mem T E) :=
  if i < N ∧ i < n ∧ N - i - 1 < n then do
    let e ← use (s.l i)
    let f ← use (s.r (N - i - 1))
    let t ← use (s.m i)
    pure { s with m := Function.update s.m i (some (B.ev1 (-tau / 2) i e f t)) }
  else .error .ub

/-- The two evolutions of a right-moving step (two_site_update_finite_tdvp_impl.h:230-231). -/
def tdvpR (n : Nat) (tau : Rat) (i : Nat) (s : Mem T E) : Except Err (Mem T E) := do
  tdvp1 B N n tau (i + 1) (← tdvp2R A B N n tau i s)

/-- The two evolutions of a left-moving step (two_site_update_finite_tdvp_impl.h:238-243): at the right end by the full step. -/
def tdvpL (n : Nat) (tau : Rat) (i : Nat) (s : Mem T E) : Except Err (Mem T E) := do
  tdvp1 B N n tau (i - 1) (← tdvp2L A B N n (if i = N - 1 then tau * 2 else tau) i s)

/-- The body of the first loop (two_site_update_finite_tdvp_impl.h:227-234). -/
def stepRT (tau : Rat) (i : Nat) : List (Op T E) :=
  loadR2 N 0 i ++ .calc (tdvpR A B N (N - 1) tau i) :: dumpR2 N i

/-- The body of the second loop (two_site_update_finite_tdvp_impl.h:236-245). -/
def stepLT (tau : Rat) (i : Nat) : List (Op T E) :=
  loadL2 N (N - 1) i ++ .calc (tdvpL A B N (N - 1) tau i) :: dumpL2 N i

/-- The MPS and the environment vectors are local variables of the sweep function (two_site_update_finite_tdvp_impl.h:213-216). -/
def freshAll (s : Mem T E) : Except Err (Mem T E) :=
  .ok { s with m := fun _ => none, l := fun _ => none, r := fun _ => none }

/-- The last half step on the first bond (two_site_update_finite_tdvp_impl.h:247-269). -/
def lastT (tau : Rat) : List (Op T E) :=
  [.ldM 0, .ldL 0, .calc (tdvp2R A B N (N - 1) tau 0), .dpM 0 true, .dpM 1 true, .frL 0, .frL 1, .frR (N - 2), .calc freshAll]

/-- `TwoSiteFiniteTDVPSweep` (two_site_update_finite_tdvp_impl.h:204-270). -/
def sweepT (tau : Rat) : List (Op T E) :=
  .calc freshAll :: .ldM 1 :: ((List.range (N - 2)).flatMap (stepRT A B N tau) ++
    ((List.range' 2 (N - 2)).reverse.flatMap (stepLT A B N tau) ++ lastT A B N tau))

/-- `TwoSiteFiniteTDVPSweep` of the MPI master (two_site_update_finite_tdvp_mpi_impl_master.h:175-237): the evolutions in the loops (`B`) are those of the MPI
version, the last one (line 222) is `TwoSiteFiniteTDVPEvolution` of the serial version (`B'`). -/
def sweepTM (B' : Evo T E) (tau : Rat) : List (Op T E) :=
  .calc freshAll :: .ldM 1 :: ((List.range (N - 2)).flatMap (stepRT A B N tau) ++
    ((List.range' 2 (N - 2)).reverse.flatMap (stepLT A B N tau) ++ lastT A B' N tau))

/-- The part of the MPI master after the initial operator (two_site_update_finite_tdvp_mpi_impl_master.h:128-169). -/
def tdvpM (B' : Evo T E) (tau : Rat) (k : Nat) : List (Op T E) :=
  initEnvs A N 1 ++ (List.replicate k (sweepTM A B N B' tau)).flatten

/-- The part of `TwoSiteFiniteTDVP` (two_site_update_finite_tdvp_impl.h:158-198) after the initial operator: the environments, then `k` sweeps. The
measurements between the sweeps, which read the MPS directory and use another directory, are in TdvpMeasure.lean. -/
def tdvp (tau : Rat) (k : Nat) : List (Op T E) :=
  initEnvs A N 1 ++ (List.replicate k (sweepT A B N tau)).flatten

end

/-! ### Specification: TDVP on an MPS without files -/

/-- **Specification**: an elementary evolution: of the bond `(b, b+1)` by `dt`, moving the centre in direction `d`, or of a
site. -/
inductive Act
  | bond (d : Dir) (b : Nat) (dt : Rat)
  | site (s : Nat) (dt : Rat)
  deriving DecidableEq

/-- **Specification**: what an evolution does to the MPS `ψ`: the tensors evolve in their exact environments. -/
def Act.apply (A : Alg T E) (B : Evo T E) (N : Nat) (ψ : Nat → T) : Act → Nat → T
  | .bond d b dt =>
    let p := B.ev2 d dt b (A.lenv ψ b) (A.renv N ψ (N - (b + 2))) (ψ b) (ψ (b + 1))
    Function.update (Function.update ψ b p.1) (b + 1) p.2
  | .site s dt => Function.update ψ s (B.ev1 dt s (A.lenv ψ s) (A.renv N ψ (N - (s + 1))) (ψ s))

/-- **Specification**: the evolutions of a sweep in order. -/
def tdvpSchedule (N : Nat) (tau : Rat) : List Act :=
  (List.range (N - 2)).flatMap (fun i => [.bond .r i (tau / 2), .site (i + 1) (-tau / 2)]) ++
  ((List.range' 2 (N - 2)).reverse.flatMap fun i =>
    [.bond .l (i - 1) (if i = N - 1 then tau else tau / 2), .site (i - 1) (-tau / 2)]) ++
  [.bond .r 0 (tau / 2)]

/-- **Specification**: a list of evolutions in order. -/
def Act.all (A : Alg T E) (B : Evo T E) (N : Nat) (ψ : Nat → T) (as : List Act) : Nat → T := as.foldl (Act.apply A B N) ψ

/-- **Specification**: `k` time steps. -/
def tdvpSteps (A : Alg T E) (B : Evo T E) (N : Nat) (tau : Rat) : Nat → (Nat → T) → Nat → T
  | 0, ψ => ψ
  | k + 1, ψ => tdvpSteps A B N tau k (Act.all A B N ψ (tdvpSchedule N tau))

/-- **Specification**: a time step of the MPI version: all evolutions but the last by `B`, the last by `B'`. -/
def stepM (A : Alg T E) (B B' : Evo T E) (N : Nat) (tau : Rat) (ψ : Nat → T) : Nat → T :=
  (Act.bond .r 0 (tau / 2)).apply A B' N (Act.all A B N ψ (tdvpSchedule N tau).dropLast)

/-- **Specification**: `k` time steps of the MPI version. -/
def stepsM (A : Alg T E) (B B' : Evo T E) (N : Nat) (tau : Rat) : Nat → (Nat → T) → Nat → T
  | 0, ψ => ψ
  | k + 1, ψ => stepsM A B B' N tau k (stepM A B B' N tau ψ)

end Verif.Disk
