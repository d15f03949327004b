import Verif.Disk.TwoSite
/-
`FiniteVMPSInit` (algorithm/vmps/vmps_init.h): boundary tensors, boundary sites, reuse of the environments on disk
and boundary environments. It precedes the sweeps of the noised two-site and of the MPI programs.
-/
namespace Verif.Disk

variable {T E : Type}

/-- The changes of gauge, arbitrary functions: `gl i` is `LeftCanonicalizeTen(i)` followed by the replacement of the
tensor by a combiner (vmps_init.h:169-199) and acts on the sites `i`, `i+1`; `gr i` is its mirror image
(vmps_init.h:212-235) and acts on the sites `i-1`, `i`. -/
structure Gauge (T : Type) where
  gl : Nat → T → T → T × T
  gr : Nat → T → T → T × T

/-- What a change of gauge leaves alone: the outer legs of the pair, and the environment of a block that contains
both sites. -/
structure Gauge.Laws (G : Gauge T) (A : Alg T E) : Prop where
  ll : ∀ i t u, A.trivL (G.gl i t u).1 = A.trivL t
  lr : ∀ i t u, A.trivR (G.gl i t u).2 = A.trivR u
  rl : ∀ i t u, A.trivL (G.gr i t u).1 = A.trivL t
  rr : ∀ i t u, A.trivR (G.gr i t u).2 = A.trivR u
  env : ∀ i e t u, A.growR (i - 1) (A.growR i e (G.gr i t u).2) (G.gr i t u).1 = A.growR (i - 1) (A.growR i e u) t

/-- `left_middle_site` (vmps_init.h:153-162). -/
def midL (N : Nat) : Nat := if N % 2 = 0 then N / 2 - 1 else N / 2
/-- `right_middle_site` (vmps_init.h:153-162). -/
def midR (N : Nat) : Nat := N / 2

/-- `left_boundary`: the first site of the loop at which it is left early, else the last (vmps_init.h:150, 168-203).
Which sites these are depends on the bond dimensions; `brk` is an arbitrary predicate. -/
def lbOf (brk : Nat → Bool) (N : Nat) : Nat := ((List.range (midL N)).find? brk).getD (midL N - 1)

/-- The sites of the loop over the right half, `N-1 … right_middle_site+1` (vmps_init.h:211). -/
def rightSites (N : Nat) : List Nat := (List.range' (midR N + 1) (N - 1 - midR N)).reverse

/-- `right_boundary` (vmps_init.h:151, 211-239); it keeps the value `0` if the loop has no iteration. -/
def rbOf (brk : Nat → Bool) (N : Nat) : Nat :=
  ((rightSites N).find? brk).getD (if rightSites N = [] then 0 else midR N + 1)

/-- The work at site `i` in the left loop (vmps_init.h:168-203). -/
def canL (G : Gauge T) (i : Nat) (s : Mem T E) : Except Err (Mem T E) := do
  let t ← use (s.m i)
  let u ← use (s.m (i + 1))
  let p := G.gl i t u
  pure { s with m := Function.update (Function.update s.m i (some p.1)) (i + 1) (some p.2) }

/-- The work at site `i` in the right loop (vmps_init.h:211-239). -/
def canR (G : Gauge T) (i : Nat) (s : Mem T E) : Except Err (Mem T E) := do
  let t ← use (s.m (i - 1))
  let u ← use (s.m i)
  let p := G.gr i t u
  pure { s with m := Function.update (Function.update s.m (i - 1) (some p.1)) i (some p.2) }

/-- The left half of `CheckAndUpdateBoundaryMPSTensors` (vmps_init.h:166-207); `it` is the number of iterations. -/
def checkL (G : Gauge T) (it lb : Nat) : List (Op T E) :=
  .ldM 0 :: ((List.range it).flatMap (fun i => [.ldM (i + 1), .calc (canL G i)]) ++
    (List.range (lb + 2)).map (fun i => .dpM i true))

/-- The right half (vmps_init.h:209-242); the dumps go from `N-1` down to `rb-1`, which wraps around and means no
dump if `rb = 0`. -/
def checkR (G : Gauge T) (N rb : Nat) : List (Op T E) :=
  .ldM (N - 1) :: ((List.range' rb (if rb = 0 then 0 else N - rb)).reverse.flatMap (fun i => [.ldM (i - 1), .calc (canR G i)]) ++
    (List.range' (rb - 1) (if rb = 0 then 0 else N + 1 - rb)).reverse.map (fun i => .dpM i true))

/-- `CheckAndUpdateBoundaryMPSTensors` (vmps_init.h:139-246). -/
def checkBoundary (G : Gauge T) (bl br : Nat → Bool) (N : Nat) : List (Op T E) :=
  .calc (assertEmpty N) :: (checkL G (if midL N = 0 then 0 else lbOf bl N + 1) (lbOf bl N) ++
    (checkR G N (rbOf br N) ++ [.calc (assertEmpty N)]))

/-- `access(file, 4) == 0` (vmps_init.h:262): the file exists, complete or not. -/
def File.present {α : Type} : File α → Bool
  | .gone => false
  | _ => true

/-- `NeedGenerateRightEnvs` (vmps_init.h:253-273). A missing directory is one without files. -/
def needEnvs (N lb rb : Nat) (d : Dsk T E) : Bool :=
  !((List.range' (N - 1 - rb) (N - 2 - lb + 1 - (N - 1 - rb))).all fun k => (d.r k).present)

/-- One iteration of the loop over the right environments in `UpdateBoundaryEnvs` (vmps_init.h:307-311). -/
def boundR (A : Alg T E) (N i : Nat) : List (Op T E) := [.ldM (N - i), .calc (pushR A (N - i)), .frM (N - i)]

/-- One iteration of the loop over the left environments (vmps_init.h:333-337). -/
def boundL (A : Alg T E) (i : Nat) : List (Op T E) := [.ldM i, .calc (pushL A i), .frM i]

/-- `UpdateBoundaryEnvs` (vmps_init.h:282-341). -/
def updateBoundary (A : Alg T E) (N lb rb : Nat) : List (Op T E) :=
  .calc (assertEmpty N) :: .ldM (N - 1) :: .calc (startR A N) :: .frM (N - 1) ::
    ((List.range' 1 (N - rb - 1)).flatMap (boundR A N) ++ (.wrR (N - rb - 1) ::
      .ldM rb :: .calc (pushR A rb) :: .frM rb :: .wrR (N - rb) ::
      .ldM 0 :: .calc (startL A) :: .frM 0 ::
      ((List.range lb).flatMap (boundL A) ++ [.wrL lb, .calc (assertEmpty N)])))

/-- `FiniteVMPSInit` (vmps_init.h:74-117) when the environments on disk are `d`; the check of the boundary tensors
does not touch them. -/
def vmpsInit (A : Alg T E) (G : Gauge T) (bl br : Nat → Bool) (N : Nat) (d : Dsk T E) : List (Op T E) :=
  checkBoundary G bl br N ++ ((if needEnvs N (lbOf bl N) (rbOf br N) d then initEnvs A N (lbOf bl N + 2) else []) ++
    updateBoundary A N (lbOf bl N) (rbOf br N))

/-- `MasterTwoSiteFiniteVMPS` without the messages (two_site_update_finite_vmps_mpi_impl_master.h:85-124). -/
def vmpsRun (A : Alg T E) (G : Gauge T) (bl br : Nat → Bool) (N : Nat) (d : Dsk T E) (k : Nat) : List (Op T E) :=
  vmpsInit A G bl br N d ++ sweeps2 A N (lbOf bl N) (rbOf br N) k

/-! ### Specification -/

/-- **Specification**: change of gauge between the sites `i` and `i+1`. -/
def gaugeL (G : Gauge T) (ψ : Nat → T) (i : Nat) : Nat → T :=
  let p := G.gl i (ψ i) (ψ (i + 1))
  Function.update (Function.update ψ i p.1) (i + 1) p.2

/-- **Specification**: change of gauge between the sites `i-1` and `i`. -/
def gaugeR (G : Gauge T) (ψ : Nat → T) (i : Nat) : Nat → T :=
  let p := G.gr i (ψ (i - 1)) (ψ i)
  Function.update (Function.update ψ (i - 1) p.1) i p.2

/-- **Specification**: the MPS after the boundary tensors have been brought into canonical form. -/
def gauged (G : Gauge T) (N lb rb : Nat) (ψ : Nat → T) : Nat → T :=
  (List.range' rb (N - rb)).reverse.foldl (gaugeR G) ((List.range (lb + 1)).foldl (gaugeL G) ψ)

end Verif.Disk
