import Verif.Disk.Core
/-
The two-site variational sweep on disk: the serial version (algorithm/vmps/two_site_update_finite_vmps_impl.h)
sweeps the whole chain, i.e. `lb = 0` and `rb = N - 1`; the master of the MPI version
(algo_mpi/vmps/two_site_update_finite_vmps_mpi_impl_master.h) sweeps between two boundary sites. The loading and
dumping functions of the two are the same for these values.
-/
namespace Verif.Disk

variable {T E : Type} (A : Alg T E) (N : Nat)

/-- `TwoSiteFiniteVMPSUpdate` with direction 'r' at target site `i` (two_site_update_finite_vmps_impl.h:233-373;
MPI: two_site_update_finite_vmps_mpi_impl_master.h:168-336): the pair `(i, i+1)`, then the left environment `i+1`. -/
def upd2R (n i : Nat) (s : Mem T E) : Except Err (Mem T E) :=
  if i + 2 ≤ N ∧ i + 1 < n ∧ N - (i + 2) < n then do
    let e ← use (s.l i)
    let f ← use (s.r (N - (i + 2)))
    let t ← use (s.m i)
    let u ← use (s.m (i + 1))
    let p := A.opt s.clk .r i e f t u
    pure { s with
      m := Function.update (Function.update s.m i (some p.1)) (i + 1) (some p.2)
      l := Function.update s.l (i + 1) (some (A.growL i e p.1))
      clk := s.clk + 1 }
  else .error .ub

/-- The same with direction 'l' at target site `i`: the pair `(i-1, i)`, then the right environment `N-i`. -/
def upd2L (n i : Nat) (s : Mem T E) : Except Err (Mem T E) :=
  if 1 ≤ i ∧ i < N ∧ i - 1 < n ∧ N - i < n then do
    let e ← use (s.l (i - 1))
    let f ← use (s.r (N - i - 1))
    let t ← use (s.m (i - 1))
    let u ← use (s.m i)
    let p := A.opt s.clk .l i e f t u
    pure { s with
      m := Function.update (Function.update s.m (i - 1) (some p.1)) i (some p.2)
      r := Function.update s.r (N - i) (some (A.growR i f p.2))
      clk := s.clk + 1 }
  else .error .ub

/-- `LoadRelatedTensTwoSiteAlg` with 'r' (two_site_update_finite_vmps_impl.h:389-414; MPI: two_site_update_finite_vmps_mpi_impl_master.h:339-376). -/
def loadR2 (lb i : Nat) : List (Op T E) :=
  if i = lb then [.ldM i, .ldR (N - (i + 2)), .rmR (N - (i + 2)), .ldL i]
  else [.ldM (i + 1), .ldR (N - (i + 2)), .rmR (N - (i + 2))]

/-- `LoadRelatedTensTwoSiteAlg` with 'l' (two_site_update_finite_vmps_impl.h:415-438; MPI: two_site_update_finite_vmps_mpi_impl_master.h:379-415). -/
def loadL2 (rb i : Nat) : List (Op T E) :=
  if i = rb then [.ldM i, .ldR (N - 1 - i), .rmL (i - 1)]
  else [.ldM (i - 1), .ldL (i - 1), .rmL (i - 1)]

/-- `DumpRelatedTensTwoSiteAlg` with 'r' (two_site_update_finite_vmps_impl.h:460-473; MPI: two_site_update_finite_vmps_mpi_impl_master.h:418-443). -/
def dumpR2 (i : Nat) : List (Op T E) :=
  [.frL i, .frR (N - (i + 2)), .dpM i true, .dpL (i + 1)]

/-- `DumpRelatedTensTwoSiteAlg` with 'l' (two_site_update_finite_vmps_impl.h:474-488; MPI: two_site_update_finite_vmps_mpi_impl_master.h:446-473). -/
def dumpL2 (i : Nat) : List (Op T E) :=
  [.frL (i - 1), .frR (N - (i + 1)), .dpM i true, .dpR (N - i)]

/-- The body of the first loop of `TwoSiteFiniteVMPSSweep` (two_site_update_finite_vmps_impl.h:209-215). -/
def stepR2 (lb i : Nat) : List (Op T E) :=
  loadR2 N lb i ++ .calc (upd2R A N (N - 1) i) :: dumpR2 N i

/-- The body of the second loop (two_site_update_finite_vmps_impl.h:216-220). -/
def stepL2 (rb i : Nat) : List (Op T E) :=
  loadL2 N rb i ++ .calc (upd2L A N (N - 1) i) :: dumpL2 N i

/-- The environment vectors are local variables of the sweep function (two_site_update_finite_vmps_impl.h:205-206). -/
def freshEnvs (s : Mem T E) : Except Err (Mem T E) := .ok { s with l := fun _ => none, r := fun _ => none }

/-- The sites of the two loops, `i = lb … rb-2` (two_site_update_finite_vmps_impl.h:209, two_site_update_finite_vmps_mpi_impl_master.h:152) and `i = rb … lb+2`. -/
def sitesR (lb rb : Nat) : List Nat := List.range' lb (rb - 1 - lb)
/-- The second loop (two_site_update_finite_vmps_impl.h:216, two_site_update_finite_vmps_mpi_impl_master.h:159). -/
def sitesL (lb rb : Nat) : List Nat := (List.range' (lb + 2) (rb - 1 - lb)).reverse

/-- `TwoSiteFiniteVMPSSweep` (two_site_update_finite_vmps_impl.h:198-222; MPI: two_site_update_finite_vmps_mpi_impl_master.h:138-165). -/
def sweep2 (lb rb : Nat) : List (Op T E) :=
  .calc freshEnvs :: ((sitesR lb rb).flatMap (stepR2 A N lb) ++ ((sitesL lb rb).flatMap (stepL2 A N rb) ++ [.calc freshEnvs]))

/-- The loop over the sweeps with the first load and the last dump (two_site_update_finite_vmps_impl.h:115-123;
MPI: two_site_update_finite_vmps_mpi_impl_master.h:117-127). -/
def sweeps2 (lb rb k : Nat) : List (Op T E) :=
  .ldM (lb + 1) :: ((List.replicate k (sweep2 A N lb rb)).flatten ++ [.dpM (lb + 1) true])

/-- `assert(mps.empty())` (two_site_update_finite_vmps_impl.h:101, 189). -/
def assertEmpty (N : Nat) (s : Mem T E) : Except Err (Mem T E) :=
  if (List.range N).all (fun i => (s.m i).isNone) then .ok s else .error .assertFail

/-- The trivial right environment from the last tensor (two_site_update_finite_vmps_impl.h:159-166). -/
def startR (s : Mem T E) : Except Err (Mem T E) := do
  let t ← use (s.m (N - 1))
  pure { s with reg := some (A.trivR t) }

/-- The trivial left environment (two_site_update_finite_vmps_impl.h:178-186). -/
def startL (s : Mem T E) : Except Err (Mem T E) := do
  let t ← use (s.m 0)
  pure { s with reg := some (A.trivL t) }

/-- `renv = UpdateSiteRenvs(renv, mps[i], mpo[i])` (two_site_update_finite_vmps_impl.h:172, vmps_init.h:309). -/
def pushR (i : Nat) (s : Mem T E) : Except Err (Mem T E) := do
  let e ← use s.reg
  let t ← use (s.m i)
  pure { s with reg := some (A.growR i e t) }

/-- `lenv = UpdateSiteLenvs(lenv, mps[i], mpo[i])` (vmps_init.h:335). -/
def pushL (i : Nat) (s : Mem T E) : Except Err (Mem T E) := do
  let e ← use s.reg
  let t ← use (s.m i)
  pure { s with reg := some (A.growL i e t) }

/-- One iteration of the loop of `InitEnvs` (two_site_update_finite_vmps_impl.h:169-175). -/
def initStep (i : Nat) : List (Op T E) :=
  (if 1 < i then [.ldM (N - i)] else []) ++ [.calc (pushR A (N - i)), .wrR i, .frM (N - i)]

/-- `InitEnvs` (two_site_update_finite_vmps_impl.h:147-190) for `update_site_num = usn ≤ N` (a larger value wraps
around). The local variables `renv` and `lenv` are one register. -/
def initEnvs (usn : Nat) : List (Op T E) :=
  .ldM (N - 1) :: .calc (startR A N) :: .wrR 0 ::
    ((List.range' 1 (N - usn)).flatMap (initStep A N) ++
      [.ldM 0, .calc (startL A), .wrL 0, .frM 0, .calc (assertEmpty N)])

/-- The serial `TwoSiteFiniteVMPS` (two_site_update_finite_vmps_impl.h:96-125) without noise; `temp` tells whether the
temporary directory exists. The case `N < 2` is excluded by `LoadTen(1)`. -/
def twoSite (temp : Bool) (k : Nat) : List (Op T E) :=
  .calc (assertEmpty N) :: ((if temp then [] else initEnvs A N 2) ++ sweeps2 A N 0 (N - 1) k)

/-! ### Specification: the sweep on an MPS without files -/

/-- **Specification**: optimise the pair `(i, i+1)` in its exact environments (right-moving). -/
def optR (ψ : (Nat → T) × Nat) (i : Nat) : (Nat → T) × Nat :=
  let p := A.opt ψ.2 .r i (A.lenv ψ.1 i) (A.renv N ψ.1 (N - (i + 2))) (ψ.1 i) (ψ.1 (i + 1))
  (Function.update (Function.update ψ.1 i p.1) (i + 1) p.2, ψ.2 + 1)

/-- **Specification**: optimise the pair `(i-1, i)` in its exact environments (left-moving). -/
def optL (ψ : (Nat → T) × Nat) (i : Nat) : (Nat → T) × Nat :=
  let p := A.opt ψ.2 .l i (A.lenv ψ.1 (i - 1)) (A.renv N ψ.1 (N - (i + 1))) (ψ.1 (i - 1)) (ψ.1 i)
  (Function.update (Function.update ψ.1 (i - 1) p.1) i p.2, ψ.2 + 1)

/-- **Specification**: one sweep: the pairs `(i, i+1)` for `i = lb … rb-2`, then the pairs `(i-1, i)` for `i = rb … lb+2`. -/
def optSweep (lb rb : Nat) (ψ : (Nat → T) × Nat) : (Nat → T) × Nat :=
  (List.range' (lb + 2) (rb - 1 - lb)).reverse.foldl (optL A N) ((List.range' lb (rb - 1 - lb)).foldl (optR A N) ψ)

/-- **Specification**: `k` sweeps. -/
def optSweeps (lb rb : Nat) : Nat → (Nat → T) × Nat → (Nat → T) × Nat
  | 0, ψ => ψ
  | k + 1, ψ => optSweeps lb rb k (optSweep A N lb rb ψ)

/-- **Specification**: the MPS directory holds `ψ`. -/
def OnDisk (N : Nat) (ψ : Nat → T) (d : Dsk T E) : Prop := ∀ j, j < N → d.m j = .whole (ψ j)

/-- **Specification**: the temporary directory holds the environments a sweep between `lb` and `rb` starts with: the
left one of the sites before `lb`, and the right ones of all blocks that begin at a site from `lb+2` to `rb+1`. -/
structure EnvReady (A : Alg T E) (N lb rb : Nat) (ψ : Nat → T) (d : Dsk T E) : Prop where
  l : d.l lb = .whole (A.lenv ψ lb)
  r : ∀ k, N ≤ k + 1 + rb → k + lb + 2 ≤ N → d.r k = .whole (A.renv N ψ k)

end Verif.Disk
