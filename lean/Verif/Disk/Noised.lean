import Verif.Disk.Window
import Verif.Disk.Boundary
/-
The two-site variational sweep with subspace expansion on disk
(algorithm/vmps/two_site_update_noise_finite_vmps_impl.h).
-/
namespace Verif.Disk

variable {T E : Type}

/-- The local work, an arbitrary function: `CalEnergyEptTwoSite`, the adaption of the noise, `LanczosSolver`,
`TwoSiteFiniteVMPSExpand` and `SVD` (two_site_update_noise_finite_vmps_impl.h:156-166, 182-188, 213-391). Arguments:
the scalar variables, the direction, the target site, the two environments, and the tensors of three neighbouring
sites from left to right (target, next and next-next site when moving right). Results: the new tensors and the new
scalar variables.

The scalar variables (`sweep`, `noise_start`, `e0`, `actual_laststep_e0`; they are finitely many bits) are encoded in
one number; the assignments at the beginning of a sweep belong to the first step. -/
abbrev Opt3 (T E : Type) := Nat → Dir → Nat → E → E → T → T → T → (T × T × T) × Nat

/-- The outer legs of the three sites are kept. -/
structure Opt3.Legs (O : Opt3 T E) (A : Alg T E) : Prop where
  left : ∀ c d i e f t u v, A.trivL (O c d i e f t u v).1.1 = A.trivL t
  right : ∀ c d i e f t u v, A.trivR (O c d i e f t u v).1.2.2 = A.trivR v

/-- `LeftCanonicalizeTen` on a tensor and its right neighbour, an arbitrary function. -/
abbrev Canon (T : Type) := T → T → T × T

/-- The outer legs of the pair are kept. -/
structure Canon.Legs (C : Canon T) (A : Alg T E) : Prop where
  left : ∀ t u, A.trivL (C t u).1 = A.trivL t
  right : ∀ t u, A.trivR (C t u).2 = A.trivR u

variable (A : Alg T E) (O : Opt3 T E) (C : Canon T) (N : Nat)

/-- One step to the right at site `i`: `CalEnergyEptTwoSite` and `TwoSiteFiniteVMPSUpdate`
(two_site_update_noise_finite_vmps_impl.h:156-173, 213-430). The tensor of the next-next site is always in memory; the
expansion, if made, changes it (two_site_update_noise_finite_vmps_impl.h:492-502). -/
def upd3R (n i : Nat) (s : Mem T E) : Except Err (Mem T E) :=
  if i + 2 < N ∧ i + 1 < n ∧ N - (i + 2) < n then do
    let e ← use (s.l i)
    let f ← use (s.r (N - (i + 2)))
    let t ← use (s.m i)
    let u ← use (s.m (i + 1))
    let v ← use (s.m (i + 2))
    let p := O s.clk .r i e f t u v
    pure { s with
      m := Function.update (Function.update (Function.update s.m i (some p.1.1)) (i + 1) (some p.1.2.1)) (i + 2) (some p.1.2.2)
      l := Function.update s.l (i + 1) (some (A.growL i e p.1.1))
      clk := p.2 }
  else .error .ub

/-- One step to the left at site `i` (two_site_update_noise_finite_vmps_impl.h:182-195, 213-430). -/
def upd3L (n i : Nat) (s : Mem T E) : Except Err (Mem T E) :=
  if 2 ≤ i ∧ i < N ∧ i - 1 < n ∧ N - i < n then do
    let e ← use (s.l (i - 1))
    let f ← use (s.r (N - i - 1))
    let t ← use (s.m (i - 2))
    let u ← use (s.m (i - 1))
    let v ← use (s.m i)
    let p := O s.clk .l i e f t u v
    pure { s with
      m := Function.update (Function.update (Function.update s.m (i - 2) (some p.1.1)) (i - 1) (some p.1.2.1)) i (some p.1.2.2)
      r := Function.update s.r (N - i) (some (A.growR i f p.1.2.2))
      clk := p.2 }
  else .error .ub

/-- `LoadRelatedTensOnTwoSiteAlgWhenNoisedRightMoving` (two_site_update_noise_finite_vmps_impl.h:559-596). -/
def loadR3 (lb i : Nat) : List (Op T E) :=
  if i ≠ lb then [.ldM (i + 2), .ldR (N - (i + 2)), .rmR (N - (i + 2))]
  else [.ldM (i + 2), .ldR (N - 1 - (i + 1)), .rmR (N - 1 - (i + 1)), .ldL i]

/-- `LoadRelatedTensOnTwoSiteAlgWhenNoisedLeftMoving` (two_site_update_noise_finite_vmps_impl.h:599-635). -/
def loadL3 (rb i : Nat) : List (Op T E) :=
  if i ≠ rb then [.ldM (i - 2), .ldL (i + 1 - 2), .rmL (i + 1 - 2)]
  else [.ldM (i - 2), .ldR (N - 1 - i), .rmL (i - 1)]

/-- `DumpRelatedTensTwoSiteAlgNoiseCase` with 'r' (two_site_update_noise_finite_vmps_impl.h:651-664). -/
def dumpR3 (i : Nat) : List (Op T E) := [.frL i, .frR (N - (i + 2)), .dpM i true, .dpL (i + 1)]

/-- `DumpRelatedTensTwoSiteAlgNoiseCase` with 'l' (two_site_update_noise_finite_vmps_impl.h:665-680). -/
def dumpL3 (i : Nat) : List (Op T E) := [.frL (i + 1 - 2), .frR (N - (i + 1)), .dpM i true, .dpR (N - i)]

/-- The body of the first loop of `TwoSiteFiniteVMPSSweep` (two_site_update_noise_finite_vmps_impl.h:150-178). -/
def stepR3 (lb i : Nat) : List (Op T E) := loadR3 N lb i ++ .calc (upd3R A O N N i) :: dumpR3 N i

/-- The body of the second loop (two_site_update_noise_finite_vmps_impl.h:180-198). -/
def stepL3 (rb i : Nat) : List (Op T E) := loadL3 N rb i ++ .calc (upd3L A O N N i) :: dumpL3 N i

/-- `TwoSiteFiniteVMPSSweep` with noise (two_site_update_noise_finite_vmps_impl.h:131-200): `i = lb … rb-2`, then
`i = rb … lb+2`. -/
def sweep3 (lb rb : Nat) : List (Op T E) :=
  .calc freshEnvs :: ((List.range' lb (rb - 1 - lb)).flatMap (stepR3 A O N lb) ++
    ((List.range' (lb + 2) (rb - 1 - lb)).reverse.flatMap (stepL3 A O N rb) ++ [.calc freshEnvs]))

/-- `mps.LeftCanonicalizeTen(lb)` (two_site_update_noise_finite_vmps_impl.h:121). -/
def canonC (lb : Nat) (s : Mem T E) : Except Err (Mem T E) := do
  let t ← use (s.m lb)
  let u ← use (s.m (lb + 1))
  pure { s with m := Function.update (Function.update s.m lb (some (C t u).1)) (lb + 1) (some (C t u).2) }

/-- The sweeps of `TwoSiteFiniteVMPSWithNoise` with the first loads and the last dumps
(two_site_update_noise_finite_vmps_impl.h:106-124). -/
def sweeps3 (lb rb k : Nat) : List (Op T E) :=
  .ldM lb :: .ldM (lb + 1) :: ((List.replicate k (sweep3 A O N lb rb)).flatten ++
    [.calc (canonC C lb), .dpM lb true, .dpM (lb + 1) true])

/-- `TwoSiteFiniteVMPSWithNoise` with at least one noise (two_site_update_noise_finite_vmps_impl.h:81-125), when the
environments on disk are `d`. -/
def noised (G : Gauge T) (bl br : Nat → Bool) (d : Dsk T E) (k : Nat) : List (Op T E) :=
  vmpsInit A G bl br N d ++ sweeps3 A O C N (lbOf bl N) (rbOf br N) k

/-! ### Specification -/

/-- **Specification**: the step at site `i` to the right, in the exact environments. -/
def opt3R (ψ : (Nat → T) × Nat) (i : Nat) : (Nat → T) × Nat :=
  let p := O ψ.2 .r i (A.lenv ψ.1 i) (A.renv N ψ.1 (N - (i + 2))) (ψ.1 i) (ψ.1 (i + 1)) (ψ.1 (i + 2))
  (Function.update (Function.update (Function.update ψ.1 i p.1.1) (i + 1) p.1.2.1) (i + 2) p.1.2.2, p.2)

/-- **Specification**: the step at site `i` to the left. -/
def opt3L (ψ : (Nat → T) × Nat) (i : Nat) : (Nat → T) × Nat :=
  let p := O ψ.2 .l i (A.lenv ψ.1 (i - 1)) (A.renv N ψ.1 (N - (i + 1))) (ψ.1 (i - 2)) (ψ.1 (i - 1)) (ψ.1 i)
  (Function.update (Function.update (Function.update ψ.1 (i - 2) p.1.1) (i - 1) p.1.2.1) i p.1.2.2, p.2)

/-- **Specification**: one sweep. -/
def opt3Sweep (lb rb : Nat) (ψ : (Nat → T) × Nat) : (Nat → T) × Nat :=
  (List.range' (lb + 2) (rb - 1 - lb)).reverse.foldl (opt3L A O N) ((List.range' lb (rb - 1 - lb)).foldl (opt3R A O N) ψ)

/-- **Specification**: `k` sweeps. -/
def opt3Sweeps (lb rb : Nat) : Nat → (Nat → T) × Nat → (Nat → T) × Nat
  | 0, ψ => ψ
  | k + 1, ψ => opt3Sweeps lb rb k (opt3Sweep A O N lb rb ψ)

/-- **Specification**: the site `lb` is brought into canonical form. -/
def canonAt (lb : Nat) (ψ : Nat → T) : Nat → T :=
  Function.update (Function.update ψ lb (C (ψ lb) (ψ (lb + 1))).1) (lb + 1) (C (ψ lb) (ψ (lb + 1))).2

end Verif.Disk
