import Verif.Disk.Window
/-
The single-site variational sweep with subspace expansion on disk
(algorithm/vmps/single_site_update_finite_vmps_impl.h).
-/
namespace Verif.Disk

variable {T E : Type}

/-- The local work, an arbitrary function: `CalEnergyEptSingleSite`, the adaption of the noise, `LanczosSolver`,
`SingleSiteFiniteVMPSExpand` and `SVD` (single_site_update_finite_vmps_impl.h:142-160, 200-338). Arguments: the
scalar variables, the direction, the target site, the left and right environment of the target, and the tensors of
the left and the right site of the pair of target and next site. Results: the new pair and the new scalar variables.

The scalar variables (`sweep`, `noise_start`, `e0`, `actual_laststep_e0`; they are finitely many bits) are encoded in
one number; the assignments at the beginning of a sweep belong to the first step. -/
abbrev Opt1 (T E : Type) := Nat → Dir → Nat → E → E → T → T → (T × T) × Nat

/-- The outer legs of the pair are kept. -/
structure Opt1.Legs (O : Opt1 T E) (A : Alg T E) : Prop where
  left : ∀ c d i e f t u, A.trivL (O c d i e f t u).1.1 = A.trivL t
  right : ∀ c d i e f t u, A.trivR (O c d i e f t u).1.2 = A.trivR u

variable (A : Alg T E) (O : Opt1 T E) (N : Nat)

/-- One step to the right at site `i`: `CalEnergyEptSingleSite` and `SingleSiteFiniteVMPSUpdate`
(single_site_update_finite_vmps_impl.h:142-160, 200-376). Of `A` only the growth of the environments is used. -/
def upd1R (n i : Nat) (s : Mem T E) : Except Err (Mem T E) :=
  if i + 1 < N ∧ i + 1 < n ∧ N - (i + 1) < n then do
    let e ← use (s.l i)
    let f ← use (s.r (N - i - 1))
    let t ← use (s.m i)
    let u ← use (s.m (i + 1))
    let p := O s.clk .r i e f t u
    pure { s with
      m := Function.update (Function.update s.m i (some p.1.1)) (i + 1) (some p.1.2)
      l := Function.update s.l (i + 1) (some (A.growL i e p.1.1))
      clk := p.2 }
  else .error .ub

/-- One step to the left at site `i` (single_site_update_finite_vmps_impl.h:168-182, 200-376). -/
def upd1L (n i : Nat) (s : Mem T E) : Except Err (Mem T E) :=
  if 1 ≤ i ∧ i < N ∧ i < n ∧ N - i < n then do
    let e ← use (s.l i)
    let f ← use (s.r (N - i - 1))
    let t ← use (s.m (i - 1))
    let u ← use (s.m i)
    let p := O s.clk .l i e f t u
    pure { s with
      m := Function.update (Function.update s.m (i - 1) (some p.1.1)) i (some p.1.2)
      r := Function.update s.r (N - i) (some (A.growR i f p.1.2))
      clk := p.2 }
  else .error .ub

/-- `LoadRelatedTensSingleSiteAlg` with 'r' (single_site_update_finite_vmps_impl.h:492-515). -/
def loadR1 (i : Nat) : List (Op T E) :=
  if i = 0 then [.ldM (i + 1), .ldR (N - i - 1), .rmR (N - i - 1), .ldL 0]
  else [.ldM (i + 1), .ldR (N - i - 1), .rmR (N - i - 1)]

/-- `LoadRelatedTensSingleSiteAlg` with 'l' (single_site_update_finite_vmps_impl.h:516-541). -/
def loadL1 (i : Nat) : List (Op T E) :=
  if i = N - 1 then [.ldM (i - 1), .ldR 0, .rmL (N - 1)]
  else [.ldM (i - 1), .ldL i, .rmL i]

/-- `DumpRelatedTensSingleSiteAlg` with 'r' (single_site_update_finite_vmps_impl.h:563-574). -/
def dumpR1 (i : Nat) : List (Op T E) := [.frL i, .frR (N - i - 1), .dpM i true, .dpL (i + 1)]

/-- `DumpRelatedTensSingleSiteAlg` with 'l' (single_site_update_finite_vmps_impl.h:563-568, 575-581). -/
def dumpL1 (i : Nat) : List (Op T E) := [.frL i, .frR (N - i - 1), .dpM i true, .dpR (N - i)]

/-- The body of the first loop of `SingleSiteFiniteVMPSSweep` (single_site_update_finite_vmps_impl.h:137-163). -/
def stepR1 (i : Nat) : List (Op T E) := loadR1 N i ++ .calc (upd1R A O N N i) :: dumpR1 N i

/-- The body of the second loop (single_site_update_finite_vmps_impl.h:166-184). -/
def stepL1 (i : Nat) : List (Op T E) := loadL1 N i ++ .calc (upd1L A O N N i) :: dumpL1 N i

/-- `SingleSiteFiniteVMPSSweep` (single_site_update_finite_vmps_impl.h:119-186): `i = 0 … N-2`, then `i = N-1 … 1`. -/
def sweep1 : List (Op T E) :=
  .calc freshEnvs :: ((List.range (N - 1)).flatMap (stepR1 A O N) ++
    ((List.range' 1 (N - 1)).reverse.flatMap (stepL1 A O N) ++ [.calc freshEnvs]))

/-- The sweeps of `SingleSiteFiniteVMPS` with the first load and the last dump
(single_site_update_finite_vmps_impl.h:96-111). -/
def sweeps1 (k : Nat) : List (Op T E) := .ldM 0 :: ((List.replicate k (sweep1 A O N)).flatten ++ [.dpM 0 true])

/-- `SingleSiteFiniteVMPS` (single_site_update_finite_vmps_impl.h:55-113). -/
def singleSite (temp : Bool) (k : Nat) : List (Op T E) := (if temp then [] else initEnvs A N 1) ++ sweeps1 A O N k

/-! ### Specification -/

/-- **Specification**: the step at site `i` to the right, in the exact environments. -/
def opt1R (ψ : (Nat → T) × Nat) (i : Nat) : (Nat → T) × Nat :=
  let p := O ψ.2 .r i (A.lenv ψ.1 i) (A.renv N ψ.1 (N - (i + 1))) (ψ.1 i) (ψ.1 (i + 1))
  (Function.update (Function.update ψ.1 i p.1.1) (i + 1) p.1.2, p.2)

/-- **Specification**: the step at site `i` to the left. -/
def opt1L (ψ : (Nat → T) × Nat) (i : Nat) : (Nat → T) × Nat :=
  let p := O ψ.2 .l i (A.lenv ψ.1 i) (A.renv N ψ.1 (N - (i + 1))) (ψ.1 (i - 1)) (ψ.1 i)
  (Function.update (Function.update ψ.1 (i - 1) p.1.1) i p.1.2, p.2)

/-- **Specification**: one sweep. -/
def opt1Sweep (ψ : (Nat → T) × Nat) : (Nat → T) × Nat :=
  (List.range' 1 (N - 1)).reverse.foldl (opt1L A O N) ((List.range (N - 1)).foldl (opt1R A O N) ψ)

/-- **Specification**: `k` sweeps. -/
def opt1Sweeps : Nat → (Nat → T) × Nat → (Nat → T) × Nat
  | 0, ψ => ψ
  | k + 1, ψ => opt1Sweeps k (opt1Sweep A O N ψ)

end Verif.Disk
