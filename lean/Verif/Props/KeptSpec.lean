import Verif.Props.SingleSite
import Verif.Props.Noised
/-
Specification of property C96: programs that share a temporary directory.
-/
namespace Verif.Props
open Verif.Disk

variable {T E : Type}

/-- One call: the serial `TwoSiteFiniteVMPS` (two_site_update_finite_vmps_impl.h:95-125, no noise, the whole chain),
`SingleSiteFiniteVMPS` (single_site_update_finite_vmps_impl.h:55-113) or `TwoSiteFiniteVMPSWithNoise` with at least one
noise (two_site_update_noise_finite_vmps_impl.h:81-125), with the Hamiltonian and the local solver in `A` and `O`, and `k`
sweeps. The range of the last one follows from the bond dimensions through `bl` and `br` (C21); `G` is its change of gauge
outside the range, `C` its last canonicalisation. -/
inductive KeptRun (T E : Type)
  | two (A : Alg T E) (k : Nat)
  | single (A : Alg T E) (O : Opt1 T E) (k : Nat)
  | noisy (A : Alg T E) (O : Opt3 T E) (C : Canon T) (G : Gauge T) (bl br : Nat → Bool) (k : Nat)

/-- The Hamiltonian of a call, through the environments it gives. -/
def KeptRun.alg : KeptRun T E → Alg T E
  | .two A _ => A
  | .single A _ _ => A
  | .noisy A _ _ _ _ _ _ => A

/-- A single-site call. -/
def KeptRun.isSingle : KeptRun T E → Bool
  | .two _ _ => false
  | .single _ _ _ => true
  | .noisy _ _ _ _ _ _ _ => false

/-- The first and the last site of the sweeps. -/
def KeptRun.range (N : Nat) : KeptRun T E → Nat × Nat
  | .noisy _ _ _ _ bl br _ => (lbOf bl N, rbOf br N)
  | _ => (0, N - 1)

/-- The local solvers keep the outer legs; a change of gauge keeps the environments. -/
def KeptRun.Legs : KeptRun T E → Prop
  | .two A _ => A.Legs
  | .single A O _ => O.Legs A
  | .noisy A O C G _ _ _ => O.Legs A ∧ C.Legs A ∧ G.Laws A

/-- The call; `temp` tells whether the temporary directory exists. The noisy program only asks which environment files
exist. -/
def KeptRun.exec (N : Nat) (temp : Bool) : KeptRun T E → Sys T E → Except Err (Sys T E)
  | .two A k, s => run N (N - 1) (twoSite A N temp k) s
  | .single A O k, s => run N N (singleSite A O N temp k) s
  | .noisy A O C G bl br k, s => run N N (noised A O C N G bl br s.dsk k) s

/-- **Specification**: the MPS after a call, each local update being made in the exact environments of the MPS and the
Hamiltonian of the call. -/
def KeptRun.ideal (N : Nat) : KeptRun T E → (Nat → T) → Nat → T
  | .two A k, ψ => (optSweeps A N 0 (N - 1) k (ψ, 0)).1
  | .single A O k, ψ => (opt1Sweeps A O N k (ψ, 0)).1
  | .noisy A O C G bl br k, ψ => noisedMps A O C N (lbOf bl N) (rbOf br N) k (gauged G N (lbOf bl N) (rbOf br N) ψ, 0)

/-- `rm -r` of the temporary directory. -/
def wipe (d : Dsk T E) : Dsk T E := ⟨d.m, fun _ => .gone, fun _ => .gone⟩

/-- Calls one after the other on the same MPS directory and temporary directory, each with an empty MPS in memory. The
temporary directory is deleted before the calls marked `true`, and found by the others. -/
def keptRuns (N : Nat) : List (Bool × KeptRun T E) → Dsk T E → Except Err (Dsk T E)
  | [], d => .ok d
  | (del, r) :: rs, d =>
    match r.exec N (!del) ⟨Mem.blank 0, if del then wipe d else d⟩ with
    | .error e => .error e
    | .ok s => keptRuns N rs s.dsk

/-- **Specification**: the calls with exact environments throughout. -/
def idealRuns (N : Nat) : List (Bool × KeptRun T E) → (Nat → T) → Nat → T
  | [], ψ => ψ
  | (_, r) :: rs, ψ => idealRuns N rs (r.ideal N ψ)

/-- Two calls with the same Hamiltonian: the same environments. -/
structure SameEnv (A B : Alg T E) : Prop where
  tl : A.trivL = B.trivL
  tr : A.trivR = B.trivR
  gl : A.growL = B.growL
  gr : A.growR = B.growR

/-- **Specification**: when a temporary directory may be kept. A call that finds it must be for the same Hamiltonian as
the call before, its range must lie within that of the call before, and a single-site call must not come after one of the
two-site programs. The first argument is the call before. -/
def MayKeep (N : Nat) : Option (KeptRun T E) → List (Bool × KeptRun T E) → Prop
  | _, [] => True
  | _, (true, r) :: rs => MayKeep N (some r) rs
  | none, (false, _) :: _ => False
  | some c, (false, r) :: rs =>
    (SameEnv c.alg r.alg ∧ (c.range N).1 ≤ (r.range N).1 ∧ (r.range N).2 ≤ (c.range N).2 ∧
      (r.isSingle = true → c.isSingle = true)) ∧ MayKeep N (some r) rs

end Verif.Props
