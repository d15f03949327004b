import Verif.Props.HamEnergySpec
import Verif.Props.Measure
/-
Specification for C90: measurements of an MPS of fermions or spins as expectation values in Fock space.
-/
namespace Verif.Fock
open Verif.Mpo Verif.Mps Verif.Props

variable {𝕜 : Type} [RCLike 𝕜] {d N : Nat}

/-- The state of `N` sites held by a chain of tensors with outer bonds of dimension one. -/
noncomputable def vecOf (N : Nat) (ts : List (Ten (Fin d) 𝕜)) : ChainV (Fin d) 𝕜 N := WithLp.toLp 2 fun s => amp ts (List.ofFn s) 0 0

/-- `⟨Ψ|A|Ψ⟩` in Fock space (not divided by the norm). -/
noncomputable def mean (dec : Fin d → Occ) (Ψ : ChainV (Fin d) 𝕜 N) (A : Matrix (Conf N) (Conf N) 𝕜) : 𝕜 :=
  inner 𝕜 (inFock dec Ψ) (Matrix.toEuclideanLin A (inFock dec Ψ))

/-- A tensor the user hands to a measurement, and the operator of Fock space it stands for at each site. -/
structure Obs (𝕜 : Type) (d N : Nat) where
  ten : Mpo.Op d 𝕜
  fock : Fin N → Matrix (Conf N) (Conf N) 𝕜

/-- A user's MPS of `N` sites with the tensors `ts`: reached by calls that leave no stale flag, a tensor in every slot, matching bonds, outer bonds of dimension one. -/
structure UserMps (qr svd : Ten (Fin d) 𝕜 → Ten (Fin d) 𝕜 × Mat 𝕜) (N : Nat) (m : FMps (Fin d) 𝕜) (ts : List (Ten (Fin d) 𝕜)) : Prop where
  history : ∃ cs, FMps.history qr svd N cs = .ok m ∧ NoStale cs m
  full : m.slots = ts.map some
  link : Linked ts
  left : headL ts = 1
  right : lastR ts = 1

/-- `run`, a measurement, returns `out` of the state for every MPS of `N` sites, and leaves the MPS holding that same state. -/
def Measures {ρ : Type} (N : Nat) (run : (Ten (Fin d) 𝕜 → Ten (Fin d) 𝕜 × Mat 𝕜) → (Ten (Fin d) 𝕜 → Ten (Fin d) 𝕜 × Mat 𝕜) → FMps (Fin d) 𝕜 → Except Mps.Err (FMps (Fin d) 𝕜 × ρ))
    (out : ChainV (Fin d) 𝕜 N → ρ) : Prop :=
  ∀ (qr svd : Ten (Fin d) 𝕜 → Ten (Fin d) 𝕜 × Mat 𝕜) (m : FMps (Fin d) 𝕜) (ts : List (Ten (Fin d) 𝕜)), QRSpec qr → SVDSpec svd → UserMps qr svd N m ts →
    ∃ m' ts', run qr svd m = .ok (m', out (vecOf N ts)) ∧ m'.slots = ts'.map some ∧ vecOf N ts' = vecOf N ts

/-- `MeasureOneSiteOp` with the operators `os`: for every site `i` and every operator `A`, `⟨A_i⟩`. -/
def OneSite (dec : Fin d → Occ) (os : List (Obs 𝕜 d N)) : Prop :=
  Measures N (fun qr svd m => measureOneSite qr svd m (os.map Obs.ten)) fun Ψ => (List.finRange N).map fun i => os.map fun A => mean dec Ψ (A.fock i)

/-- `MeasureTwoSiteOp` with the operators `A`, `B` and the insertion operator `inst`: for every pair of sites `i < j`, `⟨A_i B_j⟩`. -/
def TwoSite [DecidableEq 𝕜] (dec : Fin d → Occ) (inst : Mpo.Op d 𝕜) (A B : Obs 𝕜 d N) : Prop :=
  ∀ pairs : List (Fin N × Fin N), (∀ p ∈ pairs, p.1 < p.2) →
    Measures N (fun qr svd m => measureTwo1 qr svd m A.ten B.ten inst (pairs.map fun p => [(p.1 : Nat), (p.2 : Nat)]))
      fun Ψ => pairs.map fun p => ([(p.1 : Nat), (p.2 : Nat)], mean dec Ψ (A.fock p.1 * B.fock p.2))

/-- `MeasureMultiSiteOp` with four operators and the insertion operators `f`, `id`, `f`: for all sites `i < j < k < l`, `⟨A_i B_j C_k D_l⟩`. -/
def FourSite [DecidableEq 𝕜] (dec : Fin d → Occ) (f id : Mpo.Op d 𝕜) (A B C D : Obs 𝕜 d N) : Prop :=
  ∀ quads : List (Fin N × Fin N × Fin N × Fin N), (∀ p ∈ quads, p.1 < p.2.1 ∧ p.2.1 < p.2.2.1 ∧ p.2.2.1 < p.2.2.2) →
    Measures N (fun qr svd m => measureMulti1 qr svd m (quads.map fun p =>
        ([A.ten, B.ten, C.ten, D.ten], [f, id, f], [(p.1 : Nat), (p.2.1 : Nat), (p.2.2.1 : Nat), (p.2.2.2 : Nat)])))
      fun Ψ => quads.map fun p => ([(p.1 : Nat), (p.2.1 : Nat), (p.2.2.1 : Nat), (p.2.2.2 : Nat)],
        mean dec Ψ (A.fock p.1 * B.fock p.2.1 * C.fock p.2.2.1 * D.fock p.2.2.2))

/-- Operators of a Hubbard site that need no string. -/
inductive HubSiteOp where
  | sz | sp | sm | nup | ndn | nf | nupndn | cupccdnc | cdnacupa

def HubSiteOp.obs (o : HubOps 𝕜) (N : Nat) : HubSiteOp → Obs 𝕜 4 N
  | .sz => ⟨o.sz, Sz⟩
  | .sp => ⟨o.sp, Sp⟩
  | .sm => ⟨o.sm, Sm⟩
  | .nup => ⟨o.nup, fun i => num (i, .up)⟩
  | .ndn => ⟨o.ndn, fun i => num (i, .dn)⟩
  | .nf => ⟨o.nf, density⟩
  | .nupndn => ⟨o.nupndn, fun i => num (i, .up) * num (i, .dn)⟩
  | .cupccdnc => ⟨o.cupccdnc, fun i => cre (i, .up) * cre (i, .dn)⟩
  | .cdnacupa => ⟨o.cdnacupa, fun i => ann (i, .dn) * ann (i, .up)⟩

/-- The tensor of a fermion operator at the left end of a string, and its sign. -/
inductive HubLeft where
  | bupcF | bupaF | bdnc | bdna

def HubLeft.obs (o : HubOps 𝕜) (N : Nat) : HubLeft → Obs 𝕜 4 N
  | .bupcF => ⟨o.bupcF, fun i => cre (i, .up)⟩
  | .bupaF => ⟨o.bupaF, fun i => ann (i, .up)⟩
  | .bdnc => ⟨o.bdnc, fun i => cre (i, .dn)⟩
  | .bdna => ⟨o.bdna, fun i => -ann (i, .dn)⟩

/-- The tensor of a fermion operator at the right end of a string, and its sign. -/
inductive HubRight where
  | bupc | bupa | Fbdnc | Fbdna

def HubRight.obs (o : HubOps 𝕜) (N : Nat) : HubRight → Obs 𝕜 4 N
  | .bupc => ⟨o.bupc, fun i => cre (i, .up)⟩
  | .bupa => ⟨o.bupa, fun i => ann (i, .up)⟩
  | .Fbdnc => ⟨o.Fbdnc, fun i => -cre (i, .dn)⟩
  | .Fbdna => ⟨o.Fbdna, fun i => ann (i, .dn)⟩

/-- Operators of a t-J site that need no string. The two composite tensors stand for the operator the other one is named after (C70). -/
inductive TjSiteOp where
  | sz | sp | sm | nup | ndn | nf | bdnc_multi_bupa | bupc_multi_bdna

def TjSiteOp.obs (o : TjOps 𝕜) (N : Nat) : TjSiteOp → Obs 𝕜 3 N
  | .sz => ⟨o.sz, Sz⟩
  | .sp => ⟨o.sp, Sp⟩
  | .sm => ⟨o.sm, Sm⟩
  | .nup => ⟨o.nup, fun i => num (i, .up)⟩
  | .ndn => ⟨o.ndn, fun i => num (i, .dn)⟩
  | .nf => ⟨o.nf, density⟩
  | .bdnc_multi_bupa => ⟨o.bdnc_multi_bupa, fun i => cre (i, .up) * ann (i, .dn)⟩
  | .bupc_multi_bdna => ⟨o.bupc_multi_bdna, fun i => cre (i, .dn) * ann (i, .up)⟩

inductive TjFermion where
  | bupc | bupa | bdnc | bdna

/-- At the left end of a string the annihilation operators come with a minus sign. -/
def TjFermion.left (o : TjOps 𝕜) (N : Nat) : TjFermion → Obs 𝕜 3 N
  | .bupc => ⟨o.bupc, fun i => cre (i, .up)⟩
  | .bupa => ⟨o.bupa, fun i => -ann (i, .up)⟩
  | .bdnc => ⟨o.bdnc, fun i => cre (i, .dn)⟩
  | .bdna => ⟨o.bdna, fun i => -ann (i, .dn)⟩

def TjFermion.right (o : TjOps 𝕜) (N : Nat) : TjFermion → Obs 𝕜 3 N
  | .bupc => ⟨o.bupc, fun i => cre (i, .up)⟩
  | .bupa => ⟨o.bupa, fun i => ann (i, .up)⟩
  | .bdnc => ⟨o.bdnc, fun i => cre (i, .dn)⟩
  | .bdna => ⟨o.bdna, fun i => ann (i, .dn)⟩

/-- Operators of a spin-1/2 site; `im` is the imaginary unit the library was given. -/
inductive SpinSiteOp where
  | sz | sp | sm | sx | sy

def SpinSiteOp.obs (o : SpinOps 𝕜) (im : 𝕜) (N : Nat) : SpinSiteOp → Obs 𝕜 2 N
  | .sz => ⟨o.sz, Sz⟩
  | .sp => ⟨o.sp, Sp⟩
  | .sm => ⟨o.sm, Sm⟩
  | .sx => ⟨o.sx, fun i => (2⁻¹ : 𝕜) • (Sp i + Sm i)⟩
  | .sy => ⟨o.sy, fun i => (-(2⁻¹ * im) : 𝕜) • (Sp i - Sm i)⟩

end Verif.Fock
