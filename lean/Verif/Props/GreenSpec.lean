import Verif.Props.HamEnergySpec
import Verif.Props.TdvpProgram
import Verif.Props.MpiTdvpNum
/-
Specification for C89: dynamical correlation functions of fermions and spins in Fock space.
-/
namespace Verif.Fock
open Finset Verif.Mpo Verif.Mps Verif.Disk Verif.Algo Verif.Props Verif.Mpi

variable {d N : Nat}

/-- A vector of Fock space without its components outside the allowed occupations. -/
noncomputable def onlyAllowed (ok : Occ → Prop) (v : FockV ℂ N) : FockV ℂ N :=
  open Classical in WithLp.toLp 2 fun n => if ∀ i, ok (n i) then v n else 0

/-- An operator that the user can hand to `TwoSiteFiniteTDVP`: its tensor, the insertion operator to hand over with it, and the operator of Fock space it stands for at each site. -/
structure Probe (d N : Nat) where
  ten : Mpo.Op d ℂ
  inst : Option (Mpo.Op d ℂ)
  fock : Fin N → Matrix (Conf N) (Conf N) ℂ

/-- The table `res` of a run with the operators `A` (at `site0`, time 0) and `B`, from `ψ`, with reference `φ`; `Φ k` is the state after `k` steps. The run starts from `A_{site0} ψ`. The record
of time `k tau` and site `i` holds `exp(i e0 k tau) ⟨φ| B_i |Φ_k⟩`, all in Fock space. Norms never grow and, if nothing was cut, neither norm nor energy change. -/
structure Correlations (dec : Fin d → Occ) (ok : Occ → Prop) (H : Matrix (Conf N) (Conf N) ℂ) (A B : Fin N → Matrix (Conf N) (Conf N) ℂ) (nocut : Prop) (site0 : Fin N) (tau : Rat) (step : Nat)
    (e0 : ℝ) (ψ φ : ChainV (Fin d) ℂ N) (Φ : Nat → ChainV (Fin d) ℂ N) (res : List (Option (Mps.Cell ℂ))) : Prop where
  start : inFock dec (Φ 0) = onlyAllowed ok (Matrix.toEuclideanLin (A site0) (inFock dec ψ))
  length : res.length = N * (step + 1)
  cell : ∀ k (i : Fin N), k ≤ step → res[k * N + i]? = some (some ⟨(site0, i), (0, k * tau),
    Complex.exp (Complex.I * e0 * ((k * tau : Rat) : ℂ)) * inner ℂ (inFock dec φ) (Matrix.toEuclideanLin (B i) (inFock dec (Φ k)))⟩)
  norm : ∀ k, ‖inFock dec (Φ k)‖ ≤ ‖inFock dec (Φ 0)‖
  exact : nocut → ∀ k, ‖inFock dec (Φ k)‖ = ‖inFock dec (Φ 0)‖ ∧ fockEnergy H (inFock dec (Φ k)) = fockEnergy H (inFock dec (Φ 0))

/-- `TwoSiteFiniteTDVP` with the MPO `w` measures correlation functions of `A` and `B` in Fock space. -/
def Correlates (N : Nat) (w : Nat → Ten (Fin d × Fin d) ℂ) (dec : Fin d → Occ) (ok : Occ → Prop) (H : Matrix (Conf N) (Conf N) ℂ) (A B : Probe d N) : Prop :=
  ∀ (P : TdvpPar (Fin d)) (qr svd : Ten (Fin d) ℂ → Ten (Fin d) ℂ × Mat ℂ), P.w = w → P.mpi = false → BlkSplitR P.splitR → BlkSplitL P.splitL → Diagonalises P.eig → 2 ≤ P.maxIter → QRSpec qr →
    ∀ (site0 : Fin N) (tau : Rat) (step : Nat) (e0 : ℝ) (s : TdvpSys (Fin d)) (ψ φ : Nat → Ten (Fin d) ℂ), Slots s.m N (fun _ => Option.none) → OnDisk N ψ s.dsk → Closed N ψ →
      (∀ j, (site0 : Nat) < j → j < N → RightIso (ψ j)) → Closed N φ → (s.init = Option.none ∧ φ = ψ) ∨ s.init = some ((List.range N).map φ) →
      onlyAllowed ok (Matrix.toEuclideanLin (A.fock site0) (inFock dec (stateV N ψ))) ≠ 0 →
      ∃ s' res t, tdvpProgram qr svd P ⟨tau, step, site0, true, A.ten, A.inst, B.ten, B.inst, e0⟩ s = .ok (s', res) ∧ Mps.Canon N 0 t ∧
        OnDisk N (Mps.evolve N P t (tdvpActs N tau step)) s'.dsk ∧
        Correlations dec ok H A.fock B.fock P.NoCut site0 tau step e0 (stateV N ψ) (stateV N φ) (fun k => stateV N (Mps.evolve N P t (tdvpActs N tau k))) res

/-- So does the parallel `TwoSiteFiniteTDVP` with any number of workers, in every execution; it divides the MPS by the norm of the initial state. -/
def ParallelCorrelates (N : Nat) (w : Nat → Ten (Fin d × Fin d) ℂ) (dec : Fin d → Occ) (ok : Occ → Prop) (H : Matrix (Conf N) (Conf N) ℂ) (A B : Probe d N) : Prop :=
  ∀ (P : TdvpPar (Fin d)) (SL VL : Type) (L : MpiLib (Fin d) ℂ SL) (lact : Nat → SL → Act SL VL) (W : Nat) (qr svd : Ten (Fin d) ℂ → Ten (Fin d) ℂ × Mat ℂ), P.w = w → P.mpi = true →
    BlkSplitR P.splitR → BlkSplitL P.splitL → Diagonalises P.eig → EigLocal P.eig → 2 ≤ P.maxIter → QRSpec qr → 1 ≤ W → L.OKT P lact W →
    ∀ (site0 : Fin N) (tau : Rat) (step : Nat) (e0 : ℝ) (corr : Bool) (x : TdvpD (Fin d)) (ψ φ : Nat → Ten (Fin d) ℂ), Slots x.sys.m N (fun _ => Option.none) → OnDisk N ψ x.sys.dsk →
      Closed N ψ → (∀ j, (site0 : Nat) < j → j < N → RightIso (ψ j)) → Closed N φ → (x.sys.init = Option.none ∧ φ = ψ) ∨ x.sys.init = some ((List.range N).map φ) →
      onlyAllowed ok (Matrix.toEuclideanLin (A.fock site0) (inFock dec (stateV N ψ))) ≠ 0 →
      ∃ y t, Accepted (tdvpEng N P L) lact W .tdvp (tdvpStart N P L lact W qr svd ⟨tau, step, site0, corr, A.ten, A.inst, B.ten, B.inst, e0⟩ x) (.ok y) ∧ Mps.Canon N 0 t ∧
        OnDisk N (evolveP N t (tdvpPlan N P tau step)) y.sys.dsk ∧
        Correlations dec ok H A.fock B.fock P.NoCut site0 tau step e0 (stateV N ψ) (stateV N φ)
          (fun k => (‖onlyAllowed ok (Matrix.toEuclideanLin (A.fock site0) (inFock dec (stateV N ψ)))‖ : ℂ) • stateV N (evolveP N t (tdvpPlan N P tau k))) y.res

/-- Operators of a Hubbard site. -/
inductive HubProbe where
  | sz | sp | sm | nup | ndn | nf | nupndn | cupccdnc | cdnacupa | bupa | bupc | Fbdna | Fbdnc

/-- The tensors of `HubbardOperators`, with the parity operator `f` as insertion operator for a single fermion operator, and what they stand for. -/
noncomputable def HubProbe.probe (o : HubOps ℂ) (N : Nat) : HubProbe → Probe 4 N
  | .sz => ⟨o.sz, Option.none, Sz⟩
  | .sp => ⟨o.sp, Option.none, Sp⟩
  | .sm => ⟨o.sm, Option.none, Sm⟩
  | .nup => ⟨o.nup, Option.none, fun i => num (i, .up)⟩
  | .ndn => ⟨o.ndn, Option.none, fun i => num (i, .dn)⟩
  | .nf => ⟨o.nf, Option.none, density⟩
  | .nupndn => ⟨o.nupndn, Option.none, fun i => num (i, .up) * num (i, .dn)⟩
  | .cupccdnc => ⟨o.cupccdnc, Option.none, fun i => cre (i, .up) * cre (i, .dn)⟩
  | .cdnacupa => ⟨o.cdnacupa, Option.none, fun i => ann (i, .dn) * ann (i, .up)⟩
  | .bupa => ⟨o.bupa, some o.f, fun i => ann (i, .up)⟩
  | .bupc => ⟨o.bupc, some o.f, fun i => cre (i, .up)⟩
  | .Fbdna => ⟨o.Fbdna, some o.f, fun i => ann (i, .dn)⟩
  | .Fbdnc => ⟨o.Fbdnc, some o.f, fun i => -cre (i, .dn)⟩

/-- Operators of a t-J site. -/
inductive TjProbe where
  | sz | sp | sm | nup | ndn | nf | bupa | bupc | bdna | bdnc

/-- The tensors of `tJOperators`. -/
noncomputable def TjProbe.probe (o : TjOps ℂ) (N : Nat) : TjProbe → Probe 3 N
  | .sz => ⟨o.sz, Option.none, Sz⟩
  | .sp => ⟨o.sp, Option.none, Sp⟩
  | .sm => ⟨o.sm, Option.none, Sm⟩
  | .nup => ⟨o.nup, Option.none, fun i => num (i, .up)⟩
  | .ndn => ⟨o.ndn, Option.none, fun i => num (i, .dn)⟩
  | .nf => ⟨o.nf, Option.none, density⟩
  | .bupa => ⟨o.bupa, some o.f, fun i => ann (i, .up)⟩
  | .bupc => ⟨o.bupc, some o.f, fun i => cre (i, .up)⟩
  | .bdna => ⟨o.bdna, some o.f, fun i => ann (i, .dn)⟩
  | .bdnc => ⟨o.bdnc, some o.f, fun i => cre (i, .dn)⟩

/-- Operators of a spin-1/2 site. -/
inductive SpinProbe where
  | sz | sp | sm

/-- The tensors of `SpinOneHalfOperators`. -/
noncomputable def SpinProbe.probe (o : SpinOps ℂ) (N : Nat) : SpinProbe → Probe 2 N
  | .sz => ⟨o.sz, Option.none, Sz⟩
  | .sp => ⟨o.sp, Option.none, Sp⟩
  | .sm => ⟨o.sm, Option.none, Sm⟩

end Verif.Fock
