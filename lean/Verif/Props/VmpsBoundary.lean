import Verif.Mps.VmpsGauge
import Verif.Props.Vmps
import Verif.Props.Boundary
import Verif.Mps.VmpsInst
import Verif.Mps.InstE
/-
C62: the whole program, with the changes of gauge at the ends of the chain and the sweeps between the sites they leave.
-/
namespace Verif.Props
open Finset Verif.Mps Verif.Disk Verif.Algo

variable {σ 𝕜 : Type} [RCLike 𝕜] [Fintype σ] [DecidableEq σ] {N : Nat} {P : VmpsPar σ 𝕜}

theorem tn_opt (c : Nat) (dir : Dir) (i : Nat) (e f : Env3 𝕜) (t u : LTen σ 𝕜) : (tnAlg N P).opt c dir i e f t u = (vmpsAlg N P).opt c dir i e f t u := rfl

/-- On a closed chain the updates are those of `vmpsAlg`. -/
theorem opt1_tn {ψ : (Nat → LTen σ 𝕜) × Nat} (ht : Closed N (tens ψ.1)) {u : Dir × Nat} (hu : u.2 + 1 < N) : opt1 (tnAlg N P) N ψ u = opt1 (vmpsAlg N P) N ψ u := by
  obtain ⟨d, i⟩ := u
  simp only at hu
  cases d with
  | r =>
    unfold opt1 optR
    simp only []
    rw [lenv_tn, renv_tn ht _ (by omega), tn_opt]
  | l =>
    unfold opt1 optL
    simp only []
    rw [lenv_tn, renv_tn ht _ (by omega), tn_opt]

theorem fold_tn (hP : ParOK N P) (us : List (Dir × Nat)) {ψ : (Nat → LTen σ 𝕜) × Nat} {c : Nat} (hp : Path N c us) (h : Mps.Canon N c (tens ψ.1)) (hz : stateV N (tens ψ.1) ≠ 0) :
    us.foldl (opt1 (tnAlg N P) N) ψ = us.foldl (opt1 (vmpsAlg N P) N) ψ := by
  induction us generalizing ψ c with
  | nil => rw [List.foldl_nil, List.foldl_nil]
  | cons u us ih =>
    obtain ⟨a, b, -⟩ := opt1_ok hP hp.1 hp.2.1 h hz
    rw [List.foldl_cons, List.foldl_cons, opt1_tn h.1 hp.2.1]
    exact ih hp.2.2 a b

theorem tnAlg_legs (hR : BlkSplitR P.splitR) (hL : BlkSplitL P.splitL) : (tnAlg N P).Legs :=
  ⟨fun c d i e f t u => (vmps_legs (N := N) hR hL).left c d i e f t u, fun c d i e f t u => (vmps_legs (N := N) hR hL).right c d i e f t u⟩

/-- **C62** (the program with its changes of gauge). `TwoSiteFiniteVMPS` on at least three sites with at least one sweep, wherever the bond dimensions put the first and last site of the sweeps,
from an MPS on disk with its centre not behind the second site of the sweeps and a Hermitian MPO, with a temporary directory that is empty or belongs to the MPS: the call succeeds, the MPS then on disk has its
canonical centre at the second site of the sweeps and is not zero, and the energy `e` returned, that of the last update, is not below any lower bound of the Hamiltonian. If nothing was discarded, the
MPS on disk is normalised, `e` is its energy, and it is not above that of the initial MPS. -/
theorem C62_program (hP : ParOK N P) (hN : 3 ≤ N) {qr : Ten σ 𝕜 → Ten σ 𝕜 × Mat 𝕜} (hq : QRSpec qr) (fuse : (l : Nat) → Fin l × σ ≃ Fin (l * Fintype.card σ)) (dmax : Nat)
    (bl br : Nat → Bool) {k : Nat} (hk : k ≠ 0) (clk : Nat) {ψ : Nat → LTen σ 𝕜} {d : Dsk (LTen σ 𝕜) (Env3 𝕜)} {mem : Mem (LTen σ 𝕜) (Env3 𝕜)} (h0 : NoTensors mem clk)
    (hm : OnDisk N ψ d) (hj : ∀ k, d.r k ≠ .junk) (hr : Reusable (tnAlg N P) N (lbOf bl N) (rbOf br N) ψ d) {c : Nat} (hc : c ≤ lbOf bl N + 1) (h : Mps.Canon N c (tens ψ))
    (hz : stateV N (tens ψ) ≠ 0) :
    ∃ s' ψ' e, run N (N - 1) (vmpsRun (tnAlg N P) (vmpsG qr fuse dmax) bl br N d k) ⟨mem, d⟩ = .ok s' ∧ OnDisk N ψ' s'.dsk ∧
      Mps.Canon N (lbOf bl N + 1) (tens ψ') ∧ stateV N (tens ψ') ≠ 0 ∧ (ψ' (lbOf bl N + 1)).e0 = some e ∧ (ψ' (lbOf bl N + 2)).e0 = some e ∧
      (∀ E0, (∀ Φ : ChainV σ 𝕜 N, E0 * ‖Φ‖ ^ 2 ≤ expect (opM N P.w) Φ) → E0 ≤ e) ∧
      (NoCut P → ‖stateV N (tens ψ')‖ = 1 ∧ expect (opM N P.w) (stateV N (tens ψ')) = e ∧
        e * ‖stateV N (tens ψ)‖ ^ 2 ≤ expect (opM N P.w) (stateV N (tens ψ))) := by
  obtain ⟨s', r, o, -⟩ := C20_vmps_run (tnAlg_legs hP.spR hP.spL) (vmpsG_laws hq fuse dmax) bl br hN k h0 hm hj hr
  obtain ⟨b1, b2⟩ := bounds_ok bl br hN
  obtain ⟨g1, g2⟩ := vmpsG_canon hq fuse dmax b1 b2 (c := c) (by omega) h
  rw [← g2] at hz ⊢
  clear g2
  generalize lbOf bl N = lb at *
  generalize rbOf br N = rb at *
  generalize gauged (vmpsG qr fuse dmax) N lb rb ψ = φ at *
  have hp := path_sweeps (N := N) b1 b2 k (c := lb + 1) (Or.inr rfl)
  rw [optSweeps_fold, fold_tn (ψ := (φ, clk)) hP _ hp.1 g1 hz, ← optSweeps_fold] at o
  have he := hp.2 hk
  obtain ⟨us, hus⟩ := upds_last b1 hk
  have hlen : us.length < (upds lb rb k).length := by rw [hus]; simp
  have hg : (upds lb rb k)[us.length]? = some (.l, lb + 1) := by rw [hus]; simp
  have hf := fold_ok (ψ := (φ, clk)) hP _ hp.1 g1 hz
  have hs : runAt N P (upds lb rb k) (φ, clk) (us.length + 1) = optSweeps (vmpsAlg N P) N lb rb k (φ, clk) := by
    unfold runAt; rw [List.take_of_length_le (by rw [hus]; simp), optSweeps_fold]
  rw [he, ← optSweeps_fold] at hf
  obtain ⟨-, -, e, hr, -⟩ := C62_update hP b1 b2 k clk (c := lb + 1) (Or.inr rfl) g1 hz hlen
  have hr' := hr
  obtain ⟨u, hu, r1, r2⟩ := hr
  rw [hg] at hu
  obtain rfl := Option.some.inj hu
  rw [hs] at r1 r2
  refine ⟨s', _, e, r, o, hf.1, hf.2, r1, r2, fun E0 hE => ?_, fun hcut => ?_⟩
  · exact C62_lower_bound hP b1 b2 k clk (c := lb + 1) (Or.inr rfl) g1 hz hE hr'
  · have := (C62_monotone hP hcut b1 b2 k clk (c := lb + 1) (Or.inr rfl) g1 hz).1 _ _ hr'
    unfold stateAfter at this
    rw [hs] at this
    exact this

/-- The hypotheses hold for the Ising chain of any length from three, the product state and an empty temporary directory, with truncation to two directions and without truncation. -/
example (N : Nat) (hN : 3 ≤ N) (lb rb : Nat) : ∃ tri, ParOK N (exPar N 2 tri) ∧ ParOK N (exParFull N tri) ∧ NoCut (exParFull N tri) ∧ QRSpec (qrE (K := ℝ) upEnum) ∧
    Mps.Canon N 0 (tens fun _ => (⟨exUp, none⟩ : LTen Bool ℝ)) ∧ stateV N (tens fun _ => (⟨exUp, none⟩ : LTen Bool ℝ)) ≠ 0 ∧
    Reusable (tnAlg N (exPar N 2 tri)) N lb rb (fun _ => ⟨exUp, none⟩) ⟨fun _ => .whole ⟨exUp, none⟩, fun _ => .gone, fun _ => .gone⟩ := by
  obtain ⟨tri, ht⟩ := solver_exists
  exact ⟨tri, exPar_ok (by omega) ht, exParFull_ok (by omega) ht, ⟨fullR_is upEnum, fullL_is upEnum⟩, qrE_spec upEnum, exUp_canon N 0, exUp_nz N, fun _ _ _ _ h => by cases h⟩

end Verif.Props
