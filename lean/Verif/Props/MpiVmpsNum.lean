import Verif.Mpi.VmpsJobs
import Verif.Props.MpiOrders
import Verif.Props.VmpsBoundary
import Verif.Props.MpiDmrgNum
/-
C79: the parallel `TwoSiteFiniteVMPS` computes what the serial program computes, and is variational.
-/
namespace Verif.Props
open Finset Verif.Mps Verif.Disk Verif.Algo Verif.Mpi

section
variable {σ 𝕜 : Type} [RCLike 𝕜] [Fintype σ] [DecidableEq σ] {N : Nat} {P : VmpsPar σ 𝕜} {SL VL : Type} {L : MpiLib σ 𝕜 SL} {lact : Nat → SL → Act SL VL} {W : Nat}

/-- The call of `TwoSiteFiniteVMPS` with `W` workers: the master with its jobs, tensors in memory and files. -/
noncomputable def vmpsStart (N : Nat) (P : VmpsPar σ 𝕜) (L : MpiLib σ 𝕜 SL) (lact : Nat → SL → Act SL VL) (W : Nat) (G : Gauge (LTen σ 𝕜)) (bl br : Nat → Bool) (k : Nat)
    (s : Sys (LTen σ 𝕜) (Env3 𝕜)) : St (Pg (TX σ 𝕜) ℝ (MD σ 𝕜) SL VL) (PV (TX σ 𝕜) ℝ VL) :=
  ordersStart (vmpsEng N P L) lact W (masterJ (engAlg N P L) G bl br N s.dsk k) (.ok s)

/-- **C79** (same MPS as the serial program). With at least one worker and from an MPS on disk with its centre not behind the second site of the sweeps, and a Hermitian MPO: every execution of the parallel
`TwoSiteFiniteVMPS` ends, without crash, deadlock or left-over message, and the MPS then on disk is, tensor by tensor, the one the program in one process leaves there. -/
theorem C79_same (hW : 1 ≤ W) (hP : ParOK N P) (hT : TriLocal P.tri) (hL : L.OK P lact W) (hN : 3 ≤ N) {qr : Ten σ 𝕜 → Ten σ 𝕜 × Mat 𝕜} (hq : QRSpec qr)
    (fuse : (l : Nat) → Fin l × σ ≃ Fin (l * Fintype.card σ)) (dmax : Nat) (bl br : Nat → Bool) (k clk : Nat) {ψ : Nat → LTen σ 𝕜} {d : Dsk (LTen σ 𝕜) (Env3 𝕜)}
    {mem : Mem (LTen σ 𝕜) (Env3 𝕜)} (h0 : NoTensors mem clk) (hm : OnDisk N ψ d) (hj : ∀ k, d.r k ≠ .junk) (hr : Reusable (engAlg N P L) N (lbOf bl N) (rbOf br N) ψ d)
    (hr' : Reusable (tnAlg N P) N (lbOf bl N) (rbOf br N) ψ d) {c : Nat} (hc : c ≤ lbOf bl N + 1) (h : Mps.Canon N c (tens ψ)) (hz : stateV N (tens ψ) ≠ 0) :
    ∃ s' s₁ ψ', Accepted (vmpsEng N P L) lact W .vmps (vmpsStart N P L lact W (vmpsG qr fuse dmax) bl br k ⟨mem, d⟩) (.ok s') ∧
      run N (N - 1) (vmpsRun (tnAlg N P) (vmpsG qr fuse dmax) bl br N d k) ⟨mem, d⟩ = .ok s₁ ∧ OnDisk N ψ' s'.dsk ∧ OnDisk N ψ' s₁.dsk := by
  obtain ⟨s', r, o, -⟩ := C20_vmps_run (engAlg_legs (N := N) hL hP.iter hT hP.spR hP.spL) (engG_laws (N := N) hL hq fuse dmax) bl br hN k h0 hm hj hr
  obtain ⟨s₁, r₁, o₁, -⟩ := C20_vmps_run (tnAlg_legs hP.spR hP.spL) (vmpsG_laws hq fuse dmax) bl br hN k h0 hm hj hr'
  obtain ⟨b1, b2⟩ := bounds_ok bl br hN
  obtain ⟨g1, g2⟩ := vmpsG_canon hq fuse dmax b1 b2 (c := c) (by omega) h
  have hz' : stateV N (tens (gauged (vmpsG qr fuse dmax) N (lbOf bl N) (rbOf br N) ψ)) ≠ 0 := by rw [g2]; exact hz
  have hp := path_sweeps (N := N) b1 b2 k (c := lbOf bl N + 1) (Or.inr rfl)
  have ha := C38_jobs (vmps_laws (N := N) hL) hW .vmps _ (vmps_jobs_ok (L := L) (G := vmpsG qr fuse dmax) (bl := bl) (br := br) hN hP.iter (engAlg N P L) d k) (.ok ⟨mem, d⟩)
  rw [does_vmps _ bl br d k _ _ r] at ha
  refine ⟨s', s₁, _, ha, r₁, o, ?_⟩
  rw [optSweeps_fold, engV_fold (ψ := (gauged (vmpsG qr fuse dmax) N (lbOf bl N) (rbOf br N) ψ, clk)) hP hL hT _ hp.1 g1 hz']
  rw [optSweeps_fold, fold_tn (ψ := (gauged (vmpsG qr fuse dmax) N (lbOf bl N) (rbOf br N) ψ, clk)) hP _ hp.1 g1 hz'] at o₁
  exact o₁

/-- **C79** (variational). Under the same conditions and with at least one sweep, the MPS then on disk has its canonical centre at the second site of the sweeps and is not zero, the last
energy `e` reported is not below any lower bound of the Hamiltonian, and if nothing was discarded the MPS is normalised, `e` is its energy and is not above that of the initial MPS. -/
theorem C79_variational (hW : 1 ≤ W) (hP : ParOK N P) (hT : TriLocal P.tri) (hL : L.OK P lact W) (hN : 3 ≤ N) {qr : Ten σ 𝕜 → Ten σ 𝕜 × Mat 𝕜} (hq : QRSpec qr)
    (fuse : (l : Nat) → Fin l × σ ≃ Fin (l * Fintype.card σ)) (dmax : Nat) (bl br : Nat → Bool) {k : Nat} (hk : k ≠ 0) (clk : Nat) {ψ : Nat → LTen σ 𝕜} {d : Dsk (LTen σ 𝕜) (Env3 𝕜)}
    {mem : Mem (LTen σ 𝕜) (Env3 𝕜)} (h0 : NoTensors mem clk) (hm : OnDisk N ψ d) (hj : ∀ k, d.r k ≠ .junk) (hr : Reusable (engAlg N P L) N (lbOf bl N) (rbOf br N) ψ d)
    {c : Nat} (hc : c ≤ lbOf bl N + 1) (h : Mps.Canon N c (tens ψ)) (hz : stateV N (tens ψ) ≠ 0) :
    ∃ s' ψ' e, Accepted (vmpsEng N P L) lact W .vmps (vmpsStart N P L lact W (vmpsG qr fuse dmax) bl br k ⟨mem, d⟩) (.ok s') ∧ OnDisk N ψ' s'.dsk ∧
      Mps.Canon N (lbOf bl N + 1) (tens ψ') ∧ stateV N (tens ψ') ≠ 0 ∧ (ψ' (lbOf bl N + 1)).e0 = some e ∧ (ψ' (lbOf bl N + 2)).e0 = some e ∧
      (∀ E0, (∀ Φ : ChainV σ 𝕜 N, E0 * ‖Φ‖ ^ 2 ≤ Mps.expect (opM N P.w) Φ) → E0 ≤ e) ∧
      (NoCut P → ‖stateV N (tens ψ')‖ = 1 ∧ Mps.expect (opM N P.w) (stateV N (tens ψ')) = e ∧
        e * ‖stateV N (tens ψ)‖ ^ 2 ≤ Mps.expect (opM N P.w) (stateV N (tens ψ))) := by
  obtain ⟨s', r, o, -⟩ := C20_vmps_run (engAlg_legs (N := N) hL hP.iter hT hP.spR hP.spL) (engG_laws (N := N) hL hq fuse dmax) bl br hN k h0 hm hj hr
  have ha := C38_jobs (vmps_laws (N := N) hL) hW .vmps _ (vmps_jobs_ok (L := L) (G := vmpsG qr fuse dmax) (bl := bl) (br := br) hN hP.iter (engAlg N P L) d k) (.ok ⟨mem, d⟩)
  rw [does_vmps _ bl br d k _ _ r] at ha
  refine ⟨s', (optSweeps (engAlg N P L) N (lbOf bl N) (rbOf br N) k (gauged (vmpsG qr fuse dmax) N (lbOf bl N) (rbOf br N) ψ, clk)).1, ?_⟩
  have ho : OnDisk N (optSweeps (engAlg N P L) N (lbOf bl N) (rbOf br N) k (gauged (vmpsG qr fuse dmax) N (lbOf bl N) (rbOf br N) ψ, clk)).1 s'.dsk := o
  clear r
  obtain ⟨b1, b2⟩ := bounds_ok bl br hN
  obtain ⟨g1, g2⟩ := vmpsG_canon hq fuse dmax b1 b2 (c := c) (by omega) h
  rw [← g2] at hz ⊢
  have hp := path_sweeps (N := N) b1 b2 k (c := lbOf bl N + 1) (Or.inr rfl)
  rw [optSweeps_fold, engV_fold (ψ := (gauged (vmpsG qr fuse dmax) N (lbOf bl N) (rbOf br N) ψ, clk)) hP hL hT _ hp.1 g1 hz, ← optSweeps_fold] at ho ⊢
  have he := hp.2 hk
  obtain ⟨us, hus⟩ := upds_last b1 hk
  have hlen : us.length < (upds (lbOf bl N) (rbOf br N) k).length := by rw [hus]; simp
  have hg : (upds (lbOf bl N) (rbOf br N) k)[us.length]? = some (.l, lbOf bl N + 1) := by rw [hus]; simp
  have hf := fold_ok (ψ := (gauged (vmpsG qr fuse dmax) N (lbOf bl N) (rbOf br N) ψ, clk)) hP _ hp.1 g1 hz
  have hs : runAt N P (upds (lbOf bl N) (rbOf br N) k) (gauged (vmpsG qr fuse dmax) N (lbOf bl N) (rbOf br N) ψ, clk) (us.length + 1) =
      optSweeps (vmpsAlg N P) N (lbOf bl N) (rbOf br N) k (gauged (vmpsG qr fuse dmax) N (lbOf bl N) (rbOf br N) ψ, clk) := by
    unfold runAt; rw [List.take_of_length_le (by rw [hus]; simp), optSweeps_fold]
  rw [he, ← optSweeps_fold] at hf
  obtain ⟨-, -, e, hr, -⟩ := C62_update hP b1 b2 k clk (c := lbOf bl N + 1) (Or.inr rfl) g1 hz hlen
  have hr' := hr
  obtain ⟨u, hu, r1, r2⟩ := hr
  rw [hg] at hu
  obtain rfl := Option.some.inj hu
  rw [hs] at r1 r2
  refine ⟨e, ha, ho, hf.1, hf.2, r1, r2, fun E0 hE => ?_, fun hcut => ?_⟩
  · exact C62_lower_bound hP b1 b2 k clk (c := lbOf bl N + 1) (Or.inr rfl) g1 hz hE hr'
  · have := (C62_monotone hP hcut b1 b2 k clk (c := lbOf bl N + 1) (Or.inr rfl) g1 hz).1 _ _ hr'
    unfold stateAfter at this
    rw [hs] at this
    exact this

end

/-! ### The hypotheses can be met -/

/-- Libraries: every leg consists of two sectors. -/
noncomputable def libDemo {σ 𝕜 : Type} [RCLike 𝕜] [Fintype σ] (e : Ten σ 𝕜) : MpiLib σ 𝕜 (SvdDemo σ 𝕜) where
  sec k x := match k, x with
    | _, .val (.env e) => [e.d0 / 2, e.d0 - e.d0 / 2]
    | 0, .val (.site t) => [t.l / 2, t.l - t.l / 2]
    | _, .val (.site t) => [t.r / 2, t.r - t.r / 2]
    | _, _ => [0]
  sortMul deg n W := (exists_mulOrder deg n W).choose
  sortGrow deg n W := (exists_growOrder deg n W).choose
  svd := svdDemo e

theorem libDemo_ok {σ 𝕜 : Type} [RCLike 𝕜] [Fintype σ] [DecidableEq σ] (P : DmrgPar σ 𝕜) (e : Ten σ 𝕜) {W : Nat} (hW : 1 ≤ W) : (libDemo e).OK P.dense (svdDemoAct P) W where
  some k x := by
    unfold libDemo
    simp only []
    split <;> exact List.cons_ne_nil _ _
  env e := by
    show [e.d0 / 2, e.d0 - e.d0 / 2].sum = _
    simp only [List.sum_cons, List.sum_nil]
    omega
  left t := by
    show [t.l / 2, t.l - t.l / 2].sum = _
    simp only [List.sum_cons, List.sum_nil]
    omega
  right t := by
    show [t.r / 2, t.r - t.r / 2].sum = _
    simp only [List.sum_cons, List.sum_nil]
    omega
  sortMul deg n := (exists_mulOrder deg n W).choose_spec
  sortGrow deg n := (exists_growOrder deg n W).choose_spec
  svd T := by
    obtain ⟨⟨M, h1, h2⟩, h3, h4⟩ := svdDemo_ok P e hW T
    exact ⟨⟨M, h1, fun n s a b => ⟨(h2 n s a b).1, fun dir => ((h2 n s a b).2 dir).trans (by cases dir <;> rfl)⟩⟩, h3, h4⟩

/-- The transverse Ising chain of any length from three, any number of workers and of sweeps from one, the product state and an empty temporary directory; with truncation to two directions. -/
example (N W k : Nat) (hN : 3 ≤ N) (hW : 1 ≤ W) (hk : 1 ≤ k) (bl br : Nat → Bool) (dmax : Nat) : ∃ tri fuse s' ψ' e,
    Accepted (vmpsEng N (exDmrg N 2 tri fuse).dense (libDemo exUp)) (svdDemoAct (exDmrg N 2 tri fuse)) W .vmps
      (vmpsStart N (exDmrg N 2 tri fuse).dense (libDemo exUp) (svdDemoAct (exDmrg N 2 tri fuse)) W (vmpsG (qrE (K := ℝ) upEnum) fuse dmax) bl br k
        ⟨Mem.blank 0, ⟨fun _ => .whole ⟨exUp, none⟩, fun _ => .gone, fun _ => .gone⟩⟩) (.ok s') ∧ OnDisk N ψ' s'.dsk ∧ (ψ' (lbOf bl N + 1)).e0 = some e := by
  obtain ⟨tri, ht, hl⟩ := local_solver_exists
  have hf : ∀ l, Nonempty (Fin l × Bool ≃ Fin (l * Fintype.card Bool)) := fun l => ⟨Fintype.equivFinOfCardEq (by simp)⟩
  have hD : DmrgOK N (exDmrg N 2 tri fun l => (hf l).some) :=
    ⟨exIsingOp_ok (by omega), herm_of_sym (exIsingOp_sym N), cutR_spec upEnum 2, cutL_spec upEnum 2, qrE_spec upEnum, ht, by show 2 ≤ 10; omega⟩
  obtain ⟨s', ψ', e, h1, h2, -, -, h3, -⟩ := C79_variational (ψ := fun _ => ⟨exUp, none⟩) (d := ⟨fun _ => .whole ⟨exUp, none⟩, fun _ => .gone, fun _ => .gone⟩) (c := 0) hW (hD.par (by omega)) hl
    (libDemo_ok _ exUp hW) hN (qrE_spec upEnum) (fun l => (hf l).some) dmax bl br (k := k) (by omega) 0 (blank_noTensors 0) (fun _ _ => rfl) (fun _ => by simp)
    (fun _ _ _ _ h => by cases h) (Nat.zero_le _) (exUp_canon N 0) (exUp_nz N)
  exact ⟨tri, _, s', ψ', e, h1, h2, h3⟩

end Verif.Props
