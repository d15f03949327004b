import Verif.Mpi.TnEngRun
import Verif.Props.TnNumEx
import Verif.Props.Threads
import Verif.Props.MpiVmpsNum
/-
C84: the parallel two-site optimisation with noise computes what the program in one process computes from the same noises, and is variational.
-/
namespace Verif.Props
open Finset Verif.Mps Verif.Disk Verif.Algo Verif.Mpi

section
variable {σ 𝕜 : Type} [RCLike 𝕜] [Fintype σ] [DecidableEq σ] {N : Nat} {P : TnPar σ 𝕜} {SL VL : Type} {L : NoiseLib σ 𝕜 SL} {lact : Nat → SL → Act SL VL} {W : Nat}

/-- The call of `TwoSiteFiniteVMPSWithNoise` with `W` workers: the master with its jobs, tensors in memory and files. -/
noncomputable def noiseStart (N : Nat) (P : TnPar σ 𝕜) (L : NoiseLib σ 𝕜 SL) (lact : Nat → SL → Act SL VL) (W : Nat) (G : Gauge (LTen σ 𝕜)) (noises : List ℝ) (bl br : Nat → Bool) (k : Nat)
    (s : Sys (LTen σ 𝕜) (Env3 𝕜)) : St (Pg (TX σ 𝕜) ℝ (MD σ 𝕜) SL VL) (PV (TX σ 𝕜) ℝ VL) :=
  ordersStart (tnEng N P L) lact W (masterJ3 (tnAlg N P.toVmpsPar) (tnCanon P) G (tnPost P) bl br N s.dsk noises k) (.ok s)

/-- The program in one process to which it is compared: all updates of sweep `s` are given `sweepNoise noises s`. -/
noncomputable def sweepPar (P : TnPar σ 𝕜) (noises : List ℝ) (lb rb clk : Nat) : TnPar σ 𝕜 := tnPreset P noises (2 * (rb - 1 - lb)) clk

omit [DecidableEq σ] in
theorem sweepPar_noise (noises : List ℝ) {lb rb : Nat} (h : lb + 2 ≤ rb) (clk s j : Nat) (hj : j < 2 * (rb - 1 - lb)) :
    (sweepPar P noises lb rb clk).noise (clk + s * (2 * (rb - 1 - lb)) + j) = sweepNoise noises s := by
  show Mpi.sweepNoise noises ((clk + s * (2 * (rb - 1 - lb)) + j - clk) / (2 * (rb - 1 - lb))) = _
  rw [show clk + s * (2 * (rb - 1 - lb)) + j - clk = j + s * (2 * (rb - 1 - lb)) by omega, Nat.add_mul_div_right _ _ (by omega), Nat.div_eq_of_lt hj, Nat.zero_add]

omit [DecidableEq σ] in
/-- **C84** (noises). What `sweepPar` says: every update `j` of sweep `s` is given the noise `noises[s]`, and the last noise of the list in the sweeps after its end. -/
theorem C84_noises {noises : List ℝ} (hne : noises ≠ []) {lb rb : Nat} (h : lb + 2 ≤ rb) (clk s j : Nat) (hj : j < 2 * (rb - 1 - lb)) :
    (sweepPar P noises lb rb clk).noise (clk + s * (2 * (rb - 1 - lb)) + j) = if hs : s < noises.length then noises[s] else noises.getLast hne := by
  have hpos := List.length_pos_iff.2 hne
  rw [sweepPar_noise noises h clk s j hj]
  unfold Mpi.sweepNoise
  split
  · rename_i hs
    rw [min_eq_left (by omega), List.getD_eq_getElem?_getD, List.getElem?_eq_getElem hs]; rfl
  · rw [min_eq_right (by omega), List.getD_eq_getElem?_getD, List.getElem?_eq_getElem (by omega), List.getLast_eq_getElem]; rfl

omit [DecidableEq σ] in
theorem post_canon (H : QRSpec P.qr) {lb : Nat} (hl : lb + 1 < N) {ψ : Nat → LTen σ 𝕜} (h : Mps.Canon N (lb + 1) (tens ψ)) :
    Mps.Canon N 0 (tens (centred (tnPost P) lb ψ)) ∧ stateV N (tens (centred (tnPost P) lb ψ)) = stateV N (tens ψ) := by
  obtain ⟨a, b, c⟩ := centre_fold (G := tnPost P) (fun i t u h => by
    obtain ⟨g, gi⟩ := rightQR_rg H h
    exact ⟨⟨_, g⟩, gi⟩) (lb + 1) ψ hl h.1 h.2.2
  exact ⟨⟨a, fun j hj => by omega, c⟩, b⟩

omit [DecidableEq σ] in
theorem post_e0 {lb : Nat} {ψ : Nat → LTen σ 𝕜} (j : Nat) : (centred (tnPost P) lb ψ j).e0 = (ψ j).e0 := by
  have : ∀ (l : List Nat) (ψ : Nat → LTen σ 𝕜), (∀ i ∈ l, 0 < i) → (l.foldl (gaugeR (tnPost P)) ψ j).e0 = (ψ j).e0 := by
    intro l
    induction l with
    | nil => exact fun ψ _ => rfl
    | cons i l ih =>
      intro ψ hl
      rw [List.foldl_cons, ih _ fun k hk => hl k (List.mem_cons_of_mem _ hk)]
      show (Function.update (Function.update ψ (i - 1) _) i _ j).e0 = _
      by_cases h1 : j = i
      · subst h1; rw [Function.update_self]; rfl
      · rw [Function.update_of_ne h1]
        by_cases h2 : j = i - 1
        · subst h2; rw [Function.update_self]; rfl
        · rw [Function.update_of_ne h2]
  exact this _ ψ fun i hi => by rw [List.mem_reverse, List.mem_range'_1] at hi; omega

/-- **C84** (same as in one process). With at least one worker and from an MPS on disk, and with any list of at least one noise: every execution of the parallel program ends, without crash, deadlock or left-over message,
in exactly the state, in memory and on disk, that the master's program reaches when it does all work itself (its threads one after the other, C40); and the MPS then on disk is the one the serial
`TwoSiteFiniteVMPSWithNoise` leaves when its updates are given the noises `noises[s]` of their sweeps, with the centre moved to site 0 by the post-processing. -/
theorem C84_same (hW : 1 ≤ W) (hP : TnOK N P) (hT : TriLocal P.tri) (hL : L.OKN P lact W) (hN : 3 ≤ N) (fuse : (l : Nat) → Fin l × σ ≃ Fin (l * Fintype.card σ)) (dmax : Nat)
    {noises : List ℝ} (_hne : noises ≠ []) (bl br : Nat → Bool) (k clk : Nat) {ψ : Nat → LTen σ 𝕜} {d : Dsk (LTen σ 𝕜) (Env3 𝕜)} {mem : Mem (LTen σ 𝕜) (Env3 𝕜)} (h0 : NoTensors mem clk) (hm : OnDisk N ψ d)
    (hj : ∀ k, d.r k ≠ .junk) (hr : Reusable (tnAlg N P.toVmpsPar) N (lbOf bl N) (rbOf br N) ψ d) :
    ∃ s' s₁ ψ', Accepted (tnEng N P L) lact W .vmps (noiseStart N P L lact W (vmpsG P.qr fuse dmax) noises bl br k ⟨mem, d⟩) (.ok s') ∧
      run N (N - 1) (inl none (mpiNoised (tnAlg N P.toVmpsPar) (tnOpt (sweepPar P noises (lbOf bl N) (rbOf br N) clk)) (tnCanon P) N (vmpsG P.qr fuse dmax) (tnPost P) bl br d k)) ⟨mem, d⟩ = .ok s' ∧
      run N N (noised (tnAlg N P.toVmpsPar) (tnOpt (sweepPar P noises (lbOf bl N) (rbOf br N) clk)) (tnCanon P) N (vmpsG P.qr fuse dmax) bl br d k) ⟨mem, d⟩ = .ok s₁ ∧
      ψ' = noisedMps (tnAlg N P.toVmpsPar) (tnOpt (sweepPar P noises (lbOf bl N) (rbOf br N) clk)) (tnCanon P) N (lbOf bl N) (rbOf br N) k (gauged (vmpsG P.qr fuse dmax) N (lbOf bl N) (rbOf br N) ψ, clk) ∧
      OnDisk N ψ' s₁.dsk ∧ OnDisk N (centred (tnPost P) (lbOf bl N) ψ') s'.dsk := by
  obtain ⟨b1, b2⟩ := bounds_ok bl br hN
  have H := tn_legs (N := N) (P := sweepPar P noises (lbOf bl N) (rbOf br N) clk) hP.spR hP.spL
  have HC := tnCanon_legs (N := N) (P := P) hP.qr
  have HG := vmpsG_laws (N := N) (P := P.toVmpsPar) hP.qr fuse dmax
  obtain ⟨s', r, o, -⟩ := seq_program (P := tnPost P) H HC HG bl br hN k h0 hm hj hr
  obtain ⟨s₁, r₁, o₁, -⟩ := C24_noised H HC HG bl br hN k h0 hm hj hr
  refine ⟨s', s₁, _, ?_, r, r₁, rfl, o₁, o⟩
  have hL' : L.OKN (sweepPar P noises (lbOf bl N) (rbOf br N) clk) lact W := ⟨hL.lib, hL.pick, hL.wr⟩
  have ha := C38_jobs (tn_laws (N := N) hL') hW .vmps _ (tn_jobs_ok (L := L) (C := tnCanon P) (G := vmpsG P.qr fuse dmax) (Q := tnPost P) (bl := bl) (br := br)
    (P := sweepPar P noises (lbOf bl N) (rbOf br N) clk) hN hP.iter (tnAlg N P.toVmpsPar) d noises k) (.ok ⟨mem, d⟩)
  rw [inl_program _ _ _ _ _ bl br hN, run_append] at r
  obtain ⟨s1, q1, q2⟩ := Disk.bind_ok r
  obtain ⟨s1', p1, p2, -⟩ := C20_boundary_envs (A := tnAlg N P.toVmpsPar) HG bl br (n := N - 1) hN h0 hm hj hr
  obtain rfl : s1' = s1 := Except.ok.inj (p1.symm.trans q1)
  have j1 := doesN_init (N := N) hL' (vmpsG P.qr fuse dmax) bl br d _ _ q1
  have j2 := counts_program hL' hP.iter hT (fun s j hj => sweepPar_noise noises b1 clk s j hj) k (tnCanon P) (tnPost P) (c := clk) p2.clk q2
  have e : (tnFull N (sweepPar P noises (lbOf bl N) (rbOf br N) clk) L).jobs (tnEng N (sweepPar P noises (lbOf bl N) (rbOf br N) clk) L)
      (masterJ3 (tnAlg N P.toVmpsPar) (tnCanon P) (vmpsG P.qr fuse dmax) (tnPost P) bl br N d noises k) (.ok ⟨mem, d⟩) = .ok s' := by
    unfold masterJ3
    rw [jobsN_append]
    refine Eq.trans (congrArg _ j1) j2
  rw [e] at ha
  exact ha

/-- **C84** (variational). Under the same conditions, with at least one sweep, a Hermitian MPO and the centre not behind the second site of the sweeps, and with noises that do not turn the state into zero: the MPS `ψ'` then on disk has its
canonical centre at site 0, and its state is that of an MPS `φ` which satisfies `TnResult`: not zero, the last energy `e` not below any lower bound of the Hamiltonian, and if nothing was discarded
normalised, with energy `e`, not above that of the initial MPS. -/
theorem C84_variational (hW : 1 ≤ W) (hP : TnOK N P) (hT : TriLocal P.tri) (hL : L.OKN P lact W) (hN : 3 ≤ N) (fuse : (l : Nat) → Fin l × σ ≃ Fin (l * Fintype.card σ)) (dmax : Nat)
    {noises : List ℝ} (hne : noises ≠ []) (bl br : Nat → Bool) {k : Nat} (hk : k ≠ 0) (clk : Nat) {ψ : Nat → LTen σ 𝕜} {d : Dsk (LTen σ 𝕜) (Env3 𝕜)} {mem : Mem (LTen σ 𝕜) (Env3 𝕜)} (h0 : NoTensors mem clk)
    (hm : OnDisk N ψ d) (hj : ∀ k, d.r k ≠ .junk) (hr : Reusable (tnAlg N P.toVmpsPar) N (lbOf bl N) (rbOf br N) ψ d) {c : Nat} (hc : c ≤ lbOf bl N + 1) (h : Mps.Canon N c (tens ψ))
    (hz : TnAlive N (sweepPar P noises (lbOf bl N) (rbOf br N) clk) (upds (lbOf bl N) (rbOf br N) k) (gauged (vmpsG P.qr fuse dmax) N (lbOf bl N) (rbOf br N) ψ, clk)
      (upds (lbOf bl N) (rbOf br N) k).length) :
    ∃ s' ψ' e, Accepted (tnEng N P L) lact W .vmps (noiseStart N P L lact W (vmpsG P.qr fuse dmax) noises bl br k ⟨mem, d⟩) (.ok s') ∧ OnDisk N ψ' s'.dsk ∧
      Mps.Canon N 0 (tens ψ') ∧ stateV N (tens ψ') ≠ 0 ∧ (ψ' (lbOf bl N + 1)).e0 = some e ∧
      (∀ E0, (∀ Φ : ChainV σ 𝕜 N, E0 * ‖Φ‖ ^ 2 ≤ Mps.expect (opM N P.w) Φ) → E0 ≤ e) ∧
      (P.NoCut → ‖stateV N (tens ψ')‖ = 1 ∧ Mps.expect (opM N P.w) (stateV N (tens ψ')) = e ∧
        e * ‖stateV N (tens ψ)‖ ^ 2 ≤ Mps.expect (opM N P.w) (stateV N (tens ψ))) := by
  obtain ⟨s', s₁, ψ', ha, -, -, hψ, -, o⟩ := C84_same hW hP hT hL hN fuse dmax hne bl br k clk h0 hm hj hr
  obtain ⟨b1, b2⟩ := bounds_ok bl br hN
  obtain ⟨g1, g2⟩ := vmpsG_canon hP.qr fuse dmax b1 b2 (c := c) (by omega) h
  have hP' : TnOK N (sweepPar P noises (lbOf bl N) (rbOf br N) clk) := ⟨hP.toParOK, hP.qr⟩
  obtain ⟨e, he⟩ := tn_result hP' b1 b2 hk clk (Or.inr rfl) g1 hz
  rw [g2, show tnCanon (sweepPar P noises (lbOf bl N) (rbOf br N) clk) = tnCanon P from rfl,
    show (sweepPar P noises (lbOf bl N) (rbOf br N) clk).toVmpsPar = P.toVmpsPar from rfl, ← hψ] at he
  obtain ⟨t1, t2, -, t4, -, t6, t7⟩ := he
  obtain ⟨c1, c2⟩ := post_canon (P := P) hP.qr (by omega) t1
  exact ⟨s', _, e, ha, o, c1, by rw [c2]; exact t2, (post_e0 _).trans t4, t6, fun hcut => by rw [c2]; exact t7 hcut⟩

/-- **C84** (without noise, or without cuts). If all noises are below the threshold of the code, or if nothing is discarded, an MPS that is not zero at the beginning never becomes zero, and all this holds. -/
theorem C84_alive (hW : 1 ≤ W) (hP : TnOK N P) (hT : TriLocal P.tri) (hL : L.OKN P lact W) (hN : 3 ≤ N) (fuse : (l : Nat) → Fin l × σ ≃ Fin (l * Fintype.card σ)) (dmax : Nat)
    {noises : List ℝ} (hne : noises ≠ []) (hq : (∀ x ∈ noises, |x| < 1e-10) ∨ P.NoCut) (bl br : Nat → Bool) {k : Nat} (hk : k ≠ 0) (clk : Nat) {ψ : Nat → LTen σ 𝕜} {d : Dsk (LTen σ 𝕜) (Env3 𝕜)}
    {mem : Mem (LTen σ 𝕜) (Env3 𝕜)} (h0 : NoTensors mem clk) (hm : OnDisk N ψ d) (hj : ∀ k, d.r k ≠ .junk) (hr : Reusable (tnAlg N P.toVmpsPar) N (lbOf bl N) (rbOf br N) ψ d)
    {c : Nat} (hc : c ≤ lbOf bl N + 1) (h : Mps.Canon N c (tens ψ)) (hz : stateV N (tens ψ) ≠ 0) :
    ∃ s' ψ' e, Accepted (tnEng N P L) lact W .vmps (noiseStart N P L lact W (vmpsG P.qr fuse dmax) noises bl br k ⟨mem, d⟩) (.ok s') ∧ OnDisk N ψ' s'.dsk ∧
      Mps.Canon N 0 (tens ψ') ∧ stateV N (tens ψ') ≠ 0 ∧ (ψ' (lbOf bl N + 1)).e0 = some e ∧
      (∀ E0, (∀ Φ : ChainV σ 𝕜 N, E0 * ‖Φ‖ ^ 2 ≤ Mps.expect (opM N P.w) Φ) → E0 ≤ e) ∧
      (P.NoCut → ‖stateV N (tens ψ')‖ = 1 ∧ Mps.expect (opM N P.w) (stateV N (tens ψ')) = e ∧
        e * ‖stateV N (tens ψ)‖ ^ 2 ≤ Mps.expect (opM N P.w) (stateV N (tens ψ))) := by
  obtain ⟨b1, b2⟩ := bounds_ok bl br hN
  obtain ⟨g1, g2⟩ := vmpsG_canon hP.qr fuse dmax b1 b2 (c := c) (by omega) h
  have hP' : TnOK N (sweepPar P noises (lbOf bl N) (rbOf br N) clk) := ⟨hP.toParOK, hP.qr⟩
  refine C84_variational hW hP hT hL hN fuse dmax hne bl br hk clk h0 hm hj hr hc h ?_
  rcases hq with hq | hq
  · refine C78_alive_silent hP' (fun n => ?_) b1 b2 k clk (Or.inr rfl) g1 (g2 ▸ hz)
    show |Mpi.sweepNoise noises _| < _
    unfold Mpi.sweepNoise
    generalize min _ (noises.length - 1) = x
    by_cases hx : x < noises.length
    · rw [List.getD_eq_getElem?_getD, List.getElem?_eq_getElem hx]
      exact hq _ (List.getElem_mem hx)
    · rw [List.getD_eq_getElem?_getD, List.getElem?_eq_none (by omega)]
      show |(0 : ℝ)| < _
      rw [abs_zero]
      norm_num
  · exact C78_alive_nocut hP' hq b1 b2 k clk (Or.inr rfl) g1 (g2 ▸ hz)

end

/-! ### The hypotheses can be met -/

/-- The libraries of the example of C79; the expansion appends every second component. -/
noncomputable def noiseDemo {σ 𝕜 : Type} [RCLike 𝕜] [Fintype σ] (e : Ten σ 𝕜) : NoiseLib σ 𝕜 (SvdDemo σ 𝕜) := ⟨libDemo e, fun _ _ w B => (List.range (B.r * w.r)).filter (· % 2 = 0)⟩

/-- The run on the Ising chain without truncation; the expansion is left out at every third site. -/
noncomputable def exTnMpi (N : Nat) (tri : TriSolver) (fuse : (l : Nat) → Fin l × Bool ≃ Fin (l * Fintype.card Bool)) : TnPar Bool ℝ :=
  ⟨(exDmrgFull N tri fuse).dense, fun i => (exDmrgFull N tri fuse).dense.w (i + 1), fun _ i _ _ => i % 3 == 2,
    fun dir i B => (noiseDemo exUp).pick dir ((exDmrgFull N tri fuse).dense.w i) ((exDmrgFull N tri fuse).dense.w (i + 1)) B, fun _ => 0, qrE upEnum⟩

/-- The transverse Ising chain of any length from three, any number of workers and of sweeps from one, any noises, the product state and an empty temporary directory. -/
example (N W k : Nat) (hN : 3 ≤ N) (hW : 1 ≤ W) (hk : 1 ≤ k) (bl br : Nat → Bool) (dmax : Nat) (ν : ℝ) (noises : List ℝ) : ∃ tri fuse s' ψ' e,
    Accepted (tnEng N (exTnMpi N tri fuse) (noiseDemo exUp)) (svdDemoAct (exDmrgFull N tri fuse)) W .vmps
      (noiseStart N (exTnMpi N tri fuse) (noiseDemo exUp) (svdDemoAct (exDmrgFull N tri fuse)) W (vmpsG (qrE (K := ℝ) upEnum) fuse dmax) (ν :: noises) bl br k
        ⟨Mem.blank 0, ⟨fun _ => .whole ⟨exUp, none⟩, fun _ => .gone, fun _ => .gone⟩⟩) (.ok s') ∧ OnDisk N ψ' s'.dsk ∧ (ψ' (lbOf bl N + 1)).e0 = some e ∧
      ‖stateV N (tens ψ')‖ = 1 := by
  obtain ⟨tri, ht, hl⟩ := local_solver_exists
  have hf : ∀ l, Nonempty (Fin l × Bool ≃ Fin (l * Fintype.card Bool)) := fun l => ⟨Fintype.equivFinOfCardEq (by simp)⟩
  have hD : DmrgOK N (exDmrgFull N tri fun l => (hf l).some) :=
    ⟨exIsingOp_ok (by omega), herm_of_sym (exIsingOp_sym N), fullR_spec upEnum, fullL_spec upEnum, qrE_spec upEnum, ht, by show 2 ≤ 10; omega⟩
  have hP : TnOK N (exTnMpi N tri fun l => (hf l).some) := ⟨hD.par (by omega), qrE_spec upEnum⟩
  have hcut : (exTnMpi N tri fun l => (hf l).some).NoCut := ⟨fullR_is upEnum, fullL_is upEnum⟩
  obtain ⟨s', ψ', e, h1, h2, -, -, h3, -, h4⟩ := C84_alive (ψ := fun _ => ⟨exUp, none⟩) (d := ⟨fun _ => .whole ⟨exUp, none⟩, fun _ => .gone, fun _ => .gone⟩) (c := 0) (L := noiseDemo exUp) hW hP hl
    ⟨libDemo_ok _ exUp hW, fun _ _ _ => rfl, fun _ => rfl⟩ hN (fun l => (hf l).some) dmax (noises := ν :: noises) (by simp) (Or.inr hcut) bl br (k := k) (by omega) 0 (blank_noTensors 0) (fun _ _ => rfl)
    (fun _ => by simp) (fun _ _ _ _ h => by cases h) (Nat.zero_le _) (exUp_canon N 0) (exUp_nz N)
  exact ⟨tri, _, s', ψ', e, h1, h2, h3, (h4 hcut).1⟩

end Verif.Props
