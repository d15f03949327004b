import Verif.Props.TdvpProgram
import Verif.Mps.FmpoFacts
import Verif.Mps.NormFacts
/-
C82: what the master of the MPI version of `TwoSiteFiniteTDVP` returns.

`strung`, `prodM`, `applyAt` are those of C81 (Verif/Props/TdvpProgram.lean), `tdvpPlan` of C73 (Verif/Mps/TdvpNumSpec.lean).
-/
namespace Verif.Props
open Finset Verif.Mps Verif.Disk Verif.Algo

variable {σ : Type} [Fintype σ] [DecidableEq σ] {N : Nat} {P : TdvpPar σ} {qr svd : Ten σ ℂ → Ten σ ℂ × Mat ℂ}

/-- The norm of the tensor at the centre is that of the state. -/
theorem tenNorm_center (hN : 0 < N) {t : Nat → Ten σ ℂ} (h : Mps.Canon N 0 t) : tenNorm (t 0) = ‖stateV N t‖ := by
  have g : ∀ {j : Nat} {u : Ten σ ℂ}, ((List.range N).map t)[j]? = some u → j < N ∧ t j = u := by
    intro j u hu
    have hj : j < N := by have := (List.getElem?_eq_some_iff.mp hu).1; simpa using this
    rw [List.getElem?_map, List.getElem?_range hj] at hu
    exact ⟨hj, by simpa using hu⟩
  have e := chainSq_center (ts := (List.range N).map t) (closed_lastR hN h.1).1 (closed_lastR hN h.1).2 (closed_linked h.1) (i := 0) (t := t 0)
    (by rw [List.getElem?_map, List.getElem?_range hN]; rfl) (fun j u hj => absurd hj (by omega)) (fun j u hj hu => by obtain ⟨a, rfl⟩ := g hu; exact h.2.2 j hj a)
  have key : ∀ {M : Nat} (hM : ((List.range N).map t).length = M), chainSq ((List.range N).map t) = ∑ x : Fin M → σ, amp ((List.range N).map t) (List.ofFn x) 0 0 * star (amp ((List.range N).map t) (List.ofFn x) 0 0) := by
    intro M hM; subst hM; rfl
  rw [key (M := N) (by simp)] at e
  have e1 : ((‖stateV N t‖ ^ 2 : ℝ) : ℂ) = ∑ x : Fin N → σ, amp ((List.range N).map t) (List.ofFn x) 0 0 * star (amp ((List.range N).map t) (List.ofFn x) 0 0) := by
    rw [EuclideanSpace.norm_sq_eq]
    push_cast
    refine sum_congr rfl fun x _ => ?_
    rw [show star (amp ((List.range N).map t) (List.ofFn x) 0 0) = (starRingEnd ℂ) (amp ((List.range N).map t) (List.ofFn x) 0 0) from rfl, Complex.mul_conj']
    rfl
  have e2 : normSq (t 0) = ((∑ a ∈ range (t 0).l, ∑ b ∈ range (t 0).r, ∑ s, ‖(t 0).v s a b‖ ^ 2 : ℝ) : ℂ) := by
    unfold normSq
    push_cast
    rw [sum_comm]
    refine sum_congr rfl fun a _ => ?_
    rw [sum_comm]
    refine sum_congr rfl fun b _ => sum_congr rfl fun s _ => ?_
    exact Complex.mul_conj' ((t 0).v s a b)
  rw [← e1, e2] at e
  unfold tenNorm
  rw [← Complex.ofReal_injective e, Real.sqrt_sq (norm_nonneg _)]

/-- The state after `Normalize()`. -/
theorem stateV_unit (hN : 0 < N) (t : Nat → Ten σ ℂ) : stateV N (Function.update t 0 (unitTen (t 0))) = (((tenNorm (t 0))⁻¹ : ℝ) : ℂ) • stateV N t := by
  have e : (List.range N).map (Function.update t 0 (unitTen (t 0))) = ((List.range N).map t).set 0 (scaleTen (((tenNorm (t 0))⁻¹ : ℝ) : ℂ) (t 0)) := by
    apply List.ext_getElem?
    intro j
    rw [List.getElem?_set, List.getElem?_map]
    by_cases hj : j < N
    · rw [List.getElem?_range hj]
      by_cases h0 : 0 = j
      · subst h0; simp [hN, unitTen]
      · rw [if_neg h0, List.getElem?_map, List.getElem?_range hj]
        simp [Function.update_of_ne (Ne.symm h0)]
    · rw [List.getElem?_eq_none (by simpa using hj), if_neg (by omega), List.getElem?_map, List.getElem?_eq_none (by simpa using hj)]
      rfl
  ext x
  show amp ((List.range N).map _) _ 0 0 = _
  rw [e, amp_scale_set _ 0 _ _ (by rw [List.getElem?_map, List.getElem?_range hN]; rfl)]
  rfl

theorem canon_unit {t : Nat → Ten σ ℂ} (h : Mps.Canon N 0 t) : Mps.Canon N 0 (Function.update t 0 (unitTen (t 0))) := by
  refine ⟨closed_update h.1 0 rfl rfl, fun j hj => absurd hj (by omega), fun j hj hj' => ?_⟩
  rw [Function.update_of_ne (by omega)]
  exact h.2.2 j hj hj'

theorem prepareM_ok {op : Mps.Op σ ℂ} {inst : Option (Mps.Op σ ℂ)} {site : Nat} {st : List (Ten σ ℂ) × FMps σ ℂ} {d : List (Ten σ ℂ)} {m' : FMps σ ℂ} {t : Ten σ ℂ}
    (h : tdvpPrepare qr svd true op inst site st = .ok (d, m')) (ht : d[0]? = some t) (hn : tenNorm t ≠ 0) :
    tdvpPrepareM qr svd op inst site st = .ok (d.set 0 (unitTen t), m', tenNorm t) := by
  unfold tdvpPrepare at h
  unfold tdvpPrepareM
  simp only [bind, Except.bind, pure, Except.pure, if_true] at h ⊢
  split at h
  · simp at h
  rename_i v e1
  cases hx : v.1[site]? with
  | none => simp [hx] at h
  | some t1 =>
  simp only [hx] at h ⊢
  cases e2 : v.2.load site t1 with
  | error e => simp [e2] at h
  | ok m2 =>
  simp only [e2] at h ⊢
  cases e3 : List.foldlM (canonStep qr svd) (v.1, m2) (List.range' 1 site).reverse with
  | error e => simp [e3] at h
  | ok w =>
  simp only [e3] at h ⊢
  cases e4 : w.2.read 0 with
  | error e => simp [e4] at h
  | ok t0 =>
  simp only [e4] at h ⊢
  cases e5 : w.2.dealloc 0 with
  | error e => simp [e5] at h
  | ok m4 =>
  simp only [e5, Except.ok.injEq, Prod.mk.injEq] at h ⊢
  obtain ⟨rfl, rfl⟩ := h
  have hl : 0 < w.1.length := by
    by_contra hc
    rw [List.getElem?_eq_none (by rw [List.length_set]; omega)] at ht
    simp at ht
  rw [List.getElem?_set_self hl, Option.some.injEq] at ht
  subst ht
  rw [if_neg hn]
  simp

theorem sweepM_between (hP : TdvpOK N P) (hN : 3 ≤ N) (tau : Rat) {φ t : Nat → Ten σ ℂ} {m : FMps σ ℂ} {s : TdvpSys σ} (h : Between N P φ t m s) :
    ∃ s', tdvpFiles N (sweepTM (tdvpAlg N P) (tdvpEvo P) N (tdvpEvo P.serial) tau) s = .ok s' ∧ Between N P φ (evolveP N t (tdvpStep N P tau)) m s' ∧ s'.files = s.files := by
  obtain ⟨⟨s1, r, g1, -, g3, -⟩, -⟩ := sweepTM_thru (tdvp_legs hP.spR hP.spL) (tdvp_legs (P := P.serial) hP.spR hP.spL) hN tau (mem := Mem.blank 0) h.dsk h.env
  rw [stepM_plan] at g1 g3
  refine ⟨{ s with dsk := s1.dsk }, ?_, ⟨g1, g3, h.init, h.mem⟩, rfl⟩
  unfold tdvpFiles
  rw [r]

theorem measM_between (hN : 3 ≤ N) {φ t : Nat → Ten σ ℂ} (ht : Closed N t) (hφ : Closed N φ) {m : FMps σ ℂ} {s : TdvpSys σ} (h : Between N P φ t m s) (o : TdvpObs σ) (nrm : ℝ) :
    ∃ s', tdvpMeasM N o nrm s = .ok (s', (List.range N).map fun i => (nrm : ℂ) * inner ℂ (stateV N φ) (applyAt N o.op1 o.inst1 i (stateV N t))) ∧ Between N P φ t m s' ∧
      (∀ j, j + 1 < N → s'.files j = Option.none) ∧ (s'.files (N - 1)).isSome ∧ (∀ j, N ≤ j → s'.files j = s.files j) := by
  obtain ⟨s', e, r⟩ := meas_between hN ht hφ h o
  refine ⟨s', ?_, r⟩
  unfold tdvpMeasM
  rw [e]
  simp only [bind, Except.bind, pure, Except.pure, List.map_map, Function.comp_def]

omit [Fintype σ] [DecidableEq σ] in
theorem tdvpPlan_succ (N : Nat) (P : TdvpPar σ) (tau : Rat) (k : Nat) : tdvpPlan N P tau (k + 1) = tdvpPlan N P tau k ++ tdvpStep N P tau := by
  unfold tdvpPlan
  rw [List.replicate_succ', List.flatten_append]
  simp

/-- **C82**. The master of the MPI version, from the situation of C81 (`local_op_corr` does not matter here). The run succeeds and returns `N * (step + 1)` cells; cell `k * N + i` holds the
sites `(site0, i)`, the times `(0, k * tau)` and `exp(i e0 k tau) ⟨φ|O1_i|Φ_k⟩` as in the serial version, with `Φ_0 = O0 ψ`. But `Φ_k` is the state of the MPS on disk, whose evolutions `tdvpPlan`
normalise, times the norm of `O0 ψ` taken before the first step. So no `Φ_k` is zero and none has a larger norm than `O0 ψ`; if nothing is discarded the norm and the energy are
those of `O0 ψ` at all times. The MPS on disk has norm at most one at the end. -/
theorem C82_tdvp_master (hQ : QRSpec qr) (hP : TdvpOK N P) (hN : 3 ≤ N) {o : TdvpObs σ} (h0 : o.site0 < N) {s : TdvpSys σ}
    (hs : Slots s.m N (fun _ => Option.none)) {ψ φ : Nat → Ten σ ℂ} (hd : OnDisk N ψ s.dsk) (hψ : Closed N ψ) (hr : ∀ j, o.site0 < j → j < N → RightIso (ψ j))
    (hφ : Closed N φ) (hi : (s.init = Option.none ∧ φ = ψ) ∨ s.init = some ((List.range N).map φ)) (hz : applyAt N o.op0 o.inst0 o.site0 (stateV N ψ) ≠ 0) :
    ∃ s' res t, tdvpMaster qr svd P o s = .ok (s', res) ∧ res.length = N * (o.step + 1) ∧ Mps.Canon N 0 t ∧
      (∀ Φ : Nat → ChainV σ ℂ N, Φ = (fun k => (‖applyAt N o.op0 o.inst0 o.site0 (stateV N ψ)‖ : ℂ) • stateV N (evolveP N t (tdvpPlan N P o.tau k))) →
        (∀ k i, k ≤ o.step → i < N → res[k * N + i]? = some (some ⟨(o.site0, i), (0, k * o.tau),
          Complex.exp (Complex.I * o.e0 * ((k * o.tau : Rat) : ℂ)) * inner ℂ (stateV N φ) (applyAt N o.op1 o.inst1 i (Φ k))⟩)) ∧
        Φ 0 = applyAt N o.op0 o.inst0 o.site0 (stateV N ψ) ∧
        (∀ k, Φ k ≠ 0 ∧ ‖Φ k‖ ≤ ‖Φ 0‖ ∧ (P.NoCut → ‖Φ k‖ = ‖Φ 0‖ ∧
          inner ℂ (Φ k) (Matrix.toEuclideanLin (opM N P.w) (Φ k)) = inner ℂ (Φ 0) (Matrix.toEuclideanLin (opM N P.w) (Φ 0))))) ∧
      OnDisk N (evolveP N t (tdvpPlan N P o.tau o.step)) s'.dsk ∧ ‖stateV N (evolveP N t (tdvpPlan N P o.tau o.step))‖ ≤ 1 ∧
      s'.init = some ((List.range N).map φ) ∧ Slots s'.m N (fun _ => Option.none) ∧
      (∀ j, j + 1 < N → s'.files j = Option.none) ∧ (s'.files (N - 1)).isSome ∧ (∀ j, N ≤ j → s'.files j = s.files j) := by
  have size : s.m.size = N := hs.len
  obtain ⟨s1, m', t0, c1, c2, c3, c5, p1, p2, hcan0, hst⟩ := prep_ok (svd := svd) hQ hN h0 hs hd hψ hr hi
  have hz0 : stateV N t0 ≠ 0 := by rw [hst]; exact hz
  have hn : tenNorm (t0 0) = ‖applyAt N o.op0 o.inst0 o.site0 (stateV N ψ)‖ := by rw [tenNorm_center (by omega) hcan0, hst]
  have hn0 : ‖applyAt N o.op0 o.inst0 o.site0 (stateV N ψ)‖ ≠ 0 := norm_ne_zero_iff.mpr hz
  set nn := ‖applyAt N o.op0 o.inst0 o.site0 (stateV N ψ)‖ with hnn
  set t := Function.update t0 0 (unitTen (t0 0)) with ht
  have hcan : Mps.Canon N 0 t := canon_unit hcan0
  have hunit : stateV N t = ((nn⁻¹ : ℝ) : ℂ) • applyAt N o.op0 o.inst0 o.site0 (stateV N ψ) := by rw [ht, stateV_unit (by omega), hn, hst]
  have hone : ‖stateV N t‖ = 1 := by
    rw [hunit, norm_smul, Complex.norm_real, Real.norm_of_nonneg (by positivity), ← hnn, inv_mul_cancel₀ hn0]
  have hz' : stateV N t ≠ 0 := by rw [← norm_ne_zero_iff, hone]; exact one_ne_zero
  have hback : (nn : ℂ) • stateV N t = applyAt N o.op0 o.inst0 o.site0 (stateV N ψ) := by
    rw [hunit, smul_smul, Complex.ofReal_inv, mul_inv_cancel₀ (by exact_mod_cast hn0), one_smul]
  have hp1 := prepareM_ok p1 (t := t0 0) (by rw [List.getElem?_map, List.getElem?_range (by omega)]; rfl) (by rw [hn]; exact hn0)
  have hset : ((List.range N).map t0).set 0 (unitTen (t0 0)) = (List.range N).map t := by
    apply List.ext_getElem?
    intro j
    rw [List.getElem?_set, List.getElem?_map, List.getElem?_map]
    by_cases hj : j < N
    · rw [List.getElem?_range hj]
      by_cases h0 : 0 = j
      · subst h0; simp [ht, hj]
      · rw [if_neg h0, ht]
        simp [Function.update_of_ne (Ne.symm h0)]
    · rw [List.getElem?_eq_none (by simpa using hj), if_neg (by omega)]
      rfl
  rw [hset, hn] at hp1
  obtain ⟨s3, i1, -, i3, i4, -⟩ := initEnvsT (A := tdvpAlg N P) hN (clk := 0) (ψ := t) (d := { s.dsk with m := rewrite ((List.range N).map t) s.dsk.m })
    (fun j hj => rewrite_map hj)
  have hb : Between N P φ t m' ⟨s3.dsk, s1.init, s1.files, m'⟩ := ⟨i3, i4, c3, rfl⟩
  have hall : ∀ k, Mps.Canon N (actEnds 0 ((tdvpPlan N P o.tau k).map Prod.snd)) (evolveP N t (tdvpPlan N P o.tau k)) ∧ stateV N (evolveP N t (tdvpPlan N P o.tau k)) ≠ 0 := by
    intro k
    have hp := (actPath_steps hN o.tau k (c := 0) (Or.inl rfl)).1
    rw [← plan_acts N P] at hp
    exact plan_canon _ (plan_items hP o.tau k) hp hcan hz'
  have hle : ∀ k, _ := fun k => plan_le (P := P) (tdvpPlan N P o.tau k) (plan_items hP o.tau k) (plan_w o.tau k)
    (by rw [plan_acts N P]; exact (actPath_steps hN o.tau k (c := 0) (Or.inl rfl)).1) hcan hz' hone.le
  have hev := steps_between (sw := tdvpFiles N (sweepTM (tdvpAlg N P) (tdvpEvo P) N (tdvpEvo P.serial) o.tau)) (meas := tdvpMeasM N o nn) (T := fun k => evolveP N t (tdvpPlan N P o.tau k))
    (obs := fun k => (List.range N).map fun i => (nn : ℂ) * inner ℂ (stateV N φ) (applyAt N o.op1 o.inst1 i (stateV N (evolveP N t (tdvpPlan N P o.tau k)))))
    (fun k s h => by simpa only [tdvpPlan_succ, evolveP_append] using sweepM_between hP hN o.tau h)
    (fun k s h => measM_between hN (hall k).1.1 hφ h o nn) hb
  obtain ⟨s4, res, e1, e2, e3, e4⟩ := C31_results (N := N) (site0 := o.site0) (tau := o.tau) (steps := o.step)
    (sweep := tdvpFiles N (sweepTM (tdvpAlg N P) (tdvpEvo P) N (tdvpEvo P.serial) o.tau)) (meas := tdvpMeasM N o nn) (phase := tdvpPhase o.e0)
    (s0 := ⟨s3.dsk, s1.init, s1.files, m'⟩)
    (obs := fun k => (List.range N).map fun i => (nn : ℂ) * inner ℂ (stateV N φ) (applyAt N o.op1 o.inst1 i (stateV N (evolveP N t (tdvpPlan N P o.tau k)))))
    (fun k _ => by obtain ⟨s', h1, -⟩ := hev k; exact ⟨s', h1, by simp⟩)
  obtain ⟨s5, g1, g2, g3, g4, g5⟩ := hev o.step
  obtain rfl : s5 = s4 := by rw [g1] at e2; simpa using e2
  refine ⟨s5, res, t, ?_, e3, hcan, ?_, g2.dsk, (hle o.step).1, g2.init, by rw [g2.mem]; exact p2, g3, g4, fun j hj => by rw [g5 j hj]; exact congrFun c5 j⟩
  · unfold tdvpMaster
    simp only [size, c1, bind, Except.bind, c2]
    rw [hp1]
    simp only
    rw [show tdvpFiles N (initEnvs (tdvpAlg N P) N 1) ⟨{ s.dsk with m := rewrite ((List.range N).map t) s.dsk.m }, s1.init, s1.files, m'⟩ = .ok ⟨s3.dsk, s1.init, s1.files, m'⟩ by
      unfold tdvpFiles; rw [i1]]
    exact e1
  · rintro Φ rfl
    refine ⟨fun k i hk hi' => ?_, hback, fun k => ⟨smul_ne_zero (by exact_mod_cast hn0) (hall k).2, ?_, fun hx => ?_⟩⟩
    · rw [e4 k i _ hk hi' (by rw [List.getElem?_map, List.getElem?_range hi']; rfl)]
      have hval : (nn : ℂ) * inner ℂ (stateV N φ) (applyAt N o.op1 o.inst1 i (stateV N (evolveP N t (tdvpPlan N P o.tau k)))) =
          inner ℂ (stateV N φ) (applyAt N o.op1 o.inst1 i ((nn : ℂ) • stateV N (evolveP N t (tdvpPlan N P o.tau k)))) := by
        unfold applyAt
        rw [map_smul, inner_smul_right]
      simp only [hval]
      congr 3
      by_cases hk0 : k = 0
      · subst hk0; simp
      · rw [if_neg hk0, tdvpPhase, mul_comm]
    · simp only [norm_smul]
      exact mul_le_mul_of_nonneg_left ((hle k).1.trans hone.ge) (norm_nonneg _)
    · obtain ⟨x1, x2⟩ := (hle k).2 hx hone
      refine ⟨?_, ?_⟩
      · simp only [norm_smul]
        rw [x1]
        exact congrArg _ hone.symm
      · simp only [map_smul, inner_smul_left, inner_smul_right]
        rw [x2]
        rfl

/-! ### The hypotheses can be met -/

/-- The chain, MPS and operators of C81, with the parallel solver; `local_op_corr` is set there. -/
example (N n : Nat) (hN : 3 ≤ N) (tau : Rat) : ∃ eig s' res, TdvpOK N (exTdvpFull N eig true) ∧ (exTdvpFull N eig true).mpi = true ∧
    tdvpMaster (qrE (K := ℂ) upEnum) (fun t => (t, fun _ _ => 0)) (exTdvpFull N eig true) (exObs n tau)
      ⟨⟨fun j => .whole (exUpC j), fun _ => .gone, fun _ => .gone⟩, Option.none, fun _ => Option.none, FMps.fresh N⟩ = .ok (s', res) ∧ res.length = N * (n + 1) := by
  obtain ⟨eig, he⟩ := eig_exists
  obtain ⟨s', res, t, h1, h2, -⟩ := C82_tdvp_master (svd := fun t => (t, fun _ _ => 0)) (qrE_spec (K := ℂ) upEnum) (exTdvpFull_ok (by omega) he true) hN (o := exObs n tau)
    (show 1 < N by omega) (s := ⟨⟨fun j => .whole (exUpC j), fun _ => .gone, fun _ => .gone⟩, Option.none, fun _ => Option.none, FMps.fresh N⟩) (ψ := exUpC) (φ := exUpC) (by
      have := slots_of_empty (m := (FMps.fresh N : FMps Bool ℂ)) (by simp [FMps.isEmpty, FMps.fresh])
      rwa [show (FMps.fresh N : FMps Bool ℂ).size = N by simp [FMps.size, FMps.fresh]] at this) (fun _ _ => rfl) (exUpC_canon N).1
    (fun j hj hj' => (exUpC_canon N).2.2 j (by omega) hj') (exUpC_canon N).1 (Or.inl ⟨rfl, rfl⟩) (exObs_ne hN n tau)
  exact ⟨eig, s', res, exTdvpFull_ok (by omega) he true, rfl, h1, h2⟩

end Verif.Props
