import Verif.Mps.TdvpProgFacts
/-
C81: what a run of `TwoSiteFiniteTDVP` returns.

`stateV N t` is the state of the tensors `t`, `H = opM N P.w` the operator of the MPO (Verif/Mps/VmpsSpec.lean).
-/
namespace Verif.Props
open Finset Verif.Mps Verif.Disk Verif.Algo

section spec
variable {σ : Type} [Fintype σ] [DecidableEq σ]

/-- **Specification**: the operator `o` at site `i` with the insertion operator (the identity if there is none) on all sites before it. The entry `(x, y)` of an
operator takes the incoming state `x` to the outgoing state `y`. -/
def strung (o : Mps.Op σ ℂ) (inst : Option (Mps.Op σ ℂ)) (i j : Nat) : Mps.Op σ ℂ := if j < i then inst.getD idOp else if j = i then o else idOp

/-- **Specification**: the product of the operators `O j` as a matrix on the configurations of `N` sites. -/
def prodM (N : Nat) (O : Nat → Mps.Op σ ℂ) : Matrix (Fin N → σ) (Fin N → σ) ℂ := Matrix.of fun s' s => ∏ j : Fin N, O j (s j) (s' j)

/-- **Specification**: `o` with its string applied to a state. -/
noncomputable def applyAt (N : Nat) (o : Mps.Op σ ℂ) (inst : Option (Mps.Op σ ℂ)) (i : Nat) (Ψ : ChainV σ ℂ N) : ChainV σ ℂ N :=
  Matrix.toEuclideanLin (prodM N (strung o inst i)) Ψ

end spec

variable {σ : Type} [Fintype σ] [DecidableEq σ] {N : Nat} {P : TdvpPar σ} {qr svd : Ten σ ℂ → Ten σ ℂ × Mat ℂ}

theorem matel_of {ts us : List (Ten σ ℂ)} (h : ts.length = N) (O : Nat → Mps.Op σ ℂ) :
    matel ts us O = ∑ s : Fin N → σ, ∑ s' : Fin N → σ, amp ts (List.ofFn s) 0 0 * (∏ i : Fin N, O i (s i) (s' i)) * star (amp us (List.ofFn s') 0 0) := by
  subst h; rfl

theorem matel_inner (t u : Nat → Ten σ ℂ) (O : Nat → Mps.Op σ ℂ) :
    matel ((List.range N).map t) ((List.range N).map u) O = inner ℂ (stateV N u) (Matrix.toEuclideanLin (prodM N O) (stateV N t)) := by
  rw [matel_of (N := N) (by simp), PiLp.inner_apply, Finset.sum_comm]
  refine Finset.sum_congr rfl fun s' _ => ?_
  rw [RCLike.inner_apply, Matrix.toEuclideanLin_apply]
  show _ = (∑ s, prodM N O s' s * stateV N t s) * _
  rw [Finset.sum_mul]
  refine Finset.sum_congr rfl fun s _ => ?_
  show _ = (∏ j : Fin N, O j (s j) (s' j)) * amp ((List.range N).map t) (List.ofFn s) 0 0 * star (amp ((List.range N).map u) (List.ofFn s') 0 0)
  ring

theorem tdvpActs_succ (N : Nat) (tau : Rat) (k : Nat) : tdvpActs N tau (k + 1) = tdvpActs N tau k ++ tdvpSchedule N tau := by
  unfold tdvpActs
  rw [List.replicate_succ', List.flatten_append]
  simp

/-- The state between the steps. -/
structure Between (N : Nat) (P : TdvpPar σ) (φ t : Nat → Ten σ ℂ) (m : FMps σ ℂ) (s : TdvpSys σ) : Prop where
  dsk : OnDisk N t s.dsk
  env : EnvReadyT (tdvpAlg N P) N t s.dsk
  init : s.init = some ((List.range N).map φ)
  mem : s.m = m

theorem sweep_between (hP : TdvpOK N P) (hN : 3 ≤ N) (tau : Rat) {φ t : Nat → Ten σ ℂ} {m : FMps σ ℂ} {s : TdvpSys σ} (h : Between N P φ t m s) :
    ∃ s', tdvpFiles N (sweepT (tdvpAlg N P) (tdvpEvo P) N tau) s = .ok s' ∧ Between N P φ (Mps.evolve N P t (tdvpSchedule N tau)) m s' ∧ s'.files = s.files := by
  obtain ⟨⟨s1, r, g1, -, g3, -⟩, -⟩ := sweepT_thru (tdvp_legs hP.spR hP.spL) hN tau (mem := Mem.blank 0) h.dsk h.env
  refine ⟨{ s with dsk := s1.dsk }, ?_, ⟨g1, g3, h.init, h.mem⟩, rfl⟩
  unfold tdvpFiles
  rw [r]

theorem meas_between (hN : 3 ≤ N) {φ t : Nat → Ten σ ℂ} (ht : Closed N t) (hφ : Closed N φ) {m : FMps σ ℂ} {s : TdvpSys σ} (h : Between N P φ t m s) (o : TdvpObs σ) :
    ∃ s', tdvpMeas N o s = .ok (s', (List.range N).map fun i => inner ℂ (stateV N φ) (applyAt N o.op1 o.inst1 i (stateV N t))) ∧ Between N P φ t m s' ∧
      (∀ j, j + 1 < N → s'.files j = Option.none) ∧ (s'.files (N - 1)).isSome ∧ (∀ j, N ≤ j → s'.files j = s.files j) := by
  have len : ((List.range N).map t).length = N := by simp
  obtain ⟨st, e, -, -, f1, f2, f3⟩ := C31_measurement (closed_linked ht) (closed_linked hφ) (by simp) (by simp; omega)
    (closed_lastR (by omega) ht).1 (closed_lastR (by omega) ht).2 (closed_lastR (by omega) hφ).1 (closed_lastR (by omega) hφ).2 o.op1 o.inst1 s.files
  rw [len] at e f1 f2 f3
  refine ⟨{ s with files := st.files }, ?_, ⟨h.dsk, h.env, h.init, h.mem⟩, f1, f2, f3⟩
  unfold tdvpMeas
  rw [complete_all (ψ := t) h.dsk, h.init]
  simp only [Option.getD_some, bind, Except.bind]
  rw [e]
  simp only [pure, Except.pure, Except.ok.injEq, Prod.mk.injEq, true_and]
  refine List.map_congr_left fun i _ => ?_
  rw [matel_inner]
  rfl

theorem canon_actEnds (hN : 3 ≤ N) (tau : Rat) (k : Nat) (hP : TdvpOK N P) {t : Nat → Ten σ ℂ} (h : Mps.Canon N 0 t) (hz : stateV N t ≠ 0) :
    Closed N (Mps.evolve N P t (tdvpActs N tau k)) :=
  (acts_canon hP _ (actPath_steps hN tau k (Or.inl rfl)).1 h hz).1.1

/-- Any sweep that takes `T k` to `T (k + 1)` and any measurement that finds `obs k`. -/
theorem steps_between {φ : Nat → Ten σ ℂ} {m : FMps σ ℂ} {sw : TdvpSys σ → Except Mps.Err (TdvpSys σ)} {meas : TdvpSys σ → Except Mps.Err (TdvpSys σ × List ℂ)}
    {T : Nat → Nat → Ten σ ℂ} {obs : Nat → List ℂ} (hsw : ∀ k s, Between N P φ (T k) m s → ∃ s', sw s = .ok s' ∧ Between N P φ (T (k + 1)) m s' ∧ s'.files = s.files)
    (hms : ∀ k s, Between N P φ (T k) m s → ∃ s', meas s = .ok (s', obs k) ∧ Between N P φ (T k) m s' ∧ (∀ j, j + 1 < N → s'.files j = Option.none) ∧ (s'.files (N - 1)).isSome ∧
      (∀ j, N ≤ j → s'.files j = s.files j)) {s : TdvpSys σ} (hb : Between N P φ (T 0) m s) : ∀ k, ∃ s', evolve sw meas k s = .ok (s', obs k) ∧ Between N P φ (T k) m s' ∧
      (∀ j, j + 1 < N → s'.files j = Option.none) ∧ (s'.files (N - 1)).isSome ∧ (∀ j, N ≤ j → s'.files j = s.files j)
  | 0 => hms 0 s hb
  | k + 1 => by
    obtain ⟨s1, e1, b1, -, -, f1⟩ := steps_between hsw hms hb k
    obtain ⟨s2, e2, b2, f2⟩ := hsw k s1 b1
    obtain ⟨s3, e3, b3, g1, g2, g3⟩ := hms (k + 1) s2 b2
    refine ⟨s3, ?_, b3, g1, g2, fun j hj => by rw [g3 j hj, f2, f1 j hj]⟩
    rw [evolve, e1]
    simp only [bind, Except.bind]
    rw [e2]
    exact e3

/-- The copy and the initial operator. -/
theorem prep_ok (hQ : QRSpec qr) (hN : 3 ≤ N) {o : TdvpObs σ} (h0 : o.site0 < N) {s : TdvpSys σ}
    (hs : Slots s.m N (fun _ => Option.none)) {ψ φ : Nat → Ten σ ℂ} (hd : OnDisk N ψ s.dsk) (hψ : Closed N ψ) (hr : ∀ j, o.site0 < j → j < N → RightIso (ψ j))
    (hi : (s.init = Option.none ∧ φ = ψ) ∨ s.init = some ((List.range N).map φ)) :
    ∃ s1 m' t, tdvpCopy s = .ok s1 ∧ s1.dsk = s.dsk ∧ s1.init = some ((List.range N).map φ) ∧ s1.files = s.files ∧
      tdvpPrepare qr svd true o.op0 o.inst0 o.site0 (complete s.dsk.m N, s1.m) = .ok ((List.range N).map t, m') ∧ Slots m' N (fun _ => Option.none) ∧
      Mps.Canon N 0 t ∧ stateV N t = applyAt N o.op0 o.inst0 o.site0 (stateV N ψ) := by
  have size : s.m.size = N := hs.len
  have len : ((List.range N).map ψ).length = N := by simp
  have hcomp : complete s.dsk.m N = (List.range N).map ψ := complete_all hd
  obtain ⟨s1, c1, c2, c3, c4, c5⟩ : ∃ s1, tdvpCopy s = .ok s1 ∧ s1.dsk = s.dsk ∧ s1.init = some ((List.range N).map φ) ∧ Slots s1.m N (fun _ => Option.none) ∧ s1.files = s.files := by
    rcases hi with ⟨a, rfl⟩ | a
    · obtain ⟨m', k1, k2⟩ := copy_ok len N (acc := []) (m := s.m) (i := 0) (by omega) rfl hs
      refine ⟨{ s with init := some ((List.range N).map φ), m := m' }, ?_, rfl, rfl, k2, rfl⟩
      unfold tdvpCopy
      rw [a]
      simp only [size, hcomp, List.range_eq_range' (n := N)] at k1 ⊢
      rw [k1]
      rfl
    · refine ⟨s, ?_, rfl, a, hs, rfl⟩
      unfold tdvpCopy
      rw [a]
  have hs1 : Slots s1.m ((List.range N).map ψ).length (fun _ => Option.none) := by rw [len]; exact c4
  obtain ⟨d, m', p1, p2, p3, p4, p5, p6, p7, p8, p9⟩ := C59_prepare (svd := svd) hQ (closed_linked hψ) hs1 o.op0 o.inst0 (site := o.site0) (by rw [len]; exact h0)
  rw [len] at p2 p4
  set t := ofList d ψ with ht
  have dt : (List.range N).map t = d := by rw [← p4]; exact ofList_map
  have hcl : Closed N t := ofList_closed (by omega) p3 p4 (p5.trans (closed_lastR (by omega) hψ).1) (p6.trans (closed_lastR (by omega) hψ).2)
  refine ⟨s1, m', t, c1, c2, c3, c5, by rw [hcomp, dt]; exact p1, p2, ?_, ?_⟩
  · refine ⟨hcl, fun j hj => absurd hj (by omega), fun j hj hj' => ?_⟩
    have e : d[j]? = some (t j) := by rw [List.getElem?_eq_getElem (by omega), ht, ofList_at (List.getElem?_eq_getElem (by omega))]
    by_cases x : j ≤ o.site0
    · exact p8 j _ (by omega) x e
    · have := p9 j (by omega)
      rw [e, List.getElem?_map, List.getElem?_range hj'] at this
      simp only [Option.map_some, Option.some.injEq] at this
      rw [this]
      exact hr j (by omega) hj'
  · have key : ∀ {M : Nat} (hM : ((List.range N).map ψ).length = M) (s' : Fin M → σ), amp d (List.ofFn s') 0 0 =
        ∑ x : Fin M → σ, (∏ j : Fin M, strung o.op0 o.inst0 o.site0 j (x j) (s' j)) * amp ((List.range N).map ψ) (List.ofFn x) 0 0 := by
      intro M hM s'
      subst hM
      exact p7 s' 0 0 (by rw [(closed_lastR (by omega) hψ).1]; omega)
    ext s'
    show amp ((List.range N).map t) (List.ofFn s') 0 0 = _
    rw [dt, key len s', applyAt, Matrix.toEuclideanLin_apply]
    rfl

theorem rewrite_map {t : Nat → Ten σ ℂ} {f : Nat → File (Ten σ ℂ)} {j : Nat} (h : j < N) : rewrite ((List.range N).map t) f j = .whole (t j) := by
  unfold rewrite
  rw [List.getElem?_map, List.getElem?_range h]
  rfl

/-- **C81**. `TwoSiteFiniteTDVP` (serial) on at least three sites, with a Hermitian MPO, the tensors of `ψ` on disk, those after `site0` right-canonical as the program asks, no
tensor in memory, `local_op_corr` set, and a state `O0 ψ` that is not zero, where `O0` is the operator at `site0` with its string. `φ` is the MPS in the directory of the initial state, and
the given `ψ` if that directory does not exist. For any step length and number of steps, and whatever the measurement's directory holds, the run succeeds. It returns `N * (step + 1)` cells; cell
`k * N + i` holds the sites `(site0, i)`, the times `(0, k * tau)` and `exp(i e0 k tau) ⟨φ|O1_i|Φ_k⟩`, where `O1_i` is the measured operator at `i` with its string. `Φ_0` is `O0 ψ`; the later `Φ_k` are the
states of one MPS, with its centre at site 0 at time zero, after `k` times the evolutions of the schedule, whose action is the subject of C73. None of them is zero, their norms do not grow, and if nothing is
discarded the norm and the energy are those of `O0 ψ` at all times. At the end the directory of the MPS holds that of the last `Φ_k`, the directory of the initial state `φ`, nothing is in memory, and
of the blocks of the measurement one is left. -/
theorem C81_tdvp_program (hQ : QRSpec qr) (hP : TdvpOK N P) (hm : P.mpi = false) (hN : 3 ≤ N) {o : TdvpObs σ} (hc : o.corr = true) (h0 : o.site0 < N) {s : TdvpSys σ}
    (hs : Slots s.m N (fun _ => Option.none)) {ψ φ : Nat → Ten σ ℂ} (hd : OnDisk N ψ s.dsk) (hψ : Closed N ψ) (hr : ∀ j, o.site0 < j → j < N → RightIso (ψ j))
    (hφ : Closed N φ) (hi : (s.init = Option.none ∧ φ = ψ) ∨ s.init = some ((List.range N).map φ)) (hz : applyAt N o.op0 o.inst0 o.site0 (stateV N ψ) ≠ 0) :
    ∃ s' res t, tdvpProgram qr svd P o s = .ok (s', res) ∧ res.length = N * (o.step + 1) ∧ Mps.Canon N 0 t ∧
      (∀ Φ : Nat → ChainV σ ℂ N, Φ = (fun k => stateV N (Mps.evolve N P t (tdvpActs N o.tau k))) →
        (∀ k i, k ≤ o.step → i < N → res[k * N + i]? = some (some ⟨(o.site0, i), (0, k * o.tau),
          Complex.exp (Complex.I * o.e0 * ((k * o.tau : Rat) : ℂ)) * inner ℂ (stateV N φ) (applyAt N o.op1 o.inst1 i (Φ k))⟩)) ∧
        Φ 0 = applyAt N o.op0 o.inst0 o.site0 (stateV N ψ) ∧
        (∀ k, Φ k ≠ 0 ∧ ‖Φ (k + 1)‖ ≤ ‖Φ k‖ ∧ (P.NoCut → ‖Φ k‖ = ‖Φ 0‖ ∧
          inner ℂ (Φ k) (Matrix.toEuclideanLin (opM N P.w) (Φ k)) = inner ℂ (Φ 0) (Matrix.toEuclideanLin (opM N P.w) (Φ 0))))) ∧
      OnDisk N (Mps.evolve N P t (tdvpActs N o.tau o.step)) s'.dsk ∧ s'.init = some ((List.range N).map φ) ∧ Slots s'.m N (fun _ => Option.none) ∧
      (∀ j, j + 1 < N → s'.files j = Option.none) ∧ (s'.files (N - 1)).isSome ∧ (∀ j, N ≤ j → s'.files j = s.files j) := by
  have size : s.m.size = N := hs.len
  obtain ⟨s1, m', t, c1, c2, c3, c5, p1, p2, hcan, hst⟩ := prep_ok (svd := svd) hQ hN h0 hs hd hψ hr hi
  have hz' : stateV N t ≠ 0 := by rw [hst]; exact hz
  obtain ⟨s3, i1, -, i3, i4, -⟩ := initEnvsT (A := tdvpAlg N P) hN (clk := 0) (ψ := t) (d := { s.dsk with m := rewrite ((List.range N).map t) s.dsk.m })
    (fun j hj => rewrite_map hj)
  have hb : Between N P φ t m' ⟨s3.dsk, s1.init, s1.files, m'⟩ := ⟨i3, i4, c3, rfl⟩
  have hev := steps_between (sw := tdvpFiles N (sweepT (tdvpAlg N P) (tdvpEvo P) N o.tau)) (meas := tdvpMeas N o) (T := fun k => Mps.evolve N P t (tdvpActs N o.tau k))
    (obs := fun k => (List.range N).map fun i => inner ℂ (stateV N φ) (applyAt N o.op1 o.inst1 i (stateV N (Mps.evolve N P t (tdvpActs N o.tau k)))))
    (fun k s h => by simpa only [tdvpActs_succ, evolve_append] using sweep_between hP hN o.tau h)
    (fun k s h => meas_between hN (canon_actEnds hN o.tau k hP hcan hz') hφ h o) hb
  obtain ⟨s4, res, e1, e2, e3, e4⟩ := C31_results (N := N) (site0 := o.site0) (tau := o.tau) (steps := o.step)
    (sweep := tdvpFiles N (sweepT (tdvpAlg N P) (tdvpEvo P) N o.tau)) (meas := tdvpMeas N o) (phase := tdvpPhase o.e0)
    (s0 := ⟨s3.dsk, s1.init, s1.files, m'⟩)
    (obs := fun k => (List.range N).map fun i => inner ℂ (stateV N φ) (applyAt N o.op1 o.inst1 i (stateV N (Mps.evolve N P t (tdvpActs N o.tau k)))))
    (fun k _ => by obtain ⟨s', h1, -⟩ := hev k; exact ⟨s', h1, by simp⟩)
  obtain ⟨s5, g1, g2, g3, g4, g5⟩ := hev o.step
  obtain rfl : s5 = s4 := by rw [g1] at e2; simpa using e2
  refine ⟨s5, res, t, ?_, e3, hcan, ?_, g2.dsk, g2.init, by rw [g2.mem]; exact p2, g3, g4, fun j hj => by rw [g5 j hj]; exact congrFun c5 j⟩
  · unfold tdvpProgram
    simp only [size, c1, bind, Except.bind, c2, hc]
    rw [p1]
    simp only
    rw [show tdvpFiles N (initEnvs (tdvpAlg N P) N 1) ⟨{ s.dsk with m := rewrite ((List.range N).map t) s.dsk.m }, s1.init, s1.files, m'⟩ = .ok ⟨s3.dsk, s1.init, s1.files, m'⟩ by
      unfold tdvpFiles; rw [i1]]
    exact e1
  · rintro Φ rfl
    refine ⟨fun k i hk hi' => ?_, hst, fun k => ?_⟩
    · rw [e4 k i _ hk hi' (by rw [List.getElem?_map, List.getElem?_range hi']; rfl)]
      congr 3
      by_cases hk0 : k = 0
      · subst hk0; simp
      · rw [if_neg hk0, tdvpPhase, mul_comm]
    · obtain ⟨a1, a2⟩ := actPath_steps hN o.tau k (c := 0) (Or.inl rfl)
      obtain ⟨b1, b2⟩ := acts_canon hP _ a1 hcan hz'
      refine ⟨b2, ?_, fun hx => (acts_serial hP hm _ a1 hcan hz').2 hx⟩
      have hp := (actPath_steps hN o.tau (k + 1) (c := 0) (Or.inl rfl)).1
      rw [tdvpActs_succ, actPath_append] at hp
      simp only [tdvpActs_succ, evolve_append]
      exact (acts_serial hP hm _ hp.2 b1 b2).1

/-! ### The hypotheses can be met -/

/-- `X` at site 1 with the string `Z`, the correlations of `Z` with strings. -/
noncomputable def exObs (n : Nat) (tau : Rat) : TdvpObs Bool :=
  ⟨tau, n, 1, true, fun x y => if x = y then 0 else 1, some fun x y => if x = y then (if x then 1 else -1) else 0, fun x y => if x = y then (if x then 1 else -1) else 0,
    some fun x y => if x = y then (if x then 1 else -1) else 0, 1⟩

theorem exObs_ne {N : Nat} (hN : 3 ≤ N) (n : Nat) (tau : Rat) : applyAt N (exObs n tau).op0 (exObs n tau).inst0 (exObs n tau).site0 (stateV N exUpC) ≠ 0 := by
  intro h0
  have h := congrArg (fun v : ChainV Bool ℂ N => v fun j => decide ((j : Nat) ≠ 1)) h0
  simp only [applyAt, Matrix.toEuclideanLin_apply] at h
  have e : (∑ x : Fin N → Bool, (∏ j : Fin N, strung (exObs n tau).op0 (exObs n tau).inst0 (exObs n tau).site0 j (x j) (decide ((j : Nat) ≠ 1))) * stateV N exUpC x) = 2 := by
    rw [Finset.sum_eq_single fun _ => true]
    · rw [exUpC_amp N (by omega), Finset.prod_eq_one, one_mul]
      intro j _
      rcases Nat.lt_trichotomy (j : Nat) 1 with x | x | x
      · simp [strung, exObs, x, show (j : Nat) = 0 by omega]
      · simp [strung, exObs, x]
      · simp [strung, exObs, show ¬ (j : Nat) < 1 by omega, show (j : Nat) ≠ 1 by omega, show (j : Nat) ≠ 0 by omega, idOp]
    · intro x _ hx
      obtain ⟨j, hj⟩ : ∃ j, x j = false := by
        by_contra hc
        push Not at hc
        exact hx (funext fun j => by simpa using hc j)
      rw [Finset.prod_eq_zero (mem_univ j), zero_mul]
      rcases Nat.lt_trichotomy (j : Nat) 1 with y | y | y
      · simp [strung, exObs, hj, show (j : Nat) = 0 by omega]
      · simp [strung, exObs, hj, y]
      · simp [strung, exObs, hj, show ¬ (j : Nat) < 1 by omega, show (j : Nat) ≠ 1 by omega, show (j : Nat) ≠ 0 by omega, idOp]
    · intro hx; exact absurd (mem_univ _) hx
  have h' : (2 : ℂ) = 0 := e.symm.trans h
  exact two_ne_zero h'

/-- On chains of any length from three, for any number of steps, the Ising chain of C73 and an MPS that is not normalised meet the hypotheses, the directory of the initial state being absent. -/
example (N n : Nat) (hN : 3 ≤ N) (tau : Rat) : ∃ eig s' res, TdvpOK N (exTdvpFull N eig false) ∧
    tdvpProgram (qrE (K := ℂ) upEnum) (fun t => (t, fun _ _ => 0)) (exTdvpFull N eig false) (exObs n tau)
      ⟨⟨fun j => .whole (exUpC j), fun _ => .gone, fun _ => .gone⟩, Option.none, fun _ => Option.none, FMps.fresh N⟩ = .ok (s', res) ∧ res.length = N * (n + 1) := by
  obtain ⟨eig, he⟩ := eig_exists
  obtain ⟨s', res, t, h1, h2, -⟩ := C81_tdvp_program (svd := fun t => (t, fun _ _ => 0)) (qrE_spec (K := ℂ) upEnum) (exTdvpFull_ok (by omega) he false) rfl hN (o := exObs n tau) rfl
    (show 1 < N by omega) (s := ⟨⟨fun j => .whole (exUpC j), fun _ => .gone, fun _ => .gone⟩, Option.none, fun _ => Option.none, FMps.fresh N⟩) (ψ := exUpC) (φ := exUpC) (by
      have := slots_of_empty (m := (FMps.fresh N : FMps Bool ℂ)) (by simp [FMps.isEmpty, FMps.fresh])
      rwa [show (FMps.fresh N : FMps Bool ℂ).size = N by simp [FMps.size, FMps.fresh]] at this) (fun _ _ => rfl) (exUpC_canon N).1
    (fun j hj hj' => (exUpC_canon N).2.2 j (by omega) hj') (exUpC_canon N).1 (Or.inl ⟨rfl, rfl⟩) (exObs_ne hN n tau)
  exact ⟨eig, s', res, exTdvpFull_ok (by omega) he false, h1, h2⟩

end Verif.Props
