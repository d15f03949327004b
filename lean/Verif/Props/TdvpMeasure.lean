import Verif.Mps.TdvpMeasureFacts
import Verif.Props.DiskMeasure
import Mathlib.Tactic.Linarith
import Mathlib.Tactic.Ring
/-
The measurement of two-site TDVP.
-/
namespace Verif.Props
open Verif.Mps Finset

section
variable {σ K : Type} [CommRing K] [StarRing K] [Fintype σ] [DecidableEq σ]

/-- The matrix element of the product operator `O` between the state of `us` (the bra) and the state of `ts`. -/
def matel (ts us : List (Ten σ K)) (O : Nat → σ → σ → K) : K :=
  ∑ s : Fin ts.length → σ, ∑ s' : Fin ts.length → σ,
    amp ts (List.ofFn s) 0 0 * (∏ i : Fin ts.length, O i (s i) (s' i)) * star (amp us (List.ofFn s') 0 0)

/-- C31, the measurement: on the directories of two MPS with `N` sites and boundary legs of dimension 1 the measurement
succeeds whatever the temporary directory contained, returns one value per site, the `i`-th being the matrix element of
`op` at site `i` with the insertion operator on all sites before it, leaves no tensor in memory, and removes all right
blocks it wrote, except that of the last site. -/
theorem C31_measurement {ts us : List (Ten σ K)} (lt : Linked ts) (lu : Linked us) (hlen : us.length = ts.length) (hN : ts ≠ [])
    (h1 : headL ts = 1) (h2 : lastR ts = 1) (h3 : headL us = 1) (h4 : lastR us = 1) (op : Op σ K) (inst : Option (Op σ K))
    (files : Nat → Option (Blk K)) :
    ∃ st, calPsi1OpPsi2 ts us ts.length op inst files = .ok (st, (List.range ts.length).map fun i =>
        matel ts us fun j => if j < i then inst.getD idOp else if j = i then op else idOp) ∧
      Slots st.m1 ts.length (fun _ => Option.none) ∧ Slots st.m2 ts.length (fun _ => Option.none) ∧
      (∀ j, j + 1 < ts.length → st.files j = Option.none) ∧ (st.files (ts.length - 1)).isSome ∧
      (∀ j, ts.length ≤ j → st.files j = files j) := by
  set N := ts.length with hN'
  have hp : 0 < N := List.length_pos_iff.mpr hN
  obtain ⟨t0, e0⟩ := getE (ts := ts) (i := 0) (by omega)
  obtain ⟨u0, f0⟩ := getE (ts := us) (i := 0) (by omega)
  obtain ⟨tl, el⟩ := getE (ts := ts) (i := N - 1) (by omega)
  obtain ⟨ul, fl⟩ := getE (ts := us) (i := N - 1) (by omega)
  have hlast : ∀ {l : List (Ten σ K)} {t : Ten σ K}, l.length = N → l[N - 1]? = some t → t.r = lastR l := fun {l t} hl h => by
    unfold lastR; rw [List.getLast?_eq_getElem?, hl, h]; rfl
  have hhead : ∀ {l : List (Ten σ K)} {t : Ten σ K}, l[0]? = some t → t.l = headL l := fun {l t} h => by
    cases l with
    | nil => simp at h
    | cons a l => simp at h; subst h; rfl
  have d1 : tl.r = 1 := (hlast rfl el).trans h2
  have d2 : ul.r = 1 := (hlast hlen fl).trans h4
  have d3 : t0.l = 1 := (hhead e0).trans h1
  have d4 : u0.l = 1 := (hhead f0).trans h3
  have nil : ∀ l : List (Ten σ K), l.length = N → cutDim l (N - 0) = lastR l := fun l hl => by
    unfold cutDim; rw [List.getElem?_eq_none_iff.mpr (by omega)]
  have emp : Slots (FMps.fresh N : FMps σ K) N (fun _ => Option.none) := by
    have := slots_of_empty (m := (FMps.fresh N : FMps σ K)) (by simp [FMps.isEmpty, FMps.fresh])
    rwa [show (FMps.fresh N : FMps σ K).size = N by simp [FMps.size, FMps.fresh]] at this
  obtain ⟨m1, a1, s1⟩ := emp.loadTen (i := N - 1) (by omega) el
  obtain ⟨m2, a2, s2⟩ := emp.loadTen (i := N - 1) (by omega) fl
  have r1 := s1.read (i := N - 1) (by omega) (t := tl) (by simp [upd])
  have r2 := s2.read (i := N - 1) (by omega) (t := ul) (by simp [upd])
  have hR : (Blk.start ul.r tl.r : Except Err (Blk K)) = .ok (Rb ts us N 0) := by
    unfold Blk.start Rb
    rw [if_pos (by omega), nil ts rfl, nil us hlen, h2, h4, d1, d2]
    simp only [Except.ok.injEq, Blk.mk.injEq, true_and]
    funext a' a
    rw [List.drop_eq_nil_of_le (by omega), List.drop_eq_nil_of_le (by omega), blk_nil _ rfl]
    by_cases x : a = 0 <;> by_cases y : a' = 0 <;> simp [x, y]
  obtain ⟨st, b1, b2, b3, b4, b5⟩ := calRight_ok (N := N) lt lu rfl hlen el fl (N - 1) (i := 1)
    (st := ⟨m1, m2, Function.update files 0 (some (Rb ts us N 0)), Rb ts us N 0⟩) (by omega) (by omega)
    (s1.congr fun j _ => by by_cases h : j = N - 1 <;> simp [preR, upd, only, h])
    (s2.congr fun j _ => by by_cases h : j = N - 1 <;> simp [preR, upd, only, h]) rfl
  -- site 0
  have load0 : ∀ {l : List (Ten σ K)} {m : FMps σ K} {a b : Ten σ K}, l[0]? = some a → l[N - 1]? = some b →
      Slots m N (preR N (1 + (N - 1)) b) → ∃ m', loadTen l m 0 = .ok m' ∧ Slots m' N (only 0 a) := fun {l m a b} ha hb hs => by
    obtain ⟨m', x, y⟩ := hs.loadTen (i := 0) (by omega) ha
    refine ⟨m', x, y.congr fun j hj => ?_⟩
    simp only [upd, only, preR]
    by_cases h : j = 0
    · simp [h]
    · rw [if_neg h, if_neg h, if_neg (by omega)]
  obtain ⟨m3, c1, s3⟩ := load0 e0 el b2
  obtain ⟨m4, c2, s4⟩ := load0 f0 fl b3
  have r3 := s3.read (i := 0) (by omega) (t := t0) (by simp [only])
  have r4 := s4.read (i := 0) (by omega) (t := u0) (by simp [only])
  obtain ⟨L, hL, hL1, hL2, hL3⟩ : ∃ L : Blk K, Blk.start u0.l t0.l = .ok L ∧ L.d' = u0.l ∧ L.d = t0.l ∧
      L.v = fun x y => if x = 0 ∧ y = 0 then 1 else 0 :=
    ⟨_, by unfold Blk.start; rw [if_pos (by omega)], rfl, rfl, rfl⟩
  have hfiles : ∀ j, j < N → st.files j = some (Rb ts us N j) := fun j hj => by
    rw [b5]
    by_cases h : 1 ≤ j ∧ j < N
    · simp only; rw [if_pos h]
    · obtain rfl : j = 0 := by omega
      simp
  obtain ⟨st', k1, k2, k3, k4⟩ := calSites_ok (N := N) lt lu rfl hlen e0 f0 op inst N (i := 0) (st := ⟨m3, m4, st.files, st.R⟩) (L := L)
    (by omega) (by rw [if_pos rfl]; exact s3) (by rw [if_pos rfl]; exact s4) (fun _ => b4) (by omega) (fun _ => hfiles)
    (fun _ => ⟨by rw [hL1, cutDim_in f0], by rw [hL2, cutDim_in e0]⟩) (by omega)
  refine ⟨st', ?_, k2, k3, ?_, ?_, ?_⟩
  · unfold calPsi1OpPsi2
    rw [a1]
    simp only [bind, Except.bind]
    rw [a2]
    simp only [r1, r2, hR]
    rw [b1]
    simp only [c1, c2, r3, r4, hL]
    rw [k1]
    simp only [Except.ok.injEq, Prod.mk.injEq, true_and]
    rw [List.range_eq_range']
    refine List.map_congr_left fun i _ => ?_
    rw [cutDim_in e0, cutDim_in f0, d3, d4]
    unfold pair
    simp only [hL3]
    simp only [Finset.range_one, Finset.sum_singleton, and_self, if_true, one_mul]
    rfl
  · intro j hj
    rw [k4]; simp only; rw [if_pos (by omega)]
  · rw [k4]; simp only; rw [if_neg (by omega), hfiles _ (by omega)]; rfl
  · intro j hj
    rw [k4]; simp only; rw [if_neg (by omega), b5]; simp only; rw [if_neg (by omega)]
    simp [show j ≠ 0 by omega]

end

section
variable {S V : Type}

/-- Specification: the state and the values of the `k`-th measurement, each but the first preceded by a sweep. -/
def evolve (sweep : S → Except Err S) (meas : S → Except Err (S × List V)) : Nat → S → Except Err (S × List V)
  | 0, s => meas s
  | k + 1, s => do
    let (s1, _) ← evolve sweep meas k s
    let s2 ← sweep s1
    meas s2

theorem writeGo_ok {site0 : Nat} {time : Rat} {base : Nat} {c : List V} : ∀ (n i : Nat) (res : List (Option (Cell V))),
    i + n ≤ c.length → base + (i + n) ≤ res.length →
    ∃ res', (List.range' i n).foldlM (writeCell site0 time base c) res = .ok res' ∧ res'.length = res.length ∧
      (∀ j, (j < base + i ∨ base + i + n ≤ j) → res'[j]? = res[j]?) ∧
      (∀ j v, i ≤ j → j < i + n → c[j]? = some v → res'[base + j]? = some (some ⟨(site0, j), (0, time), v⟩))
  | 0, i, res, _, _ => ⟨res, rfl, rfl, fun _ _ => rfl, fun j _ _ _ => by omega⟩
  | n + 1, i, res, h1, h2 => by
    rw [List.range'_succ, List.foldlM_cons]
    have e : c[i]? = some c[i] := List.getElem?_eq_getElem (by omega)
    obtain ⟨res', k1, k2, k3, k4⟩ := writeGo_ok (site0 := site0) (time := time) (base := base) (c := c) n (i + 1)
      (res.set (base + i) (some ⟨(site0, i), (0, time), c[i]⟩)) (by omega) (by simp; omega)
    refine ⟨res', ?_, by simpa using k2, ?_, ?_⟩
    · unfold writeCell at k1 ⊢
      rw [e]
      simp only
      rw [if_pos (by omega)]
      exact k1
    · intro j hj
      rw [k3 j (by omega), List.getElem?_set_ne (by omega)]
    · intro j v hj hj' hv
      by_cases h : j = i
      · subst h
        rw [k3 _ (by omega), List.getElem?_set_self (by omega)]
        rw [e] at hv; injection hv with hv; rw [hv]
      · exact k4 j v (by omega) (by omega) hv

theorem writeCells_ok {N site0 : Nat} {time : Rat} {base : Nat} {c : List V} {res : List (Option (Cell V))} (h1 : c.length = N)
    (h2 : base + N ≤ res.length) :
    ∃ res', writeCells N site0 time base c res = .ok res' ∧ res'.length = res.length ∧
      (∀ j, (j < base ∨ base + N ≤ j) → res'[j]? = res[j]?) ∧
      (∀ j v, j < N → c[j]? = some v → res'[base + j]? = some (some ⟨(site0, j), (0, time), v⟩)) := by
  obtain ⟨res', k1, k2, k3, k4⟩ := writeGo_ok (site0 := site0) (time := time) (base := base) (c := c) N 0 res (by omega) (by omega)
  refine ⟨res', ?_, k2, fun j hj => k3 j (by omega), fun j v hj hv => k4 j v (by omega) (by omega) hv⟩
  unfold writeCells
  rw [List.range_eq_range']
  exact k1

theorem writeGo_ub {site0 : Nat} {time : Rat} {base : Nat} {c : List V} : ∀ (n i : Nat) (res : List (Option (Cell V))),
    i + n ≤ c.length → res.length < base + (i + n) → 0 < n →
    (List.range' i n).foldlM (writeCell site0 time base c) res = .error .ub
  | n + 1, i, res, h1, h2, _ => by
    rw [List.range'_succ, List.foldlM_cons]
    have e : c[i]? = some c[i] := List.getElem?_eq_getElem (by omega)
    rw [writeCell, e]
    simp only
    by_cases h : base + i < res.length
    · rw [if_pos h]
      exact writeGo_ub n (i + 1) _ (by omega) (by simp; omega) (by omega)
    · rw [if_neg h]; rfl

theorem writeCells_ub {N site0 : Nat} {time : Rat} {base : Nat} {c : List V} {res : List (Option (Cell V))} (h1 : c.length = N)
    (h2 : res.length < base + N) (hN : 0 < N) : writeCells N site0 time base c res = .error .ub := by
  unfold writeCells
  rw [List.range_eq_range']
  exact writeGo_ub N 0 res (by omega) (by omega) hN

/-- The value of a cell: the first measurement is taken as it is, the others get the phase. -/
def valueAt (tau : Rat) (phase : Rat → V → V) (k : Nat) (v : V) : V := if k = 0 then v else phase (k * tau) v

theorem tdvpLoop_ok {N site0 : Nat} {tau : Rat} {sweep : S → Except Err S} {meas : S → Except Err (S × List V)} {phase : Rat → V → V}
    {s0 : S} {steps : Nat} {obs : Nat → List V}
    (hs : ∀ k, k ≤ steps → ∃ s', evolve sweep meas k s0 = .ok (s', obs k) ∧ (obs k).length = N) :
    ∀ (n : Nat) {k : Nat} {s : S} {res : List (Option (Cell V))}, k + n = steps → evolve sweep meas k s0 = .ok (s, obs k) →
      res.length = N * (steps + 1) →
      (∀ j i v, j ≤ k → i < N → (obs j)[i]? = some v → res[j * N + i]? = some (some ⟨(site0, i), (0, j * tau), valueAt tau phase j v⟩)) →
    ∃ s' res', tdvpLoop N site0 tau sweep meas phase n k s res = .ok (s', res') ∧ evolve sweep meas steps s0 = .ok (s', obs steps) ∧
      res'.length = N * (steps + 1) ∧
      (∀ j i v, j ≤ steps → i < N → (obs j)[i]? = some v → res'[j * N + i]? = some (some ⟨(site0, i), (0, j * tau), valueAt tau phase j v⟩))
  | 0, k, s, res, hk, he, hl, hr => by
    obtain rfl : k = steps := by omega
    exact ⟨s, res, rfl, he, hl, hr⟩
  | n + 1, k, s, res, hk, he, hl, hr => by
    obtain ⟨s', e1, e2⟩ := hs (k + 1) (by omega)
    have e1' := e1
    unfold evolve at e1'
    rw [he] at e1'
    simp only [bind, Except.bind] at e1'
    unfold tdvpLoop
    simp only [bind, Except.bind]
    cases hw : sweep s with
    | error x => rw [hw] at e1'; simp at e1'
    | ok s1 =>
      rw [hw] at e1'
      simp only at e1' ⊢
      rw [e1']
      simp only
      have hb : (k + 1) * N + N ≤ res.length := by
        rw [hl, show steps = k + 1 + n by omega]; ring_nf; nlinarith [Nat.zero_le (N * n)]
      obtain ⟨res', w1, w2, w3, w4⟩ := writeCells_ok (site0 := site0) (time := ((k : Rat) + 1) * tau) (base := (k + 1) * N)
        (c := (obs (k + 1)).map (phase (((k : Rat) + 1) * tau))) (res := res) (by simpa using e2) hb
      rw [w1]
      simp only
      refine tdvpLoop_ok hs n (by omega) e1 (by rw [w2, hl]) ?_
      intro j i v hj hi hv
      by_cases h : j = k + 1
      · subst h
        rw [w4 i (phase (((k : Rat) + 1) * tau) v) hi (by rw [List.getElem?_map, hv]; rfl)]
        simp [valueAt]
      · rw [w3 (j * N + i) (Or.inl ?_), hr j i v (by omega) hi hv]
        have : j * N + N ≤ (k + 1) * N := by
          rw [← Nat.succ_mul]; exact Nat.mul_le_mul_right _ (by omega)
        omega

/-- C31, the result array: with the local-operator correlations switched on, if all sweeps and all measurements succeed
and every measurement returns one value per site, the run succeeds, no cell is written out of range, and the array of
`N * (steps + 1)` cells is filled: cell `k * N + i` holds the value of site `i` after `k` steps, with its sites and times. -/
theorem C31_results {N site0 : Nat} {tau : Rat} {sweep : S → Except Err S} {meas : S → Except Err (S × List V)} {phase : Rat → V → V}
    {s0 : S} {steps : Nat} {obs : Nat → List V}
    (hs : ∀ k, k ≤ steps → ∃ s', evolve sweep meas k s0 = .ok (s', obs k) ∧ (obs k).length = N) :
    ∃ s' res, tdvpRun true N site0 steps tau sweep meas phase s0 = .ok (s', res) ∧ evolve sweep meas steps s0 = .ok (s', obs steps) ∧
      res.length = N * (steps + 1) ∧
      ∀ k i v, k ≤ steps → i < N → (obs k)[i]? = some v →
        res[k * N + i]? = some (some ⟨(site0, i), (0, k * tau), if k = 0 then v else phase (k * tau) v⟩) := by
  obtain ⟨s1, e1, e2⟩ := hs 0 (by omega)
  obtain ⟨res', w1, w2, w3, w4⟩ := writeCells_ok (site0 := site0) (time := 0) (base := 0) (c := obs 0)
    (res := List.replicate (N * (steps + 1)) (Option.none : Option (Cell V))) e2 (by simp; nlinarith [Nat.zero_le (N * steps)])
  obtain ⟨s', res, k1, k2, k3, k4⟩ := tdvpLoop_ok (site0 := site0) (tau := tau) (phase := phase) hs steps (k := 0) (s := s1) (res := res')
    (by omega) e1 (by rw [w2]; simp) (by
      intro j i v hj hi hv
      obtain rfl : j = 0 := by omega
      rw [show 0 * N + i = 0 + i by omega, w4 i v hi hv]
      simp [valueAt])
  refine ⟨s', res, ?_, k2, k3, k4⟩
  unfold tdvpRun
  simp only [bind, Except.bind]
  rw [show meas s0 = .ok (s1, obs 0) from e1]
  simp only [if_true]
  rw [w1]
  exact k1

/-- Every cell of the array is one of those of `C31_results`. -/
theorem C31_all_cells {N steps j : Nat} (h : j < N * (steps + 1)) : ∃ k i, k ≤ steps ∧ i < N ∧ j = k * N + i := by
  have hN : 0 < N := by
    rcases Nat.eq_zero_or_pos N with rfl | h'
    · simp at h
    · exact h'
  refine ⟨j / N, j % N, ?_, Nat.mod_lt _ hN, ?_⟩
  · have := (Nat.div_lt_iff_lt_mul hN).mpr (show j < (steps + 1) * N by rw [Nat.mul_comm]; exact h)
    omega
  · rw [Nat.mul_comm]; exact (Nat.div_add_mod j N).symm

theorem tdvpLoop_ub {N site0 : Nat} {tau : Rat} {sweep : S → Except Err S} {meas : S → Except Err (S × List V)} {phase : Rat → V → V}
    {s0 : S} {steps : Nat} {obs : Nat → List V} (hN : 2 ≤ N)
    (hs : ∀ k, k ≤ steps → ∃ s', evolve sweep meas k s0 = .ok (s', obs k) ∧ (obs k).length = N) :
    ∀ (n : Nat) {k : Nat} {s : S} {res : List (Option (Cell V))}, k + n = steps → evolve sweep meas k s0 = .ok (s, obs k) →
      res.length = steps + 1 → 0 < n → tdvpLoop N site0 tau sweep meas phase n k s res = .error .ub
  | n + 1, k, s, res, hk, he, hl, _ => by
    obtain ⟨s', e1, e2⟩ := hs (k + 1) (by omega)
    have e1' := e1
    unfold evolve at e1'
    rw [he] at e1'
    simp only [bind, Except.bind] at e1'
    unfold tdvpLoop
    simp only [bind, Except.bind]
    cases hw : sweep s with
    | error x => rw [hw] at e1'; simp at e1'
    | ok s1 =>
      rw [hw] at e1'
      simp only at e1' ⊢
      rw [e1']
      simp only
      by_cases hb : (k + 1) * N + N ≤ res.length
      · obtain ⟨res', w1, w2, _, _⟩ := writeCells_ok (site0 := site0) (time := ((k : Rat) + 1) * tau) (base := (k + 1) * N)
          (c := (obs (k + 1)).map (phase (((k : Rat) + 1) * tau))) (res := res) (by simpa using e2) hb
        rw [w1]
        simp only
        refine tdvpLoop_ub hN hs n (by omega) e1 (by rw [w2, hl]) ?_
        rcases Nat.eq_zero_or_pos n with rfl | h
        · exfalso
          rw [hl, ← hk] at hb
          nlinarith
        · exact h
      · rw [writeCells_ub (by simpa using e2) (by omega) (by omega)]

/-- C31, the other setting: with the correlations switched off, a chain of at least two sites always writes beyond the
result array. -/
theorem C31_without_correlations_violation {N site0 : Nat} {tau : Rat} {sweep : S → Except Err S} {meas : S → Except Err (S × List V)}
    {phase : Rat → V → V} {s0 : S} {steps : Nat} {obs : Nat → List V} (hN : 2 ≤ N)
    (hs : ∀ k, k ≤ steps → ∃ s', evolve sweep meas k s0 = .ok (s', obs k) ∧ (obs k).length = N) :
    tdvpRun false N site0 steps tau sweep meas phase s0 = .error .ub := by
  obtain ⟨s1, e1, e2⟩ := hs 0 (by omega)
  unfold tdvpRun
  simp only [bind, Except.bind]
  rw [show meas s0 = .ok (s1, obs 0) from e1]
  simp only [Bool.false_eq_true, if_false]
  by_cases hb : N ≤ steps + 1
  · obtain ⟨res', w1, w2, _, _⟩ := writeCells_ok (site0 := site0) (time := 0) (base := 0) (c := obs 0)
      (res := List.replicate (steps + 1) (Option.none : Option (Cell V))) e2 (by simpa using hb)
    rw [w1]
    exact tdvpLoop_ub hN hs steps (by omega) e1 (by rw [w2]; simp) (by omega)
  · rw [writeCells_ub e2 (by simp; omega) (by omega)]

end

/-- Non-vacuity: three sites, two steps. -/
example : ∃ s' res, tdvpRun true 3 1 2 (1/2) (fun n : Nat => .ok (n + 1)) (fun n => .ok (n, [n, n + 10, n + 20])) (fun _ v => v) 0 = .ok (s', res) ∧
    res.length = 9 := by
  obtain ⟨s', res, h, _, hl, _⟩ := C31_results (N := 3) (site0 := 1) (tau := 1/2) (sweep := fun n : Nat => .ok (n + 1))
    (meas := fun n => .ok (n, [n, n + 10, n + 20])) (phase := fun _ v => v) (s0 := 0) (steps := 2)
    (obs := fun k => [k, k + 10, k + 20]) (fun k _ => ⟨k, by induction k with
      | zero => rfl
      | succ k ih => unfold evolve; rw [ih (by omega)]; rfl, rfl⟩)
  exact ⟨s', res, h, hl⟩

/-- Non-vacuity: two different states of three sites. -/
example (op : Op Bool Int) (files : Nat → Option (Blk Int)) : ∃ st vs,
    calPsi1OpPsi2 (ghz 1) [exA, ghzMid, ⟨2, 1, fun s a _ => if s = true then a else 3⟩] 3 op (some idOp) files = .ok (st, vs) ∧ vs.length = 3 := by
  obtain ⟨st, h, _⟩ := C31_measurement (ts := ghz 1) (us := [exA, ghzMid, ⟨2, 1, fun s a _ => if s = true then a else 3⟩])
    (ghz_linked 1) (linked_mk rfl (linked_mk rfl (List.IsChain.singleton _))) rfl (by simp [ghz]) rfl rfl rfl rfl op (some idOp) files
  exact ⟨st, _, h, by simp [ghz]⟩

end Verif.Props
