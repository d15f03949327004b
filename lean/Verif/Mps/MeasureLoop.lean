import Verif.Mps.MeasureFacts
/-
Lemmas on the measurement loops.
-/
namespace Verif.Mps
open Finset

variable {σ K : Type} [CommRing K] [StarRing K] [Fintype σ]

/-- `expval` with the number of sites as a parameter. -/
def expvalN (n : Nat) (ts : List (Ten σ K)) (O : Nat → σ → σ → K) : K :=
  ∑ a ∈ range (headL ts), ∑ b ∈ range (lastR ts), ∑ s : Fin n → σ, ∑ s' : Fin n → σ,
    amp ts (List.ofFn s) a b * (∏ i : Fin n, O i (s i) (s' i)) * star (amp ts (List.ofFn s') a b)

theorem expval_expvalN (ts : List (Ten σ K)) (O : Nat → σ → σ → K) : expval ts O = expvalN ts.length ts O := rfl

/-- The expectation value depends only on the represented state. -/
theorem expval_eqv {ts ts' : List (Ten σ K)} (h : Eqv ts ts') (O : Nat → σ → σ → K) : expval ts' O = expval ts O := by
  rw [expval_expvalN, expval_expvalN, h.len]
  unfold expvalN
  rw [h.head, h.last]
  refine sum_congr rfl fun a ha => sum_congr rfl fun b _ => sum_congr rfl fun s _ => sum_congr rfl fun s' _ => ?_
  rw [h.amp _ a b (by simpa using ha), h.amp _ a b (by simpa using ha)]

/-- Everything a loop keeps: a full chain for the same state, sound metadata. -/
structure Good (ts : List (Ten σ K)) (m : FMps σ K) : Prop where
  rep : ∃ ts', Rep m ts' ∧ Eqv ts ts'
  inv : Inv m
  tru : Truthful m

variable {qr svd : Ten σ K → Ten σ K × Mat K}

theorem good_centralize (H : QRSpec qr) (H' : SVDSpec svd) {ts : List (Ten σ K)} {m : FMps σ K} (hg : Good ts m)
    {t : Nat} (ht : t < ts.length) :
    ∃ m' ts', m.centralize qr svd (t : Int) = .ok m' ∧ Rep m' ts' ∧ Eqv ts ts' ∧ Inv m' ∧ Truthful m' ∧
      (∀ j u, j < t → ts'[j]? = some u → LeftIso u) ∧ (∀ j u, t < j → ts'[j]? = some u → RightIso u) := by
  obtain ⟨⟨t1, r1, q1⟩, hi, htr⟩ := hg
  have hl := q1.len
  obtain ⟨m', ts', e, r, q, c, f, -, -⟩ := centralize_rep H H' r1 hi (t := t) (by omega)
  have tr' := truthful_centralize H H' htr e
  refine ⟨m', ts', e, r, q1.trans q, inv_centralize hi e, tr', ?_, ?_⟩
  · intro j u hj hu
    have hj' := (List.getElem?_eq_some_iff.mp hu).1
    have := f j (by rw [q.len] at hj'; omega)
    rw [if_pos hj] at this
    exact (tr' j u (r.get hu)).1 this
  · intro j u hj hu
    have hj' := (List.getElem?_eq_some_iff.mp hu).1
    have := f j (by rw [q.len] at hj'; omega)
    rw [if_neg (by omega), if_pos hj] at this
    exact (tr' j u (r.get hu)).2 this

omit [StarRing K] [Fintype σ] in
theorem split3 (ts : List (Ten σ K)) (h k : Nat) :
    ts = ts.take h ++ ((ts.drop h).take k ++ ts.drop (h + k)) := by
  rw [← List.drop_drop, List.take_append_drop, List.take_append_drop]

variable [DecidableEq σ]

/-- The expectation value of operators on `[h, h+k)` in a chain canonical around that block. -/
theorem expval_at {ts : List (Ten σ K)} (hl : Linked ts) {h k : Nat} (hk : 0 < k) (hb : h + k ≤ ts.length)
    (hL : ∀ j u, j < h → ts[j]? = some u → LeftIso u) (hR : ∀ j u, h + k ≤ j → ts[j]? = some u → RightIso u)
    (O : Nat → σ → σ → K) (h1 : ∀ i, i < h → O i = idOp) (h2 : ∀ i, h + k ≤ i → O i = idOp) :
    expval ts O = trc (lastR ((ts.drop h).take k)) (lblk del ((ts.drop h).take k) (fun i => O (i + h))) := by
  have lt : (ts.take h).length = h := by simp; omega
  have lk : ((ts.drop h).take k).length = k := by simp; omega
  have hl' := hl
  rw [split3 ts h k] at hl'
  conv_lhs => rw [split3 ts h k]
  rw [expval_block O hl' (by intro e; rw [e] at lk; simp at lk; omega) ?_ ?_ ?_ ?_, lt]
  · intro t ht
    obtain ⟨j, hj, e⟩ := List.getElem_of_mem ht
    rw [lt] at hj
    exact hL j t hj (by rw [← e, List.getElem_take]; simp)
  · intro t ht
    obtain ⟨j, hj, e⟩ := List.getElem_of_mem ht
    simp only [List.getElem_drop] at e
    exact hR (h + k + j) t (by omega) (by rw [← e]; simp)
  · rw [lt]; exact h1
  · rw [lt, lk]; intro i hi _; exact h2 i hi

variable [DecidableEq K]

theorem opsVecAvg_expval {m : FMps σ K} {ts : List (Ten σ K)} (hr : Rep m ts) {h : Nat} {ops : List (Op σ K)}
    (h2 : 2 ≤ ops.length) (hb : h + ops.length ≤ ts.length)
    (hL : ∀ j u, j < h → ts[j]? = some u → LeftIso u) (hR : ∀ j u, h < j → ts[j]? = some u → RightIso u)
    (O : Nat → σ → σ → K) (o1 : ∀ i, i < h → O i = idOp) (o2 : ∀ i, h + ops.length ≤ i → O i = idOp)
    (o3 : ∀ (j : Nat) (o : Op σ K), ops[j]? = some o → O (h + j) = o) :
    opsVecAvg m ops h = .ok (expval ts O) := by
  rw [expval_at hr.link (h := h) (k := ops.length) (by omega) hb hL (fun j u hj => hR j u (by omega)) O o1 o2]
  have lk : ((ts.drop h).take ops.length).length = ops.length := by simp; omega
  refine opsVecAvg_eq m (by omega) lk ?_ ?_ ?_
  · have := hr.link
    rw [split3 ts h ops.length] at this
    exact linked_append_left (linked_append_right this)
  · intro j t hj
    rw [List.getElem?_take] at hj
    split at hj
    · rw [List.getElem?_drop] at hj; exact hr.get hj
    · simp at hj
  · intro j o hj
    rw [Nat.add_comm j h]; exact o3 j o hj

omit [StarRing K] [Fintype σ] [DecidableEq K] [DecidableEq σ] in
theorem drop_take_one {ts : List (Ten σ K)} {i : Nat} {t : Ten σ K} (h : ts[i]? = some t) :
    (ts.drop i).take 1 = [t] := by
  obtain ⟨hi, e⟩ := List.getElem?_eq_some_iff.mp h
  rw [List.drop_eq_getElem_cons hi, e]; rfl

omit [DecidableEq K] in
theorem oneSiteAvg_expval {ts : List (Ten σ K)} (hl : Linked ts) {i : Nat} {t : Ten σ K} (ht : ts[i]? = some t)
    (hL : ∀ j u, j < i → ts[j]? = some u → LeftIso u) (hR : ∀ j u, i < j → ts[j]? = some u → RightIso u)
    (op : Op σ K) : oneSiteAvg t op = expval ts (fun k => if k = i then op else idOp) := by
  have hi := (List.getElem?_eq_some_iff.mp ht).1
  rw [expval_at hl (h := i) (k := 1) (by omega) (by omega) hL (fun j u hj => hR j u (by omega)), oneSiteAvg_eq,
    drop_take_one ht]
  · simp [lastR, lblk]
  · intro j hj; rw [if_neg (by omega)]
  · intro j hj; rw [if_neg (by omega)]

omit [StarRing K] [Fintype σ] [DecidableEq σ] [DecidableEq K] in
theorem touch_rep {m : FMps σ K} {ts : List (Ten σ K)} (hr : Rep m ts) {i : Nat} {t : Ten σ K}
    (ht : ts[i]? = some t) : m.touch i = .ok ⟨m.slots, m.flags.set i .none, -1⟩ := by
  unfold FMps.touch; rw [hr.get ht]

omit [DecidableEq K] in
theorem oneSiteStep_ok (H : QRSpec qr) (H' : SVDSpec svd) {ts : List (Ten σ K)} {m : FMps σ K} (hg : Good ts m)
    (ops : List (Op σ K)) {i : Nat} (hi : i < ts.length) :
    ∃ m', oneSiteStep qr svd m ops i =
        .ok (m', ops.map fun op => expval ts (fun k => if k = i then op else idOp)) ∧ Good ts m' := by
  obtain ⟨m1, t1, e, r, q, iv, tr, hL, hR⟩ := good_centralize H H' hg hi
  unfold oneSiteStep
  rw [e]
  cases ho : ops with
  | nil => exact ⟨m1, rfl, ⟨t1, r, q⟩, iv, tr⟩
  | cons o os =>
    obtain ⟨t, ht⟩ := getE (ts := t1) (i := i) (by rw [q.len]; exact hi)
    have et := touch_rep r ht
    have rd : FMps.read ⟨m1.slots, m1.flags.set i .none, -1⟩ i = .ok t := read_ok (r.get ht)
    refine ⟨⟨m1.slots, m1.flags.set i .none, -1⟩, ?_, ⟨t1, ⟨r.slots, by simp [r.flen], r.link⟩, q⟩,
      inv_touch iv et, truthful_touch tr et⟩
    simp only [List.isEmpty_cons, et, rd]
    rw [if_neg (by simp), ← ho]
    congr 2
    exact List.map_congr_left fun op _ => (oneSiteAvg_expval r.link ht hL hR op).trans (expval_eqv q _)

omit [DecidableEq K] in
theorem oneSiteLoop_ok (H : QRSpec qr) (H' : SVDSpec svd) {ts : List (Ten σ K)} (ops : List (Op σ K)) :
    ∀ (n i : Nat) (m : FMps σ K), Good ts m → i + n ≤ ts.length →
    ∃ m', oneSiteLoop qr svd ops n i m = .ok (m', (List.range' i n).map fun x =>
        ops.map fun op => expval ts (fun k => if k = x then op else idOp)) ∧ Good ts m'
  | 0, i, m, hg, _ => ⟨m, rfl, hg⟩
  | n + 1, i, m, hg, hb => by
    obtain ⟨m1, e1, g1⟩ := oneSiteStep_ok H H' hg ops (i := i) (by omega)
    obtain ⟨m2, e2, g2⟩ := oneSiteLoop_ok H H' ops n (i + 1) m1 g1 (by omega)
    refine ⟨m2, ?_, g2⟩
    rw [oneSiteLoop, e1]
    simp only [e2, List.range'_succ, List.map_cons]

theorem measureEvent_ok (H : QRSpec qr) (H' : SVDSpec svd) {ts : List (Ten σ K)} {m : FMps σ K} (hg : Good ts m)
    {sites : List Nat} (h2 : 1 < sites.length) (ho : isOrderKept sites = true) {h : Nat} (hh : sites.head? = some h)
    {ops : List (Op σ K)} (f : FMps σ K → Except Err (List Nat × K))
    (hf : ∀ m v, opsVecAvg m ops h = .ok v → f m = .ok (sites, v))
    (o2 : 2 ≤ ops.length) (hb : h + ops.length ≤ ts.length)
    (O : Nat → σ → σ → K) (p1 : ∀ i, i < h → O i = idOp) (p2 : ∀ i, h + ops.length ≤ i → O i = idOp)
    (p3 : ∀ (j : Nat) (o : Op σ K), ops[j]? = some o → O (h + j) = o) :
    ∃ m', measureEvent qr svd m sites f = .ok (m', (sites, expval ts O)) ∧ Good ts m' := by
  obtain ⟨m1, t1, e, r, q, iv, tr, hL, hR⟩ := good_centralize H H' hg (t := h) (by omega)
  have v := opsVecAvg_expval r o2 (by rw [q.len]; exact hb) hL hR O p1 p2 p3
  rw [expval_eqv q] at v
  refine ⟨m1, ?_, ⟨t1, r, q⟩, iv, tr⟩
  unfold measureEvent
  rw [if_pos ⟨h2, ho⟩]
  have : sites.headD 0 = h := by cases sites <;> simp_all
  rw [this, e]
  simp only [hf m1 _ v]

end Verif.Mps
