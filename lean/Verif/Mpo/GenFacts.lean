import Verif.Mpo.FsmFacts
import Mathlib.Algebra.BigOperators.Intervals
/- Entries and value of the matrices generated by the finite state machine (helper facts). -/
namespace Verif.Mpo
open SparMat NullElem Finset

/-- Operator of path `k` on site `i`. -/
def opK (idOps : Nat → OpRepr) (ts : List Term) (k i : Nat) : OpRepr :=
  match ts[k]? with
  | some t => opAt idOps t i
  | none => []

/-- Entry `(x, y)` of the matrix of site `i` after the first `k` paths. -/
def Fsm.acc (f : Fsm) (idOps : Nat → OpRepr) (ts : List Term) (i x y : Nat) : Nat → OpRepr
  | 0 => []
  | k + 1 => if f.idx ts i k = x ∧ f.idx ts (i + 1) k = y then comb (f.acc idOps ts i x y k) (opK idOps ts k i)
             else f.acc idOps ts i x y k

/-- The matrices hold the accumulated entries of the first `k` paths. -/
def MatsAt (f : Fsm) (idOps : Nat → OpRepr) (ts : List Term) (N k : Nat) (ms : Nat → SparMat OpRepr) : Prop :=
  ∀ i, i < N → WF (ms i) ∧ (ms i).rows = f.dim i ∧ (ms i).cols = f.dim (i + 1) ∧
    ∀ x y, y < f.dim (i + 1) → (ms i).get x y = f.acc idOps ts i x y k

theorem comb_eq_nil {e o : OpRepr} : comb e o = [] ↔ e = [] ∧ o = [] := by
  unfold comb
  by_cases he : e = []
  · subst he; simp
  · have : e.isEmpty = false := by simpa using he
    rw [this]
    simp only [Bool.false_eq_true, if_false]
    split
    · rw [add_eq_nil]
    · simp [he]

theorem castPath_spec {N : Nat} {idOps : Nat → OpRepr} {f : Fsm} {ts : List Term} (h : FsmRep N idOps f ts)
    (hv : ∀ t ∈ ts, t.Valid N) {k : Nat} (hk : k < ts.length) {p : FPath} (hp : f.paths[k]? = some p)
    {ms : Nat → SparMat OpRepr} (hm : MatsAt f idOps ts N k ms) :
    ∃ ms', f.castPath ms p = .ok ms' ∧ MatsAt f idOps ts N (k + 1) ms' := by
  have hop : p.op = opAt idOps ts[k] := h.op k p _ hp (List.getElem?_eq_getElem hk)
  have hstep : ∀ i, i < N → ∀ m : SparMat OpRepr, (WF m ∧ m.rows = f.dim i ∧ m.cols = f.dim (i + 1) ∧
      ∀ x y, y < f.dim (i + 1) → m.get x y = f.acc idOps ts i x y k) →
      ∃ m', f.castSite i m p = .ok m' ∧ (WF m' ∧ m'.rows = f.dim i ∧ m'.cols = f.dim (i + 1) ∧
      ∀ x y, y < f.dim (i + 1) → m'.get x y = f.acc idOps ts i x y (k + 1)) := by
    rintro i hi m ⟨w, e1, e2, e3⟩
    have g1 := idx_lt h hv (show i ≤ N by omega) hk
    have g2 := idx_lt h hv (show i + 1 ≤ N by omega) hk
    unfold Fsm.idx at g1 g2
    unfold Fsm.castSite
    rw [h.stat k p hp i (by omega), h.stat k p hp (i + 1) (by omega)]
    simp only
    rw [if_neg (by omega), if_neg (by omega)]
    obtain ⟨m', s1, s2, s3, s4, s5⟩ := setElem_spec w (x := (f.statIdx i (statOf ts k i)).toNat)
      (y := (f.statIdx (i + 1) (statOf ts k (i + 1))).toNat) (by omega) (by omega)
      (comb (m.get (f.statIdx i (statOf ts k i)).toNat (f.statIdx (i + 1) (statOf ts k (i + 1))).toNat) (p.op i))
    refine ⟨m', s1, s2, by omega, by omega, ?_⟩
    intro x y hy
    have s6 := s5 x y (by omega)
    change m'.get x y = if x = f.idx ts i k ∧ y = f.idx ts (i + 1) k then
      (if isNull (comb (m.get (f.idx ts i k) (f.idx ts (i + 1) k)) (p.op i)) = true then
        m.get (f.idx ts i k) (f.idx ts (i + 1) k) else comb (m.get (f.idx ts i k) (f.idx ts (i + 1) k)) (p.op i))
      else m.get x y at s6
    rw [s6, Fsm.acc]
    by_cases hxy : x = f.idx ts i k ∧ y = f.idx ts (i + 1) k
    · rw [if_pos hxy, if_pos (show f.idx ts i k = x ∧ f.idx ts (i + 1) k = y from ⟨hxy.1.symm, hxy.2.symm⟩), ← hxy.1, ← hxy.2, e3 x y hy]
      have : p.op i = opK idOps ts k i := by
        rw [hop]; unfold opK; rw [List.getElem?_eq_getElem hk]
      rw [this]
      by_cases hn : isNull (comb (f.acc idOps ts i x y k) (opK idOps ts k i)) = true
      · rw [if_pos hn]
        have := (isNull_iff _).1 hn
        have h0 : comb (f.acc idOps ts i x y k) (opK idOps ts k i) = [] := this
        rw [h0, (comb_eq_nil.1 h0).1]
      · rw [if_neg hn]
    · rw [if_neg hxy, if_neg (fun h => hxy ⟨h.1.symm, h.2.symm⟩), e3 x y hy]
  unfold Fsm.castPath
  rw [h.hN]
  have loop : ∀ n, n ≤ N → ∃ ms', (List.range n).foldlM (fun ms i => do
      let m ← f.castSite i (ms i) p
      return upd ms i m) ms = (.ok ms' : Except Err _) ∧
      (∀ i, i < n → WF (ms' i) ∧ (ms' i).rows = f.dim i ∧ (ms' i).cols = f.dim (i + 1) ∧
        ∀ x y, y < f.dim (i + 1) → (ms' i).get x y = f.acc idOps ts i x y (k + 1)) ∧
      (∀ i, n ≤ i → ms' i = ms i) := by
    intro n
    induction n with
    | zero => intro _; exact ⟨ms, rfl, by simp, by simp⟩
    | succ n ih =>
      intro hn
      obtain ⟨ms1, e1, e2, e3⟩ := ih (by omega)
      obtain ⟨m', s1, s2⟩ := hstep n (by omega) (ms1 n) (by rw [e3 n (Nat.le_refl _)]; exact hm n (by omega))
      refine ⟨upd ms1 n m', ?_, ?_, ?_⟩
      · rw [List.range_succ, List.foldlM_append, e1]
        simp only [List.foldlM_cons, List.foldlM_nil, bind, Except.bind, s1, pure, Except.pure]
      · intro i hi
        unfold upd
        by_cases hin : i = n
        · rw [if_pos hin, hin]; exact s2
        · rw [if_neg hin]; exact e2 i (by omega)
      · intro i hi
        unfold upd
        rw [if_neg (by omega)]; exact e3 i (by omega)
  obtain ⟨ms', e1, e2, _⟩ := loop N (Nat.le_refl _)
  exact ⟨ms', e1, e2⟩

theorem genMatRepr_spec {N : Nat} {idOps : Nat → OpRepr} {f : Fsm} {ts : List Term} (h : FsmRep N idOps f ts)
    (hv : ∀ t ∈ ts, t.Valid N) :
    ∃ ms, f.genMatRepr = .ok ((List.range N).map ms) ∧ MatsAt f idOps ts N ts.length ms := by
  have loop : ∀ n, n ≤ ts.length → ∃ ms, (f.paths.take n).foldlM f.castPath
      (fun i => SparMat.mk' (f.dim i) (f.dim (i + 1))) = .ok ms ∧ MatsAt f idOps ts N n ms := by
    intro n
    induction n with
    | zero =>
      intro _
      refine ⟨_, rfl, fun i hi => ⟨wf_mk' _ _, rfl, rfl, fun x y _ => ?_⟩⟩
      rw [get_mk']; rfl
    | succ n ih =>
      intro hn
      obtain ⟨ms, e1, e2⟩ := ih (by omega)
      have hpl : n < f.paths.length := by rw [h.plen]; omega
      obtain ⟨ms', s1, s2⟩ := castPath_spec h hv (show n < ts.length by omega) (List.getElem?_eq_getElem hpl) e2
      refine ⟨ms', ?_, s2⟩
      rw [List.take_succ_eq_append_getElem hpl, List.foldlM_append, e1]
      simp only [List.foldlM_cons, List.foldlM_nil, bind, Except.bind, s1, pure, Except.pure]
  obtain ⟨ms, e1, e2⟩ := loop ts.length (Nat.le_refl _)
  refine ⟨ms, ?_, e2⟩
  unfold Fsm.genMatRepr
  rw [List.take_of_length_le (by rw [h.plen])] at e1
  simp only [e1, bind, Except.bind, pure, Except.pure, h.hN]

/-! ### Entries -/

section
variable {f : Fsm} {idOps : Nat → OpRepr} {ts : List Term}

theorem acc_nil {i x y : Nat} : ∀ {k : Nat}, (∀ k', k' < k → ¬ (f.idx ts i k' = x ∧ f.idx ts (i + 1) k' = y)) →
    f.acc idOps ts i x y k = []
  | 0, _ => rfl
  | k + 1, h => by
    rw [Fsm.acc, if_neg (h k (by omega))]
    exact acc_nil (fun k' hk' => h k' (by omega))

/-- All matching edges carry the same operator. -/
theorem acc_const {i x y : Nat} {o : OpRepr} (ho : o ≠ []) : ∀ {k : Nat},
    (∀ k', k' < k → f.idx ts i k' = x ∧ f.idx ts (i + 1) k' = y → opK idOps ts k' i = o) →
    (∃ k', k' < k ∧ f.idx ts i k' = x ∧ f.idx ts (i + 1) k' = y) → f.acc idOps ts i x y k = o
  | 0, _, ⟨k', h, _⟩ => by omega
  | k + 1, h, hex => by
    rw [Fsm.acc]
    by_cases hm : f.idx ts i k = x ∧ f.idx ts (i + 1) k = y
    · rw [if_pos hm, h k (by omega) hm]
      by_cases hex' : ∃ k', k' < k ∧ f.idx ts i k' = x ∧ f.idx ts (i + 1) k' = y
      · rw [acc_const ho (fun k' hk' => h k' (by omega)) hex']
        unfold comb
        split
        · rfl
        · rw [opEqv_refl]; rfl
      · rw [acc_nil (fun k' hk' hc => hex' ⟨k', hk', hc⟩)]
        rfl
    · rw [if_neg hm]
      obtain ⟨k', hk', hc⟩ := hex
      have : k' ≠ k := fun e => hm (e ▸ hc)
      exact acc_const ho (fun k'' hk'' => h k'' (by omega)) ⟨k', by omega, hc⟩

theorem acc_canon {i x y : Nat} (hop : ∀ k, k < ts.length → Canon (opK idOps ts k i)) :
    ∀ {k : Nat}, k ≤ ts.length → Canon (f.acc idOps ts i x y k)
  | 0, _ => canon_nil
  | k + 1, hk => by
    rw [Fsm.acc]
    have ih := acc_canon hop (x := x) (y := y) (show k ≤ ts.length by omega)
    split
    · unfold comb
      split
      · exact hop k (by omega)
      · split
        · exact canon_add (hop k (by omega)).2 ih
        · exact ih
    · exact ih

/-- The operator of path `k` on site `i` is not dropped by the duplicate test of `CastFSMPathToMatRepr_`. -/
def Fsm.eff (f : Fsm) (idOps : Nat → OpRepr) (ts : List Term) (i k : Nat) : Prop :=
  f.acc idOps ts i (f.idx ts i k) (f.idx ts (i + 1) k) k = [] ∨
    OpRepr.eqv (f.acc idOps ts i (f.idx ts i k) (f.idx ts (i + 1) k) k) (opK idOps ts k i) = false

instance (i k : Nat) : Decidable (f.eff idOps ts i k) := by unfold Fsm.eff; infer_instance

variable {R : Type} [CommSemiring R] (cv : Label → R) (ov : Label → R)

theorem acc_val (i x y k : Nat) : OpRepr.val cv ov (f.acc idOps ts i x y k) =
    ∑ k' ∈ range k, if (f.idx ts i k' = x ∧ f.idx ts (i + 1) k' = y) ∧ f.eff idOps ts i k' then
      OpRepr.val cv ov (opK idOps ts k' i) else 0 := by
  induction k with
  | zero => simp [Fsm.acc]
  | succ k ih =>
    rw [Finset.sum_range_succ, ← ih, Fsm.acc]
    by_cases hm : f.idx ts i k = x ∧ f.idx ts (i + 1) k = y
    · rw [if_pos hm]
      unfold comb
      by_cases he : f.acc idOps ts i x y k = []
      · have heff : f.eff idOps ts i k := by left; rw [hm.1, hm.2]; exact he
        rw [if_pos (show (f.idx ts i k = x ∧ f.idx ts (i + 1) k = y) ∧ f.eff idOps ts i k from ⟨hm, heff⟩), he]; simp
      · have h1 : (f.acc idOps ts i x y k).isEmpty = false := by simpa using he
        rw [h1]
        by_cases hq : OpRepr.eqv (f.acc idOps ts i x y k) (opK idOps ts k i) = true
        · have hneff : ¬ f.eff idOps ts i k := by
            rintro (h | h)
            · rw [hm.1, hm.2] at h; exact he h
            · rw [hm.1, hm.2, hq] at h; cases h
          rw [if_neg (show ¬ ((f.idx ts i k = x ∧ f.idx ts (i + 1) k = y) ∧ f.eff idOps ts i k) from fun h => hneff h.2), hq]; simp
        · have heff : f.eff idOps ts i k := by
            right; rw [hm.1, hm.2]; simpa using hq
          rw [if_pos (show (f.idx ts i k = x ∧ f.idx ts (i + 1) k = y) ∧ f.eff idOps ts i k from ⟨hm, heff⟩)]
          have : OpRepr.eqv (f.acc idOps ts i x y k) (opK idOps ts k i) = false := by simpa using hq
          rw [this]
          simp [val_add]
    · rw [if_neg hm, if_neg (fun h => hm h.1)]; simp

end

/-- Row sum of one matrix as a sum over paths. -/
theorem row_sum {N : Nat} {idOps : Nat → OpRepr} {f : Fsm} {ts : List Term} (h : FsmRep N idOps f ts)
    (hv : ∀ t ∈ ts, t.Valid N) {R : Type} [CommSemiring R] (cv ov : Label → R) {m : SparMat OpRepr} {i : Nat} (hi : i < N)
    (hc : m.cols = f.dim (i + 1)) (hg : ∀ x y, y < f.dim (i + 1) → m.get x y = f.acc idOps ts i x y ts.length)
    (V : Nat → R) (x : Nat) :
    ∑ c ∈ range m.cols, OpRepr.val cv ov (m.get x c) * V c =
      ∑ k ∈ range ts.length, if f.idx ts i k = x ∧ f.eff idOps ts i k then
        OpRepr.val cv ov (opK idOps ts k i) * V (f.idx ts (i + 1) k) else 0 := by
  rw [hc]
  have e1 : ∀ c ∈ range (f.dim (i + 1)), OpRepr.val cv ov (m.get x c) * V c =
      ∑ k ∈ range ts.length, if (f.idx ts i k = x ∧ f.idx ts (i + 1) k = c) ∧ f.eff idOps ts i k then
        OpRepr.val cv ov (opK idOps ts k i) * V c else 0 := by
    intro c hc
    rw [hg x c (Finset.mem_range.1 hc), acc_val, Finset.sum_mul]
    refine Finset.sum_congr rfl fun k _ => ?_
    split <;> simp
  rw [Finset.sum_congr rfl e1, Finset.sum_comm]
  refine Finset.sum_congr rfl fun k hk => ?_
  have hlt := (idx_lt h hv (show i + 1 ≤ N by omega) (Finset.mem_range.1 hk)).2
  rw [Finset.sum_eq_single (f.idx ts (i + 1) k)]
  · by_cases hh : f.idx ts i k = x ∧ f.eff idOps ts i k
    · rw [if_pos hh, if_pos ⟨⟨hh.1, rfl⟩, hh.2⟩]
    · rw [if_neg hh, if_neg (fun h => hh ⟨h.1.1, h.2⟩)]
  · intro c _ hne
    rw [if_neg (fun h => hne h.1.2.symm)]
  · intro hn; exact absurd (Finset.mem_range.2 hlt) hn

/-! ### Shape of the operators -/

/-- The operators of a term: the first one carries the coefficient, the others the identity coefficient. -/
structure Term.Shape (t : Term) : Prop where
  first : ∃ l c, t.ops[0]? = some [(l, [c])]
  rest : ∀ (j : Nat) (o : OpRepr), 1 ≤ j → t.ops[j]? = some o → ∃ l, o = [(l, kIdCoef)]

/-- Identity operators carry the identity coefficient. -/
def IdShape (N : Nat) (idOps : Nat → OpRepr) : Prop := ∀ i, i < N → ∃ l, idOps i = [(l, kIdCoef)]

section
variable {N : Nat} {idOps : Nat → OpRepr} {f : Fsm} {ts : List Term} (h : FsmRep N idOps f ts)
  (hv : ∀ t ∈ ts, t.Valid N) (hs : ∀ t ∈ ts, t.Shape) (hid : IdShape N idOps)
include h hv

theorem same_iff {b : Nat} (hb : b ≤ N) {j k : Nat} (hj : j < ts.length) (hk : k < ts.length) :
    f.idx ts b j = f.idx ts b k ↔ ((b ≤ ts[j].head ∧ b ≤ ts[k].head) ∨ (ts[j].tail < b ∧ ts[k].tail < b) ∨
      (j = k ∧ ts[j].head < b ∧ b ≤ ts[j].tail)) := by
  rw [idx_eq_iff h hv hb hj hk]
  unfold SameState
  constructor
  · rintro ⟨s, t, h1, h2, h3⟩
    rw [List.getElem?_eq_getElem hj] at h1; rw [List.getElem?_eq_getElem hk] at h2
    cases h1; cases h2; exact h3
  · intro h3; exact ⟨_, _, List.getElem?_eq_getElem hj, List.getElem?_eq_getElem hk, h3⟩

omit h hv in
theorem opK_id {k i : Nat} (hk : k < ts.length) (hc : i < ts[k].head ∨ ts[k].tail < i) : opK idOps ts k i = idOps i := by
  unfold opK; rw [List.getElem?_eq_getElem hk]; simp only [opAt]; rw [if_pos hc]

include hs in
omit h in
theorem opK_head {k : Nat} (hk : k < ts.length) : ∃ l c, opK idOps ts k ts[k].head = [(l, [c])] := by
  obtain ⟨l, c, e⟩ := (hs _ (List.getElem_mem hk)).first
  have := (hv _ (List.getElem_mem hk)).ht
  refine ⟨l, c, ?_⟩
  unfold opK; rw [List.getElem?_eq_getElem hk]; simp only [opAt]
  rw [if_neg (by omega), Nat.sub_self, List.getD_eq_getElem?_getD, e]; rfl

include hs hid in
omit h in
theorem opK_other {k i : Nat} (hi : i < N) (hk : k < ts.length) (hne : i ≠ ts[k].head) :
    ∃ l, opK idOps ts k i = [(l, kIdCoef)] := by
  have hval := hv _ (List.getElem_mem hk)
  have := hval.ht
  by_cases hc : i < ts[k].head ∨ ts[k].tail < i
  · rw [opK_id hk hc]; exact hid i hi
  · unfold opK; rw [List.getElem?_eq_getElem hk]; simp only [opAt]
    rw [if_neg hc]
    have hlen := hval.len
    have hl : i - ts[k].head < ts[k].ops.length := by omega
    obtain ⟨l, e⟩ := (hs _ (List.getElem_mem hk)).rest (i - ts[k].head) _ (by omega) (List.getElem?_eq_getElem hl)
    exact ⟨l, by rw [List.getD_eq_getElem?_getD, List.getElem?_eq_getElem hl]; exact e⟩

include hs hid in
omit h in
theorem opK_single {k i : Nat} (hi : i < N) (hk : k < ts.length) : ∃ l c, opK idOps ts k i = [(l, [c])] := by
  by_cases hne : i = ts[k].head
  · rw [hne]; exact opK_head hv hs hk
  · obtain ⟨l, e⟩ := opK_other hv hs hid hi hk hne
    exact ⟨l, 0, e⟩

/-- An edge touching a middle state belongs to one path only. -/
theorem edge_mid {i : Nat} (hi : i < N) {j k : Nat} (hj : j < ts.length) (hk : k < ts.length)
    (hm : (ts[k].head < i ∧ i ≤ ts[k].tail) ∨ (ts[k].head < i + 1 ∧ i + 1 ≤ ts[k].tail))
    (e1 : f.idx ts i j = f.idx ts i k) (e2 : f.idx ts (i + 1) j = f.idx ts (i + 1) k) : j = k := by
  rw [same_iff h hv (by omega) hj hk] at e1 e2
  have := (hv _ (List.getElem_mem hj)).ht
  omega

/-- An edge touching a middle state is never dropped. -/
theorem eff_mid {i : Nat} (hi : i < N) {k : Nat} (hk : k < ts.length)
    (hm : (ts[k].head < i ∧ i ≤ ts[k].tail) ∨ (ts[k].head < i + 1 ∧ i + 1 ≤ ts[k].tail)) : f.eff idOps ts i k := by
  left
  refine acc_nil fun k' hk' hc => ?_
  have := edge_mid h hv hi (show k' < ts.length by omega) hk hm hc.1 hc.2
  omega

include hid

theorem eff_ready {i : Nat} (hi : i < N) {k : Nat} (hk : k < ts.length) (hr : i < ts[k].head) :
    f.eff idOps ts i k ↔ ∀ (k' : Nat) (hk' : k' < k), ¬ i < (ts[k']'(by omega)).head := by
  obtain ⟨l, hl⟩ := hid i hi
  have hvk := (hv _ (List.getElem_mem hk)).ht
  constructor
  · intro he k' hk' hc
    have hmatch : ∀ (j : Nat) (hj : j < k), f.idx ts i j = f.idx ts i k ∧ f.idx ts (i + 1) j = f.idx ts (i + 1) k →
        opK idOps ts j i = [(l, kIdCoef)] := by
      intro j hj hc
      rw [same_iff h hv (by omega) (by omega) hk] at hc
      have := hc.2
      rw [same_iff h hv (by omega) (by omega) hk] at this
      rw [opK_id (show j < ts.length by omega) (by omega), hl]
    have hacc := acc_const (f := f) (idOps := idOps) (ts := ts) (o := [(l, kIdCoef)]) (by simp) hmatch
      ⟨k', hk', (same_iff h hv (by omega) (by omega) hk).2 (by omega), (same_iff h hv (by omega) (by omega) hk).2 (by omega)⟩
    rcases he with he | he
    · rw [hacc] at he; cases he
    · rw [hacc, opK_id hk (Or.inl hr), hl, opEqv_refl] at he; cases he
  · intro hno
    left
    refine acc_nil fun k' hk' hc => ?_
    have hc2 := hc.2
    rw [same_iff h hv (by omega) (by omega) hk] at hc2
    have := hno k' hk'
    omega

theorem eff_final {i : Nat} (hi : i < N) {k : Nat} (hk : k < ts.length) (hr : ts[k].tail < i) :
    f.eff idOps ts i k ↔ ∀ (k' : Nat) (hk' : k' < k), ¬ (ts[k']'(by omega)).tail < i := by
  obtain ⟨l, hl⟩ := hid i hi
  have hvk := (hv _ (List.getElem_mem hk)).ht
  constructor
  · intro he k' hk' hc
    have hmatch : ∀ (j : Nat) (hj : j < k), f.idx ts i j = f.idx ts i k ∧ f.idx ts (i + 1) j = f.idx ts (i + 1) k →
        opK idOps ts j i = [(l, kIdCoef)] := by
      intro j hj hc
      have := hc.1
      rw [same_iff h hv (by omega) (by omega) hk] at this
      rw [opK_id (show j < ts.length by omega) (by omega), hl]
    have hacc := acc_const (f := f) (idOps := idOps) (ts := ts) (o := [(l, kIdCoef)]) (by simp) hmatch
      ⟨k', hk', (same_iff h hv (by omega) (by omega) hk).2 (by omega), (same_iff h hv (by omega) (by omega) hk).2 (by omega)⟩
    rcases he with he | he
    · rw [hacc] at he; cases he
    · rw [hacc, opK_id hk (Or.inr hr), hl, opEqv_refl] at he; cases he
  · intro hno
    left
    refine acc_nil fun k' hk' hc => ?_
    have hc2 := hc.1
    rw [same_iff h hv (by omega) (by omega) hk] at hc2
    have := hno k' hk'
    omega

end

/-! ### Value -/

theorem exists_min {P : Nat → Prop} (h : ∃ n, P n) : ∃ n, P n ∧ ∀ m, m < n → ¬ P m := by
  classical
  exact ⟨Nat.find h, Nat.find_spec h, fun m hm => Nat.find_min h hm⟩

section
variable {N : Nat} {idOps : Nat → OpRepr} {f : Fsm} {ts : List Term} (h : FsmRep N idOps f ts)
  (hv : ∀ t ∈ ts, t.Valid N) (hs : ∀ t ∈ ts, t.Shape) (hid : IdShape N idOps)
  {R : Type} [CommSemiring R] (cv : Label → R) (ov : Nat → Label → R)

/-- Value of the operators of path `k` from site `i` to the end. -/
def pathVal (idOps : Nat → OpRepr) (ts : List Term) (N : Nat) (cv : Label → R) (ov : Nat → Label → R) (k i : Nat) : R :=
  ∏ s ∈ Finset.Ico i N, OpRepr.val cv (ov s) (opK idOps ts k s)

theorem pathVal_succ {k i : Nat} (hi : i < N) : pathVal idOps ts N cv ov k i =
    OpRepr.val cv (ov i) (opK idOps ts k i) * pathVal idOps ts N cv ov k (i + 1) := by
  unfold pathVal
  rw [Finset.prod_eq_prod_Ico_succ_bot hi]

/-- Path `k` is not dropped at its first site. -/
def Fsm.surv (f : Fsm) (idOps : Nat → OpRepr) (ts : List Term) (k : Nat) : Prop :=
  ∀ t, ts[k]? = some t → f.eff idOps ts t.head k

omit [CommSemiring R] in
theorem surv_iff {k : Nat} (hk : k < ts.length) : f.surv idOps ts k ↔ f.eff idOps ts ts[k].head k := by
  unfold Fsm.surv
  constructor
  · intro h; exact h _ (List.getElem?_eq_getElem hk)
  · intro h t ht
    rw [List.getElem?_eq_getElem hk] at ht; cases ht; exact h

/-- The list of matrices from site `i` on. -/
def matsFrom (ms : Nat → SparMat OpRepr) (N i : Nat) : List (SparMat OpRepr) := (List.range' i (N - i)).map ms

theorem matsFrom_succ (ms : Nat → SparMat OpRepr) {N i : Nat} (hi : i < N) :
    matsFrom ms N i = ms i :: matsFrom ms N (i + 1) := by
  unfold matsFrom
  have : N - i = (N - (i + 1)) + 1 := by omega
  rw [this, List.range'_succ]; rfl

theorem matsFrom_end (ms : Nat → SparMat OpRepr) (N : Nat) : matsFrom ms N N = [] := by
  simp [matsFrom]

theorem matsFrom_zero (ms : Nat → SparMat OpRepr) (N : Nat) : matsFrom ms N 0 = (List.range N).map ms := by
  simp [matsFrom, List.range_eq_range']

open Classical in
include h hv hid in
/-- Value of each state, by backward induction over the sites. -/
theorem state_val {ms : Nat → SparMat OpRepr} (hm : MatsAt f idOps ts N ts.length ms) :
    ∀ n i, i + n = N → ∀ k, (hk : k < ts.length) →
      chainVal cv ov i (matsFrom ms N i) (f.idx ts i k) =
        if ts[k].head < i then pathVal idOps ts N cv ov k i
        else ∑ k' ∈ range ts.length, if (∃ hk' : k' < ts.length, i ≤ ts[k'].head) ∧ f.surv idOps ts k' then
          pathVal idOps ts N cv ov k' i else 0 := by
  intro n
  induction n with
  | zero =>
    intro i hi k hk
    have : i = N := by omega
    subst this
    have hval := hv _ (List.getElem_mem hk)
    have h1 := hval.ht
    have h2 := hval.tN
    rw [if_pos (by omega), matsFrom_end]
    simp [chainVal, pathVal]
  | succ n ih =>
    intro i hi k hk
    have hiN : i < N := by omega
    obtain ⟨_, _, mc, mg⟩ := hm i hiN
    rw [matsFrom_succ ms hiN]
    have key : ∀ x, chainVal cv ov i (ms i :: matsFrom ms N (i + 1)) x =
      ∑ c ∈ range (ms i).cols, OpRepr.val cv (ov i) ((ms i).get x c) * chainVal cv ov (i + 1) (matsFrom ms N (i + 1)) c := fun _ => rfl
    rw [key, row_sum h hv cv (ov i) hiN mc mg]
    have IH := ih (i + 1) (by omega)
    have hvk := (hv _ (List.getElem_mem hk)).ht
    by_cases c1 : ts[k].head < i
    · rw [if_pos c1]
      by_cases c2 : i ≤ ts[k].tail
      · -- middle state
        rw [Finset.sum_eq_single k]
        · rw [if_pos ⟨rfl, eff_mid h hv hiN hk (Or.inl ⟨c1, c2⟩)⟩, IH k hk, if_pos (by omega), ← pathVal_succ cv ov hiN]
        · intro j hj hne
          have hj' := Finset.mem_range.1 hj
          rw [if_neg]
          rintro ⟨he, _⟩
          rw [same_iff h hv (by omega) hj' hk] at he
          have := (hv _ (List.getElem_mem hj')).ht
          omega
        · intro hn; exact absurd (Finset.mem_range.2 hk) hn
      · -- final state
        have hex : ∃ j, ∃ hj : j < ts.length, ts[j].tail < i := ⟨k, hk, by omega⟩
        obtain ⟨k0, ⟨hk0, hk0'⟩, hmin⟩ := exists_min hex
        have hP : ∀ j, (hj : j < ts.length) → ts[j].tail < i → pathVal idOps ts N cv ov j i = pathVal idOps ts N cv ov k i := by
          intro j hj hjt
          unfold pathVal
          refine Finset.prod_congr rfl fun s hs => ?_
          have hs' := Finset.mem_Ico.1 hs
          rw [opK_id hj (by omega), opK_id hk (by omega)]
        rw [Finset.sum_eq_single k0]
        · rw [if_pos]
          · have := (hv _ (List.getElem_mem hk0)).ht
            rw [IH k0 hk0, if_pos (by omega), ← pathVal_succ cv ov hiN, hP k0 hk0 hk0']
          · refine ⟨(same_iff h hv (by omega) hk0 hk).2 (by omega), ?_⟩
            rw [eff_final h hv hid hiN hk0 hk0']
            intro j hj hc
            exact hmin j hj ⟨by omega, hc⟩
        · intro j hj hne
          have hj' := Finset.mem_range.1 hj
          rw [if_neg]
          rintro ⟨he, heff⟩
          rw [same_iff h hv (by omega) hj' hk] at he
          have hjt : ts[j].tail < i := by rcases he with hh | hh | ⟨rfl, hh⟩ <;> omega
          rw [eff_final h hv hid hiN hj' hjt] at heff
          have h1 : ¬ k0 < j := fun hlt => heff k0 hlt hk0'
          have h2 : ¬ j < k0 := fun hlt => hmin j hlt ⟨hj', hjt⟩
          omega
        · intro hn; exact absurd (Finset.mem_range.2 hk0) hn
    · -- ready state
      rw [if_neg c1]
      -- split into paths starting here and paths starting later
      let later : Nat → R := fun j => if (∃ hj : j < ts.length, i + 1 ≤ ts[j].head) ∧ f.surv idOps ts j then
          pathVal idOps ts N cv ov j (i + 1) else 0
      have hidv : ∀ j, (hj : j < ts.length) → i < ts[j].head → opK idOps ts j i = idOps i :=
        fun j hj hlt => opK_id hj (Or.inl hlt)
      have lhs : ∀ j ∈ range ts.length, (if f.idx ts i j = f.idx ts i k ∧ f.eff idOps ts i j then
          OpRepr.val cv (ov i) (opK idOps ts j i) * chainVal cv ov (i + 1) (matsFrom ms N (i + 1)) (f.idx ts (i + 1) j) else 0) =
          (if (∃ hj : j < ts.length, ts[j].head = i) ∧ f.surv idOps ts j then pathVal idOps ts N cv ov j i else 0) +
          (if (∃ hj : j < ts.length, i < ts[j].head) ∧ f.eff idOps ts i j then
            OpRepr.val cv (ov i) (idOps i) * ∑ j' ∈ range ts.length, later j' else 0) := by
        intro j hj
        have hj' := Finset.mem_range.1 hj
        have hvj := (hv _ (List.getElem_mem hj')).ht
        rcases Nat.lt_trichotomy ts[j].head i with hlt | heq | hgt
        · rw [if_neg, if_neg, if_neg]
          · simp
          · rintro ⟨⟨_, hh⟩, _⟩; omega
          · rintro ⟨⟨_, hh⟩, _⟩; omega
          · rintro ⟨he, _⟩
            rw [same_iff h hv (by omega) hj' hk] at he
            rcases he with hh | hh | ⟨rfl, hh⟩ <;> omega
        · have hss : f.idx ts i j = f.idx ts i k := (same_iff h hv (by omega) hj' hk).2 (by omega)
          rw [IH j hj', if_pos (show ts[j].head < i + 1 by omega), ← pathVal_succ cv ov hiN]
          rw [if_neg (show ¬ ((∃ hj : j < ts.length, i < ts[j].head) ∧ f.eff idOps ts i j) by
            rintro ⟨⟨_, hh⟩, _⟩; omega), add_zero]
          have hsv : f.surv idOps ts j ↔ f.eff idOps ts i j := by rw [surv_iff hj', heq]
          by_cases heff : f.eff idOps ts i j
          · rw [if_pos ⟨hss, heff⟩, if_pos ⟨⟨hj', heq⟩, hsv.2 heff⟩]
          · rw [if_neg (fun hh => heff hh.2), if_neg (fun hh => heff (hsv.1 hh.2))]
        · have hss : f.idx ts i j = f.idx ts i k := (same_iff h hv (by omega) hj' hk).2 (by omega)
          rw [IH j hj', if_neg (show ¬ ts[j].head < i + 1 by omega), hidv j hj' hgt]
          rw [if_neg (show ¬ ((∃ hj : j < ts.length, ts[j].head = i) ∧ f.surv idOps ts j) by
            rintro ⟨⟨_, hh⟩, _⟩; omega), zero_add]
          by_cases heff : f.eff idOps ts i j
          · rw [if_pos ⟨hss, heff⟩, if_pos ⟨⟨hj', hgt⟩, heff⟩]
          · rw [if_neg (fun hh => heff hh.2), if_neg (fun hh => heff hh.2)]
      rw [Finset.sum_congr rfl lhs, Finset.sum_add_distrib]
      -- the target splits in the same way
      have rhs : ∀ j ∈ range ts.length, (if (∃ hj : j < ts.length, i ≤ ts[j].head) ∧ f.surv idOps ts j then
          pathVal idOps ts N cv ov j i else 0) =
          (if (∃ hj : j < ts.length, ts[j].head = i) ∧ f.surv idOps ts j then pathVal idOps ts N cv ov j i else 0) +
          OpRepr.val cv (ov i) (idOps i) * later j := by
        intro j hj
        have hj' := Finset.mem_range.1 hj
        simp only [later]
        by_cases hsv : f.surv idOps ts j
        · rcases Nat.lt_trichotomy ts[j].head i with hlt | heq | hgt
          · rw [if_neg, if_neg, if_neg]
            · simp
            · rintro ⟨⟨_, hh⟩, _⟩; omega
            · rintro ⟨⟨_, hh⟩, _⟩; omega
            · rintro ⟨⟨_, hh⟩, _⟩; omega
          · rw [if_pos ⟨⟨hj', by omega⟩, hsv⟩, if_pos ⟨⟨hj', heq⟩, hsv⟩, if_neg (by rintro ⟨⟨_, hh⟩, _⟩; omega)]
            simp
          · rw [if_pos ⟨⟨hj', by omega⟩, hsv⟩, if_neg (by rintro ⟨⟨_, hh⟩, _⟩; omega), if_pos ⟨⟨hj', by omega⟩, hsv⟩,
              zero_add, pathVal_succ cv ov hiN, hidv j hj' hgt]
        · rw [if_neg (fun hh => hsv hh.2), if_neg (fun hh => hsv hh.2), if_neg (fun hh => hsv hh.2)]; simp
      rw [Finset.sum_congr rfl rhs, Finset.sum_add_distrib, ← Finset.mul_sum]
      congr 1
      by_cases hex : ∃ j, ∃ hj : j < ts.length, i < ts[j].head
      · obtain ⟨k0, ⟨hk0, hk0'⟩, hmin⟩ := exists_min hex
        rw [Finset.sum_eq_single k0]
        · rw [if_pos]
          refine ⟨⟨hk0, hk0'⟩, ?_⟩
          rw [eff_ready h hv hid hiN hk0 hk0']
          intro j hj hc
          exact hmin j hj ⟨by omega, hc⟩
        · intro j hj hne
          rw [if_neg]
          rintro ⟨⟨hj', hjt⟩, heff⟩
          rw [eff_ready h hv hid hiN hj' hjt] at heff
          have h1 : ¬ k0 < j := fun hlt => heff k0 hlt hk0'
          have h2 : ¬ j < k0 := fun hlt => hmin j hlt ⟨hj', hjt⟩
          omega
        · intro hn; exact absurd (Finset.mem_range.2 hk0) hn
      · have z1 : ∀ j ∈ range ts.length, (if (∃ hj : j < ts.length, i < ts[j].head) ∧ f.eff idOps ts i j then
            OpRepr.val cv (ov i) (idOps i) * ∑ j' ∈ range ts.length, later j' else 0) = 0 := by
          intro j _; rw [if_neg]; rintro ⟨hh, _⟩; exact hex ⟨j, hh⟩
        have z2 : ∀ j ∈ range ts.length, later j = 0 := by
          intro j _; simp only [later]; rw [if_neg]; rintro ⟨⟨h1, h2⟩, _⟩; exact hex ⟨j, h1, by omega⟩
        rw [Finset.sum_congr rfl z1, Finset.sum_congr rfl z2]; simp

/-! ### Structure needed by the compression sweeps -/

/-- Index of the ready state at bond `b`. -/
def Fsm.rdyIdx (f : Fsm) (b : Nat) : Option Nat := if f.hasR b then some 0 else none
/-- Index of the final state at bond `b`. -/
def Fsm.finIdx (f : Fsm) (b : Nat) : Option Nat :=
  if f.hasF b then some (if f.hasR b then f.mid b + 1 else 0) else none

omit [CommSemiring R] in
include h hv in
theorem rdy_iff {b : Nat} (hb : b ≤ N) {k : Nat} (hk : k < ts.length) :
    some (f.idx ts b k) = f.rdyIdx b ↔ b ≤ ts[k].head := by
  unfold Fsm.rdyIdx
  constructor
  · intro he
    split at he
    · rename_i hR
      simp only [Option.some.injEq] at he
      rw [h.hasR b hb, List.any_eq_true] at hR
      obtain ⟨t, ht, hc⟩ := hR
      obtain ⟨j, hj, e⟩ := List.getElem_of_mem ht
      have hc' : b ≤ ts[j].head := by rw [e]; simpa using hc
      have h0 : f.idx ts b j = 0 := by
        unfold Fsm.idx; rw [(idx_ready h hb (List.getElem?_eq_getElem hj) hc').1]; rfl
      have := (same_iff h hv hb hk hj).1 (by rw [he, h0])
      have := (hv _ (List.getElem_mem hj)).ht
      have := (hv _ (List.getElem_mem hk)).ht
      rcases (same_iff h hv hb hk hj).1 (by rw [he, h0]) with hh | hh | ⟨rfl, hh⟩ <;> omega
    · cases he
  · intro hc
    obtain ⟨e, hR⟩ := idx_ready h hb (List.getElem?_eq_getElem hk) hc
    rw [if_pos hR]; unfold Fsm.idx; rw [e]; rfl

omit [CommSemiring R] in
include h hv in
theorem fin_iff {b : Nat} (hb : b ≤ N) {k : Nat} (hk : k < ts.length) :
    some (f.idx ts b k) = f.finIdx b ↔ ts[k].tail < b := by
  unfold Fsm.finIdx
  have hvk := (hv _ (List.getElem_mem hk)).ht
  constructor
  · intro he
    split at he
    · rename_i hF
      simp only [Option.some.injEq] at he
      rw [h.hasF b hb, List.any_eq_true] at hF
      obtain ⟨t, ht, hc⟩ := hF
      obtain ⟨j, hj, e⟩ := List.getElem_of_mem ht
      have hc' : ts[j].tail < b := by rw [e]; simpa using hc
      have hvj := (hv _ (List.getElem_mem hj)).ht
      have h0 : f.idx ts b j = if f.hasR b then f.mid b + 1 else 0 := by
        unfold Fsm.idx; rw [(idx_final h hb hvj (List.getElem?_eq_getElem hj) hc').1, Int.toNat_natCast]
      rcases (same_iff h hv hb hk hj).1 (by rw [he, h0]) with hh | hh | ⟨rfl, hh⟩ <;> omega
    · cases he
  · intro hc
    obtain ⟨e, hF⟩ := idx_final h hb hvk (List.getElem?_eq_getElem hk) hc
    rw [if_pos hF]; unfold Fsm.idx; rw [e, Int.toNat_natCast]

omit [CommSemiring R] in
include h hv hs hid in
theorem rawW_of {ms : Nat → SparMat OpRepr} (hm : MatsAt f idOps ts N ts.length ms) (hne : ts ≠ []) {i : Nat} (hi : i < N) :
    RawW (f.rdyIdx i) (f.finIdx i) (f.rdyIdx (i + 1)) (f.finIdx (i + 1)) (ms i) := by
  obtain ⟨mw, mr, mc, mg⟩ := hm i hi
  have h0 : 0 < ts.length := List.length_pos_of_ne_nil hne
  have dpos : ∀ b, b ≤ N → 0 < f.dim b := fun b hb => Nat.lt_of_le_of_lt (Nat.zero_le _) (idx_lt h hv hb h0).2
  obtain ⟨lid, hlid⟩ := hid i hi
  have ent : ∀ x y, y < f.dim (i + 1) → (ms i).get x y = f.acc idOps ts i x y ts.length := mg
  -- the entry on the edge of a path that is not of single-site type
  have uniq : ∀ k, (hk : k < ts.length) → (ts[k].head < i ∧ i ≤ ts[k].tail) ∨ (ts[k].head < i + 1 ∧ i + 1 ≤ ts[k].tail) →
      (ms i).get (f.idx ts i k) (f.idx ts (i + 1) k) = opK idOps ts k i := by
    intro k hk hm
    rw [ent _ _ (idx_lt h hv (by omega) hk).2]
    obtain ⟨l, c, e⟩ := opK_single hv hs hid hi hk
    refine acc_const (by rw [e]; simp) (fun k' hk' hc => ?_) ⟨k, hk, rfl, rfl⟩
    rw [edge_mid h hv hi hk' hk hm hc.1 hc.2]
  have triv : ∀ k, (hk : k < ts.length) → i < ts[k].head ∨ ts[k].tail < i →
      (ms i).get (f.idx ts i k) (f.idx ts (i + 1) k) = [(lid, kIdCoef)] := by
    intro k hk hm
    rw [ent _ _ (idx_lt h hv (by omega) hk).2]
    refine acc_const (by simp) (fun k' hk' hc => ?_) ⟨k, hk, rfl, rfl⟩
    rw [same_iff h hv (by omega) hk' hk] at hc
    have hc2 := hc.2
    rw [same_iff h hv (by omega) hk' hk] at hc2
    have hc1 := hc.1
    have hvk := (hv _ (List.getElem_mem hk)).ht
    have hvk' := (hv _ (List.getElem_mem hk')).ht
    by_cases hkk : k' = k
    · subst hkk; rw [opK_id hk' hm, hlid]
    · rw [opK_id hk' (by omega), hlid]
  have nul : ∀ x y, y < f.dim (i + 1) → (∀ k, (hk : k < ts.length) → ¬ (f.idx ts i k = x ∧ f.idx ts (i + 1) k = y)) →
      (ms i).get x y = [] := by
    intro x y hy hno
    rw [ent x y hy]; exact acc_nil hno
  refine ⟨⟨mw, ?_, by rw [mr]; exact dpos i (by omega), by rw [mc]; exact dpos (i + 1) (by omega)⟩, ?_, ?_, ?_, ?_⟩
  · intro x y hx hy
    rw [ent x y (by omega)]
    refine acc_canon (fun k hk => ?_) (Nat.le_refl _)
    obtain ⟨l, c, e⟩ := opK_single hv hs hid hi hk
    rw [e]; exact canon_single _ (by simp)
  · intro s hsr hsf
    unfold Fsm.rdyIdx at hsr
    unfold Fsm.finIdx at hsf
    split at hsr
    · rename_i hR
      simp only [Option.some.injEq] at hsr
      subst hsr
      rw [hR] at hsf
      split at hsf
      · simp at hsf
      · cases hsf
    · cases hsr
  · intro s hsl hsne
    rw [mc] at hsl
    obtain ⟨k, hk, rfl⟩ := idx_surj h hv (show i + 1 ≤ N by omega) hsl
    rw [Ne, fin_iff h hv (by omega) hk] at hsne
    have hvk := (hv _ (List.getElem_mem hk)).ht
    have hp0 := (idx_lt h hv (show i ≤ N by omega) hk).2
    by_cases hc : i < ts[k].head
    · refine ⟨f.idx ts i k, lid, kIdCoef, by omega, ?_, by simp, ?_, triv k hk (Or.inl hc), ?_⟩
      · rw [Ne, fin_iff h hv (by omega) hk]; omega
      · intro _; exact ⟨(rdy_iff h hv (by omega) hk).2 (by omega), rfl⟩
      · intro p hp hpne
        refine nul p _ hsl (fun k' hk' hcc => hpne ?_)
        rw [← hcc.1]
        have := hcc.2
        rw [same_iff h hv (by omega) hk' hk] at this
        exact (same_iff h hv (by omega) hk' hk).2 (by omega)
    · obtain ⟨l, c, e⟩ := opK_single hv hs hid hi hk
      refine ⟨f.idx ts i k, l, [c], by omega, ?_, by simp, ?_, ?_, ?_⟩
      · rw [Ne, fin_iff h hv (by omega) hk]; omega
      · intro hr; rw [rdy_iff h hv (by omega) hk] at hr; omega
      · rw [uniq k hk (Or.inr (by omega)), e]
      · intro p hp hpne
        refine nul p _ hsl (fun k' hk' hcc => hpne ?_)
        rw [← hcc.1]
        have := hcc.2
        rw [same_iff h hv (by omega) hk' hk] at this
        rcases this with hh | hh | ⟨rfl, hh⟩
        · omega
        · omega
        · rfl
  · intro p hp hpr s hsl
    rw [mr] at hp; rw [mc] at hsl
    obtain ⟨k, hk, rfl⟩ := idx_surj h hv (show i ≤ N by omega) hp
    rw [Ne, rdy_iff h hv (by omega) hk] at hpr
    have hvk := (hv _ (List.getElem_mem hk)).ht
    by_cases hex : ∃ k', ∃ hk' : k' < ts.length, f.idx ts i k' = f.idx ts i k ∧ f.idx ts (i + 1) k' = s
    · obtain ⟨k', hk', e1, rfl⟩ := hex
      have hvk' := (hv _ (List.getElem_mem hk')).ht
      rw [← e1]
      have e1' := e1
      rw [same_iff h hv (by omega) hk' hk] at e1'
      have hh' : ts[k'].head < i := by
        rcases e1' with hh | hh | ⟨rfl, hh⟩ <;> omega
      by_cases ht : ts[k'].tail < i
      · rw [triv k' hk' (Or.inr ht)]; intro kc hkc; simp at hkc; rw [hkc]
      · rw [uniq k' hk' (Or.inl ⟨hh', by omega⟩)]
        obtain ⟨l, e⟩ := opK_other hv hs hid hi hk' (by omega)
        rw [e]; intro kc hkc; simp at hkc; rw [hkc]
    · rw [nul _ s hsl (fun k' hk' hcc => hex ⟨k', hk', hcc⟩)]; simp
  · intro p hp hpf
    rw [mr] at hp
    obtain ⟨k, hk, rfl⟩ := idx_surj h hv (show i ≤ N by omega) hp
    rw [fin_iff h hv (by omega) hk] at hpf
    have hvk := (hv _ (List.getElem_mem hk)).ht
    refine ⟨f.idx ts (i + 1) k, lid, ((fin_iff h hv (by omega) hk).2 (by omega)).symm, by rw [mc]; exact (idx_lt h hv (by omega) hk).2,
      triv k hk (Or.inr hpf), ?_⟩
    intro s hsl hsne
    rw [mc] at hsl
    refine nul _ s hsl (fun k' hk' hcc => hsne ?_)
    rw [← hcc.2]
    have := hcc.1
    rw [same_iff h hv (by omega) hk' hk] at this
    exact (same_iff h hv (by omega) hk' hk).2 (by omega)

omit [CommSemiring R] in
include h hv in
theorem dim_end (hne : ts ≠ []) : f.dim N = 1 := by
  have h0 : 0 < ts.length := List.length_pos_of_ne_nil hne
  have hd := (idx_lt h hv (Nat.le_refl N) h0).2
  have : ∀ x, x < f.dim N → x = f.idx ts N 0 := by
    intro x hx
    obtain ⟨k, hk, e⟩ := idx_surj h hv (Nat.le_refl N) hx
    rw [← e, same_iff h hv (Nat.le_refl N) hk h0]
    have := (hv _ (List.getElem_mem hk)).tN
    have := (hv _ (List.getElem_mem h0)).tN
    omega
  have a0 := this 0 (by omega)
  by_contra hcon
  have a1 := this 1 (by omega)
  omega

omit [CommSemiring R] in
include h hv in
theorem dim_start (hne : ts ≠ []) : f.dim 0 = 1 := by
  have h0 : 0 < ts.length := List.length_pos_of_ne_nil hne
  have hd := (idx_lt h hv (Nat.zero_le N) h0).2
  have : ∀ x, x < f.dim 0 → x = f.idx ts 0 0 := by
    intro x hx
    obtain ⟨k, hk, e⟩ := idx_surj h hv (Nat.zero_le N) hx
    rw [← e, same_iff h hv (Nat.zero_le N) hk h0]
    omega
  have a0 := this 0 (by omega)
  by_contra hcon
  have a1 := this 1 (by omega)
  omega

omit [CommSemiring R] in
include h hv hs hid in
theorem rawChain_of {ms : Nat → SparMat OpRepr} (hm : MatsAt f idOps ts N ts.length ms) (hne : ts ≠ []) :
    ∀ n i, i + n = N → RawChain (f.rdyIdx i) (f.finIdx i) (f.dim i) (matsFrom ms N i) := by
  intro n
  induction n with
  | zero =>
    intro i hi
    have : i = N := by omega
    subst this
    rw [matsFrom_end]; exact dim_end h hv hne
  | succ n ih =>
    intro i hi
    rw [matsFrom_succ ms (by omega)]
    obtain ⟨mw, mr, mc, mg⟩ := hm i (by omega)
    refine ⟨f.rdyIdx (i + 1), f.finIdx (i + 1), mr, rawW_of h hv hs hid hm hne (by omega), ?_⟩
    rw [mc]; exact ih (i + 1) (by omega)

end
end Verif.Mpo
