import Verif.Mpo.CompFacts
import Mathlib.Algebra.BigOperators.Group.Finset.Sigma
/- Full specification of one call of the row/column compresser (helper, not property statements). -/
namespace Verif.Mpo
open SparMat NullElem Finset

/-! ### Separation of common coefficients -/

theorem filter_map_nonnull {ax : Axis} {m : SparMat OpRepr} (hm : WF m) (i : Nat) :
    nonNullEntries ax m i = ((List.range (cross ax m)).map (fun x => atL ax m i x)).filter (fun o => !o.isEmpty) := by
  unfold nonNullEntries
  rw [List.filter_map]
  congr 1
  apply List.filter_congr
  intro x _
  simp only [Function.comp]
  have := nullL_iff hm ax i x
  cases h : nullL ax m i x
  · have hne : atL ax m i x ≠ [] := fun hh => by rw [this.2 hh] at h; simp at h
    cases h2 : atL ax m i x
    · exact absurd h2 hne
    · rfl
  · have : atL ax m i x = [] := this.1 h
    rw [this]; rfl

theorem tryCatch_congr {ax : Axis} {m m' : SparMat OpRepr} (hm : WF m) (hm' : WF m') {i : Nat}
    {i' : Nat} (hc : cross ax m' = cross ax m) (h : ∀ x, x < cross ax m → atL ax m' i' x = atL ax m i x) :
    tryCatchCoef ax m' i' = tryCatchCoef ax m i := by
  have : nonNullEntries ax m' i' = nonNullEntries ax m i := by
    rw [filter_map_nonnull hm, filter_map_nonnull hm', hc]
    congr 1
    apply List.map_congr_left
    intro x hx
    exact h x (List.mem_range.1 hx)
  unfold tryCatchCoef
  rw [this]

theorem commonCoefGo_spec (last : CoefRepr) (l : List OpRepr) :
    commonCoefGo last l = kIdCoef ∨
      (CoefRepr.eqv last (commonCoefGo last l) = true ∧ ∀ op ∈ l, CoefRepr.eqv (opCoef op) (commonCoefGo last l) = true) := by
  induction l generalizing last with
  | nil => right; simp [commonCoefGo]
  | cons op l ih =>
    unfold commonCoefGo
    split
    · rename_i h
      rcases ih (opCoef op) with h1 | h1
      · exact Or.inl h1
      · refine Or.inr ⟨coefEqv_trans h h1.1, ?_⟩
        intro o ho
        rcases List.mem_cons.1 ho with rfl | ho
        · exact h1.1
        · exact h1.2 o ho
    · exact Or.inl rfl

theorem commonCoefGo_const (c : CoefRepr) (l : List OpRepr) (h : ∀ op ∈ l, opCoef op = c) :
    commonCoefGo c l = c := by
  induction l with
  | nil => rfl
  | cons op l ih =>
    unfold commonCoefGo
    rw [h op (by simp), if_pos (coefEqv_refl c)]
    exact ih (fun o ho => h o (by simp [ho]))

theorem mem_nonNull {ax : Axis} {m : SparMat OpRepr} (hm : WF m) {i x : Nat} (hx : x < cross ax m)
    (hne : atL ax m i x ≠ []) : atL ax m i x ∈ nonNullEntries ax m i := by
  rw [filter_map_nonnull hm]
  refine List.mem_filter.2 ⟨List.mem_map.2 ⟨x, List.mem_range.2 hx, rfl⟩, ?_⟩
  cases h : atL ax m i x
  · exact absurd h hne
  · rfl

theorem nonNull_mem {ax : Axis} {m : SparMat OpRepr} (hm : WF m) {i : Nat} {o : OpRepr}
    (h : o ∈ nonNullEntries ax m i) : ∃ x, x < cross ax m ∧ o = atL ax m i x ∧ o ≠ [] := by
  rw [filter_map_nonnull hm] at h
  obtain ⟨h1, h2⟩ := List.mem_filter.1 h
  obtain ⟨x, hx, rfl⟩ := List.mem_map.1 h1
  refine ⟨x, List.mem_range.1 hx, rfl, ?_⟩
  intro hh; rw [hh] at h2; simp at h2

/-- If the common coefficient is neither null nor the identity, it is the coefficient of every entry. -/
theorem tryCatch_ext {ax : Axis} {m : SparMat OpRepr} (hm : WF m) {i : Nat} 
    (h1 : tryCatchCoef ax m i ≠ kIdCoef) {x : Nat} (hx : x < cross ax m) (hne : atL ax m i x ≠ []) :
    CoefRepr.eqv (opCoef (atL ax m i x)) (tryCatchCoef ax m i) = true := by
  have hmem := mem_nonNull hm hx hne
  unfold tryCatchCoef at h1 ⊢
  cases hl : nonNullEntries ax m i with
  | nil => rw [hl] at hmem; simp at hmem
  | cons op ops =>
    rw [hl] at hmem h1
    simp only at h1 ⊢
    rcases commonCoefGo_spec (opCoef op) ops with h | h
    · exact absurd h h1
    · rcases List.mem_cons.1 hmem with h2 | h2
      · rw [h2]; exact h.1
      · exact h.2 _ h2

theorem tryCatch_const {ax : Axis} {m : SparMat OpRepr} (hm : WF m) {i : Nat} {c : CoefRepr}
    (h : ∀ x, x < cross ax m → atL ax m i x ≠ [] → opCoef (atL ax m i x) = c)
    {x0 : Nat} (hx0 : x0 < cross ax m) (hne : atL ax m i x0 ≠ []) : tryCatchCoef ax m i = c := by
  have hmem := mem_nonNull hm hx0 hne
  have hall : ∀ o ∈ nonNullEntries ax m i, opCoef o = c := by
    intro o ho
    obtain ⟨x, hx, rfl, hn⟩ := nonNull_mem hm ho
    exact h x hx hn
  unfold tryCatchCoef
  cases hl : nonNullEntries ax m i with
  | nil => rw [hl] at hmem; simp at hmem
  | cons op ops =>
    rw [hl] at hall
    simp only
    rw [hall op (by simp)]
    exact commonCoefGo_const c ops (fun o ho => hall o (by simp [ho]))

theorem tryCatch_null {ax : Axis} {m : SparMat OpRepr} (hm : WF m) {i : Nat}
    (h : ∀ x, x < cross ax m → atL ax m i x = []) : tryCatchCoef ax m i = [] := by
  have : nonNullEntries ax m i = [] := by
    rw [List.eq_nil_iff_forall_not_mem]
    intro o ho
    obtain ⟨x, hx, rfl, hn⟩ := nonNull_mem hm ho
    exact hn (h x hx)
  unfold tryCatchCoef
  rw [this]

/-- Is a coefficient extracted from line `i`? -/
def ext (ax : Axis) (m : SparMat OpRepr) (i : Nat) : Prop :=
  tryCatchCoef ax m i ≠ [] ∧ tryCatchCoef ax m i ≠ kIdCoef
instance (ax : Axis) (m : SparMat OpRepr) (i : Nat) : Decidable (ext ax m i) := by unfold ext; infer_instance

/-- The diagonal coefficient of line `i`. -/
def diagC (ax : Axis) (m : SparMat OpRepr) (i : Nat) : CoefRepr :=
  if tryCatchCoef ax m i = [] then kIdCoef else tryCatchCoef ax m i

theorem diagC_ne (ax : Axis) (m : SparMat OpRepr) (i : Nat) : diagC ax m i ≠ [] := by
  unfold diagC; split
  · simp
  · assumption

theorem ext_iff (ax : Axis) (m : SparMat OpRepr) (i : Nat) : ext ax m i ↔ diagC ax m i ≠ kIdCoef := by
  unfold ext diagC
  by_cases h : tryCatchCoef ax m i = []
  · rw [if_pos h]; simp [h]
  · rw [if_neg h]; simp [h]

theorem removeCoef_spec {ax : Axis} {m : SparMat OpRepr} (hm : WF m) {i : Nat} (hi : i < lines ax m) (n : Nat)
    (hn : n ≤ cross ax m) :
    ∃ m', (List.range n).foldlM (fun m x =>
      if nullL ax m i x then Except.ok m else setL ax m i x (separate (atL ax m i x)).2) m = .ok m' ∧ WF m' ∧
      lines ax m' = lines ax m ∧ cross ax m' = cross ax m ∧
      ∀ p x, p < lines ax m → x < cross ax m →
        atL ax m' p x = if p = i ∧ x < n then (separate (atL ax m p x)).2 else atL ax m p x := by
  induction n with
  | zero => exact ⟨m, rfl, hm, rfl, rfl, fun p j _ _ => by simp⟩
  | succ n ih =>
    obtain ⟨m', h1, h2, h3, h4, h5⟩ := ih (by omega)
    rw [List.range_succ, List.foldlM_append, h1]
    simp only [List.foldlM_cons, List.foldlM_nil, bind, Except.bind, pure, Except.pure]
    have hold : atL ax m' i n = atL ax m i n := by
      rw [h5 i n (by omega) (by omega), if_neg (by omega)]
    by_cases hnull : nullL ax m' i n = true
    · rw [if_pos hnull]
      have hnull' : atL ax m i n = [] := by rw [← hold]; exact (nullL_iff h2 _ _ _).1 hnull
      refine ⟨m', rfl, h2, h3, h4, ?_⟩
      intro p x hp hx
      rw [h5 p x hp hx]
      by_cases hpx : p = i ∧ x = n
      · obtain ⟨rfl, rfl⟩ := hpx
        rw [if_neg (by omega), if_pos (by omega), hnull']; rfl
      · by_cases hpn : p = i ∧ x < n
        · rw [if_pos hpn, if_pos (by omega)]
        · rw [if_neg hpn, if_neg (by omega)]
    · rw [if_neg hnull]
      have hne : atL ax m i n ≠ [] := fun h => hnull ((nullL_iff h2 _ _ _).2 (by rw [hold]; exact h))
      obtain ⟨m'', g1, g2, g3, g4, g5⟩ := setL_spec h2 ax (i := i) (x := n) (by omega) (by omega)
        (separate (atL ax m' i n)).2
      rw [g1]
      refine ⟨m'', rfl, g2, by omega, by omega, ?_⟩
      intro p x hp hx
      rw [g5 p x (by omega) (by omega), h5 p x hp hx]
      by_cases hpx : p = i ∧ x = n
      · obtain ⟨rfl, rfl⟩ := hpx
        have hnn : ¬ (isNull (separate (atL ax m' p x)).2 = true) := by
          rw [isNull_list, hold]; exact separate_snd_ne_nil hne
        rw [if_pos (show p = p ∧ x = x from ⟨rfl, rfl⟩), if_neg hnn,
          if_pos (show p = p ∧ x < x + 1 from ⟨rfl, by omega⟩), hold]
      · rw [if_neg hpx]
        by_cases hpn : p = i ∧ x < n
        · rw [if_pos hpn, if_pos (show p = i ∧ x < n + 1 by omega)]
        · rw [if_neg hpn, if_neg (show ¬ (p = i ∧ x < n + 1) by omega)]

/-- Result of the coefficient separation loop after `n` lines. -/
structure SepInv (ax : Axis) (A : SparMat OpRepr) (N n : Nat) (s : SparMat OpRepr × SparMat CoefRepr × Bool) : Prop where
  w1 : WF s.1
  w2 : WF s.2.1
  l1 : lines ax s.1 = lines ax A
  c1 : cross ax s.1 = cross ax A
  l2 : lines ax s.2.1 = N
  c2 : cross ax s.2.1 = N
  at1 : ∀ p x, p < lines ax A → x < cross ax A →
    atL ax s.1 p x = if p < n ∧ ext ax A p then (separate (atL ax A p x)).2 else atL ax A p x
  at2 : ∀ p j, p < N → j < N → atL ax s.2.1 p j = if p = j ∧ p < n then diagC ax A p else []
  flag : s.2.2 = true ↔ ∃ p, p < n ∧ ext ax A p

theorem sepLoop_spec {ax : Axis} {A : SparMat OpRepr} (hA : WF A) (n : Nat) (hn : n ≤ lines ax A) :
    ∃ s, (List.range n).foldlM (fun (s : SparMat OpRepr × SparMat CoefRepr × Bool) i => do
      let c := tryCatchCoef ax s.1 i
      let cm ← setL ax s.2.1 i i (if !CoefRepr.eqv c kNullCoef then c else kIdCoef)
      if !CoefRepr.eqv c kNullCoef && !CoefRepr.eqv c kIdCoef then
        let t ← removeCoef ax s.1 i
        return (t, cm, true)
      else return (s.1, cm, s.2.2)) (A, mkL ax (lines ax A) (lines ax A), false) = Except.ok s ∧
      SepInv ax A (lines ax A) n s := by
  induction n with
  | zero =>
    obtain ⟨a, b, c, d⟩ := mkL_spec (α := CoefRepr) ax (lines ax A) (lines ax A)
    exact ⟨_, rfl, hA, a, rfl, rfl, b, c, fun p x _ _ => by simp,
      fun p j _ _ => by rw [if_neg (by omega)]; exact d p j, by simp⟩
  | succ n ih =>
    obtain ⟨s, h1, I⟩ := ih (by omega)
    rw [List.range_succ, List.foldlM_append, h1]
    simp only [List.foldlM_cons, List.foldlM_nil, bind, Except.bind, pure, Except.pure]
    have hline : ∀ x, x < cross ax A → atL ax s.1 n x = atL ax A n x := by
      intro x hx
      rw [I.at1 n x (by omega) hx, if_neg (by omega)]
    have hc : tryCatchCoef ax s.1 n = tryCatchCoef ax A n := tryCatch_congr hA I.w1 I.c1 hline
    rw [hc]
    have hd : (if (!CoefRepr.eqv (tryCatchCoef ax A n) kNullCoef) = true then tryCatchCoef ax A n else kIdCoef) =
        diagC ax A n := by
      unfold diagC
      by_cases h : tryCatchCoef ax A n = []
      · rw [if_pos h, h]; rfl
      · have : CoefRepr.eqv (tryCatchCoef ax A n) kNullCoef = false := by
          cases hh : CoefRepr.eqv (tryCatchCoef ax A n) kNullCoef
          · rfl
          · exact absurd (coefEqv_null_iff.1 hh) h
        rw [this, if_neg h]; rfl
    have hext : (!CoefRepr.eqv (tryCatchCoef ax A n) kNullCoef && !CoefRepr.eqv (tryCatchCoef ax A n) kIdCoef) = true
        ↔ ext ax A n := by
      unfold ext
      rw [Bool.and_eq_true]
      simp only [Bool.not_eq_true', ← Bool.not_eq_true]
      exact and_congr coefEqv_null_iff.not coefEqv_id_iff.not
    rw [hd]
    obtain ⟨cm, g1, g2, g3, g4, g5⟩ := setL_spec I.w2 ax (i := n) (x := n) (by rw [I.l2]; omega) (by rw [I.c2]; omega)
      (diagC ax A n)
    rw [g1]
    simp only
    have cmAt : ∀ p j, p < lines ax A → j < lines ax A →
        atL ax cm p j = if p = j ∧ p < n + 1 then diagC ax A p else [] := by
      intro p j hp hj
      rw [g5 p j (by rw [I.l2]; exact hp) (by rw [I.c2]; exact hj)]
      by_cases hpj : p = n ∧ j = n
      · obtain ⟨rfl, rfl⟩ := hpj
        have hnn : ¬ (isNull (diagC ax A j) = true) := by rw [isNull_list]; exact diagC_ne ax A j
        rw [if_pos (show j = j ∧ j = j from ⟨rfl, rfl⟩), if_neg hnn,
          if_pos (show j = j ∧ j < j + 1 from ⟨rfl, by omega⟩)]
      · rw [if_neg hpj, I.at2 p j hp hj]
        by_cases hpn : p = j ∧ p < n
        · rw [if_pos hpn, if_pos (by omega)]
        · rw [if_neg hpn, if_neg (by omega)]
    by_cases hE : ext ax A n
    · rw [if_pos (hext.2 hE)]
      obtain ⟨t, r1, r2, r3, r4, r5⟩ := removeCoef_spec I.w1 (ax := ax) (i := n) (by rw [I.l1]; omega)
        (cross ax s.1) (Nat.le_refl _)
      have r1' : removeCoef ax s.1 n = .ok t := r1
      rw [r1']
      refine ⟨_, rfl, r2, g2, by simp only [r3, I.l1], by simp only [r4, I.c1], by simp only [g3, I.l2],
        by simp only [g4, I.c2], ?_, cmAt, ?_⟩
      · intro p x hp hx
        simp only
        rw [r5 p x (by rw [I.l1]; exact hp) (by rw [I.c1]; exact hx)]
        by_cases hpn : p = n
        · subst hpn
          rw [if_pos (by rw [I.c1]; exact ⟨rfl, hx⟩), if_pos ⟨by omega, hE⟩, hline x hx]
        · rw [if_neg (by omega), I.at1 p x hp hx]
          by_cases hpe : p < n ∧ ext ax A p
          · rw [if_pos hpe, if_pos ⟨by omega, hpe.2⟩]
          · rw [if_neg hpe, if_neg (fun h => hpe ⟨by omega, h.2⟩)]
      · simp only [true_iff]
        exact ⟨n, by omega, hE⟩
    · rw [if_neg (fun h => hE (hext.1 h))]
      refine ⟨_, rfl, I.w1, g2, I.l1, I.c1, by simp only [g3, I.l2],
        by simp only [g4, I.c2], ?_, cmAt, ?_⟩
      · intro p x hp hx
        simp only
        rw [I.at1 p x hp hx]
        by_cases hpe : p < n ∧ ext ax A p
        · rw [if_pos hpe, if_pos ⟨by omega, hpe.2⟩]
        · rw [if_neg hpe, if_neg]
          intro h
          by_cases hpn : p = n
          · rw [hpn] at h; exact hE h.2
          · exact hpe ⟨by omega, h.2⟩
      · simp only
        rw [I.flag]
        constructor
        · rintro ⟨p, hp, h⟩; exact ⟨p, by omega, h⟩
        · rintro ⟨p, hp, h⟩
          by_cases hpn : p = n
          · rw [hpn] at h; exact absurd h hE
          · exact ⟨p, by omega, h⟩

/-- Line `i` after separation. -/
def baseL (ax : Axis) (A : SparMat OpRepr) (i x : Nat) : OpRepr :=
  if ext ax A i then (separate (atL ax A i x)).2 else atL ax A i x

theorem baseL_nil {ax : Axis} {A : SparMat OpRepr} {i x : Nat} : baseL ax A i x = [] ↔ atL ax A i x = [] := by
  unfold baseL
  split
  · constructor
    · intro h
      by_contra hc
      exact separate_snd_ne_nil hc h
    · intro h; rw [h]; rfl
  · exact Iff.rfl

theorem baseL_val {R : Type} [CommSemiring R] (cv ov : Label → R) (h0 : cv 0 = 1) {ax : Axis} {A : SparMat OpRepr} (hA : WF A) {i x : Nat}
    (hx : x < cross ax A) :
    OpRepr.val cv ov (atL ax A i x) = CoefRepr.val cv (diagC ax A i) * OpRepr.val cv ov (baseL ax A i x) := by
  unfold baseL
  split
  · rename_i hE
    by_cases hne : atL ax A i x = []
    · rw [hne]; simp [separate]
    · have := tryCatch_ext hA hE.2 hx hne
      rw [val_separate cv ov (atL ax A i x) h0]
      unfold diagC
      rw [if_neg hE.1]
      congr 1
      exact cval_eqv cv this
  · rename_i hE
    rw [ext_iff] at hE
    rw [not_not.1 hE, cval_id cv h0, one_mul]

theorem baseL_id_of_ext {ax : Axis} {A : SparMat OpRepr} (hA : WF A) {i x : Nat} (hx : x < cross ax A)
    (hE : ext ax A i) : AllId (baseL ax A i x) := by
  unfold baseL
  rw [if_pos hE]
  by_cases hne : atL ax A i x = []
  · rw [hne]; simp [separate]
  · have := tryCatch_ext hA hE.2 hx hne
    apply separate_snd_allId_of_fst_ne
    intro h
    unfold opCoef at this
    rw [h] at this
    exact hE.2 (coefEqv_id_iff.1 (coefEqv_symm this))

theorem ext_of_lineId {ax : Axis} {A : SparMat OpRepr} (hA : WF A) {i : Nat} (h : LineId ax A i) : ¬ ext ax A i := by
  intro hE
  by_cases hex : ∃ x, x < cross ax A ∧ atL ax A i x ≠ []
  · obtain ⟨x, hx, hne⟩ := hex
    have := tryCatch_ext hA hE.2 hx hne
    unfold opCoef at this
    rw [separate_fst_of_allId (h x hx) hne] at this
    exact hE.2 (coefEqv_id_iff.1 (coefEqv_symm this))
  · apply hE.1
    apply tryCatch_null hA
    intro x hx
    by_contra hc
    exact hex ⟨x, hx, hc⟩

theorem canon_baseL {ax : Axis} {A : SparMat OpRepr} (hA : CanonM A) {i x : Nat} (hi : i < lines ax A)
    (hx : x < cross ax A) : Canon (baseL ax A i x) := by
  have := (canonM_iff ax A).1 hA i x hi hx
  unfold baseL
  split
  · exact canon_separate this
  · exact this

/-! ### One compresser call -/

section
variable {R : Type} [CommSemiring R] (cv ov ov' : Label → R)

/-- What one compresser call does: every line of the target becomes (after extraction of its common
coefficient `diagC`) the combination `T p` of the kept lines, and the follower is multiplied accordingly. -/
structure CompRes (ax : Axis) (A F A' F' : SparMat OpRepr) (T : Nat → Nat → CoefRepr) (F2 : Nat → Nat → OpRepr) :
    Prop where
  wA : WF A'
  wF : WF F'
  cA : CanonM A'
  cF : CanonM F'
  ln : lines ax.other F' = lines ax A'
  pos : 1 ≤ lines ax A'
  le : lines ax A' ≤ lines ax A
  crA : cross ax A' = cross ax A
  crF : cross ax.other F' = cross ax.other F
  val1 : ∀ p x, p < lines ax A → x < cross ax A → OpRepr.val cv ov (baseL ax A p x) =
    ∑ j ∈ range (lines ax A'), CoefRepr.val cv (T p j) * OpRepr.val cv ov (atL ax A' j x)
  nul1 : ∀ p x, p < lines ax A → x < cross ax A →
    (atL ax A p x = [] ↔ ∀ j, j < lines ax A' → T p j = [] ∨ atL ax A' j x = [])
  id1 : ∀ p j, p < lines ax A → j < lines ax A' → (∀ x, x < cross ax A → AllId (baseL ax A p x)) → T p j ≠ [] →
    T p j = kIdCoef ∧ LineId ax A' j
  kept : ∀ j, j < lines ax A' → ∃ p, p < lines ax A ∧ (∀ x, x < cross ax A → atL ax A' j x = baseL ax A p x) ∧
    ∀ j', j' < lines ax A' → T p j' = if j' = j then kIdCoef else []
  mul : ∀ p z, p < lines ax A → z < cross ax.other F →
    incompleteMulti (diagC ax A p) (atL ax.other F p z) = .ok (F2 p z)
  val2 : ∀ j z, j < lines ax A' → z < cross ax.other F → OpRepr.val cv ov' (atL ax.other F' j z) =
    ∑ p ∈ range (lines ax A), CoefRepr.val cv (T p j) * OpRepr.val cv ov' (F2 p z)
  nul2 : ∀ j z, j < lines ax A' → z < cross ax.other F → (atL ax.other F' j z = [] ↔
    ∀ p, p < lines ax A → T p j = [] ∨ atL ax.other F p z = [])
  one : ∀ j z, j < lines ax A' → z < cross ax.other F → ∀ p0, p0 < lines ax A →
    (∀ p, p < lines ax A → p ≠ p0 → T p j = [] ∨ atL ax.other F p z = []) →
    T p0 j ≠ [] → incompleteMulti (T p0 j) (F2 p0 z) = .ok (atL ax.other F' j z)

/-- Bond condition: at every bond index one of the two neighbouring lines has only identity coefficients. -/
def BondCond (ax : Axis) (A F : SparMat OpRepr) : Prop :=
  ∀ p, p < lines ax A → LineId ax A p ∨ LineId ax.other F p

theorem baseL_ok {ax : Axis} {A A2 : SparMat OpRepr} {cm : SparMat CoefRepr} {b : Bool}
    (I : SepInv ax A (lines ax A) (lines ax A) (A2, cm, b)) {p x : Nat} (hp : p < lines ax A) (hx : x < cross ax A) :
    atL ax A2 p x = baseL ax A p x := by
  have := I.at1 p x hp hx
  simp only at this
  rw [this]
  unfold baseL
  by_cases h : ext ax A p
  · rw [if_pos ⟨hp, h⟩, if_pos h]
  · rw [if_neg (fun h' => h h'.2), if_neg h]

/-- The compresser after sorting. -/
theorem core_spec {ax : Axis} {A F : SparMat OpRepr} (h0 : cv 0 = 1) (hA : WF A) (hF : WF F) (cA : CanonM A) (cF : CanonM F)
    (hl : lines ax A = lines ax.other F) (hn : 2 ≤ lines ax A) (hq : 0 < cross ax A) (hb : BondCond ax A F) :
    ∃ A' F' T F2, (do
        let (tgt, cm, need) ← sepLoop ax (lines ax A) A
        let flw ← (if need then multMat ax cm F else .ok F : Except Err (SparMat OpRepr))
        delinearize ax tgt flw) = Except.ok (A', F') ∧ CompRes cv ov ov' ax A F A' F' T F2 := by
  obtain ⟨⟨A2, cm, need⟩, hs, I⟩ := sepLoop_spec hA (ax := ax) (lines ax A) (Nat.le_refl _)
  have hs' : sepLoop ax (lines ax A) A = .ok (A2, cm, need) := hs
  have hbase : ∀ p x, p < lines ax A → x < cross ax A → atL ax A2 p x = baseL ax A p x :=
    fun p x hp hx => baseL_ok I hp hx
  have hcm : ∀ p j, p < lines ax A → j < lines ax A → atL ax cm p j = if p = j then diagC ax A p else [] := by
    intro p j hp hj
    have := I.at2 p j hp hj
    simp only at this
    rw [this]
    by_cases hpj : p = j
    · rw [if_pos ⟨hpj, hp⟩, if_pos hpj]
    · rw [if_neg (fun h => hpj h.1), if_neg hpj]
  have hdiag : ∀ p, p < lines ax A → diagC ax A p ≠ kIdCoef → LineId ax.other F p := by
    intro p hp hne
    rcases hb p hp with h | h
    · exact absurd ((ext_iff ax A p).2 hne) (ext_of_lineId hA h)
    · exact h
  have l1 : lines ax A2 = lines ax A := I.l1
  have c1 : cross ax A2 = cross ax A := I.c1
  have l2 : lines ax cm = lines ax A := I.l2
  have c2 : cross ax cm = lines ax A := I.c2
  -- first product
  have step1 : ∃ B, (if need then multMat ax cm F else .ok F) = Except.ok B ∧ WF B ∧ CanonM B ∧
      lines ax.other B = lines ax A ∧ cross ax.other B = cross ax.other F ∧
      ∀ p z, p < lines ax A → z < cross ax.other F →
        incompleteMulti (diagC ax A p) (atL ax.other F p z) = .ok (atL ax.other B p z) := by
    cases hneed : need with
    | true =>
      have hMC : MulCond ax cm F := by
        intro i j hi hj hne
        rw [l2] at hi; rw [c2] at hj
        rw [hcm i j hi hj] at hne ⊢
        by_cases hij : i = j
        · rw [if_pos hij] at hne ⊢
          by_cases hd : diagC ax A i = kIdCoef
          · exact Or.inl hd
          · exact Or.inr (hdiag i hi hd)
        · rw [if_neg hij] at hne; exact absurd rfl hne
      obtain ⟨B, hB, M⟩ := multMat_spec cv ov' (ax := ax) I.w2 hF cF (by rw [l2, hl]) hMC h0
      refine ⟨B, by simpa using hB, M.wf, M.canon, by rw [M.ln, c2], M.cr, ?_⟩
      intro p z hp hz
      have := M.one p z (by rw [c2]; exact hp) hz p (by rw [l2]; exact hp) (fun i hi hne => by
        left; rw [l2] at hi; rw [hcm i p hi hp, if_neg hne]) (by rw [hcm p p hp hp, if_pos rfl]; exact diagC_ne _ _ _)
      rwa [hcm p p hp hp, if_pos rfl] at this
    | false =>
      refine ⟨F, by simp, hF, cF, by rw [hl], rfl, ?_⟩
      intro p z hp _
      have hne : ¬ ext ax A p := by
        intro hE
        have := I.flag.2 ⟨p, hp, hE⟩
        simp only at this
        rw [hneed] at this
        simp at this
      rw [ext_iff, not_not] at hne
      rw [hne]; exact incompleteMulti_id _
  obtain ⟨B, hB, wB, cB, lB, crB, mulB⟩ := step1
  -- initial transition matrix
  obtain ⟨e1, e2, e3, e4⟩ := mkL_spec (α := CoefRepr) ax (lines ax A2) (lines ax A2)
  obtain ⟨tr, t1, t2, t3, t4, t5⟩ := setL_spec e1 ax (i := 0) (x := 0) (by rw [e2]; omega) (by rw [e3]; omega) kIdCoef
  have t5' : ∀ p j, p < lines ax A → j < lines ax A → atL ax tr p j = if p = 0 ∧ j = 0 then kIdCoef else [] := by
    intro p j hp hj
    rw [t5 p j (by rw [e2]; omega) (by rw [e3]; omega), e4 p j]
    rfl
  have D : DInv cv ov ax A2 (lines ax A2 - 1) 1 0 A2 tr := by
    refine ⟨by omega, by omega, I.w1, t2, by omega, rfl, by rw [t3, e2], by rw [t4, e3]; omega, fun t x _ _ => rfl, ?_, ?_, ?_, ?_, ?_, ?_⟩
    · intro p j hp hj h
      rw [t5' p j (by omega) (by omega), if_neg (by omega)]
    · intro p x hp hx
      have : p = 0 := by omega
      subst this
      simp [t5' 0 0 (by omega) (by omega), cval_id cv h0]
    · intro p x hp hx
      have : p = 0 := by omega
      subst this
      constructor
      · intro h j hj
        have : j = 0 := by omega
        subst this
        exact Or.inr h
      · intro h
        rcases h 0 (by omega) with h | h
        · rw [t5' 0 0 (by omega) (by omega)] at h; simp at h
        · exact h
    · intro p j hp hj hl hne
      have : p = 0 := by omega
      subst this
      have : j = 0 := by omega
      subst this
      exact ⟨by rw [t5' 0 0 (by omega) (by omega)]; rfl, hl⟩
    · intro j hj
      have : j = 0 := by omega
      subst this
      refine ⟨0, by omega, fun _ _ => rfl, ?_⟩
      intro j' hj'
      have : j' = 0 := by omega
      subst this
      rw [t5' 0 0 (by omega) (by omega)]; rfl
    · intro _ p j hp hj
      have : p = 0 := by omega
      subst this
      have : j = 0 := by omega
      subst this
      rw [t5' 0 0 (by omega) (by omega)]; rfl
  obtain ⟨i, d, A', trans, hloop, E⟩ := delinLoop_spec cv ov h0 (by rw [c1]; exact hq) _ _ _ _ _ D
  have hk := E.hk
  have lA' : lines ax A' = i := by rw [E.lt]; omega
  have cm' : cross ax trans = i := by rw [E.cm]; omega
  have lm' : lines ax trans = lines ax A := by rw [E.lm, l1]
  -- second product
  have hlineA2 : ∀ p, p < lines ax A → (∀ x, x < cross ax A → AllId (baseL ax A p x)) → LineId ax A2 p := by
    intro p hp h x hx
    rw [c1] at hx
    rw [hbase p x hp hx]; exact h x hx
  have hMC2 : MulCond ax trans B := by
    intro p j hp hj hne
    rw [lm'] at hp; rw [cm'] at hj
    by_cases hE : ext ax A p
    · left
      exact (E.D4 p j (by omega) hj (hlineA2 p hp (fun x hx => baseL_id_of_ext hA hx hE)) hne).1
    · rcases hb p hp with h | h
      · left
        refine (E.D4 p j (by omega) hj (hlineA2 p hp (fun x hx => ?_)) hne).1
        unfold baseL; rw [if_neg hE]; exact h x hx
      · right
        intro z hz
        rw [crB] at hz
        have := mulB p z hp hz
        rw [ext_iff, not_not] at hE
        rw [hE, incompleteMulti_id] at this
        simp only [Except.ok.injEq] at this
        rw [← this]; exact h z hz
  have step2 : ∃ F', (if cross ax trans < lines ax trans then do
        let flw ← multMat ax trans B
        return (A', flw)
      else return (A', B)) = Except.ok (A', F') ∧ WF F' ∧ CanonM F' ∧ lines ax.other F' = i ∧
        cross ax.other F' = cross ax.other F ∧
      (∀ j z, j < i → z < cross ax.other F → OpRepr.val cv ov' (atL ax.other F' j z) =
        ∑ p ∈ range (lines ax A), CoefRepr.val cv (atL ax trans p j) * OpRepr.val cv ov' (atL ax.other B p z)) ∧
      (∀ j z, j < i → z < cross ax.other F → (atL ax.other F' j z = [] ↔
        ∀ p, p < lines ax A → atL ax trans p j = [] ∨ atL ax.other B p z = [])) ∧
      (∀ j z, j < i → z < cross ax.other F → ∀ p0, p0 < lines ax A →
        (∀ p, p < lines ax A → p ≠ p0 → atL ax trans p j = [] ∨ atL ax.other B p z = []) →
        atL ax trans p0 j ≠ [] →
        incompleteMulti (atL ax trans p0 j) (atL ax.other B p0 z) = .ok (atL ax.other F' j z)) := by
    by_cases hd : cross ax trans < lines ax trans
    · rw [if_pos hd]
      obtain ⟨F', hF', M⟩ := multMat_spec cv ov' (ax := ax) E.wm wB cB (by rw [lm', lB]) hMC2 h0
      refine ⟨F', by simp [hF', bind, Except.bind, pure, Except.pure], M.wf, M.canon, by rw [M.ln, cm'], by rw [M.cr, crB], ?_, ?_, ?_⟩
      · intro j z hj hz
        rw [M.val j z (by omega) (by omega), lm']
      · intro j z hj hz
        rw [M.nul j z (by omega) (by omega), lm']
      · intro j z hj hz p0 hp0 hu hne
        exact M.one j z (by omega) (by omega) p0 (by omega) (by rw [lm']; exact hu) hne
    · rw [if_neg hd]
      have hd0 : d = 0 := by omega
      have hin : i = lines ax A := by omega
      have hid : ∀ p j, p < i → j < i → atL ax trans p j = if j = p then kIdCoef else [] := E.D6 hd0
      refine ⟨B, rfl, wB, cB, by omega, crB, ?_, ?_, ?_⟩
      · intro j z hj hz
        rw [Finset.sum_eq_single j]
        · rw [hid j j hj hj, if_pos rfl, cval_id cv h0, one_mul]
        · intro p hp hne
          have hp' := Finset.mem_range.1 hp
          rw [hid p j (by omega) hj, if_neg (Ne.symm hne)]; simp
        · intro h; exact absurd (Finset.mem_range.2 (by omega)) h
      · intro j z hj hz
        constructor
        · intro h p hp
          by_cases hpj : j = p
          · right; rw [← hpj]; exact h
          · left; rw [hid p j (by omega) hj, if_neg hpj]
        · intro h
          rcases h j (by omega) with h | h
          · rw [hid j j hj hj, if_pos rfl] at h; simp at h
          · exact h
      · intro j z hj hz p0 hp0 _ hne
        rw [hid p0 j (by omega) hj] at hne ⊢
        by_cases hjp : j = p0
        · rw [if_pos hjp, incompleteMulti_id, hjp]
        · rw [if_neg hjp] at hne; exact absurd rfl hne
  obtain ⟨F', hF', wF', cF', lF', crF', v2, n2, o2⟩ := step2
  have hBnull : ∀ p z, p < lines ax A → z < cross ax.other F → (atL ax.other B p z = [] ↔ atL ax.other F p z = []) :=
    fun p z hp hz => incompleteMulti_ne_nil (mulB p z hp hz)
  refine ⟨A', F', fun p j => atL ax trans p j, fun p z => atL ax.other B p z, ?_, ?_⟩
  · simp only [hs', hB, bind, Except.bind]
    unfold delinearize
    simp only [t1, hloop, bind, Except.bind]
    exact hF'
  · refine ⟨E.wt, wF', ?_, cF', by rw [lF', lA'], by rw [lA']; exact E.hi, by omega, by rw [E.ct, c1], crF', ?_, ?_, ?_, ?_, mulB, ?_, ?_, ?_⟩
    · rw [canonM_iff ax]
      intro j x hj hx
      rw [lA'] at hj
      rw [E.ct] at hx
      obtain ⟨p, hp, h1, _⟩ := E.D5 j hj
      rw [h1 x hx, hbase p x (by omega) (by omega)]
      exact canon_baseL cA (by omega) (by omega)
    · intro p x hp hx
      rw [lA', ← hbase p x hp hx]
      exact E.D1 p x (by omega) (by omega)
    · intro p x hp hx
      rw [lA', ← baseL_nil, ← hbase p x hp hx]
      exact E.D23 p x (by omega) (by omega)
    · intro p j hp hj hl hne
      rw [lA'] at hj
      exact E.D4 p j (by omega) hj (hlineA2 p hp hl) hne
    · intro j hj
      rw [lA'] at hj
      obtain ⟨p, hp, h1, h2⟩ := E.D5 j hj
      refine ⟨p, by omega, fun x hx => by rw [h1 x (by omega), hbase p x (by omega) hx], fun j' hj' => h2 j' (by omega)⟩
    · intro j z hj hz; exact v2 j z (by omega) hz
    · intro j z hj hz
      rw [n2 j z (by omega) hz]
      refine forall_congr' fun p => forall_congr' fun hp => ?_
      rw [hBnull p z hp hz]
    · intro j z hj hz p0 hp0 hu hne
      refine o2 j z (by omega) hz p0 hp0 (fun p hp hpne => ?_) hne
      rw [hBnull p z hp hz]; exact hu p hp hpne


theorem perm_inv {perm : List Nat} {n : Nat} (hp : perm.Perm (List.range n)) :
    (∀ p, p < n → perm.getD p 0 < n) ∧ (∀ p, p < n → perm.idxOf p < n) ∧
    (∀ p, p < n → perm.getD (perm.idxOf p) 0 = p) ∧ (∀ p, p < n → perm.idxOf (perm.getD p 0) = p) := by
  have hlen : perm.length = n := by simpa using hp.length_eq
  have hmem : ∀ r, r ∈ perm ↔ r < n := fun r => by simpa using hp.mem_iff (a := r)
  have hnd : perm.Nodup := hp.nodup_iff.2 List.nodup_range
  have hg : ∀ p (h : p < perm.length), perm.getD p 0 = perm[p] := by
    intro p h
    rw [List.getD_eq_getElem?_getD, List.getElem?_eq_getElem h]; rfl
  refine ⟨?_, ?_, ?_, ?_⟩
  · intro p h
    rw [hg p (by omega)]
    exact (hmem _).1 (List.getElem_mem _)
  · intro p h
    rw [← hlen]
    exact List.idxOf_lt_length_iff.2 ((hmem p).2 h)
  · intro p h
    have : perm.idxOf p < perm.length := List.idxOf_lt_length_iff.2 ((hmem p).2 h)
    rw [hg _ this]
    exact List.getElem_idxOf this
  · intro p h
    rw [hg p (by omega)]
    exact hnd.idxOf_getElem p (by omega)

theorem compress_spec {ax : Axis} {A F : SparMat OpRepr} (h0 : cv 0 = 1) (hA : WF A) (hF : WF F)
    (cA : CanonM A) (cF : CanonM F)
    (hl : lines ax A = lines ax.other F) (hn : 2 ≤ lines ax A) (hq : 0 < cross ax A) (hb : BondCond ax A F) :
    ∃ A' F' T F2, compress ax A F = Except.ok (A', F') ∧ CompRes cv ov ov' ax A F A' F' T F2 := by
  have hp := sortedIdxs_perm ax A
  obtain ⟨A1, a1, a2, a3, a4, a5⟩ := transposeLines_spec hA ax hp
  obtain ⟨F1, f1, f2, f3, f4, f5⟩ := transposeLines_spec hF ax.other (perm := sortedIdxs ax A) (by rw [← hl]; exact hp)
  obtain ⟨p1, p2, p3, p4⟩ := perm_inv hp
  generalize hσ : (fun p => (sortedIdxs ax A).getD p 0) = σ at *
  generalize hτ : (fun p => (sortedIdxs ax A).idxOf p) = τ at *
  have eσ : ∀ p, (sortedIdxs ax A).getD p 0 = σ p := fun p => congrFun hσ p
  have eτ : ∀ p, (sortedIdxs ax A).idxOf p = τ p := fun p => congrFun hτ p
  simp only [eσ, eτ] at a5 f5 p1 p2 p3 p4
  have lineA : ∀ p x, p < lines ax A → x < cross ax A → atL ax A p x = atL ax A1 (τ p) x := by
    intro p x hp hx
    rw [a5 (τ p) x (p2 p hp) hx, p3 p hp]
  have lineF : ∀ p z, p < lines ax A → z < cross ax.other F → atL ax.other F p z = atL ax.other F1 (τ p) z := by
    intro p z hp hz
    rw [f5 (τ p) z (by rw [← hl]; exact p2 p hp) hz, p3 p hp]
  have cA1 : CanonM A1 := by
    rw [canonM_iff ax]
    intro i x hi hx
    rw [a3] at hi; rw [a4] at hx
    rw [a5 i x hi hx]
    exact (canonM_iff ax A).1 cA _ _ (p1 i hi) hx
  have cF1 : CanonM F1 := by
    rw [canonM_iff ax.other]
    intro i x hi hx
    rw [f3] at hi; rw [f4] at hx
    rw [f5 i x hi hx]
    exact (canonM_iff ax.other F).1 cF _ _ (by rw [← hl]; exact p1 i (by rw [hl]; exact hi)) hx
  have hb1 : BondCond ax A1 F1 := by
    intro p hp
    rw [a3] at hp
    rcases hb (σ p) (p1 p hp) with h | h
    · left
      intro x hx
      rw [a4] at hx
      rw [a5 p x hp hx]; exact h x hx
    · right
      intro z hz
      rw [f4] at hz
      rw [f5 p z (by rw [← hl]; exact hp) hz]; exact h z hz
  obtain ⟨A', F', T, F2, hc, C⟩ := core_spec cv ov ov' (ax := ax) (A := A1) (F := F1) h0 a2 f2 cA1 cF1
    (by rw [a3, f3, hl]) (by rw [a3]; exact hn) (by rw [a4]; exact hq) hb1
  have tc : ∀ p, p < lines ax A → tryCatchCoef ax A p = tryCatchCoef ax A1 (τ p) :=
    fun p hp => tryCatch_congr a2 hA (by rw [a4]) (fun x hx => lineA p x hp (by rw [← a4]; exact hx))
  have dg : ∀ p, p < lines ax A → diagC ax A p = diagC ax A1 (τ p) := by
    intro p hp; unfold diagC; rw [tc p hp]
  have bs : ∀ p x, p < lines ax A → x < cross ax A → baseL ax A p x = baseL ax A1 (τ p) x := by
    intro p x hp hx
    unfold baseL
    have : ext ax A p ↔ ext ax A1 (τ p) := by unfold ext; rw [tc p hp]
    rw [lineA p x hp hx]
    by_cases hE : ext ax A p
    · rw [if_pos hE, if_pos (this.1 hE)]
    · rw [if_neg hE, if_neg (fun h => hE (this.2 h))]
  refine ⟨A', F', fun p j => T (τ p) j, fun p z => F2 (τ p) z, ?_, ?_⟩
  · unfold compress
    rw [if_neg (by simpa using hl), if_neg (by omega)]
    simp only [a1, f1, bind, Except.bind]
    exact hc
  · have hτ1 : ∀ p, p < lines ax A → τ p < lines ax A1 := fun p hp => by rw [a3]; exact p2 p hp
    refine ⟨C.wA, C.wF, C.cA, C.cF, C.ln, C.pos, by rw [← a3]; exact C.le, by rw [C.crA, a4], by rw [C.crF, f4],
      ?_, ?_, ?_, ?_, ?_, ?_, ?_, ?_⟩
    · intro p x hp hx
      rw [bs p x hp hx]
      exact C.val1 (τ p) x (hτ1 p hp) (by rw [a4]; exact hx)
    · intro p x hp hx
      rw [lineA p x hp hx]
      exact C.nul1 (τ p) x (hτ1 p hp) (by rw [a4]; exact hx)
    · intro p j hp hj h hne
      exact C.id1 (τ p) j (hτ1 p hp) hj (fun x hx => by
        rw [a4] at hx; rw [← bs p x hp hx]; exact h x hx) hne
    · intro j hj
      obtain ⟨q, hq, h1, h2⟩ := C.kept j hj
      rw [a3] at hq
      refine ⟨σ q, p1 q hq, fun x hx => ?_, fun j' hj' => ?_⟩
      · rw [h1 x (by rw [a4]; exact hx), bs (σ q) x (p1 q hq) hx, p4 q hq]
      · rw [p4 q hq]; exact h2 j' hj'
    · intro p z hp hz
      rw [dg p hp, lineF p z hp hz]
      exact C.mul (τ p) z (hτ1 p hp) (by rw [f4]; exact hz)
    · intro j z hj hz
      rw [C.val2 j z hj (by rw [f4]; exact hz), a3]
      refine Finset.sum_nbij' σ τ ?_ ?_ ?_ ?_ ?_
      · intro q hq; exact Finset.mem_range.2 (p1 q (Finset.mem_range.1 hq))
      · intro q hq; exact Finset.mem_range.2 (p2 q (Finset.mem_range.1 hq))
      · intro q hq; exact p4 q (Finset.mem_range.1 hq)
      · intro q hq; exact p3 q (Finset.mem_range.1 hq)
      · intro q hq; rw [p4 q (Finset.mem_range.1 hq)]
    · intro j z hj hz
      rw [C.nul2 j z hj (by rw [f4]; exact hz), a3]
      constructor
      · intro h p hp
        rw [lineF p z hp hz]
        exact h (τ p) (p2 p hp)
      · intro h q hq
        have := h (σ q) (p1 q hq)
        rwa [lineF (σ q) z (p1 q hq) hz, p4 q hq] at this
    · intro j z hj hz q0 hq0 hu hne
      refine C.one j z hj (by rw [f4]; exact hz) (τ q0) (hτ1 q0 hq0) ?_ hne
      intro q hq hqne
      rw [a3] at hq
      have := hu (σ q) (p1 q hq) (fun h => hqne (by rw [← h, p4 q hq]))
      rwa [lineF (σ q) z (p1 q hq) hz, p4 q hq] at this

/-- Value of the two-matrix product is preserved. -/
theorem CompRes.value {ax : Axis} {A F A' F' : SparMat OpRepr} {T F2} (hA : WF A) (h0 : cv 0 = 1)
    (C : CompRes cv ov ov' ax A F A' F' T F2) {x z : Nat} (hx : x < cross ax A) (hz : z < cross ax.other F) :
    ∑ p ∈ range (lines ax A), OpRepr.val cv ov (atL ax A p x) * OpRepr.val cv ov' (atL ax.other F p z) =
    ∑ j ∈ range (lines ax A'), OpRepr.val cv ov (atL ax A' j x) * OpRepr.val cv ov' (atL ax.other F' j z) := by
  have e1 : ∀ p ∈ range (lines ax A), OpRepr.val cv ov (atL ax A p x) * OpRepr.val cv ov' (atL ax.other F p z) =
      ∑ j ∈ range (lines ax A'), CoefRepr.val cv (T p j) * OpRepr.val cv ov (atL ax A' j x) * OpRepr.val cv ov' (F2 p z) := by
    intro p hp
    have hp' := Finset.mem_range.1 hp
    rw [baseL_val cv ov h0 hA hx, ← Finset.sum_mul, ← C.val1 p x hp' hx, val_incompleteMulti cv ov' (C.mul p z hp' hz) h0]
    ring
  rw [Finset.sum_congr rfl e1, Finset.sum_comm]
  refine Finset.sum_congr rfl fun j hj => ?_
  have hj' := Finset.mem_range.1 hj
  rw [C.val2 j z hj' hz, Finset.mul_sum]
  refine Finset.sum_congr rfl fun p _ => ?_
  ring

end
end Verif.Mpo
