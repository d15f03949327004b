import Verif.Mpo.AxisFacts
import Verif.Mpo.Sem
/- Helper facts about one delinearisation (not property statements). -/
namespace Verif.Mpo
open SparMat NullElem Finset

theorem null_op : (nullelem : OpRepr) = [] := rfl
theorem null_coef : (nullelem : CoefRepr) = [] := rfl

/-- Every entry of line `i` has only identity coefficients. -/
def LineId (ax : Axis) (m : SparMat OpRepr) (i : Nat) : Prop := ∀ x, x < cross ax m → AllId (atL ax m i x)

theorem mapM_ok {β γ : Type} {f : β → Except Err γ} {g : β → γ} {l : List β} (h : ∀ x ∈ l, f x = .ok (g x)) :
    l.mapM f = .ok (l.map g) := by
  induction l with
  | nil => rfl
  | cons a l ih =>
    rw [List.mapM_cons, h a (by simp), ih (fun x hx => h x (by simp [hx]))]
    rfl

theorem overlapGo_spec (l : List (OpRepr × OpRepr)) (first : Option CoefRepr)
    (hne : overlapGo first l ≠ []) :
    (∀ f, first = some f → overlapGo first l = f) ∧
    (∀ p ∈ l, (OpRepr.eqv p.1 p.2 = true ∧ overlapGo first l = kIdCoef) ∨
      (OpRepr.eqv p.1 p.2 = false ∧ OpRepr.eqv (separate p.1).2 p.2 = true ∧
        CoefRepr.eqv (separate p.1).1 (overlapGo first l) = true)) := by
  induction l generalizing first with
  | nil => cases first <;> simp [overlapGo]
  | cons tb l ih =>
    obtain ⟨t, b⟩ := tb
    unfold overlapGo at hne ⊢
    by_cases h1 : OpRepr.eqv t b = true
    · simp only [h1, if_true] at hne ⊢
      cases first with
      | none =>
        simp only at hne ⊢
        obtain ⟨i1, i2⟩ := ih _ hne
        have i1 := i1 _ rfl
        refine ⟨by simp, ?_⟩
        intro p hp
        rcases List.mem_cons.1 hp with rfl | hp
        · exact Or.inl ⟨h1, i1⟩
        · exact i2 p hp
      | some f =>
        simp only at hne ⊢
        split at hne
        · rename_i hf
          simp only [hf, if_true]
          obtain ⟨i1, i2⟩ := ih _ hne
          have i1 := i1 _ rfl
          refine ⟨by simpa using i1, ?_⟩
          intro p hp
          rcases List.mem_cons.1 hp with rfl | hp
          · exact Or.inl ⟨h1, by rw [i1]; exact coefEqv_id_iff.1 (coefEqv_symm hf)⟩
          · exact i2 p hp
        · exact absurd rfl hne
    · have h1' : OpRepr.eqv t b = false := by simpa using h1
      rw [if_neg h1] at hne ⊢
      split at hne
      · rename_i h2
        simp only [h2, if_true]
        cases first with
        | none =>
          simp only at hne ⊢
          obtain ⟨i1, i2⟩ := ih _ hne
          have i1 := i1 _ rfl
          refine ⟨by simp, ?_⟩
          intro p hp
          rcases List.mem_cons.1 hp with rfl | hp
          · exact Or.inr ⟨h1', h2, by rw [i1]; simp⟩
          · exact i2 p hp
        | some f =>
          simp only at hne ⊢
          split at hne
          · rename_i hf
            simp only [hf, if_true]
            obtain ⟨i1, i2⟩ := ih _ hne
            have i1 := i1 _ rfl
            refine ⟨by simpa using i1, ?_⟩
            intro p hp
            rcases List.mem_cons.1 hp with rfl | hp
            · exact Or.inr ⟨h1', h2, by rw [i1]; exact hf⟩
            · exact i2 p hp
          · exact absurd rfl hne
      · exact absurd rfl hne

theorem overlapGo_none_nil : overlapGo none [] = [] := rfl

/-- A non-null, non-identity overlap means the base line has only identity coefficients. -/
theorem overlap_base {ax : Axis} {m : SparMat OpRepr} (hm : WF m) {i y : Nat}
    (h0 : overlap ax m i y ≠ []) (h1 : overlap ax m i y ≠ kIdCoef) : LineId ax m y := by
  unfold overlap at h0 h1
  obtain ⟨_, h2⟩ := overlapGo_spec _ _ h0
  intro x hx
  by_cases hn : atL ax m y x = []
  · rw [hn]; simp
  · have hmem : (atL ax m i x, atL ax m y x) ∈ ((List.range (cross ax m)).filter (fun x => !nullL ax m y x)).map
        (fun x => (atL ax m i x, atL ax m y x)) := by
      refine List.mem_map.2 ⟨x, List.mem_filter.2 ⟨List.mem_range.2 hx, ?_⟩, rfl⟩
      have : nullL ax m y x ≠ true := fun h => hn ((nullL_iff hm ax y x).1 h)
      simpa using this
    rcases h2 _ hmem with h | h
    · exact absurd h.2 h1
    · have h3 : (separate (atL ax m i x)).1 ≠ kIdCoef := by
        intro h4
        have := h.2.2
        rw [h4] at this
        exact h1 (coefEqv_id_iff.1 (coefEqv_symm this))
      have h5 := separate_snd_allId_of_fst_ne h3
      have h6 : atL ax m y x = _ := opEqv_allId h.2.1 h5
      rw [h6]
      exact h5

/-- Overlaps of an all-identity line. -/
theorem overlap_of_id {ax : Axis} {m : SparMat OpRepr} (hm : WF m) {i y : Nat} (hi : LineId ax m i)
    (h0 : overlap ax m i y ≠ []) : overlap ax m i y = kIdCoef ∧ LineId ax m y := by
  have key : ∀ x, x < cross ax m → atL ax m y x ≠ [] →
      OpRepr.eqv (atL ax m i x) (atL ax m y x) = true ∧ overlap ax m i y = kIdCoef := by
    intro x hx hn
    unfold overlap at h0 ⊢
    obtain ⟨_, h2⟩ := overlapGo_spec _ _ h0
    have hmem : (atL ax m i x, atL ax m y x) ∈ ((List.range (cross ax m)).filter (fun x => !nullL ax m y x)).map
        (fun x => (atL ax m i x, atL ax m y x)) := by
      refine List.mem_map.2 ⟨x, List.mem_filter.2 ⟨List.mem_range.2 hx, ?_⟩, rfl⟩
      have : nullL ax m y x ≠ true := fun h => hn ((nullL_iff hm ax y x).1 h)
      simpa using this
    rcases h2 _ hmem with h | h
    · exact h
    · simp only at h
      have hid := hi x hx
      by_cases ht : atL ax m i x = []
      · rw [ht] at h
        have := h.2.1
        simp only [separate] at this
        exact absurd (opEqv_nil_left.1 this) hn
      · rw [separate_fst_of_allId hid ht] at h
        simp only at h
        rw [h.1] at h
        simp at h
  have hex : ∃ x, x < cross ax m ∧ atL ax m y x ≠ [] := by
    by_cases hex : ∃ x, x < cross ax m ∧ atL ax m y x ≠ []
    · exact hex
    · exfalso
      apply h0
      unfold overlap
      have : (List.range (cross ax m)).filter (fun x => !nullL ax m y x) = [] := by
        rw [List.filter_eq_nil_iff]
        intro x hx
        have : atL ax m y x = [] := by
          by_contra hc
          exact hex ⟨x, List.mem_range.1 hx, hc⟩
        have := (nullL_iff hm ax y x).2 this
        simp [this]
      rw [this]
      rfl
  obtain ⟨x, hx, hn⟩ := hex
  refine ⟨(key x hx hn).2, ?_⟩
  intro x' hx'
  by_cases hn' : atL ax m y x' = []
  · rw [hn']; simp
  · have := (key x' hx' hn').1
    rw [opEqv_allId this (hi x' hx')]
    exact hi x' hx'

theorem getD_map_range {β : Type} (f : Nat → β) (n j : Nat) (d : β) (h : j < n) :
    ((List.range n).map f).getD j d = f j := by
  simp [List.getD_eq_getElem?_getD, List.getElem?_range h]

theorem calcLinCmb_length (ax : Axis) (m : SparMat OpRepr) (i : Nat) : (calcLinCmb ax m i).length = i := by
  unfold calcLinCmb
  split <;> simp

theorem calcLinCmb_facts {ax : Axis} {m : SparMat OpRepr} (hm : WF m) (i j : Nat) (hj : j < i) :
    ((calcLinCmb ax m i).getD j [] ≠ [] → (calcLinCmb ax m i).getD j [] ≠ kIdCoef → LineId ax m j) ∧
    (LineId ax m i → (calcLinCmb ax m i).getD j [] ≠ [] →
      (calcLinCmb ax m i).getD j [] = kIdCoef ∧ LineId ax m j) := by
  unfold calcLinCmb
  split
  · rename_i x0 hfind
    rw [getD_map_range _ _ _ _ hj]
    by_cases hjx : j = x0
    · rw [if_pos hjx]
      refine ⟨fun _ h => absurd rfl h, fun hi _ => ⟨rfl, ?_⟩⟩
      split at hfind
      · have h := List.find?_some hfind
        simp only [getLine_eq] at h
        rw [vecEqv_map] at h
        intro x hx
        rw [hjx, opEqv_allId (h x (List.mem_range.2 hx)) (hi x hx)]
        exact hi x hx
      · simp at hfind
    · rw [if_neg hjx]
      exact ⟨fun h => absurd rfl h, fun _ h => absurd rfl h⟩
  · rw [getD_map_range _ _ _ _ hj]
    exact ⟨fun h0 h1 => overlap_base hm h0 h1, fun hi h0 => overlap_of_id hm hi h0⟩

section
variable {R : Type} [CommSemiring R] (cv ov : Label → R)

theorem linCmb_entry {ax : Axis} {m : SparMat OpRepr} (cmb : List CoefRepr) (x : Nat) (hx : x < cross ax m)
    (hc : ∀ j, j < cmb.length → cmb.getD j [] ≠ [] → cmb.getD j [] ≠ kIdCoef → LineId ax m j) (h0 : cv 0 = 1)
    (n : Nat) (hn : n ≤ cmb.length) :
    ∃ r, (List.range n).foldlM (fun acc i => linCmbStep (cmb.getD i []) acc (atL ax m i x)) [] = .ok r ∧
      OpRepr.val cv ov r = ∑ j ∈ range n, CoefRepr.val cv (cmb.getD j []) * OpRepr.val cv ov (atL ax m j x) ∧
      (r = [] ↔ ∀ j, j < n → cmb.getD j [] = [] ∨ atL ax m j x = []) := by
  induction n with
  | zero => exact ⟨[], rfl, by simp, by simp⟩
  | succ n ih =>
    obtain ⟨r, h1, h2, h3⟩ := ih (by omega)
    rw [List.range_succ, List.foldlM_append, h1]
    simp only [List.foldlM_cons, List.foldlM_nil, bind, Except.bind, pure, Except.pure]
    unfold linCmbStep
    have hnil : ∀ P : Nat → Prop, (∀ j, j < n + 1 → P j) ↔ (∀ j, j < n → P j) ∧ P n := by
      intro P
      constructor
      · intro h; exact ⟨fun j hj => h j (by omega), h n (by omega)⟩
      · intro h j hj
        by_cases hjn : j = n
        · rw [hjn]; exact h.2
        · exact h.1 j (by omega)
    by_cases hid : CoefRepr.eqv (cmb.getD n []) kIdCoef = true
    · rw [if_pos hid]
      have hid' := coefEqv_id_iff.1 hid
      refine ⟨_, rfl, ?_, ?_⟩
      · rw [val_add, h2, sum_range_succ, hid', cval_id cv h0, one_mul]
      · rw [add_eq_nil, h3, hnil, hid']; simp
    · rw [if_neg hid]
      by_cases hnu : CoefRepr.eqv (cmb.getD n []) kNullCoef = true
      · rw [if_pos hnu]
        have hnu' := coefEqv_null_iff.1 hnu
        refine ⟨_, rfl, ?_, ?_⟩
        · rw [h2, sum_range_succ, hnu']; simp
        · rw [h3, hnil, hnu']; simp
      · rw [if_neg hnu]
        have hid' : cmb.getD n [] ≠ kIdCoef := fun h => hid (coefEqv_id_iff.2 h)
        have hnu' : cmb.getD n [] ≠ [] := fun h => hnu (coefEqv_null_iff.2 h)
        have hl := hc n (by omega) hnu' hid' x hx
        rw [if_pos]
        · refine ⟨_, rfl, ?_, ?_⟩
          · rw [val_add, h2, sum_range_succ, val_map_const cv ov _ _ hl h0]
          · rw [add_eq_nil, h3, hnil, List.map_eq_nil_iff]
            simp only [hnu', false_or]
        · rw [List.all_eq_true]
          intro kc hkc
          exact coefEqv_id_iff.2 (hl kc hkc)

/-- The candidate linear combination never hits an assertion, for any matrix. -/
theorem linCmb_spec {ax : Axis} {m : SparMat OpRepr} (hm : WF m) (i : Nat) (hi : 0 < i) (h0 : cv 0 = 1) :
    ∃ f : Nat → OpRepr, linCmb ax m (calcLinCmb ax m i) = .ok ((List.range (cross ax m)).map f) ∧
      ∀ x, x < cross ax m →
        OpRepr.val cv ov (f x) =
          ∑ j ∈ range i, CoefRepr.val cv ((calcLinCmb ax m i).getD j []) * OpRepr.val cv ov (atL ax m j x) ∧
        (f x = [] ↔ ∀ j, j < i → (calcLinCmb ax m i).getD j [] = [] ∨ atL ax m j x = []) := by
  have hlen := calcLinCmb_length ax m i
  have hc : ∀ j, j < (calcLinCmb ax m i).length → (calcLinCmb ax m i).getD j [] ≠ [] →
      (calcLinCmb ax m i).getD j [] ≠ kIdCoef → LineId ax m j :=
    fun j hj => (calcLinCmb_facts hm i j (by omega)).1
  have H : ∀ x, ∃ r, x < cross ax m →
      (List.range (calcLinCmb ax m i).length).foldlM
        (fun acc k => linCmbStep ((calcLinCmb ax m i).getD k []) acc (atL ax m k x)) [] = .ok r ∧
      OpRepr.val cv ov r = ∑ j ∈ range i, CoefRepr.val cv ((calcLinCmb ax m i).getD j []) * OpRepr.val cv ov (atL ax m j x) ∧
      (r = [] ↔ ∀ j, j < i → (calcLinCmb ax m i).getD j [] = [] ∨ atL ax m j x = []) := by
    intro x
    by_cases hx : x < cross ax m
    · obtain ⟨r, hr⟩ := linCmb_entry cv ov (calcLinCmb ax m i) x hx hc h0 _ (Nat.le_refl _)
      refine ⟨r, fun _ => ?_⟩
      rw [hlen] at hr ⊢
      exact hr
    · exact ⟨[], fun h => absurd h hx⟩
  choose f hf using H
  refine ⟨f, ?_, fun x hx => (hf x hx).2⟩
  unfold linCmb
  rw [if_neg (by omega)]
  exact mapM_ok (fun x hx => (hf x (List.mem_range.1 hx)).1)

theorem setLoop {β : Type} [NullElem β] {ax : Axis} {m : SparMat β} (hm : WF m) {r : Nat} (hr : r < lines ax m)
    (f : Nat → β) (n : Nat) (hn : n ≤ cross ax m) :
    ∃ m', (List.range n).foldlM (fun t j => setL ax t r j (f j)) m = .ok m' ∧ WF m' ∧
      lines ax m' = lines ax m ∧ cross ax m' = cross ax m ∧
      ∀ p j, p < lines ax m → j < cross ax m →
        atL ax m' p j = if p = r ∧ j < n then (if isNull (f j) then atL ax m p j else f j) else atL ax m p j := by
  induction n with
  | zero => exact ⟨m, rfl, hm, rfl, rfl, fun p j _ _ => by simp⟩
  | succ n ih =>
    obtain ⟨m', h1, h2, h3, h4, h5⟩ := ih (by omega)
    obtain ⟨m'', g1, g2, g3, g4, g5⟩ := setL_spec h2 ax (i := r) (x := n) (by omega) (by omega) (f n)
    rw [List.range_succ, List.foldlM_append, h1]
    simp only [List.foldlM_cons, List.foldlM_nil, bind, Except.bind, pure, Except.pure, g1]
    refine ⟨m'', rfl, g2, by omega, by omega, ?_⟩
    intro p j hp hj
    rw [g5 p j (by omega) (by omega)]
    by_cases hpj : p = r ∧ j = n
    · obtain ⟨rfl, rfl⟩ := hpj
      rw [if_pos (show p = p ∧ j = j from ⟨rfl, rfl⟩), if_pos (show p = p ∧ j < j + 1 from ⟨rfl, by omega⟩),
        h5 p j hp hj, if_neg (show ¬ (p = p ∧ j < j) by omega)]
    · rw [if_neg hpj, h5 p j hp hj]
      by_cases hpn : p = r ∧ j < n
      · rw [if_pos hpn, if_pos (show p = r ∧ j < n + 1 from ⟨hpn.1, by omega⟩)]
      · rw [if_neg hpn, if_neg (by omega)]

/-- Invariant of the delinearisation loop. `A` is the matrix before the loop. -/
structure DInv (ax : Axis) (A : SparMat OpRepr) (k i d : Nat) (tgt : SparMat OpRepr) (trans : SparMat CoefRepr) :
    Prop where
  hk : i + d + k = lines ax A
  hi : 1 ≤ i
  wt : WF tgt
  wm : WF trans
  lt : lines ax tgt = i + k
  ct : cross ax tgt = cross ax A
  lm : lines ax trans = lines ax A
  cm : cross ax trans = i + k
  tail : ∀ t x, t < k → x < cross ax A → atL ax tgt (i + t) x = atL ax A (i + d + t) x
  nul : ∀ p j, p < lines ax A → j < i + k → (i + d ≤ p ∨ i ≤ j) → atL ax trans p j = []
  D1 : ∀ p x, p < i + d → x < cross ax A → OpRepr.val cv ov (atL ax A p x) =
    ∑ j ∈ range i, CoefRepr.val cv (atL ax trans p j) * OpRepr.val cv ov (atL ax tgt j x)
  D23 : ∀ p x, p < i + d → x < cross ax A →
    (atL ax A p x = [] ↔ ∀ j, j < i → atL ax trans p j = [] ∨ atL ax tgt j x = [])
  D4 : ∀ p j, p < i + d → j < i → LineId ax A p → atL ax trans p j ≠ [] →
    atL ax trans p j = kIdCoef ∧ LineId ax tgt j
  D5 : ∀ j, j < i → ∃ p, p < i + d ∧ (∀ x, x < cross ax A → atL ax tgt j x = atL ax A p x) ∧
    ∀ j', j' < i → atL ax trans p j' = if j' = j then kIdCoef else []
  D6 : d = 0 → ∀ p j, p < i → j < i → atL ax trans p j = if j = p then kIdCoef else []

theorem isNull_list {β : Type} (l : List β) : isNull l = true ↔ l = [] := by
  cases l <;> simp [isNull]

theorem setVal {β : Type} (c : List β) (old : List β) (h : old = []) : (if isNull c then old else c) = c := by
  split
  · rename_i hc; rw [h, (isNull_list c).1 hc]
  · rfl

theorem delinLoop_spec {ax : Axis} {A : SparMat OpRepr} (h0 : cv 0 = 1) (hq : 0 < cross ax A) :
    ∀ k i d tgt trans, DInv cv ov ax A k i d tgt trans →
    ∃ i' d' tgt' trans', delinLoop ax k i d tgt trans = .ok (tgt', trans') ∧
      DInv cv ov ax A 0 i' d' tgt' trans' := by
  intro k
  induction k with
  | zero => intro i d tgt trans I; exact ⟨i, d, tgt, trans, rfl, I⟩
  | succ k ih =>
    intro i d tgt trans I
    obtain ⟨f, hf1, hf2⟩ := linCmb_spec (ax := ax) cv ov I.wt i I.hi h0
    have htail0 : ∀ x, x < cross ax A → atL ax tgt i x = atL ax A (i + d) x := by
      intro x hx; simpa using I.tail 0 x (by omega) hx
    unfold delinLoop
    simp only [hf1, bind, Except.bind]
    by_cases hacc : vecEqv ((List.range (cross ax tgt)).map f) (getLine ax tgt i) = true
    · rw [if_pos hacc]
      rw [getLine_eq, vecEqv_map] at hacc
      have hacc' : ∀ x, x < cross ax A → OpRepr.eqv (f x) (atL ax A (i + d) x) = true := by
        intro x hx
        have := hacc x (List.mem_range.2 (by rw [I.ct]; exact hx))
        rwa [htail0 x hx] at this
      obtain ⟨t2, a1, a2, a3, a4, a5⟩ := removeLine_spec I.wt ax (i := i) (by rw [I.lt]; omega)
        (by rw [I.lt]; have := I.hi; omega) (by rw [I.ct]; exact hq)
      have hlo : lines ax.other trans = i + (k + 1) := by rw [lines_other, I.cm]
      have hco : cross ax.other trans = lines ax A := by rw [cross_other, I.lm]
      obtain ⟨m2, b1, b2, b3, b4, b5⟩ := removeLine_spec I.wm ax.other (i := lines ax.other trans - 1)
        (by have := I.hi; omega) (by have := I.hi; omega) (by rw [hco]; have := I.hk; omega)
      have b3' : cross ax m2 = i + k := by rw [← lines_other, b3, hlo]; omega
      have b4' : lines ax m2 = lines ax A := by rw [← cross_other, b4, hco]
      have b5' : ∀ p j, p < lines ax A → j < i + k → atL ax m2 p j = atL ax trans p j := by
        intro p j hp hj
        have := b5 j p (by omega) (by omega)
        rw [atL_other, atL_other, if_pos (by omega)] at this
        exact this
      obtain ⟨m3, c1, c2, c3, c4, c5⟩ := setLoop b2 (ax := ax) (r := i + d) (by rw [b4']; have := I.hk; omega)
        (fun j => (calcLinCmb ax tgt i).getD j []) i (by omega)
      simp only [a1, b1, c1]
      have T3 : ∀ p j, p < lines ax A → j < i + k →
          atL ax m3 p j = if p = i + d ∧ j < i then (calcLinCmb ax tgt i).getD j [] else atL ax trans p j := by
        intro p j hp hj
        rw [c5 p j (by omega) (by omega), b5' p j hp hj]
        by_cases hpj : p = i + d ∧ j < i
        · rw [if_pos hpj, if_pos hpj]
          exact setVal _ _ (I.nul p j hp (by omega) (Or.inl (by omega)))
        · rw [if_neg hpj, if_neg hpj]
      have hkk := I.hk
      have hii := I.hi
      have tgt2 : ∀ t x, t < i → x < cross ax A → atL ax t2 t x = atL ax tgt t x := by
        intro t x ht hx
        rw [a5 t x (by rw [I.lt]; omega) (by rw [I.ct]; exact hx), if_pos ht]
      have hline : ∀ j, j < i → LineId ax tgt j → LineId ax t2 j := by
        intro j hj hl x hx
        rw [a4, I.ct] at hx
        rw [tgt2 j x hj hx]
        exact hl x (by rw [I.ct]; exact hx)
      refine ih i (d + 1) t2 m3 ⟨by omega, I.hi, a2, c2, by rw [a3, I.lt]; omega, by rw [a4, I.ct],
        by rw [c3, b4'], by rw [c4, b3'], ?_, ?_, ?_, ?_, ?_, ?_, by omega⟩
      · intro t x ht hx
        rw [a5 (i + t) x (by rw [I.lt]; omega) (by rw [I.ct]; exact hx), if_neg (by omega)]
        have := I.tail (t + 1) x (by omega) hx
        rw [show i + t + 1 = i + (t + 1) by omega, this]
        congr 1; omega
      · intro p j hp hj h
        rw [T3 p j hp hj, if_neg (by omega)]
        exact I.nul p j hp (by omega) (by omega)
      · intro p x hp hx
        by_cases hpd : p = i + d
        · subst hpd
          rw [← val_eqv cv ov (hacc' x hx), (hf2 x (by rw [I.ct]; exact hx)).1]
          refine sum_congr rfl fun j hj => ?_
          have hj' := Finset.mem_range.1 hj
          rw [T3 _ j (by omega) (by omega), if_pos ⟨rfl, hj'⟩, tgt2 j x hj' hx]
        · rw [I.D1 p x (by omega) hx]
          refine sum_congr rfl fun j hj => ?_
          have hj' := Finset.mem_range.1 hj
          rw [T3 _ j (by omega) (by omega), if_neg (by omega), tgt2 j x hj' hx]
      · intro p x hp hx
        by_cases hpd : p = i + d
        · subst hpd
          have e := hacc' x hx
          have e1 : atL ax A (i + d) x = [] ↔ f x = [] := by
            constructor
            · intro h; rw [h] at e; exact opEqv_nil_right.1 e
            · intro h; rw [h] at e; exact opEqv_nil_left.1 e
          rw [e1, (hf2 x (by rw [I.ct]; exact hx)).2]
          refine forall_congr' fun j => forall_congr' fun hj => ?_
          rw [T3 _ j (by omega) (by omega), if_pos ⟨rfl, hj⟩, tgt2 j x hj hx]
        · rw [I.D23 p x (by omega) hx]
          refine forall_congr' fun j => forall_congr' fun hj => ?_
          rw [T3 _ j (by omega) (by omega), if_neg (by omega), tgt2 j x hj hx]
      · intro p j hp hj hl hne
        by_cases hpd : p = i + d
        · subst hpd
          rw [T3 _ j (by omega) (by omega), if_pos ⟨rfl, hj⟩] at hne ⊢
          have hl' : LineId ax tgt i := by
            intro x hx
            rw [I.ct] at hx
            rw [htail0 x hx]; exact hl x hx
          have := (calcLinCmb_facts I.wt i j hj).2 hl' hne
          exact ⟨this.1, hline j hj this.2⟩
        · rw [T3 _ j (by omega) (by omega), if_neg (by omega)] at hne ⊢
          have := I.D4 p j (by omega) hj hl hne
          exact ⟨this.1, hline j hj this.2⟩
      · intro j hj
        obtain ⟨p, hp, h1, h2⟩ := I.D5 j hj
        refine ⟨p, by omega, fun x hx => by rw [tgt2 j x hj hx, h1 x hx], fun j' hj' => ?_⟩
        rw [T3 p j' (by omega) (by omega), if_neg (by omega)]
        exact h2 j' hj'
    · rw [if_neg hacc]
      have hkk := I.hk
      have hii := I.hi
      obtain ⟨m2, c1, c2, c3, c4, c5⟩ := setL_spec I.wm ax (i := i + d) (x := i) (by rw [I.lm]; omega)
        (by rw [I.cm]; omega) kIdCoef
      simp only [c1]
      have T3 : ∀ p j, p < lines ax A → j < i + k + 1 →
          atL ax m2 p j = if p = i + d ∧ j = i then kIdCoef else atL ax trans p j := by
        intro p j hp hj
        rw [c5 p j (by rw [I.lm]; exact hp) (by rw [I.cm]; omega)]
        rfl
      refine ih (i + 1) d tgt m2 ⟨by omega, by omega, I.wt, c2, by rw [I.lt]; omega, I.ct,
        by rw [c3, I.lm], by rw [c4, I.cm]; omega, ?_, ?_, ?_, ?_, ?_, ?_, ?_⟩
      · intro t x ht hx
        have := I.tail (t + 1) x (by omega) hx
        rw [show i + 1 + t = i + (t + 1) by omega, this]
        congr 1; omega
      · intro p j hp hj h
        rw [T3 p j hp (by omega), if_neg (by omega)]
        exact I.nul p j hp (by omega) (by omega)
      · intro p x hp hx
        rw [sum_range_succ]
        by_cases hpd : p = i + d
        · subst hpd
          rw [T3 _ i (by omega) (by omega), if_pos ⟨rfl, rfl⟩, cval_id cv h0, one_mul, htail0 x hx,
            sum_eq_zero, zero_add]
          intro j hj
          have hj' := Finset.mem_range.1 hj
          rw [T3 _ j (by omega) (by omega), if_neg (by omega), I.nul _ j (by omega) (by omega) (by omega)]
          simp
        · rw [I.D1 p x (by omega) hx, T3 _ i (by omega) (by omega), if_neg (by omega),
            I.nul p i (by omega) (by omega) (by omega), cval_nil, zero_mul, add_zero]
          refine sum_congr rfl fun j hj => ?_
          have hj' := Finset.mem_range.1 hj
          rw [T3 _ j (by omega) (by omega), if_neg (by omega)]
      · intro p x hp hx
        by_cases hpd : p = i + d
        · subst hpd
          constructor
          · intro h j hj
            by_cases hji : j = i
            · right; rw [hji, htail0 x hx, h]
            · left
              rw [T3 _ j (by omega) (by omega), if_neg (by omega), I.nul _ j (by omega) (by omega) (by omega)]
          · intro h
            rcases h i (by omega) with h | h
            · rw [T3 _ i (by omega) (by omega), if_pos ⟨rfl, rfl⟩] at h; simp at h
            · rw [← htail0 x hx, h]
        · rw [I.D23 p x (by omega) hx]
          constructor
          · intro h j hj
            by_cases hji : j = i
            · left
              subst hji
              rw [T3 _ j (by omega) (by omega), if_neg (by omega), I.nul _ j (by omega) (by omega) (by omega)]
            · rw [T3 _ j (by omega) (by omega), if_neg (by omega)]
              exact h j (by omega)
          · intro h j hj
            have := h j (by omega)
            rwa [T3 _ j (by omega) (by omega), if_neg (by omega)] at this
      · intro p j hp hj hl hne
        by_cases hpj : p = i + d ∧ j = i
        · obtain ⟨rfl, rfl⟩ := hpj
          rw [T3 _ j (by omega) (by omega), if_pos ⟨rfl, rfl⟩]
          refine ⟨rfl, fun x hx => ?_⟩
          rw [I.ct] at hx
          rw [htail0 x hx]; exact hl x hx
        · rw [T3 _ j (by omega) (by omega), if_neg hpj] at hne ⊢
          by_cases hji : j = i
          · exact absurd (I.nul p j (by omega) (by omega) (by omega)) hne
          · by_cases hpd : p = i + d
            · exact absurd (I.nul p j (by omega) (by omega) (by omega)) hne
            · exact I.D4 p j (by omega) (by omega) hl hne
      · intro j hj
        by_cases hji : j = i
        · subst hji
          refine ⟨j + d, by omega, fun x hx => htail0 x hx, fun j' hj' => ?_⟩
          rw [T3 _ j' (by omega) (by omega)]
          by_cases hjj : j' = j
          · rw [if_pos ⟨rfl, hjj⟩, if_pos hjj]
          · rw [if_neg (by omega), if_neg hjj, I.nul _ j' (by omega) (by omega) (by omega)]
        · obtain ⟨p, hp, h1, h2⟩ := I.D5 j (by omega)
          refine ⟨p, by omega, h1, fun j' hj' => ?_⟩
          rw [T3 p j' (by omega) (by omega), if_neg (by omega)]
          by_cases hj'i : j' = i
          · rw [if_neg (by omega), I.nul p j' (by omega) (by omega) (by omega)]
          · exact h2 j' (by omega)
      · intro hd p j hp hj
        subst hd
        rw [T3 p j (by omega) (by omega)]
        by_cases hpi : p = i
        · subst hpi
          by_cases hji : j = p
          · rw [if_pos (by omega), if_pos hji]
          · rw [if_neg (by omega), if_neg hji, I.nul p j (by omega) (by omega) (by omega)]
        · rw [if_neg (by omega)]
          by_cases hji : j = i
          · rw [if_neg (by omega), I.nul p j (by omega) (by omega) (by omega)]
          · exact I.D6 rfl p j (by omega) (by omega)

end
end Verif.Mpo
