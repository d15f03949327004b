import Verif.Mpo.DelinFacts
/- Helper facts about one call of the row/column compresser (not property statements). -/
namespace Verif.Mpo
open SparMat NullElem Finset

/-! ### Canonical operators: keys strictly ascending, as in a `std::map` -/

/-- Keys strictly ascending (iteration order of `std::map`), and no empty coefficient. -/
def Canon (op : OpRepr) : Prop := op.Pairwise (fun a b => a.1 < b.1) ∧ ∀ kc ∈ op, kc.2 ≠ []

theorem canon_nil : Canon [] := ⟨List.Pairwise.nil, by simp⟩
theorem canon_single (l : Label) {c : CoefRepr} (h : c ≠ []) : Canon [(l, c)] := by simp [Canon, h]

theorem addTerm_mem {k : Label} {c : CoefRepr} {a : OpRepr} {x : Label × CoefRepr}
    (h : x ∈ OpRepr.addTerm k c a) : x.1 = k ∨ ∃ y ∈ a, y.1 = x.1 := by
  induction a with
  | nil => simp [OpRepr.addTerm] at h; left; rw [h]
  | cons kc a ih =>
    unfold OpRepr.addTerm at h
    split at h
    · rcases List.mem_cons.1 h with rfl | h
      · exact Or.inl rfl
      · exact Or.inr ⟨x, h, rfl⟩
    · split at h
      · rcases List.mem_cons.1 h with rfl | h
        · exact Or.inr ⟨kc, by simp, rfl⟩
        · exact Or.inr ⟨x, by simp [h], rfl⟩
      · rcases List.mem_cons.1 h with rfl | h
        · exact Or.inr ⟨kc, by simp, rfl⟩
        · rcases ih h with h | ⟨y, hy, h⟩
          · exact Or.inl h
          · exact Or.inr ⟨y, by simp [hy], h⟩

theorem pairwise_addTerm (k : Label) (c : CoefRepr) {a : OpRepr} (h : a.Pairwise (fun a b => a.1 < b.1)) :
    (OpRepr.addTerm k c a).Pairwise (fun a b => a.1 < b.1) := by
  induction a with
  | nil => simp [OpRepr.addTerm]
  | cons kc a ih =>
    have h' := List.pairwise_cons.1 h
    unfold OpRepr.addTerm
    split
    · rename_i hlt
      refine List.pairwise_cons.2 ⟨?_, h⟩
      intro x hx
      rcases List.mem_cons.1 hx with rfl | hx
      · exact hlt
      · exact Nat.lt_trans hlt (h'.1 x hx)
    · split
      · exact List.pairwise_cons.2 ⟨h'.1, h'.2⟩
      · refine List.pairwise_cons.2 ⟨?_, ih h'.2⟩
        intro x hx
        rcases addTerm_mem hx with hx | ⟨y, hy, hx⟩
        · rw [hx]
          rename_i hn1 hn2 _
          exact Nat.lt_of_le_of_ne (Nat.le_of_not_lt hn1) (Ne.symm hn2)
        · rw [← hx]; exact h'.1 y hy

theorem proper_addTerm (k : Label) {c : CoefRepr} (hc : c ≠ []) {a : OpRepr} (h : ∀ kc ∈ a, kc.2 ≠ []) :
    ∀ kc ∈ OpRepr.addTerm k c a, kc.2 ≠ [] := by
  induction a with
  | nil => simp [OpRepr.addTerm, hc]
  | cons kd a ih =>
    unfold OpRepr.addTerm
    have h1 := h kd (by simp)
    have h2 : ∀ kc ∈ a, kc.2 ≠ [] := fun kc hk => h kc (by simp [hk])
    intro kc hk
    split at hk
    · rcases List.mem_cons.1 hk with rfl | hk
      · exact hc
      · exact h kc hk
    · split at hk
      · rcases List.mem_cons.1 hk with rfl | hk
        · simp [CoefRepr.add, h1]
        · exact h2 kc hk
      · rcases List.mem_cons.1 hk with rfl | hk
        · exact h1
        · exact ih h2 kc hk

theorem canon_addTerm (k : Label) {c : CoefRepr} (hc : c ≠ []) {a : OpRepr} (h : Canon a) : Canon (OpRepr.addTerm k c a) :=
  ⟨pairwise_addTerm k c h.1, proper_addTerm k hc h.2⟩

theorem canon_add {a b : OpRepr} (hb : ∀ kc ∈ b, kc.2 ≠ []) (h : Canon a) : Canon (OpRepr.add a b) := by
  unfold OpRepr.add
  induction b generalizing a with
  | nil => exact h
  | cons kc b ih => exact ih (fun x hx => hb x (by simp [hx])) (canon_addTerm kc.1 (hb kc (by simp)) h)

theorem addTerm_last (k : Label) (c : CoefRepr) (a : OpRepr) (h : ∀ x ∈ a, x.1 < k) :
    OpRepr.addTerm k c a = a ++ [(k, c)] := by
  induction a with
  | nil => rfl
  | cons kc a ih =>
    have h1 := h kc (by simp)
    unfold OpRepr.addTerm
    rw [if_neg (Nat.lt_asymm h1), if_neg (Nat.ne_of_gt h1), ih (fun x hx => h x (by simp [hx]))]
    rfl

theorem add_canon_aux (b a : OpRepr) (h : (a ++ b).Pairwise (fun a b => a.1 < b.1)) : OpRepr.add a b = a ++ b := by
  unfold OpRepr.add
  induction b generalizing a with
  | nil => simp
  | cons kc b ih =>
    rw [List.foldl_cons, addTerm_last]
    · have : a ++ [(kc.1, kc.2)] ++ b = a ++ kc :: b := by simp
      rw [ih _ (by rw [this]; exact h), this]
    · intro x hx
      exact (List.pairwise_append.1 h).2.2 x hx kc (by simp)

theorem add_nil_canon {b : OpRepr} (h : Canon b) : OpRepr.add [] b = b := by
  simpa using add_canon_aux b [] (by simpa using h.1)

theorem canon_map {op : OpRepr} (f : Label × CoefRepr → CoefRepr) (hf : ∀ kc, f kc ≠ []) (h : Canon op) :
    Canon (op.map (fun kc => (kc.1, f kc))) := by
  unfold Canon at *
  rw [List.pairwise_map]
  refine ⟨h.1, ?_⟩
  intro kc hk
  obtain ⟨a, _, rfl⟩ := List.mem_map.1 hk
  exact hf a

theorem canon_separate {op : OpRepr} (h : Canon op) : Canon (separate op).2 := by
  match op with
  | [] => exact canon_nil
  | [(l, c)] => exact canon_single _ (by simp)
  | (l, c) :: kc :: rest =>
    unfold separate
    by_cases hall : (kc :: rest).all (fun kc => CoefRepr.eqv kc.2 c) = true
    · simp only [hall, if_true]
      exact canon_map (fun _ => kIdCoef) (by simp) h
    · simp only [hall]; exact h

theorem canon_incompleteMulti {c : CoefRepr} {op r : OpRepr} (hc : c ≠ []) (h : Canon op) (hr : incompleteMulti c op = .ok r) :
    Canon r := by
  unfold incompleteMulti at hr
  split at hr
  · cases hr; exact canon_nil
  · split at hr
    · cases hr; exact h
    · split at hr
      · cases hr; exact canon_map (fun _ => c) (fun _ => hc) h
      · cases hr

/-- Every entry is canonical. -/
def CanonM (m : SparMat OpRepr) : Prop :=
  ∀ x y, x < m.rows → y < m.cols → Canon (m.get x y)

theorem canonM_iff (ax : Axis) (m : SparMat OpRepr) :
    CanonM m ↔ ∀ i x, i < lines ax m → x < cross ax m → Canon (atL ax m i x) := by
  cases ax
  · exact Iff.rfl
  · exact ⟨fun h i x hi hx => h x i hx hi, fun h x y hx hy => h y x hy hx⟩

/-! ### Products -/

section
variable {R : Type} [CommSemiring R] (cv ov : Label → R)

theorem incompleteMulti_cond {c : CoefRepr} {op : OpRepr} (h : c = kIdCoef ∨ AllId op) :
    ∃ r, incompleteMulti c op = .ok r := by
  rcases h with rfl | h
  · exact ⟨op, incompleteMulti_id op⟩
  · obtain ⟨r, hr, _⟩ := incompleteMulti_allId c op h
    exact ⟨r, hr⟩

/-- Product condition: a non-null, non-identity coefficient only ever meets an all-identity line. -/
def MulCond (ax : Axis) (t : SparMat CoefRepr) (f : SparMat OpRepr) : Prop :=
  ∀ i j, i < lines ax t → j < cross ax t → atL ax t i j ≠ [] → atL ax t i j = kIdCoef ∨ LineId ax.other f i

theorem multKernel_partial {ax : Axis} {t : SparMat CoefRepr} {f : SparMat OpRepr} (ht : WF t) (hf : WF f)
    (hc : MulCond ax t f) (h0 : cv 0 = 1) {j z : Nat} (hca : ∀ i, i < lines ax t → Canon (atL ax.other f i z))
    (hj : j < cross ax t) (hz : z < cross ax.other f) (n : Nat) (hn : n ≤ lines ax t) :
    ∃ e, (List.range n).foldlM (fun acc i =>
        if nullL ax t i j || nullL ax.other f i z then Except.ok acc
        else do
          let r ← incompleteMulti (atL ax t i j) (atL ax.other f i z)
          return OpRepr.add acc r) [] = .ok e ∧ Canon e ∧
      OpRepr.val cv ov e = ∑ i ∈ range n, CoefRepr.val cv (atL ax t i j) * OpRepr.val cv ov (atL ax.other f i z) ∧
      (e = [] ↔ ∀ i, i < n → atL ax t i j = [] ∨ atL ax.other f i z = []) ∧
      (∀ i0, i0 < n → (∀ i, i < n → i ≠ i0 → atL ax t i j = [] ∨ atL ax.other f i z = []) →
        atL ax t i0 j ≠ [] → incompleteMulti (atL ax t i0 j) (atL ax.other f i0 z) = .ok e) := by
  induction n with
  | zero => exact ⟨[], rfl, canon_nil, by simp, by simp, by omega⟩
  | succ n ih =>
    obtain ⟨e, h1, h2, h3, h4, h5⟩ := ih (by omega)
    rw [List.range_succ, List.foldlM_append, h1]
    simp only [List.foldlM_cons, List.foldlM_nil, bind, Except.bind, pure, Except.pure]
    have hnil : ∀ P : Nat → Prop, (∀ j, j < n + 1 → P j) ↔ (∀ j, j < n → P j) ∧ P n := by
      intro P
      constructor
      · intro h; exact ⟨fun j hj => h j (by omega), h n (by omega)⟩
      · intro h j hj
        by_cases hjn : j = n
        · rw [hjn]; exact h.2
        · exact h.1 j (by omega)
    by_cases hnull : (nullL ax t n j || nullL ax.other f n z) = true
    · rw [if_pos hnull]
      have hn' : atL ax t n j = [] ∨ atL ax.other f n z = [] := by
        rcases Bool.or_eq_true_iff.1 hnull with h | h
        · exact Or.inl ((nullL_iff ht _ _ _).1 h)
        · exact Or.inr ((nullL_iff hf _ _ _).1 h)
      refine ⟨e, rfl, h2, ?_, ?_, ?_⟩
      · rw [h3, sum_range_succ]
        rcases hn' with h | h <;> rw [h] <;> simp
      · rw [h4, hnil]; simp [hn']
      · intro i0 hi0 hu hne
        by_cases hin : i0 = n
        · subst hin
          have hfz : atL ax.other f i0 z = [] := hn'.resolve_left hne
          have he : e = [] := h4.2 (fun i hi => hu i (by omega) (by omega))
          rw [hfz, he]; rfl
        · exact h5 i0 (by omega) (fun i hi hne => hu i (by omega) hne) hne
    · rw [if_neg hnull]
      have hn1 : atL ax t n j ≠ [] := fun h => hnull (by
        rw [(nullL_iff ht ax n j).2 h]; simp)
      have hn2 : atL ax.other f n z ≠ [] := fun h => hnull (by
        rw [(nullL_iff hf ax.other n z).2 h]; simp)
      obtain ⟨r, hr⟩ := incompleteMulti_cond ((hc n j (by omega) hj hn1).imp id (fun h => h z hz))
      rw [hr]
      refine ⟨_, rfl, canon_add (canon_incompleteMulti hn1 (hca n (by omega)) hr).2 h2, ?_, ?_, ?_⟩
      · rw [val_add, h3, sum_range_succ, val_incompleteMulti cv ov hr h0]
      · rw [add_eq_nil, h4, hnil, incompleteMulti_ne_nil hr]
        simp [hn1]
      · intro i0 hi0 hu hne
        by_cases hin : i0 = n
        · subst hin
          have he : e = [] := h4.2 (fun i hi => hu i (by omega) (by omega))
          rw [hr, he, add_nil_canon (canon_incompleteMulti hn1 (hca i0 (by omega)) hr)]
        · rcases hu n (by omega) (by omega) with h | h
          · exact absurd h hn1
          · exact absurd h hn2

/-- Result of an incomplete matrix product. -/
structure MulRes (ax : Axis) (t : SparMat CoefRepr) (f res : SparMat OpRepr) : Prop where
  wf : WF res
  canon : CanonM res
  ln : lines ax.other res = cross ax t
  cr : cross ax.other res = cross ax.other f
  val : ∀ j z, j < cross ax t → z < cross ax.other f → OpRepr.val cv ov (atL ax.other res j z) =
    ∑ i ∈ range (lines ax t), CoefRepr.val cv (atL ax t i j) * OpRepr.val cv ov (atL ax.other f i z)
  nul : ∀ j z, j < cross ax t → z < cross ax.other f → (atL ax.other res j z = [] ↔
    ∀ i, i < lines ax t → atL ax t i j = [] ∨ atL ax.other f i z = [])
  one : ∀ j z, j < cross ax t → z < cross ax.other f → ∀ i0, i0 < lines ax t →
    (∀ i, i < lines ax t → i ≠ i0 → atL ax t i j = [] ∨ atL ax.other f i z = []) →
    atL ax t i0 j ≠ [] → incompleteMulti (atL ax t i0 j) (atL ax.other f i0 z) = .ok (atL ax.other res j z)

theorem fillRow {ax : Axis} {res : SparMat OpRepr} (hw : WF res) {j : Nat} (hj : j < lines ax res)
    (g : Nat → Except Err OpRepr) (v : Nat → OpRepr) (n : Nat) (hn : n ≤ cross ax res)
    (hg : ∀ z, z < cross ax res → g z = .ok (v z)) (hnull : ∀ z, z < cross ax res → atL ax res j z = []) :
    ∃ m', (List.range n).foldlM (fun res z => do let e ← g z; setL ax res j z e) res = .ok m' ∧ WF m' ∧
      lines ax m' = lines ax res ∧ cross ax m' = cross ax res ∧
      ∀ p z, p < lines ax res → z < cross ax res →
        atL ax m' p z = if p = j ∧ z < n then v z else atL ax res p z := by
  induction n with
  | zero => exact ⟨res, rfl, hw, rfl, rfl, fun p z _ _ => by simp⟩
  | succ n ih =>
    obtain ⟨m', h1, h2, h3, h4, h5⟩ := ih (by omega)
    obtain ⟨m'', g1, g2, g3, g4, g5⟩ := setL_spec h2 ax (i := j) (x := n) (by omega) (by omega) (v n)
    rw [List.range_succ, List.foldlM_append, h1]
    simp only [List.foldlM_cons, List.foldlM_nil, bind, Except.bind, pure, Except.pure, hg n (by omega), g1]
    refine ⟨m'', rfl, g2, by omega, by omega, ?_⟩
    intro p z hp hz
    rw [g5 p z (by omega) (by omega)]
    by_cases hpj : p = j ∧ z = n
    · obtain ⟨rfl, rfl⟩ := hpj
      rw [if_pos (show p = p ∧ z = z from ⟨rfl, rfl⟩), if_pos (show p = p ∧ z < z + 1 from ⟨rfl, by omega⟩)]
      refine setVal (v z) _ ?_
      rw [h5 p z hp hz, if_neg (by omega)]
      exact hnull z hz
    · rw [if_neg hpj, h5 p z hp hz]
      by_cases hpn : p = j ∧ z < n
      · rw [if_pos hpn, if_pos ⟨hpn.1, by omega⟩]
      · rw [if_neg hpn, if_neg (by omega)]

theorem fillMat {ax : Axis} (g : Nat → Nat → Except Err OpRepr) (v : Nat → Nat → OpRepr) (L C : Nat)
    (hg : ∀ j z, j < L → z < C → g j z = .ok (v j z)) (n : Nat) (hn : n ≤ L) :
    ∃ m', (List.range n).foldlM (fun res j =>
        (List.range C).foldlM (fun res z => do let e ← g j z; setL ax res j z e) res) (mkL ax L C) = .ok m' ∧ WF m' ∧
      lines ax m' = L ∧ cross ax m' = C ∧
      ∀ p z, p < L → z < C → atL ax m' p z = if p < n then v p z else [] := by
  induction n with
  | zero =>
    obtain ⟨a, b, c, d⟩ := mkL_spec (α := OpRepr) ax L C
    exact ⟨_, rfl, a, b, c, fun p z _ _ => by rw [if_neg (by omega)]; exact d p z⟩
  | succ n ih =>
    obtain ⟨m', h1, h2, h3, h4, h5⟩ := ih (by omega)
    obtain ⟨m'', g1, g2, g3, g4, g5⟩ := fillRow (ax := ax) h2 (j := n) (by omega) (g n) (v n) C (by omega)
      (fun z hz => hg n z (by omega) (by omega)) (fun z hz => by rw [h5 n z (by omega) (by omega), if_neg (by omega)])
    rw [List.range_succ, List.foldlM_append, h1]
    simp only [List.foldlM_cons, List.foldlM_nil, bind, Except.bind, pure, Except.pure]
    simp only [bind, Except.bind] at g1
    rw [g1]
    refine ⟨m'', rfl, g2, by omega, by omega, ?_⟩
    intro p z hp hz
    rw [g5 p z (by omega) (by omega)]
    by_cases hpn : p = n
    · rw [if_pos ⟨hpn, hz⟩, if_pos (by omega), hpn]
    · rw [if_neg (by omega), h5 p z hp hz]
      by_cases hlt : p < n
      · rw [if_pos hlt, if_pos (by omega)]
      · rw [if_neg hlt, if_neg (by omega)]

theorem multMat_spec {ax : Axis} {t : SparMat CoefRepr} {f : SparMat OpRepr} (ht : WF t) (hf : WF f)
    (hcf : CanonM f) (hl : lines ax t = lines ax.other f) (hc : MulCond ax t f) (h0 : cv 0 = 1) :
    ∃ res, multMat ax t f = .ok res ∧ MulRes cv ov ax t f res := by
  have H : ∀ j z, ∃ e, j < cross ax t → z < cross ax.other f →
      multKernel ax t f j z = .ok e ∧ Canon e ∧
      OpRepr.val cv ov e = ∑ i ∈ range (lines ax t), CoefRepr.val cv (atL ax t i j) * OpRepr.val cv ov (atL ax.other f i z) ∧
      (e = [] ↔ ∀ i, i < lines ax t → atL ax t i j = [] ∨ atL ax.other f i z = []) ∧
      (∀ i0, i0 < lines ax t → (∀ i, i < lines ax t → i ≠ i0 → atL ax t i j = [] ∨ atL ax.other f i z = []) →
        atL ax t i0 j ≠ [] → incompleteMulti (atL ax t i0 j) (atL ax.other f i0 z) = .ok e) := by
    intro j z
    by_cases hjz : j < cross ax t ∧ z < cross ax.other f
    · obtain ⟨e, he1, he2, he3, he4, he5⟩ := multKernel_partial cv ov ht hf hc h0
        (fun i hi => (canonM_iff ax.other f).1 hcf i z (by omega) hjz.2) hjz.1 hjz.2 _ (Nat.le_refl _)
      exact ⟨e, fun _ _ => ⟨he1, he2, he3, he4, fun i0 h1 h2 h3 => he5 i0 h1 h2 h3⟩⟩
    · exact ⟨[], fun h1 h2 => absurd ⟨h1, h2⟩ hjz⟩
  choose v hv using H
  obtain ⟨m', h1, h2, h3, h4, h5⟩ := fillMat (ax := ax.other) (multKernel ax t f) v (cross ax t) (cross ax.other f)
    (fun j z hj hz => (hv j z hj hz).1) _ (Nat.le_refl _)
  have h5' : ∀ p z, p < cross ax t → z < cross ax.other f → atL ax.other m' p z = v p z := by
    intro p z hp hz; rw [h5 p z hp hz, if_pos hp]
  refine ⟨m', ?_, ⟨h2, ?_, h3, h4, ?_, ?_, ?_⟩⟩
  · unfold multMat
    rw [if_neg (by simpa using hl)]
    exact h1
  · rw [canonM_iff ax.other]
    intro i x hi hx
    rw [h5' i x (by omega) (by omega)]
    exact (hv i x (by omega) (by omega)).2.1
  · intro j z hj hz; rw [h5' j z hj hz]; exact (hv j z hj hz).2.2.1
  · intro j z hj hz; rw [h5' j z hj hz]; exact (hv j z hj hz).2.2.2.1
  · intro j z hj hz i0 hi0; rw [h5' j z hj hz]; exact (hv j z hj hz).2.2.2.2 i0 hi0

end
end Verif.Mpo
