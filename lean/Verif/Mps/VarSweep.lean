import Verif.Mps.VarProdFacts
/-
The sweeps of the compressing product: every environment that is read is the one that belongs to the current output, and after a
sweep the output is an orthogonal projection of the exact product.
-/
namespace Verif.Mps
open Finset
variable {σ K : Type} [CommRing K] [StarRing K] [Fintype σ]

/-- The environment of the first `k` sites. -/
def EnvL (ts us os : List (Ten (σ × σ) K)) (k : Nat) (e : Env3 K) : Prop :=
  ∃ o t u, os[k]? = some o ∧ ts[k]? = some t ∧ us[k]? = some u ∧ e.d0 = o.l ∧ e.d1 = t.l ∧ e.d2 = u.l ∧
    SemL k (fuse e) (os.take k) ((List.zipWith prodTen ts us).take k) o.l (prodTen t u).l

/-- The environment of the last `k` sites. -/
def EnvR (ts us os : List (Ten (σ × σ) K)) (k : Nat) (e : Env3 K) : Prop :=
  ∃ o t u, os[os.length - 1 - k]? = some o ∧ ts[os.length - 1 - k]? = some t ∧ us[os.length - 1 - k]? = some u ∧ e.d0 = o.r ∧ e.d1 = t.r ∧ e.d2 = u.r ∧
    SemR k (fuse e) (os.drop (os.length - k)) ((List.zipWith prodTen ts us).drop (os.length - k)) o.r (prodTen t u).r

/-- The operands and the output belong together, and the files `l0 … li`, `r0 … rj` hold the environments of the current output. -/
structure VInv (ts us os : List (Ten (σ × σ) K)) (s : VarSt σ K) (i j : Nat) : Prop where
  rep : Rep s.out os
  lenT : ts.length = os.length
  lenU : us.length = os.length
  lt : Linked ts
  lu : Linked us
  ht : headL ts = 1
  hu : headL us = 1
  ho : headL os = 1
  la : lastR os = 1
  lfs : ∀ k ≤ i, ∃ e, s.lf k = some e ∧ EnvL ts us os k e
  rfs : ∀ k ≤ j, ∃ e, s.rf k = some e ∧ EnvR ts us os k e

omit [CommRing K] [StarRing K] [Fintype σ] in
theorem take_set2 (os : List (Ten (σ × σ) K)) (i k : Nat) (p q : Ten (σ × σ) K) (h : k ≤ i) : (set2 os i p q).take k = os.take k := by
  unfold set2
  rw [List.take_set_of_le (by omega), List.take_set_of_le (by omega)]

omit [CommRing K] [StarRing K] [Fintype σ] in
theorem drop_set2 (os : List (Ten (σ × σ) K)) (i k : Nat) (p q : Ten (σ × σ) K) (h : i + 2 ≤ k) : (set2 os i p q).drop k = os.drop k := by
  unfold set2
  rw [List.drop_set_of_lt (by omega), List.drop_set_of_lt (by omega)]

omit [CommRing K] [StarRing K] [Fintype σ] in
theorem len_set2 (os : List (Ten (σ × σ) K)) (i : Nat) (p q : Ten (σ × σ) K) : (set2 os i p q).length = os.length := by simp [set2]

omit [CommRing K] [StarRing K] [Fintype σ] in
theorem get_set2 (os : List (Ten (σ × σ) K)) (i : Nat) (p q : Ten (σ × σ) K) (h : i + 1 < os.length) :
    (set2 os i p q)[i]? = some p ∧ (set2 os i p q)[i + 1]? = some q ∧ ∀ k, k ≠ i → k ≠ i + 1 → (set2 os i p q)[k]? = os[k]? := by
  unfold set2
  refine ⟨?_, ?_, ?_⟩
  · rw [List.getElem?_set, if_neg (by omega), List.getElem?_set, if_pos rfl, if_pos (by omega)]
  · rw [List.getElem?_set, if_pos rfl, if_pos (by simpa using h)]
  · intro k h1 h2
    rw [List.getElem?_set, if_neg (by omega), List.getElem?_set, if_neg (by omega)]

theorem envL_set2 {ts us os : List (Ten (σ × σ) K)} {i k : Nat} {p q o : Ten (σ × σ) K} {e : Env3 K} (h : EnvL ts us os k e) (hk : k ≤ i)
    (hi : i + 1 < os.length) (ho : os[i]? = some o) (hp : p.l = o.l) : EnvL ts us (set2 os i p q) k e := by
  obtain ⟨o', t, u, h1, h2, h3, h4, h5, h6, h7⟩ := h
  obtain ⟨g1, g2, g3⟩ := get_set2 os i p q hi
  by_cases c : k = i
  · subst c
    have : o' = o := by rw [h1] at ho; simpa using ho
    subst this
    exact ⟨p, t, u, g1, h2, h3, by rw [hp]; exact h4, h5, h6, by rw [take_set2 _ _ _ _ _ (Nat.le_refl _), hp]; exact h7⟩
  · exact ⟨o', t, u, by rw [g3 k c (by omega)]; exact h1, h2, h3, h4, h5, h6, by rw [take_set2 _ _ _ _ _ hk]; exact h7⟩

theorem envR_set2 {ts us os : List (Ten (σ × σ) K)} {i k : Nat} {p q o : Ten (σ × σ) K} {e : Env3 K} (h : EnvR ts us os k e)
    (hi : i + k + 1 < os.length) (ho : os[i + 1]? = some o) (hq : q.r = o.r) : EnvR ts us (set2 os i p q) k e := by
  obtain ⟨o', t, u, h1, h2, h3, h4, h5, h6, h7⟩ := h
  obtain ⟨g1, g2, g3⟩ := get_set2 os i p q (by omega)
  unfold EnvR
  rw [len_set2, drop_set2 _ _ _ _ _ (by omega)]
  by_cases c : os.length - 1 - k = i + 1
  · rw [c] at h1 h2 h3 ⊢
    have : o' = o := by rw [h1] at ho; simpa using ho
    subst this
    exact ⟨q, t, u, g2, h2, h3, by rw [hq]; exact h4, h5, h6, by rw [hq]; exact h7⟩
  · exact ⟨o', t, u, by rw [g3 _ (by omega) c]; exact h1, h2, h3, h4, h5, h6, h7⟩

omit [StarRing K] in
theorem zip_get {ts us : List (Ten (σ × σ) K)} {i : Nat} {t u : Ten (σ × σ) K} (h1 : ts[i]? = some t) (h2 : us[i]? = some u) :
    (List.zipWith prodTen ts us)[i]? = some (prodTen t u) := by
  rw [List.getElem?_zipWith, h1, h2]

omit [CommRing K] [StarRing K] [Fintype σ] in
theorem inHead_of {ts : List (Ten (σ × σ) K)} (h : headL ts = 1) : InHead ts 0 := by
  intro t ht
  cases ts with
  | nil => simp at ht
  | cons a l => simp at ht; subst ht; simp [headL] at h; omega

omit [CommRing K] [StarRing K] [Fintype σ] in
theorem inHead_take {ts : List (Ten (σ × σ) K)} (h : InHead ts 0) (k : Nat) : InHead (ts.take k) 0 := by
  intro t ht
  cases k with
  | zero => simp at ht
  | succ k => exact h t (by cases ts <;> simpa using ht)

omit [StarRing K] [Fintype σ] in
theorem linked_take {ts : List (Ten (σ × σ) K)} (h : Linked ts) (k : Nat) : Linked (ts.take k) := by
  have := h
  rw [← List.take_append_drop k ts] at this
  exact linked_append_left this

omit [StarRing K] in
theorem headL_zip {ts us : List (Ten (σ × σ) K)} (h : ts.length = us.length) (h1 : headL ts = 1) (h2 : headL us = 1) :
    headL (List.zipWith prodTen ts us) = 1 := by
  cases ts with
  | nil => simp [headL] at h1
  | cons a l =>
    cases us with
    | nil => simp at h
    | cons b l' => simp [headL, prodTen] at h1 h2 ⊢; omega

omit [StarRing K] [Fintype σ] in
theorem write2_rep {m : FMpo σ K} {os : List (Ten (σ × σ) K)} (h : Rep m os) {i : Nat} (hi : i + 1 < os.length) {o o' p q : Ten (σ × σ) K}
    (h1 : os[i]? = some o) (h2 : os[i + 1]? = some o') (hp : p.l = o.l) (hpq : p.r = q.l) (hq : q.r = o'.r) :
    ∃ m1 m2, m.write i p = .ok m1 ∧ m1.write (i + 1) q = .ok m2 ∧ Rep m2 (set2 os i p q) ∧ headL (set2 os i p q) = headL os ∧
      lastR (set2 os i p q) = lastR os := by
  have sz : FMps.size m = os.length := h.size
  refine ⟨⟨m.slots.set i (some p), m.flags.set i .none, -1⟩,
    ⟨(m.slots.set i (some p)).set (i + 1) (some q), (m.flags.set i .none).set (i + 1) .none, -1⟩, ?_, ?_, ?_, ?_⟩
  · unfold FMps.write; exact if_pos (by omega)
  · unfold FMps.write
    refine if_pos ?_
    simp only [FMps.size, List.length_set] at sz ⊢; omega
  · refine ⟨?_, ?_, (linked_set2 hp hpq hq i os h1 h2 h.link).1⟩
    · simp only [h.slots]
      exact map_set2 os i p q
    · simp [len_set2, h.flen]
  · refine ⟨(linked_set2 hp hpq hq i os h1 h2 h.link).2, ?_⟩
    rw [lastR_eq, lastR_eq, len_set2]
    obtain ⟨g1, g2, g3⟩ := get_set2 os i p q hi
    by_cases c : os.length - 1 = i + 1
    · rw [c, g2, h2]; simp [hq]
    · rw [g3 _ (by omega) c]

variable {splitR splitL : Two σ K → Ten (σ × σ) K × Ten (σ × σ) K} {m1 m2 : FMpo σ K} {ts us : List (Ten (σ × σ) K)}

theorem varStepR_inv (H : SplitRSpec splitR) (h1 : m1.slots = ts.map some) (h2 : m2.slots = us.map some) {os : List (Ten (σ × σ) K)} {s : VarSt σ K}
    {i : Nat} (hi : i + 2 < os.length) (inv : VInv ts us os s i (os.length - i - 2)) {el : Env3 K} (hel : EnvL ts us os i el) :
    ∃ s' el' p q, varStepR splitR m1 m2 os.length (s, el) i = .ok (s', el') ∧ VInv ts us (set2 os i p q) s' (i + 1) (os.length - i - 3) ∧
      EnvL ts us (set2 os i p q) (i + 1) el' ∧ ∃ T, p = (splitR T).1 := by
  obtain ⟨rep, lenT, lenU, lt, lu, ht, hu, ho, la, lfs, rfs⟩ := inv
  obtain ⟨er, her, o1, tr, ur, a1, a2, a3, a4, a5, a6, a7⟩ := rfs (os.length - i - 2) (Nat.le_refl _)
  rw [show os.length - 1 - (os.length - i - 2) = i + 1 by omega] at a1 a2 a3
  obtain ⟨o0, tl, ul, b1, b2, b3, b4, b5, b6, b7⟩ := hel
  have tlr : tl.r = tr.l := linked_get lt i tl tr b2 a2
  have ulr : ul.r = ur.l := linked_get lu i ul ur b3 a3
  obtain ⟨T, c1, c2, c3, -⟩ := varTwo_fuse (el := el) (er := er) (tl := tl) (tr := tr) (ul := ul) (ur := ur)
    ⟨b6.symm, b5.symm, a6.symm, a5.symm, ulr, tlr⟩
  set p := (splitR T).1 with hp
  set q := (splitR T).2 with hq
  have pl : p.l = o0.l := by rw [hp, H.dimL, c2, b4]
  have qr : q.r = o1.r := by rw [hq, H.dimR, c3, a4]
  have pq : p.r = q.l := H.mid T
  obtain ⟨w1, w2, e1, e2, r', hd', la'⟩ := write2_rep rep (show i + 1 < os.length by omega) b1 a1 pl pq qr
  obtain ⟨el', d1, d2, d3, d4, d5⟩ := updL_fuse (e := el) (o := p) (t := tl) (u := ul) ⟨by rw [pl, b4], b5.symm, b6.symm⟩
  obtain ⟨g1, g2, g3⟩ := get_set2 os i p q (by omega)
  have lz : Linked (List.zipWith prodTen ts us) := prod_linked ts us (by omega) lt lu
  have hz : headL (List.zipWith prodTen ts us) = 1 := headL_zip (by omega) ht hu
  have EL' : EnvL ts us (set2 os i p q) (i + 1) el' := by
    refine ⟨q, tr, ur, g2, a2, a3, by rw [d2, pq], by rw [d3, tlr], by rw [d4, ulr], ?_⟩
    have t1 : (set2 os i p q).take (i + 1) = os.take i ++ [p] := by
      rw [List.take_add_one, g1, take_set2 _ _ _ _ _ (Nat.le_refl _)]; rfl
    have t2 : (List.zipWith prodTen ts us).take (i + 1) = (List.zipWith prodTen ts us).take i ++ [prodTen tl ul] := by
      rw [List.take_add_one, zip_get b2 b3]; rfl
    rw [t1, t2, show (prodTen tr ur).l = (prodTen tl ul).r by simp [prodTen, tlr, ulr], ← pq]
    refine semL_step (by rw [pl]; exact b7) (fun a' _ c _ => d5 a' c) ?_ ?_ ?_ ?_
    · rw [← t1]; exact linked_take r'.link _
    · rw [← t2]; exact linked_take lz _
    · rw [← t1]; exact inHead_take (inHead_of (hd'.trans ho)) _
    · rw [← t2]; exact inHead_take (inHead_of hz) _
  refine ⟨⟨w2, Function.update s.lf (i + 1) (some el'), Function.update s.rf (os.length - (i + 1) - 1) none⟩, el', p, q, ?_, ?_, EL', T, rfl⟩
  · unfold varStepR
    have r0 : readEnv s.rf (os.length - (i + 1) - 1) = .ok er := by
      unfold readEnv
      rw [show os.length - (i + 1) - 1 = os.length - i - 2 by omega, her]
    simp only [r0, read_ok (show m1.slots[i]? = some (some tl) by rw [h1, List.getElem?_map, b2]; rfl),
      read_ok (show m1.slots[i + 1]? = some (some tr) by rw [h1, List.getElem?_map, a2]; rfl),
      read_ok (show m2.slots[i]? = some (some ul) by rw [h2, List.getElem?_map, b3]; rfl),
      read_ok (show m2.slots[i + 1]? = some (some ur) by rw [h2, List.getElem?_map, a3]; rfl)]
    show (varTwo el er tl tr ul ur >>= _) = _
    rw [c1]
    show ((FMps.write s.out i p) >>= _) = _
    rw [e1]
    show ((FMps.write w1 (i + 1) q) >>= _) = _
    rw [e2]
    show (updL el p tl ul >>= _) = _
    rw [d1]; rfl
  · refine ⟨r', by rw [len_set2]; exact lenT, by rw [len_set2]; exact lenU, lt, lu, ht, hu, hd'.trans ho, la'.trans la, ?_, ?_⟩
    · intro k hk
      by_cases c : k = i + 1
      · subst c; exact ⟨el', by simp, EL'⟩
      · obtain ⟨e, f1, f2⟩ := lfs k (by omega)
        exact ⟨e, by simp [Function.update, c, f1], envL_set2 f2 (by omega) (by omega) b1 pl⟩
    · intro k hk
      obtain ⟨e, f1, f2⟩ := rfs k (by omega)
      refine ⟨e, ?_, envR_set2 f2 (by omega) a1 qr⟩
      simp only [Function.update]
      rw [dif_neg (by omega)]; exact f1

/-- The overlap of the exact product with the output is the squared norm of the tensor at site 1. -/
def Ov (ts us os : List (Ten (σ × σ) K)) : Prop := ∀ t, os[1]? = some t →
  ∑ s : Fin os.length → σ × σ, star (amp os (List.ofFn s) 0 0) * amp (List.zipWith prodTen ts us) (List.ofFn s) 0 0 = normSq t

theorem varStepL_inv (H : SplitLSpec splitL) (h1 : m1.slots = ts.map some) (h2 : m2.slots = us.map some) {os : List (Ten (σ × σ) K)} {s : VarSt σ K}
    {i : Nat} (hi0 : 1 ≤ i) (hi : i + 1 < os.length) (inv : VInv ts us os s i (os.length - i - 2)) {er : Env3 K} (her : EnvR ts us os (os.length - i - 2) er) :
    ∃ s' er' p q, varStepL splitL m1 m2 os.length (s, er) i = .ok (s', er') ∧ VInv ts us (set2 os i p q) s' (i - 1) (os.length - i - 1) ∧
      EnvR ts us (set2 os i p q) (os.length - i - 1) er' ∧ (∃ T, q = (splitL T).2) ∧ (i = 1 → Ov ts us (set2 os i p q)) := by
  obtain ⟨rep, lenT, lenU, lt, lu, ht, hu, ho, la, lfs, rfs⟩ := inv
  obtain ⟨o1, tr, ur, a1, a2, a3, a4, a5, a6, a7⟩ := her
  rw [show os.length - 1 - (os.length - i - 2) = i + 1 by omega] at a1 a2 a3
  obtain ⟨el, hel, o0, tl, ul, b1, b2, b3, b4, b5, b6, b7⟩ := lfs i (Nat.le_refl _)
  have tlr : tl.r = tr.l := linked_get lt i tl tr b2 a2
  have ulr : ul.r = ur.l := linked_get lu i ul ur b3 a3
  obtain ⟨T, c1, c2, c3, c4⟩ := varTwo_fuse (el := el) (er := er) (tl := tl) (tr := tr) (ul := ul) (ur := ur)
    ⟨b6.symm, b5.symm, a6.symm, a5.symm, ulr, tlr⟩
  set p := (splitL T).1 with hp
  set q := (splitL T).2 with hq
  have pl : p.l = o0.l := by rw [hp, H.dimL, c2, b4]
  have qr : q.r = o1.r := by rw [hq, H.dimR, c3, a4]
  have pq : p.r = q.l := H.mid T
  obtain ⟨w1, w2, e1, e2, r', hd', la'⟩ := write2_rep rep hi b1 a1 pl pq qr
  obtain ⟨er', d1, d2, d3, d4, d5⟩ := updR_fuse (e := er) (o := q) (t := tr) (u := ur) ⟨by rw [qr, a4], a5.symm, a6.symm⟩
  obtain ⟨g1, g2, g3⟩ := get_set2 os i p q (by omega)
  have lz : Linked (List.zipWith prodTen ts us) := prod_linked ts us (by omega) lt lu
  have hz : headL (List.zipWith prodTen ts us) = 1 := headL_zip (by omega) ht hu
  have zl : (List.zipWith prodTen ts us).length = os.length := by rw [List.length_zipWith]; omega
  have t1 : (set2 os i p q).drop (i + 1) = q :: os.drop (i + 2) := by
    have hlt : i + 1 < (set2 os i p q).length := by rw [len_set2]; exact hi
    rw [List.drop_eq_getElem_cons hlt, drop_set2 _ _ _ _ _ (by omega)]
    congr 1
    rw [List.getElem?_eq_getElem hlt] at g2
    simpa using g2
  have t2 : (List.zipWith prodTen ts us).drop (i + 1) = prodTen tr ur :: (List.zipWith prodTen ts us).drop (i + 2) := by
    have g := zip_get a2 a3
    have hlt : i + 1 < (List.zipWith prodTen ts us).length := by omega
    rw [List.drop_eq_getElem_cons hlt]
    congr 1
    rw [List.getElem?_eq_getElem hlt] at g
    simpa using g
  rw [show os.length - (os.length - i - 2) = i + 2 by omega] at a7
  have ER' : EnvR ts us (set2 os i p q) (os.length - i - 1) er' := by
    unfold EnvR
    rw [len_set2, show os.length - 1 - (os.length - i - 1) = i by omega, show os.length - (os.length - i - 1) = i + 1 by omega, t1, t2,
      show os.length - i - 1 = os.length - i - 2 + 1 by omega]
    refine ⟨p, tl, ul, g1, b2, b3, by rw [d2, pq], by rw [d3, tlr], by rw [d4, ulr], ?_⟩
    rw [show (prodTen tl ul).r = (prodTen tr ur).l by simp [prodTen, tlr, ulr], pq]
    exact semR_step (by rw [qr]; exact a7) (fun a' _ c _ => d5 a' c)
  refine ⟨⟨w2, Function.update s.lf i none, Function.update s.rf (os.length - i - 1) (some er')⟩, er', p, q, ?_, ?_, ER', ⟨T, rfl⟩, ?_⟩
  · unfold varStepL
    have r0 : readEnv s.lf i = .ok el := by
      unfold readEnv
      rw [hel]
    simp only [r0, read_ok (show m1.slots[i]? = some (some tl) by rw [h1, List.getElem?_map, b2]; rfl),
      read_ok (show m1.slots[i + 1]? = some (some tr) by rw [h1, List.getElem?_map, a2]; rfl),
      read_ok (show m2.slots[i]? = some (some ul) by rw [h2, List.getElem?_map, b3]; rfl),
      read_ok (show m2.slots[i + 1]? = some (some ur) by rw [h2, List.getElem?_map, a3]; rfl)]
    show (varTwo el er tl tr ul ur >>= _) = _
    rw [c1]
    show ((FMps.write s.out i p) >>= _) = _
    rw [e1]
    show ((FMps.write w1 (i + 1) q) >>= _) = _
    rw [e2]
    show (updR er q tr ur >>= _) = _
    rw [d1]; rfl
  · refine ⟨r', by rw [len_set2]; exact lenT, by rw [len_set2]; exact lenU, lt, lu, ht, hu, hd'.trans ho, la'.trans la, ?_, ?_⟩
    · intro k hk
      obtain ⟨e, f1, f2⟩ := lfs k (by omega)
      refine ⟨e, ?_, envL_set2 f2 (by omega) (by omega) b1 pl⟩
      simp only [Function.update]
      rw [dif_neg (by omega)]; exact f1
    · intro k hk
      by_cases c : k = os.length - i - 1
      · subst c; exact ⟨er', by simp, ER'⟩
      · obtain ⟨e, f1, f2⟩ := rfs k (by omega)
        exact ⟨e, by simp [Function.update, c, f1], envR_set2 f2 (by omega) a1 qr⟩
  · intro hi1 t ht'
    rw [hi1] at g1
    rw [hi1, g1] at ht'
    have : p = t := by simpa using ht'
    subst this
    have so : set2 os i p q = os.take i ++ p :: q :: os.drop (i + 2) := by
      have := (List.take_append_drop (i + 1) (set2 os i p q)).symm
      rw [t1, List.take_add_one, (get_set2 os i p q hi).1, take_set2 _ _ _ _ _ (Nat.le_refl _)] at this
      rw [this]; simp
    have sz : List.zipWith prodTen ts us = (List.zipWith prodTen ts us).take i ++ prodTen tl ul :: prodTen tr ur :: (List.zipWith prodTen ts us).drop (i + 2) := by
      have := (List.take_append_drop (i + 1) (List.zipWith prodTen ts us)).symm
      rw [t2, List.take_add_one, zip_get b2 b3] at this
      simpa using this
    have c4' := c4
    rw [len_set2]
    have := overlap_center H (T := T) (n := i) (m := os.length - i - 2) (N := os.length) (EL := fuse el) (ER := fuse er) (OL := os.take i)
      (PL := (List.zipWith prodTen ts us).take i) (OR := os.drop (i + 2)) (PR := (List.zipWith prodTen ts us).drop (i + 2))
      (p := prodTen tl ul) (q := prodTen tr ur) (by omega) (by rw [c2, b4]; exact b7) (by rw [c3, a4]; exact a7) c4
      (by rw [← so]; exact r'.link) (by rw [← sz]; exact lz) (by rw [← so]; exact inHead_of (hd'.trans ho)) (by rw [← sz]; exact inHead_of hz)
    rw [← so, ← sz] at this
    exact this

/-- The right-moving half: the files end up holding all left environments. -/
theorem varR_loop (H : SplitRSpec splitR) (h1 : m1.slots = ts.map some) (h2 : m2.slots = us.map some) {GL : Ten (σ × σ) K → Prop} (hG : ∀ T, GL (splitR T).1) :
    ∀ (n i : Nat) (os : List (Ten (σ × σ) K)) (s : VarSt σ K) (el : Env3 K), i + n + 2 = os.length → VInv ts us os s i (os.length - i - 2) →
    EnvL ts us os i el → (∀ j t, j < i → os[j]? = some t → GL t) →
    ∃ s' el' os', (List.range' i n).foldlM (varStepR splitR m1 m2 os.length) (s, el) = .ok (s', el') ∧ os'.length = os.length ∧
      VInv ts us os' s' (os.length - 2) 0 ∧ (∀ j t, j < os.length - 2 → os'[j]? = some t → GL t) := by
  intro n
  induction n with
  | zero =>
    intro i os s el hn inv hel hg
    refine ⟨s, el, os, rfl, rfl, ?_, ?_⟩
    · rw [show os.length - i - 2 = 0 by omega] at inv
      rw [show os.length - 2 = i by omega]; exact inv
    · intro j t hj; exact hg j t (by omega)
  | succ n ih =>
    intro i os s el hn inv hel hg
    obtain ⟨s1, el1, p, q, e1, i1, E1, T, hT⟩ := varStepR_inv H h1 h2 (by omega) inv hel
    obtain ⟨g1, g2, g3⟩ := get_set2 os i p q (by omega)
    obtain ⟨s', el', os', e2, l2, i2, k2⟩ := ih (i + 1) (set2 os i p q) s1 el1 (by rw [len_set2]; omega)
      (by rw [len_set2, show os.length - (i + 1) - 2 = os.length - i - 3 by omega]; exact i1) E1
      (by intro j t hj ht
          by_cases c : j = i
          · subst c; rw [g1] at ht; simp at ht; rw [← ht, hT]; exact hG T
          · rw [g3 j c (by omega)] at ht; exact hg j t (by omega) ht)
    rw [len_set2] at e2 l2 i2 k2
    refine ⟨s', el', os', ?_, l2, i2, k2⟩
    rw [List.range'_succ, List.foldlM_cons, e1]
    exact e2

/-- The left-moving half. -/
theorem varL_loop (H : SplitLSpec splitL) (h1 : m1.slots = ts.map some) (h2 : m2.slots = us.map some) {GR : Ten (σ × σ) K → Prop} (hG : ∀ T, GR (splitL T).2)
    (o0 : Option (Ten (σ × σ) K)) :
    ∀ (n : Nat) (os : List (Ten (σ × σ) K)) (s : VarSt σ K) (er : Env3 K), n + 2 ≤ os.length → VInv ts us os s n (os.length - n - 2) →
    EnvR ts us os (os.length - n - 2) er → os[0]? = o0 → (∀ j t, n + 2 ≤ j → os[j]? = some t → GR t) →
    ∃ s' er' os', (List.range' 1 n).reverse.foldlM (varStepL splitL m1 m2 os.length) (s, er) = .ok (s', er') ∧ os'.length = os.length ∧
      VInv ts us os' s' 0 (os.length - 2) ∧ os'[0]? = o0 ∧ (∀ j t, 2 ≤ j → os'[j]? = some t → GR t) ∧ (n = 0 ∨ Ov ts us os') := by
  intro n
  induction n with
  | zero =>
    intro os s el hn inv hel h0 hg
    exact ⟨s, el, os, rfl, rfl, inv, h0, fun j t hj => hg j t (by omega), Or.inl rfl⟩
  | succ n ih =>
    intro os s el hn inv hel h0 hg
    obtain ⟨s1, el1, p, q, e1, i1, E1, ⟨T, hT⟩, O1⟩ := varStepL_inv H h1 h2 (by omega) (by omega) inv hel
    obtain ⟨g1, g2, g3⟩ := get_set2 os (n + 1) p q (by omega)
    obtain ⟨s', el', os', e2, l2, i2, k0, k2, k3⟩ := ih (set2 os (n + 1) p q) s1 el1 (by rw [len_set2]; omega)
      (by rw [len_set2, show os.length - n - 2 = os.length - (n + 1) - 1 by omega]; exact i1)
      (by rw [len_set2, show os.length - n - 2 = os.length - (n + 1) - 1 by omega]; exact E1)
      (by rw [g3 0 (by omega) (by omega)]; exact h0)
      (by intro j t hj ht
          by_cases c : j = n + 1 + 1
          · subst c; rw [g2] at ht; simp at ht; rw [← ht, hT]; exact hG T
          · rw [g3 j (by omega) c] at ht; exact hg j t (by omega) ht)
    rw [len_set2] at e2 l2 i2
    have e3 : (List.range' 1 (n + 1)).reverse.foldlM (varStepL splitL m1 m2 os.length) (s, el) = .ok (s', el') := by
      rw [range'_rev_succ, List.foldlM_cons, show 1 + n = n + 1 by omega, e1]
      exact e2
    refine ⟨s', el', os', e3, l2, i2, k0, k2, Or.inr ?_⟩
    rcases k3 with rfl | k3
    · have : os' = set2 os 1 p q := by
        have e4 : s1 = s' := congrArg Prod.fst (Except.ok.inj e2)
        have r1 := i1.rep.slots
        have r2 := i2.rep.slots
        rw [e4, r2] at r1
        exact List.map_injective_iff.mpr (Option.some_injective _) r1
      rw [this]; exact O1 rfl
    · exact k3

/-- One sweep over three or more sites. -/
theorem varSweep_inv (HR : SplitRSpec splitR) (HL : SplitLSpec splitL) (h1 : m1.slots = ts.map some) (h2 : m2.slots = us.map some)
    {GL GR : Ten (σ × σ) K → Prop} (hGL : ∀ T, GL (splitR T).1) (hGR : ∀ T, GR (splitL T).2) {os : List (Ten (σ × σ) K)} {s : VarSt σ K}
    (hn : 3 ≤ os.length) (inv : VInv ts us os s 0 (os.length - 2)) :
    ∃ s' os', varSweep splitR splitL m1 m2 os.length s = .ok s' ∧ os'.length = os.length ∧ VInv ts us os' s' 0 (os.length - 2) ∧
      (∀ t, os'[0]? = some t → GL t) ∧ (∀ j t, 2 ≤ j → os'[j]? = some t → GR t) ∧ Ov ts us os' := by
  obtain ⟨el, hel, hE⟩ := inv.lfs 0 (Nat.le_refl _)
  obtain ⟨s1, el1, os1, e1, l1, i1, g1⟩ := varR_loop HR h1 h2 hGL (os.length - 2) 0 os s el (by omega) inv hE (by intro j t hj; omega)
  rw [← l1] at i1
  obtain ⟨er, her, hE'⟩ := i1.rfs 0 (Nat.le_refl _)
  obtain ⟨s2, er2, os2, e2, l2, i2, k0, k1, k2⟩ := varL_loop HL h1 h2 hGR (os1[0]?) (os1.length - 2) os1 s1 er (by omega)
    (by rw [show os1.length - (os1.length - 2) - 2 = 0 by omega]; exact i1)
    (by rw [show os1.length - (os1.length - 2) - 2 = 0 by omega]; exact hE') rfl
    (by intro j t hj ht; have := (List.getElem?_eq_some_iff.mp ht).1; omega)
  rw [l1] at e2 l2 i2
  refine ⟨s2, os2, ?_, l2, i2, ?_, k1, ?_⟩
  · unfold varSweep
    have r0 : readEnv s.lf 0 = .ok el := by unfold readEnv; rw [hel]
    have r1 : readEnv s1.rf 0 = .ok er := by unfold readEnv; rw [her]
    rw [r0]
    show ((List.range (os.length - 2)).foldlM (varStepR splitR m1 m2 os.length) (s, el) >>= _) = _
    rw [List.range_eq_range', e1]
    show (readEnv s1.rf 0 >>= _) = _
    rw [r1]
    show ((List.range' 1 (os.length - 2)).reverse.foldlM (varStepL splitL m1 m2 os.length) (s1, er) >>= _) = _
    rw [e2]; rfl
  · intro t ht
    rw [k0] at ht
    exact g1 0 t (by omega) ht
  · rcases k2 with k2 | k2
    · omega
    · exact k2

theorem varSweeps_inv (HR : SplitRSpec splitR) (HL : SplitLSpec splitL) (nrm2 : Ten (σ × σ) K → K) (conv : K → K → Bool)
    (h1 : m1.slots = ts.map some) (h2 : m2.slots = us.map some)
    {GL GR : Ten (σ × σ) K → Prop} (hGL : ∀ T, GL (splitR T).1) (hGR : ∀ T, GR (splitL T).2) :
    ∀ (n k : Nat) (old : K) (os : List (Ten (σ × σ) K)) (s : VarSt σ K), 3 ≤ os.length → VInv ts us os s 0 (os.length - 2) →
    ∃ s' os', varSweeps splitR splitL nrm2 conv m1 m2 os.length n k old s = .ok s' ∧ os'.length = os.length ∧ VInv ts us os' s' 0 (os.length - 2) ∧
      (n = 0 ∧ os' = os ∨ (∀ t, os'[0]? = some t → GL t) ∧ (∀ j t, 2 ≤ j → os'[j]? = some t → GR t) ∧ Ov ts us os') := by
  intro n
  induction n with
  | zero => intro k old os s hn inv; exact ⟨s, os, rfl, rfl, inv, Or.inl ⟨rfl, rfl⟩⟩
  | succ n ih =>
    intro k old os s hn inv
    obtain ⟨s1, os1, e1, l1, i1, g1, g2, g3⟩ := varSweep_inv HR HL h1 h2 hGL hGR hn inv
    obtain ⟨t, ht⟩ := getE (ts := os1) (i := 1) (by omega)
    have rd : s1.out.read 1 = .ok t := read_ok (i1.rep.get ht)
    have tc : s1.out.touch 1 = .ok ⟨s1.out.slots, s1.out.flags.set 1 .none, -1⟩ := by
      unfold FMps.touch
      rw [i1.rep.get ht]
    set s2 : VarSt σ K := { s1 with out := ⟨s1.out.slots, s1.out.flags.set 1 .none, -1⟩ } with hs2
    have i2 : VInv ts us os1 s2 0 (os.length - 2) :=
      ⟨⟨i1.rep.slots, by simp [hs2, i1.rep.flen], i1.rep.link⟩, i1.lenT, i1.lenU, i1.lt, i1.lu, i1.ht, i1.hu, i1.ho, i1.la, i1.lfs, i1.rfs⟩
    have un : varSweeps splitR splitL nrm2 conv m1 m2 os.length (n + 1) k old s =
        if 1 ≤ k ∧ conv (nrm2 t) old = true then .ok s2 else varSweeps splitR splitL nrm2 conv m1 m2 os.length n (k + 1) (nrm2 t) s2 := by
      rw [varSweeps, e1]
      show (FMps.read s1.out 1 >>= _) = _
      rw [rd]
      show (FMps.touch s1.out 1 >>= _) = _
      rw [tc]; rfl
    by_cases c : 1 ≤ k ∧ conv (nrm2 t) old = true
    · rw [if_pos c] at un
      exact ⟨s2, os1, un, l1, i2, Or.inr ⟨g1, g2, g3⟩⟩
    · rw [if_neg c] at un
      obtain ⟨s', os', e2, l2, i3, k3⟩ := ih (k + 1) (nrm2 t) os1 s2 (by omega) (by rw [l1]; exact i2)
      rw [l1] at e2 l2 i3
      refine ⟨s', os', by rw [un]; exact e2, l2, i3, Or.inr ?_⟩
      rcases k3 with ⟨-, rfl⟩ | k3
      · exact ⟨g1, g2, g3⟩
      · exact k3

end Verif.Mps
