import Verif.Mps.DiskMeasure
import Verif.Mps.MeasureLoop
/-
Lemmas on the disk-based measurements.
-/
namespace Verif.Mps
open Finset

section slots
variable {σ K : Type} [CommRing K]

/-- Replace one value of a function. -/
def upd {α : Type} (f : Nat → α) (i : Nat) (v : α) : Nat → α := fun j => if j = i then v else f j

/-- The slots of `m` hold exactly what `f` says on `N` sites. -/
def Slots (m : FMps σ K) (N : Nat) (f : Nat → Option (Ten σ K)) : Prop := m.slots = (List.range N).map f

theorem Slots.get {m : FMps σ K} {N : Nat} {f : Nat → Option (Ten σ K)} (h : Slots m N f) {i : Nat} (hi : i < N) :
    m.slots[i]? = some (f i) := by rw [h]; simp [hi]

theorem Slots.len {m : FMps σ K} {N : Nat} {f : Nat → Option (Ten σ K)} (h : Slots m N f) : m.slots.length = N := by
  rw [h]; simp

theorem Slots.set {l : List (Option (Ten σ K))} {N : Nat} {f : Nat → Option (Ten σ K)} (h : l = (List.range N).map f)
    (i : Nat) (v : Option (Ten σ K)) : l.set i v = (List.range N).map (upd f i v) := by
  subst h
  apply List.ext_getElem?
  intro j
  rw [List.getElem?_set]
  simp only [List.length_map, List.length_range, List.getElem?_map]
  by_cases c : j < N
  · rw [List.getElem?_range c]
    by_cases e : i = j
    · subst e; rw [if_pos rfl, if_pos c]; simp [upd]
    · rw [if_neg e]; simp [upd, Ne.symm e]
  · rw [List.getElem?_eq_none (by simp; omega)]
    by_cases e : i = j
    · subst e; rw [if_pos rfl, if_neg c]; rfl
    · rw [if_neg e]; rfl

theorem Slots.load {m : FMps σ K} {N : Nat} {f : Nat → Option (Ten σ K)} (h : Slots m N f) {i : Nat} (hi : i < N)
    (t : Ten σ K) : ∃ m', m.load i t = .ok m' ∧ Slots m' N (upd f i (some t)) := by
  refine ⟨{ m with slots := m.slots.set i (some t) }, ?_, Slots.set h i _⟩
  unfold FMps.load; rw [if_pos (by show i < m.slots.length; rw [h.len]; exact hi)]

theorem Slots.loadTen {m : FMps σ K} {N : Nat} {f : Nat → Option (Ten σ K)} (h : Slots m N f) {i : Nat} (hi : i < N)
    {disk : List (Ten σ K)} {t : Ten σ K} (ht : disk[i]? = some t) :
    ∃ m', loadTen disk m i = .ok m' ∧ Slots m' N (upd f i (some t)) := by
  unfold Verif.Mps.loadTen; rw [ht]; exact h.load hi t

theorem Slots.dealloc {m : FMps σ K} {N : Nat} {f : Nat → Option (Ten σ K)} (h : Slots m N f) {i : Nat} (hi : i < N) :
    ∃ m', m.dealloc i = .ok m' ∧ Slots m' N (upd f i Option.none) := by
  refine ⟨{ m with slots := m.slots.set i Option.none }, ?_, Slots.set h i _⟩
  unfold FMps.dealloc; rw [if_pos (by show i < m.slots.length; rw [h.len]; exact hi)]

theorem Slots.fetch {m : FMps σ K} {N : Nat} {f : Nat → Option (Ten σ K)} (h : Slots m N f) {i : Nat} (hi : i < N)
    {t : Ten σ K} (ht : f i = some t) : ∃ m', m.fetch i = .ok (m', t) ∧ Slots m' N f := by
  refine ⟨⟨m.slots, m.flags.set i .none, -1⟩, ?_, h⟩
  unfold FMps.fetch; rw [h.get hi, ht]

theorem Slots.read {m : FMps σ K} {N : Nat} {f : Nat → Option (Ten σ K)} (h : Slots m N f) {i : Nat} (hi : i < N)
    {t : Ten σ K} (ht : f i = some t) : m.read i = .ok t := by
  unfold FMps.read; rw [h.get hi, ht]

theorem Slots.leftTen {qr : Ten σ K → Ten σ K × Mat K} {m : FMps σ K} {N : Nat} {f : Nat → Option (Ten σ K)}
    (h : Slots m N f) {i : Nat} (hi : i + 1 < N) {t u : Ten σ K} (ht : f i = some t) (hu : f (i + 1) = some u)
    (hr : t.r = u.l) :
    ∃ m', m.leftTen qr i = .ok m' ∧
      Slots m' N (upd (upd f i (some (qr t).1)) (i + 1) (some (mulL (qr t).2 (qr t).1.r u))) := by
  refine ⟨⟨(m.slots.set i (some (qr t).1)).set (i + 1) (some (mulL (qr t).2 (qr t).1.r u)),
          (m.flags.set i .left).set (i + 1) .none, -1⟩, ?_, Slots.set (Slots.set h i _) (i + 1) _⟩
  unfold FMps.leftTen
  rw [if_pos (by show i + 1 < m.slots.length; rw [h.len]; exact hi), h.get (by omega), h.get hi, ht, hu]
  simp only
  rw [if_pos hr]

theorem Slots.isEmpty {m : FMps σ K} {N : Nat} {f : Nat → Option (Ten σ K)} (h : Slots m N f) :
    m.isEmpty = true ↔ ∀ i, i < N → f i = Option.none := by
  unfold FMps.isEmpty
  rw [h]
  simp [Option.isNone_iff_eq_none]

theorem Slots.congr {m : FMps σ K} {N : Nat} {f g : Nat → Option (Ten σ K)} (h : Slots m N f)
    (e : ∀ i, i < N → f i = g i) : Slots m N g := by
  unfold Slots at *
  rw [h]
  exact List.map_congr_left fun i hi => e i (by simpa using hi)

theorem slots_of_empty {m : FMps σ K} (h : m.isEmpty = true) : Slots m m.size (fun _ => Option.none) := by
  unfold Slots FMps.size
  apply List.ext_getElem?
  intro j
  unfold FMps.isEmpty at h
  rw [List.all_eq_true] at h
  by_cases c : j < m.slots.length
  · have := h m.slots[j] (List.getElem_mem c)
    rw [Option.isNone_iff_eq_none] at this
    rw [List.getElem?_eq_getElem c, this]; simp [c]
  · rw [List.getElem?_eq_none (by omega), List.getElem?_eq_none (by simp; omega)]

end slots

section center
variable {σ K : Type} [CommRing K] [StarRing K] [Fintype σ]

/-- `C` is what the tensor at site `j` becomes when the centre has moved there: the sites before are left
isometries, the sites behind are those of the directory, and the state is the same. -/
def At (ts : List (Ten σ K)) (j : Nat) (C : Ten σ K) : Prop :=
  ∃ qs : List (Ten σ K), qs.length = j ∧ (∀ q ∈ qs, LeftIso q) ∧ Linked (qs ++ C :: ts.drop (j + 1)) ∧
    Eqv ts (qs ++ C :: ts.drop (j + 1))

theorem at_zero {ts : List (Ten σ K)} (hl : Linked ts) {t : Ten σ K} (ht : ts[0]? = some t) : At ts 0 t := by
  cases ts with
  | nil => simp at ht
  | cons a ts =>
    simp at ht; subst ht
    exact ⟨[], rfl, by simp, hl, Eqv.refl _⟩

theorem at_succ {qr : Ten σ K → Ten σ K × Mat K} (H : QRSpec qr) {ts : List (Ten σ K)} {j : Nat} {C u : Ten σ K}
    (h : At ts j C) (hu : ts[j + 1]? = some u) : C.r = u.l ∧ At ts (j + 1) (mulL (qr C).2 (qr C).1.r u) := by
  obtain ⟨qs, h1, h2, h3, h4⟩ := h
  obtain ⟨hj, e⟩ := List.getElem?_eq_some_iff.mp hu
  have d : ts.drop (j + 1) = u :: ts.drop (j + 1 + 1) := by rw [List.drop_eq_getElem_cons hj, e]
  rw [d] at h3 h4
  have hr : C.r = u.l := by
    have := linked_append_right h3
    exact linked_head this
  refine ⟨hr, qs ++ [(qr C).1], by simp [h1], ?_, ?_⟩
  · intro q hq
    simp at hq
    rcases hq with hq | rfl
    · exact h2 q hq
    · exact H.iso C
  · have g0 : (qs ++ C :: u :: ts.drop (j + 1 + 1))[j]? = some C := by
      rw [List.getElem?_append_right (by omega), h1]; simp
    have g1 : (qs ++ C :: u :: ts.drop (j + 1 + 1))[j + 1]? = some u := by
      rw [List.getElem?_append_right (by omega), h1]; simp
    obtain ⟨k1, k2⟩ := eqv_set2 (t := C) (u := u) (p := (qr C).1) (q := mulL (qr C).2 (qr C).1.r u) (H.dim C) rfl rfl
      (samePair_qr H C u hr) g0 g1 h3
    have e2 : set2 (qs ++ C :: u :: ts.drop (j + 1 + 1)) j (qr C).1 (mulL (qr C).2 (qr C).1.r u) =
        (qs ++ [(qr C).1]) ++ mulL (qr C).2 (qr C).1.r u :: ts.drop (j + 1 + 1) := by
      unfold set2
      rw [List.set_append_right _ _ (by omega), List.set_append_right _ _ (by omega), h1]
      simp
    rw [e2] at k1 k2
    exact ⟨k2, h4.trans k1⟩

/-- Only slot `j` is occupied. -/
def only (j : Nat) (C : Ten σ K) : Nat → Option (Ten σ K) := fun i => if i = j then some C else Option.none

theorem moveCenter_ok {qr : Ten σ K → Ten σ K × Mat K} (H : QRSpec qr) {ts : List (Ten σ K)} {N : Nat} (hN : ts.length = N)
    {m : FMps σ K} {j : Nat} {C : Ten σ K} (hs : Slots m N (only j C)) (h : At ts j C) (hj : j + 1 < N) :
    ∃ m' C', moveCenter qr ts m j = .ok m' ∧ Slots m' N (only (j + 1) C') ∧ At ts (j + 1) C' := by
  obtain ⟨u, hu⟩ := getE (ts := ts) (i := j + 1) (by omega)
  obtain ⟨hr, ha⟩ := at_succ H h hu
  obtain ⟨m1, e1, s1⟩ := hs.loadTen hj hu
  obtain ⟨m2, e2, s2⟩ := s1.leftTen (qr := qr) hj (t := C) (u := u) (by simp [upd, only]) (by simp [upd]) hr
  obtain ⟨m3, e3, s3⟩ := s2.dealloc (i := j) (by omega)
  refine ⟨m3, _, ?_, s3.congr ?_, ha⟩
  · unfold moveCenter; rw [e1]
    show (m1.leftTen qr j >>= _) = _
    rw [e2]; exact e3
  · intro i _
    simp only [upd, only]
    by_cases a : i = j
    · subst a; simp
    · by_cases b : i = j + 1
      · simp [b]
      · simp [a, b]

theorem moveLoop_ok {qr : Ten σ K → Ten σ K × Mat K} (H : QRSpec qr) {ts : List (Ten σ K)} {N : Nat} (hN : ts.length = N) :
    ∀ (n : Nat) {m : FMps σ K} {j : Nat} {C : Ten σ K}, Slots m N (only j C) → At ts j C → j + n < N →
    ∃ m' C', (List.range' j n).foldlM (moveCenter qr ts) m = .ok m' ∧ Slots m' N (only (j + n) C') ∧ At ts (j + n) C'
  | 0, m, j, C, hs, h, _ => ⟨m, C, rfl, hs, h⟩
  | n + 1, m, j, C, hs, h, hb => by
    obtain ⟨m1, C1, e1, s1, a1⟩ := moveCenter_ok H hN hs h (by omega)
    obtain ⟨m2, C2, e2, s2, a2⟩ := moveLoop_ok H hN n s1 a1 (by omega)
    rw [show j + 1 + n = j + (n + 1) by omega] at s2 a2
    exact ⟨m2, C2, by rw [List.range'_succ, foldlM_cons_ok e1, e2], s2, a2⟩

theorem centerTo_ok {qr : Ten σ K → Ten σ K × Mat K} (H : QRSpec qr) {ts : List (Ten σ K)} {N : Nat} (hN : ts.length = N)
    (hl : Linked ts) {m : FMps σ K} (hs : Slots m N (fun _ => Option.none)) {s : Nat} (hb : s < N) :
    ∃ m' C', centerTo qr ts m s = .ok m' ∧ Slots m' N (only s C') ∧ At ts s C' := by
  obtain ⟨t, ht⟩ := getE (ts := ts) (i := 0) (by omega)
  obtain ⟨m1, e1, s1⟩ := hs.loadTen (i := 0) (by omega) ht
  obtain ⟨m2, C2, e2, s2, a2⟩ := moveLoop_ok H hN s (j := 0) (C := t) s1 (at_zero hl ht) (by omega)
  rw [Nat.zero_add] at s2 a2
  refine ⟨m2, C2, ?_, s2, a2⟩
  unfold centerTo; rw [e1, List.range_eq_range']; exact e2

/-- The directory is canonical with centre 0. -/
def RightCanonical (ts : List (Ten σ K)) : Prop := ∀ j u, 0 < j → ts[j]? = some u → RightIso u

omit [StarRing K] [Fintype σ] in
theorem chain_get {qs : List (Ten σ K)} {C : Ten σ K} {ts : List (Ten σ K)} {j : Nat} (h : qs.length = j) (i : Nat)
    (hi : j < i) : (qs ++ C :: ts.drop (j + 1))[i]? = ts[i]? := by
  rw [List.getElem?_append_right (by omega), h]
  obtain ⟨d, rfl⟩ : ∃ d, i = j + 1 + d := ⟨i - (j + 1), by omega⟩
  rw [show j + 1 + d - j = d + 1 by omega, List.getElem?_cons_succ, List.getElem?_drop]

variable [DecidableEq σ]

theorem at_oneSite {ts : List (Ten σ K)} (hc : RightCanonical ts) {j : Nat} {C : Ten σ K} (h : At ts j C)
    (op : Op σ K) : oneSiteAvg C op = expval ts (fun k => if k = j then op else idOp) := by
  obtain ⟨qs, h1, h2, h3, h4⟩ := h
  rw [oneSiteAvg_expval h3 (i := j) (t := C), expval_eqv h4]
  · rw [List.getElem?_append_right (by omega), h1]; simp
  · intro i u hi hu
    rw [List.getElem?_append_left (by omega)] at hu
    exact h2 u (List.mem_of_getElem? hu)
  · intro i u hi hu
    rw [chain_get h1 i hi] at hu
    exact hc i u (by omega) hu

/-- The sites `j..k` of the chain once the centre is at `j`. -/
def blkTens (ts : List (Ten σ K)) (j : Nat) (C : Ten σ K) (k : Nat) : List (Ten σ K) :=
  C :: (ts.drop (j + 1)).take (k - j)

omit [DecidableEq σ] in
theorem lblk_congr (E : Mat K) : ∀ (l : List (Ten σ K)) (O O' : Nat → σ → σ → K), (∀ i, i < l.length → O i = O' i) →
    lblk E l O = lblk E l O' := by
  intro l
  induction l generalizing E with
  | nil => intro O O' _; rfl
  | cons t l ih =>
    intro O O' h
    rw [lblk, lblk, h 0 (by simp)]
    exact ih _ _ _ fun i hi => h (i + 1) (by simpa using hi)

omit [StarRing K] [Fintype σ] [DecidableEq σ] in
theorem blkTens_succ {ts : List (Ten σ K)} {j k : Nat} {C t : Ten σ K} (hk : j ≤ k) (ht : ts[k + 1]? = some t) :
    blkTens ts j C (k + 1) = blkTens ts j C k ++ [t] ∧ (blkTens ts j C k).length = k - j + 1 := by
  obtain ⟨hl, e⟩ := List.getElem?_eq_some_iff.mp ht
  unfold blkTens
  constructor
  · rw [show k + 1 - j = (k - j) + 1 by omega, List.take_add_one, List.getElem?_drop,
      show j + 1 + (k - j) = k + 1 by omega, ht]
    simp
  · simp; omega

omit [StarRing K] [Fintype σ] [DecidableEq σ] in
theorem blkTens_length {ts : List (Ten σ K)} {j k : Nat} {C : Ten σ K} (hk : j ≤ k) (hb : k < ts.length) :
    (blkTens ts j C k).length = k - j + 1 := by
  unfold blkTens; simp; omega

/-- The running block has absorbed the sites `j..k` with the operators `O`. -/
structure Run (ts : List (Ten σ K)) (j : Nat) (C : Ten σ K) (O : Nat → Op σ K) (k d : Nat) (E : Mat K) : Prop where
  le : j ≤ k
  bound : k < ts.length
  blk : E = lblk del (blkTens ts j C k) (fun i => O (i + j))
  dim : ∀ t, ts[k + 1]? = some t → t.l = d

omit [DecidableEq σ] in
theorem run_head {ts : List (Ten σ K)} {j : Nat} {C : Ten σ K} (h : At ts j C) (hj : j < ts.length)
    {O : Nat → Op σ K} {op : Op σ K} (ho : O j = op) : Run ts j C O j C.r (headSite C op) := by
  refine ⟨Nat.le_refl j, hj, ?_, ?_⟩
  · rw [headSite_eq]; simp [blkTens, lblk, ho]
  · intro t ht
    obtain ⟨qs, -, -, h3, -⟩ := h
    obtain ⟨hl, e⟩ := List.getElem?_eq_some_iff.mp ht
    rw [List.drop_eq_getElem_cons hl, e] at h3
    exact (linked_head (linked_append_right h3)).symm

omit [DecidableEq σ] in
theorem Run.congr {ts : List (Ten σ K)} {j : Nat} {C : Ten σ K} {O O' : Nat → Op σ K} {k d : Nat} {E : Mat K}
    (h : Run ts j C O k d E) (ho : ∀ i, j ≤ i → i ≤ k → O i = O' i) : Run ts j C O' k d E := by
  refine ⟨h.le, h.bound, ?_, h.dim⟩
  rw [h.blk]
  refine lblk_congr _ _ _ _ fun i hi => ho _ (by omega) ?_
  rw [blkTens_length h.le h.bound] at hi
  have := h.le
  omega

omit [DecidableEq σ] in
theorem Run.eat {ts : List (Ten σ K)} (hl : Linked ts) {j : Nat} {C : Ten σ K} {O : Nat → Op σ K} {k d : Nat} {E : Mat K}
    (h : Run ts j C O k d E) {t : Ten σ K} (ht : ts[k + 1]? = some t) :
    t.l = d ∧ Run ts j C O (k + 1) t.r (xl t t (O (k + 1)) E) := by
  refine ⟨h.dim t ht, ⟨by have := h.le; omega, (List.getElem?_eq_some_iff.mp ht).1, ?_, ?_⟩⟩
  · obtain ⟨e1, e2⟩ := blkTens_succ (C := C) h.le ht
    rw [e1, lblk_append, e2, ← h.blk]
    simp only [lblk]
    rw [show 0 + (k - j + 1) + j = k + 1 by have := h.le; omega]
  · intro u hu
    exact (linked_get hl (k + 1) t u ht hu).symm

/-- Contracting the tail gives the expectation value. -/
theorem Run.tail {ts : List (Ten σ K)} (hc : RightCanonical ts) {j : Nat} {C : Ten σ K} (hat : At ts j C)
    {O : Nat → Op σ K} {k d : Nat} {E : Mat K} (h : Run ts j C O k d E) {t : Ten σ K} (ht : ts[k + 1]? = some t)
    (o1 : ∀ i, i < j → O i = idOp) (o2 : ∀ i, k + 1 < i → O i = idOp) {op : Op σ K} (ho : O (k + 1) = op) :
    tailSite t op E = expval ts O := by
  obtain ⟨qs, h1, h2, h3, h4⟩ := hat
  have hk := (List.getElem?_eq_some_iff.mp ht).1
  have hle := h.le
  rw [← expval_eqv h4]
  have hlen : (qs ++ C :: ts.drop (j + 1)).length = ts.length := h4.len
  rw [expval_at h3 (h := j) (k := k + 1 - j + 1) (by omega) (by rw [hlen]; omega) ?_ ?_ O o1 (fun i hi => o2 i (by omega))]
  · have d : ((qs ++ C :: ts.drop (j + 1)).drop j).take (k + 1 - j + 1) = blkTens ts j C (k + 1) := by
      rw [List.drop_append_of_le_length (by omega), ← h1, List.drop_length, List.nil_append]; rfl
    obtain ⟨e1, e2⟩ := blkTens_succ (C := C) h.le ht
    rw [d, e1, lastR_append, lblk_append, e2, ← h.blk, tailSite_eq]
    simp only [lblk]
    rw [show 0 + (k - j + 1) + j = k + 1 by omega, ho]
  · intro i u hi hu
    rw [List.getElem?_append_left (by omega)] at hu
    exact h2 u (List.mem_of_getElem? hu)
  · intro i u hi hu
    rw [chain_get h1 i (by omega)] at hu
    exact hc i u (by omega) hu

end center
end Verif.Mps
