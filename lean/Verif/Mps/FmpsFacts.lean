import Verif.Mps.Fmps
/-
Lemmas about the `FiniteMPS` model.
-/
namespace Verif.Mps
open Finset

section
variable {σ K : Type} [CommRing K]

theorem foldlM_inv {α β : Type} {ε : Type} {f : α → β → Except ε α} {P : α → Prop}
    (hf : ∀ a b a', P a → f a b = .ok a' → P a') :
    ∀ (l : List β) (a a' : α), P a → l.foldlM f a = .ok a' → P a' := by
  intro l
  induction l with
  | nil => intro a a' ha h; simp [pure, Except.pure] at h; exact h ▸ ha
  | cons b l ih =>
    intro a a' ha h
    rw [List.foldlM_cons] at h
    cases hb : f a b with
    | error e => rw [hb] at h; cases h
    | ok a1 =>
      rw [hb] at h
      exact ih a1 a' (hf a b a1 ha hb) h

theorem foldlM_cons_ok {α β ε : Type} {f : α → β → Except ε α} {a a1 : α} {b : β} {l : List β}
    (h : f a b = .ok a1) : (b :: l).foldlM f a = l.foldlM f a1 := by
  rw [List.foldlM_cons, h]; rfl

/-- Right dimension of a chain. -/
def lastR (ts : List (Ten σ K)) : Nat := (ts.getLast?.map Ten.r).getD 0

/-- The chain `ts'` represents the same state as `ts`. -/
structure Eqv (ts ts' : List (Ten σ K)) : Prop where
  len : ts'.length = ts.length
  head : headL ts' = headL ts
  last : lastR ts' = lastR ts
  amp : ∀ ss a b, a < headL ts → amp ts' ss a b = amp ts ss a b

theorem Eqv.refl (ts : List (Ten σ K)) : Eqv ts ts := ⟨rfl, rfl, rfl, fun _ _ _ _ => rfl⟩

theorem Eqv.trans {a b c : List (Ten σ K)} (h1 : Eqv a b) (h2 : Eqv b c) : Eqv a c :=
  ⟨h2.len.trans h1.len, h2.head.trans h1.head, h2.last.trans h1.last,
    fun ss x y hx => (h2.amp ss x y (by rw [h1.head]; exact hx)).trans (h1.amp ss x y hx)⟩

theorem lastR_eq (ts : List (Ten σ K)) : lastR ts = ((ts[ts.length - 1]?).map Ten.r).getD 0 := by
  rw [lastR, List.getLast?_eq_getElem?]

theorem eqv_set2 {t u p q : Ten σ K} {ts : List (Ten σ K)} {i : Nat} (hp : p.l = t.l) (hpq : p.r = q.l)
    (hq : q.r = u.r) (hs : SamePair t u p q) (h0 : ts[i]? = some t) (h1 : ts[i + 1]? = some u)
    (hl : Linked ts) : Eqv ts (set2 ts i p q) ∧ Linked (set2 ts i p q) := by
  obtain ⟨a, b⟩ := linked_set2 hp hpq hq i ts h0 h1 hl
  refine ⟨⟨by simp [set2], b, ?_, amp_set2 hq hs i ts h0 h1 hl⟩, a⟩
  have hi : i + 1 < ts.length := (List.getElem?_eq_some_iff.mp h1).1
  rw [lastR_eq, lastR_eq]
  simp only [set2, List.length_set]
  rw [List.getElem?_set]
  by_cases e : i + 1 = ts.length - 1
  · simp only [e, if_true, List.length_set]
    rw [if_pos (by omega), ← e, h1]; simp [hq]
  · rw [if_neg e, List.getElem?_set_ne (by omega)]

/-- All slots of `m` hold tensors, forming the chain `ts`. -/
structure Rep (m : FMps σ K) (ts : List (Ten σ K)) : Prop where
  slots : m.slots = ts.map some
  flen : m.flags.length = ts.length
  link : Linked ts

theorem Rep.size {m : FMps σ K} {ts : List (Ten σ K)} (h : Rep m ts) : m.size = ts.length := by
  simp [FMps.size, h.slots]

theorem Rep.get {m : FMps σ K} {ts : List (Ten σ K)} (h : Rep m ts) {i : Nat} {t : Ten σ K}
    (hi : ts[i]? = some t) : m.slots[i]? = some (some t) := by
  rw [h.slots, List.getElem?_map, hi]; rfl

theorem getE {ts : List (Ten σ K)} {i : Nat} (h : i < ts.length) : ∃ t, ts[i]? = some t :=
  ⟨ts[i], by simp [h]⟩

theorem linked_get {ts : List (Ten σ K)} (hl : Linked ts) : ∀ (i : Nat) (t u : Ten σ K),
    ts[i]? = some t → ts[i + 1]? = some u → t.r = u.l := by
  induction ts with
  | nil => intro i t u h; simp at h
  | cons t0 ts ih =>
    intro i t u h0 h1
    cases i with
    | zero =>
      match ts, h1 with
      | u' :: _, h1 => simp at h0 h1; subst h0 h1; exact linked_head hl
    | succ i => exact ih (linked_cons hl) i t u h0 h1

theorem map_set2 (ts : List (Ten σ K)) (i : Nat) (p q : Ten σ K) :
    ((ts.map some).set i (some p)).set (i + 1) (some q) = (set2 ts i p q).map some := by
  simp [set2, List.map_set]

/-- Metadata invariant of every reachable MPS: a LEFT tensor is not the last and is not followed by a
RIGHT tensor; site 0 is never RIGHT. -/
structure Inv (m : FMps σ K) : Prop where
  flen : m.flags.length = m.slots.length
  left : ∀ i, m.flags[i]? = some .left → m.flags[i + 1]? = some .left ∨ m.flags[i + 1]? = some .none
  zero : m.flags[0]? ≠ some .right

theorem cano_cases (o : Option Cano) (h : o ≠ Option.none) :
    o = some .left ∨ o = some .none ∨ o = some .right := by
  match o, h with
  | some .none, _ => simp
  | some .left, _ => simp
  | some .right, _ => simp

/-- Setting a flag to NONE keeps the flag part of the invariant. -/
theorem flags_set_none {fl : List Cano} (i : Nat)
    (h1 : ∀ j, fl[j]? = some .left → fl[j + 1]? = some .left ∨ fl[j + 1]? = some .none)
    (h2 : fl[0]? ≠ some .right) :
    (∀ j, (fl.set i .none)[j]? = some .left →
      (fl.set i .none)[j + 1]? = some .left ∨ (fl.set i .none)[j + 1]? = some .none) ∧
    (fl.set i .none)[0]? ≠ some .right := by
  refine ⟨fun j hj => ?_, ?_⟩
  · rw [List.getElem?_set] at hj
    by_cases e : i = j
    · rw [if_pos e] at hj; split at hj <;> simp at hj
    · rw [if_neg e] at hj
      by_cases e' : i = j + 1
      · have := h1 j hj
        have hlt : i < fl.length := by
          rw [e']; rcases this with h | h <;> exact (List.getElem?_eq_some_iff.mp h).1
        right; rw [List.getElem?_set, if_pos e', if_pos hlt]
      · rw [List.getElem?_set_ne e']; exact h1 j hj
  · rw [List.getElem?_set]
    split
    · split <;> simp
    · exact h2

theorem flags_left_step {fl : List Cano} {i : Nat} (hi : i + 1 < fl.length)
    (h1 : ∀ j, fl[j]? = some .left → fl[j + 1]? = some .left ∨ fl[j + 1]? = some .none)
    (h2 : fl[0]? ≠ some .right) :
    (∀ j, ((fl.set i .left).set (i + 1) .none)[j]? = some .left →
      ((fl.set i .left).set (i + 1) .none)[j + 1]? = some .left ∨
      ((fl.set i .left).set (i + 1) .none)[j + 1]? = some .none) ∧
    ((fl.set i .left).set (i + 1) .none)[0]? ≠ some .right := by
  refine ⟨fun j hj => ?_, ?_⟩
  · rw [List.getElem?_set] at hj ⊢
    rw [List.length_set] at hj ⊢
    by_cases e1 : i + 1 = j
    · rw [if_pos e1, if_pos hi] at hj; simp at hj
    · rw [if_neg e1] at hj
      by_cases e2 : i = j
      · subst e2; simp [hi]
      · rw [List.getElem?_set_ne e2] at hj
        by_cases e3 : i = j
        · exact absurd e3 e2
        · rw [if_neg (by omega)]
          rw [List.getElem?_set]
          by_cases e4 : i = j + 1
          · left; rw [if_pos e4, if_pos (by omega)]
          · rw [if_neg e4]; exact h1 j hj
  · rw [List.getElem?_set_ne (by omega), List.getElem?_set]
    split
    · split <;> simp
    · exact h2

theorem flags_right_step {fl : List Cano} {i : Nat} (hi : i + 1 < fl.length)
    (h1 : ∀ j, fl[j]? = some .left → fl[j + 1]? = some .left ∨ fl[j + 1]? = some .none)
    (h2 : fl[0]? ≠ some .right) :
    (∀ j, ((fl.set i .none).set (i + 1) .right)[j]? = some .left →
      ((fl.set i .none).set (i + 1) .right)[j + 1]? = some .left ∨
      ((fl.set i .none).set (i + 1) .right)[j + 1]? = some .none) ∧
    ((fl.set i .none).set (i + 1) .right)[0]? ≠ some .right := by
  refine ⟨fun j hj => ?_, ?_⟩
  · rw [List.getElem?_set] at hj ⊢
    rw [List.length_set] at hj ⊢
    by_cases e1 : i + 1 = j
    · rw [if_pos e1, if_pos hi] at hj; simp at hj
    · rw [if_neg e1] at hj
      by_cases e2 : i = j
      · subst e2; rw [List.getElem?_set, if_pos rfl, if_pos (by omega)] at hj; simp at hj
      · rw [List.getElem?_set_ne e2] at hj
        rw [if_neg (by omega), List.getElem?_set]
        by_cases e4 : i = j + 1
        · right; rw [if_pos e4, if_pos (by omega)]
        · rw [if_neg e4]; exact h1 j hj
  · rw [List.getElem?_set_ne (by omega), List.getElem?_set]
    split
    · split <;> simp
    · exact h2

/-! ### Every call keeps the invariant -/

theorem inv_fresh (n : Nat) : Inv (FMps.fresh n : FMps σ K) := by
  refine ⟨by simp [FMps.fresh], ?_, ?_⟩
  · intro i h
    simp only [FMps.fresh, List.getElem?_replicate] at h
    split at h <;> simp at h
  · simp only [FMps.fresh, List.getElem?_replicate]
    split <;> simp

theorem inv_write {m m' : FMps σ K} {i : Nat} {t : Ten σ K} (hm : Inv m) (h : m.write i t = .ok m') : Inv m' := by
  unfold FMps.write at h
  split at h
  · cases h
    have := flags_set_none i hm.left hm.zero
    exact ⟨by simp [hm.flen], this.1, this.2⟩
  · cases h

theorem inv_touch {m m' : FMps σ K} {i : Nat} (hm : Inv m) (h : m.touch i = .ok m') : Inv m' := by
  unfold FMps.touch at h
  have := flags_set_none i hm.left hm.zero
  split at h
  · cases h
  · cases h; exact ⟨by simp [hm.flen], this.1, this.2⟩
  · cases h; exact ⟨by simp [hm.flen], this.1, this.2⟩

theorem inv_load {m m' : FMps σ K} {i : Nat} {t : Ten σ K} (hm : Inv m) (h : m.load i t = .ok m') : Inv m' := by
  unfold FMps.load at h
  split at h
  · cases h; exact ⟨by simp [hm.flen], hm.left, hm.zero⟩
  · cases h

theorem inv_alloc {m m' : FMps σ K} {i : Nat} (hm : Inv m) (h : m.alloc i = .ok m') : Inv m' := by
  unfold FMps.alloc at h
  split at h
  · cases h; exact ⟨by simp [hm.flen], hm.left, hm.zero⟩
  · cases h

theorem inv_dealloc {m m' : FMps σ K} {i : Nat} (hm : Inv m) (h : m.dealloc i = .ok m') : Inv m' := by
  unfold FMps.dealloc at h
  split at h
  · cases h; exact ⟨by simp [hm.flen], hm.left, hm.zero⟩
  · cases h

variable {qr svd : Ten σ K → Ten σ K × Mat K}

theorem inv_leftTen (m : FMps σ K) (i : Nat) (m' : FMps σ K) (hm : Inv m) (h : m.leftTen qr i = .ok m') :
    Inv m' := by
  unfold FMps.leftTen at h
  split at h
  · rename_i hi
    split at h
    · split at h
      · cases h
        have := flags_left_step (i := i) (by rw [hm.flen]; exact hi) hm.left hm.zero
        exact ⟨by simp [hm.flen], this.1, this.2⟩
      · cases h
    · cases h
  · cases h

theorem inv_rightTen (b : Bool) (m : FMps σ K) (i : Nat) (m' : FMps σ K) (hm : Inv m)
    (h : m.rightTen qr svd b i = .ok m') : Inv m' := by
  unfold FMps.rightTen at h
  split at h
  · cases h
  · rename_i i
    split at h
    · rename_i h0 h1
      have hi : i + 1 < m.flags.length := by rw [hm.flen]; exact (List.getElem?_eq_some_iff.mp h1).1
      have := flags_right_step hi hm.left hm.zero
      split at h
      · split at h
        · cases h; exact ⟨by simp [hm.flen], this.1, this.2⟩
        · cases h; exact ⟨by simp [hm.flen], this.1, this.2⟩
      · cases h
    · cases h

theorem inv_leftCanon {m m' : FMps σ K} {s : Nat} (hm : Inv m) (h : m.leftCanon qr s = .ok m') : Inv m' := by
  unfold FMps.leftCanon at h
  split at h
  · cases h
  · cases h; exact hm
  · exact foldlM_inv (fun a b a' => inv_leftTen a b a') _ _ _ hm h

theorem inv_rightCanon {m m' : FMps σ K} {s : Nat} (hm : Inv m) (h : m.rightCanon qr svd s = .ok m') :
    Inv m' := by
  unfold FMps.rightCanon at h
  split at h
  · split at h
    · cases h
    · cases h; exact hm
    · exact foldlM_inv (fun a b a' => inv_rightTen false a b a') _ _ _ hm h
  · cases h

theorem inv_centralize {m m' : FMps σ K} {t : Int} (hm : Inv m) (h : m.centralize qr svd t = .ok m') :
    Inv m' := by
  unfold FMps.centralize at h
  split at h
  · cases h
  · split at h
    · cases h
    · rename_i m1 h1
      have i1 : Inv m1 := by
        unfold FMps.centL at h1
        split at h1
        · exact inv_leftCanon hm h1
        · cases h1; exact hm
      split at h
      · cases h
      · rename_i m2 h2
        have i2 : Inv m2 := by
          unfold FMps.centR at h2
          split at h2
          · exact inv_rightCanon i1 h2
          · cases h2; exact i1
        cases h
        exact ⟨i2.flen, i2.left, i2.zero⟩

/-! ### Success and effect of one decomposition -/

theorem leftTen_rep [StarRing K] [Fintype σ] (H : QRSpec qr) {m : FMps σ K} {ts : List (Ten σ K)}
    (hr : Rep m ts) {i : Nat} (hi : i + 1 < ts.length) :
    ∃ m' ts', m.leftTen qr i = .ok m' ∧ Rep m' ts' ∧ Eqv ts ts' ∧
      (∀ j, j ≠ i → j ≠ i + 1 → ts'[j]? = ts[j]?) ∧
      m'.flags = (m.flags.set i .left).set (i + 1) .none ∧ m'.center = -1 := by
  obtain ⟨t, ht⟩ := getE (ts := ts) (i := i) (by omega)
  obtain ⟨u, hu⟩ := getE (ts := ts) (i := i + 1) hi
  have hl := linked_get hr.link i t u ht hu
  have E := eqv_set2 (t := t) (u := u) (p := (qr t).1) (q := mulL (qr t).2 (qr t).1.r u) (H.dim t) rfl rfl
    (samePair_qr H t u hl) ht hu hr.link
  refine ⟨⟨(m.slots.set i (some (qr t).1)).set (i + 1) (some (mulL (qr t).2 (qr t).1.r u)),
          (m.flags.set i .left).set (i + 1) .none, -1⟩, _, ?_, ⟨?_, ?_, E.2⟩, E.1, ?_, rfl, rfl⟩
  · unfold FMps.leftTen
    rw [if_pos (by rw [hr.size]; exact hi), hr.get ht, hr.get hu]
    simp [hl]
  · simp only [hr.slots, map_set2]
  · simp [set2, hr.flen]
  · intro j h1 h2
    simp only [set2]
    rw [List.getElem?_set_ne (Ne.symm h2), List.getElem?_set_ne (Ne.symm h1)]

theorem rightTen_rep [StarRing K] [Fintype σ] (H : QRSpec qr) (H' : SVDSpec svd) (b : Bool) {m : FMps σ K}
    {ts : List (Ten σ K)} (hr : Rep m ts) {i : Nat} (hi : i + 1 < ts.length) :
    ∃ m' ts', m.rightTen qr svd b (i + 1) = .ok m' ∧ Rep m' ts' ∧ Eqv ts ts' ∧
      (∀ j, j ≠ i → j ≠ i + 1 → ts'[j]? = ts[j]?) ∧
      m'.flags = (m.flags.set i .none).set (i + 1) .right ∧ m'.center = -1 := by
  obtain ⟨t, ht⟩ := getE (ts := ts) (i := i) (by omega)
  obtain ⟨u, hu⟩ := getE (ts := ts) (i := i + 1) hi
  have hl := linked_get hr.link i t u ht hu
  cases b with
  | false =>
    have E := eqv_set2 (t := t) (u := u) (p := mulRT t (qr u.tr).2 (qr u.tr).1.r) (q := (qr u.tr).1.tr) rfl rfl
      (by simp [Ten.tr, H.dim]) (samePair_rq H t u hl) ht hu hr.link
    refine ⟨⟨(m.slots.set i (some (mulRT t (qr u.tr).2 (qr u.tr).1.r))).set (i + 1) (some (qr u.tr).1.tr),
      (m.flags.set i .none).set (i + 1) .right, -1⟩, _, ?_, ⟨?_, ?_, E.2⟩, E.1, ?_, rfl, rfl⟩
    · unfold FMps.rightTen
      simp only [hr.get ht, hr.get hu]
      rw [if_pos hl, if_neg (by simp)]
    · simp only [hr.slots, map_set2]
    · simp [set2, hr.flen]
    · intro j h1 h2
      simp only [set2]
      rw [List.getElem?_set_ne (Ne.symm h2), List.getElem?_set_ne (Ne.symm h1)]
  | true =>
    have E := eqv_set2 (t := t) (u := u) (p := mulR t (svd u).2 (svd u).1.l) (q := (svd u).1) rfl rfl
      (by simp [H'.dim]) (samePair_svd H' t u hl) ht hu hr.link
    refine ⟨⟨(m.slots.set i (some (mulR t (svd u).2 (svd u).1.l))).set (i + 1) (some (svd u).1),
      (m.flags.set i .none).set (i + 1) .right, -1⟩, _, ?_, ⟨?_, ?_, E.2⟩, E.1, ?_, rfl, rfl⟩
    · unfold FMps.rightTen
      simp only [hr.get ht, hr.get hu]
      rw [if_pos hl, if_pos trivial]
    · simp only [hr.slots, map_set2]
    · simp [set2, hr.flen]
    · intro j h1 h2
      simp only [set2]
      rw [List.getElem?_set_ne (Ne.symm h2), List.getElem?_set_ne (Ne.symm h1)]

/-! ### The sweeping loops -/

theorem leftLoop [StarRing K] [Fintype σ] (H : QRSpec qr) :
    ∀ (n i : Nat) (m : FMps σ K) (ts : List (Ten σ K)), Rep m ts → i + n < ts.length →
    ∃ m' ts', (List.range' i n).foldlM (FMps.leftTen qr) m = .ok m' ∧ Rep m' ts' ∧ Eqv ts ts' ∧
      (∀ j, j < i ∨ i + n < j → ts'[j]? = ts[j]?) ∧
      (∀ j, j < ts.length → m'.flags[j]? =
        if i ≤ j ∧ j < i + n then some .left else if j = i + n ∧ n ≠ 0 then some .none else m.flags[j]?) := by
  intro n
  induction n with
  | zero =>
    intro i m ts hr hi
    refine ⟨m, ts, rfl, hr, Eqv.refl _, fun _ _ => rfl, fun j _ => ?_⟩
    rw [if_neg (by omega), if_neg (by simp)]
  | succ n ih =>
    intro i m ts hr hi
    obtain ⟨m1, ts1, e1, r1, q1, k1, f1, -⟩ := leftTen_rep H hr (i := i) (by omega)
    obtain ⟨m2, ts2, e2, r2, q2, k2, f2⟩ := ih (i + 1) m1 ts1 r1 (by rw [q1.len]; omega)
    refine ⟨m2, ts2, ?_, r2, q1.trans q2, ?_, ?_⟩
    · rw [List.range'_succ, foldlM_cons_ok e1, e2]
    · intro j hj
      rw [k2 j (by omega), k1 j (by omega) (by omega)]
    · intro j hj
      rw [f2 j (by rw [q1.len]; exact hj), f1]
      have hfl := hr.flen
      by_cases c1 : i + 1 ≤ j ∧ j < i + 1 + n
      · rw [if_pos c1, if_pos (by omega)]
      · rw [if_neg c1]
        by_cases c2 : j = i + 1 + n ∧ n ≠ 0
        · rw [if_pos c2, if_neg (by omega), if_pos (by omega)]
        · rw [if_neg c2, List.getElem?_set, List.length_set]
          by_cases c3 : i + 1 = j
          · rw [if_pos c3, if_pos (by omega), if_neg (by omega), if_pos (by omega)]
          · rw [if_neg c3, List.getElem?_set]
            by_cases c4 : i = j
            · rw [if_pos c4, if_pos (by omega), if_pos (by omega)]
            · rw [if_neg c4, if_neg (by omega), if_neg (by omega)]

theorem range'_rev_succ (s n : Nat) :
    (List.range' s (n + 1)).reverse = (s + n) :: (List.range' s n).reverse := by
  rw [List.range'_concat]; simp

theorem rightLoop [StarRing K] [Fintype σ] (H : QRSpec qr) (H' : SVDSpec svd) (b : Bool) :
    ∀ (n i : Nat) (m : FMps σ K) (ts : List (Ten σ K)), Rep m ts → i + n < ts.length →
    ∃ m' ts', (List.range' (i + 1) n).reverse.foldlM (FMps.rightTen qr svd b) m = .ok m' ∧ Rep m' ts' ∧
      Eqv ts ts' ∧ (∀ j, j < i ∨ i + n < j → ts'[j]? = ts[j]?) ∧
      (∀ j, j < ts.length → m'.flags[j]? =
        if i + 1 ≤ j ∧ j < i + 1 + n then some .right
        else if j = i ∧ n ≠ 0 then some .none else m.flags[j]?) := by
  intro n
  induction n with
  | zero =>
    intro i m ts hr hi
    refine ⟨m, ts, rfl, hr, Eqv.refl _, fun _ _ => rfl, fun j _ => ?_⟩
    rw [if_neg (by omega), if_neg (by simp)]
  | succ n ih =>
    intro i m ts hr hi
    obtain ⟨m1, ts1, e1, r1, q1, k1, f1, -⟩ := rightTen_rep H H' b hr (i := i + n) (by omega)
    obtain ⟨m2, ts2, e2, r2, q2, k2, f2⟩ := ih i m1 ts1 r1 (by rw [q1.len]; omega)
    refine ⟨m2, ts2, ?_, r2, q1.trans q2, ?_, ?_⟩
    · rw [range'_rev_succ, show i + 1 + n = i + n + 1 by omega, foldlM_cons_ok e1, e2]
    · intro j hj
      rw [k2 j (by omega), k1 j (by omega) (by omega)]
    · intro j hj
      rw [f2 j (by rw [q1.len]; exact hj), f1]
      have hfl := hr.flen
      by_cases c1 : i + 1 ≤ j ∧ j < i + 1 + n
      · rw [if_pos c1, if_pos (by omega)]
      · rw [if_neg c1]
        by_cases c2 : j = i ∧ n ≠ 0
        · rw [if_pos c2, if_neg (by omega), if_pos (by omega)]
        · rw [if_neg c2, List.getElem?_set, List.length_set]
          by_cases c3 : i + n + 1 = j
          · rw [if_pos c3, if_pos (by omega), if_pos (by omega)]
          · rw [if_neg c3, List.getElem?_set]
            by_cases c4 : i + n = j
            · rw [if_pos c4, if_pos (by omega), if_neg (by omega), if_pos (by omega)]
            · rw [if_neg c4, if_neg (by omega), if_neg (by omega)]

/-! ### The searches -/

theorem scanL_spec (fl : List Cano) : ∀ (n i : Nat), i + n < fl.length →
    (scanL fl n i = .ok Option.none ∧ ∀ j, i ≤ j → j ≤ i + n → fl[j]? = some .left) ∨
    (∃ k, scanL fl n i = .ok (some k) ∧ i ≤ k ∧ k ≤ i + n ∧ fl[k]? ≠ some .left ∧
      ∀ j, i ≤ j → j < k → fl[j]? = some .left) := by
  intro n
  induction n with
  | zero =>
    intro i hi
    have hx : fl[i]? = some fl[i] := by simp
    cases hc : fl[i] with
    | left =>
      left
      rw [hc] at hx
      refine ⟨by simp [scanL, hx], fun j h1 h2 => ?_⟩
      have : j = i := by omega
      rw [this, hx]
    | none => right; rw [hc] at hx; exact ⟨i, by simp [scanL, hx], by omega, by omega, by simp [hx], by omega⟩
    | right => right; rw [hc] at hx; exact ⟨i, by simp [scanL, hx], by omega, by omega, by simp [hx], by omega⟩
  | succ n ih =>
    intro i hi
    have hx : fl[i]? = some fl[i] := by simp
    cases hc : fl[i] with
    | left =>
      rw [hc] at hx
      have e : scanL fl (n + 1) i = scanL fl n (i + 1) := by rw [scanL]; simp [hx]
      rcases ih (i + 1) (by omega) with ⟨h1, h2⟩ | ⟨k, h1, h2, h3, h4, h5⟩
      · left
        refine ⟨by rw [e, h1], fun j g1 g2 => ?_⟩
        by_cases c : j = i
        · rw [c, hx]
        · exact h2 j (by omega) (by omega)
      · right
        refine ⟨k, by rw [e, h1], by omega, by omega, h4, fun j g1 g2 => ?_⟩
        by_cases c : j = i
        · rw [c, hx]
        · exact h5 j (by omega) (by omega)
    | none => right; rw [hc] at hx; exact ⟨i, by simp [scanL, hx], by omega, by omega, by simp [hx], by omega⟩
    | right => right; rw [hc] at hx; exact ⟨i, by simp [scanL, hx], by omega, by omega, by simp [hx], by omega⟩

theorem scanR_spec (fl : List Cano) : ∀ (n s : Nat), s + n < fl.length →
    (scanR fl n (s + n) = .ok Option.none ∧ ∀ j, s ≤ j → j ≤ s + n → fl[j]? = some .right) ∨
    (∃ k, scanR fl n (s + n) = .ok (some k) ∧ s ≤ k ∧ k ≤ s + n ∧ fl[k]? ≠ some .right ∧
      ∀ j, k < j → j ≤ s + n → fl[j]? = some .right) := by
  intro n
  induction n with
  | zero =>
    intro i hi
    have hx : fl[i]? = some fl[i] := by simp
    cases hc : fl[i] with
    | right =>
      left
      rw [hc] at hx
      refine ⟨by simp [scanR, hx], fun j h1 h2 => ?_⟩
      have : j = i := by omega
      rw [this, hx]
    | none => right; rw [hc] at hx; exact ⟨i, by simp [scanR, hx], by omega, by omega, by simp [hx], by omega⟩
    | left => right; rw [hc] at hx; exact ⟨i, by simp [scanR, hx], by omega, by omega, by simp [hx], by omega⟩
  | succ n ih =>
    intro s hi
    have hx : fl[s + (n + 1)]? = some fl[s + (n + 1)] := by simp
    cases hc : fl[s + (n + 1)] with
    | right =>
      rw [hc] at hx
      have e : scanR fl (n + 1) (s + (n + 1)) = scanR fl n (s + n) := by rw [scanR]; simp [hx]
      rcases ih s (by omega) with ⟨h1, h2⟩ | ⟨k, h1, h2, h3, h4, h5⟩
      · left
        refine ⟨by rw [e, h1], fun j g1 g2 => ?_⟩
        by_cases c : j = s + (n + 1)
        · rw [c, hx]
        · exact h2 j (by omega) (by omega)
      · right
        refine ⟨k, by rw [e, h1], by omega, by omega, h4, fun j g1 g2 => ?_⟩
        by_cases c : j = s + (n + 1)
        · rw [c, hx]
        · exact h5 j (by omega) (by omega)
    | none =>
      right; rw [hc] at hx
      exact ⟨s + (n + 1), by rw [scanR]; simp [hx], by omega, by omega, by simp [hx], by omega⟩
    | left =>
      right; rw [hc] at hx
      exact ⟨s + (n + 1), by rw [scanR]; simp [hx], by omega, by omega, by simp [hx], by omega⟩

/-! ### Centralize -/

theorem leftCanon_rep [StarRing K] [Fintype σ] (H : QRSpec qr) {m : FMps σ K} {ts : List (Ten σ K)}
    (hr : Rep m ts) {s : Nat} (hs : s + 1 < ts.length) :
    ∃ m' ts', m.leftCanon qr s = .ok m' ∧ Rep m' ts' ∧ Eqv ts ts' ∧
      (∀ j, s + 1 < j → ts'[j]? = ts[j]? ∧ m'.flags[j]? = m.flags[j]?) ∧
      (∀ j, (∀ k, k ≤ j → m.flags[k]? = some .left) → j ≤ s → ts'[j]? = ts[j]?) ∧
      (∀ j, j ≤ s → m'.flags[j]? = some .left) ∧
      (m' = m ∨ m'.flags[s + 1]? = some .none) := by
  unfold FMps.leftCanon
  rcases scanL_spec m.flags s 0 (by rw [hr.flen]; omega) with ⟨h1, h2⟩ | ⟨k, h1, h2, h3, h4, h5⟩
  · rw [h1]
    exact ⟨m, ts, rfl, hr, Eqv.refl _, fun _ _ => ⟨rfl, rfl⟩, fun _ _ _ => rfl,
      fun j hj => h2 j (by omega) (by omega), Or.inl rfl⟩
  · rw [h1]
    obtain ⟨m', ts', e, r, q, kk, f⟩ := leftLoop H (s + 1 - k) k m ts hr (by omega)
    refine ⟨m', ts', e, r, q, fun j hj => ⟨kk j (by omega), ?_⟩, fun j hj hjs => ?_, fun j hj => ?_, Or.inr ?_⟩
    · by_cases c : j < ts.length
      · rw [f j c, if_neg (by omega), if_neg (by omega)]
      · rw [List.getElem?_eq_none (by rw [r.flen, q.len]; omega), List.getElem?_eq_none (by rw [hr.flen]; omega)]
    · refine kk j (Or.inl ?_)
      by_contra c
      exact h4 (hj k (by omega))
    · rw [f j (by omega)]
      by_cases c : k ≤ j
      · rw [if_pos (by omega)]
      · rw [if_neg (by omega), if_neg (by omega)]; exact h5 j (by omega) (by omega)
    · rw [f (s + 1) hs, if_neg (by omega), if_pos (by omega)]

theorem rightCanon_rep [StarRing K] [Fintype σ] (H : QRSpec qr) (H' : SVDSpec svd) {m : FMps σ K}
    {ts : List (Ten σ K)} (hr : Rep m ts) {s : Nat} (hs : s + 1 < ts.length) :
    ∃ m' ts', m.rightCanon qr svd (s + 1) = .ok m' ∧ Rep m' ts' ∧ Eqv ts ts' ∧
      (∀ j, j < s → ts'[j]? = ts[j]? ∧ m'.flags[j]? = m.flags[j]?) ∧
      (∀ j, (∀ k, j ≤ k → k < ts.length → m.flags[k]? = some .right) → s < j → ts'[j]? = ts[j]?) ∧
      (∀ j, s < j → j < ts.length → m'.flags[j]? = some .right) ∧
      (m' = m ∨ m'.flags[s]? = some .none) := by
  unfold FMps.rightCanon
  rw [if_pos (by rw [hr.size]; omega), hr.size]
  have hsc := scanR_spec m.flags (ts.length - 1 - (s + 1)) (s + 1) (by rw [hr.flen]; omega)
  rw [show s + 1 + (ts.length - 1 - (s + 1)) = ts.length - 1 by omega] at hsc
  rcases hsc with ⟨h1, h2⟩ | ⟨k, h1, h2, h3, h4, h5⟩
  · rw [h1]
    exact ⟨m, ts, rfl, hr, Eqv.refl _, fun _ _ => ⟨rfl, rfl⟩, fun _ _ _ => rfl,
      fun j hj hj' => h2 j (by omega) (by omega), Or.inl rfl⟩
  · rw [h1]
    obtain ⟨m', ts', e, r, q, kk, f⟩ := rightLoop H H' false (k - s) s m ts hr (by omega)
    refine ⟨m', ts', ?_, r, q, fun j hj => ⟨kk j (by omega), ?_⟩, fun j hj hjs => ?_, fun j hj hj' => ?_,
      Or.inr ?_⟩
    · show List.foldlM _ m (List.range' (s + 1) (k + 1 - (s + 1))).reverse = _
      rw [← e, show k + 1 - (s + 1) = k - s by omega]
    · rw [f j (by omega), if_neg (by omega), if_neg (by omega)]
    · refine kk j (Or.inr ?_)
      by_contra c
      exact h4 (hj k (by omega) (by omega))
    · rw [f j hj']
      by_cases c : j ≤ k
      · rw [if_pos (by omega)]
      · rw [if_neg (by omega), if_neg (by omega)]; exact h5 j (by omega) (by omega)
    · rw [f s (by omega), if_neg (by omega), if_pos (by omega)]

/-- The two halves of `Centralize`, with possibly different decompositions. -/
theorem centHalves_rep [StarRing K] [Fintype σ] {qr2 : Ten σ K → Ten σ K × Mat K} (H : QRSpec qr) (H2 : QRSpec qr2)
    (H' : SVDSpec svd) {m : FMps σ K}
    {ts : List (Ten σ K)} (hr : Rep m ts) (hi : Inv m) {t : Nat} (ht : t < ts.length) :
    ∃ m1 m' ts', m.centL qr t = .ok m1 ∧ m1.centR qr2 svd t = .ok m' ∧ Rep m' ts' ∧ Eqv ts ts' ∧
      (∀ j, j < ts.length → m'.flags[j]? =
        some (if j < t then .left else if t < j then .right else .none)) ∧
      (∀ j, (∀ k, k ≤ j → m.flags[k]? = some .left) → j < t → ts'[j]? = ts[j]?) ∧
      (∀ j, (∀ k, j ≤ k → k < ts.length → m.flags[k]? = some .right) → t < j → ts'[j]? = ts[j]?) := by
  -- the left half
  have A : ∃ m1 ts1, m.centL qr t = .ok m1 ∧ Rep m1 ts1 ∧ Eqv ts ts1 ∧
      (∀ j, t < j → ts1[j]? = ts[j]? ∧ m1.flags[j]? = m.flags[j]?) ∧
      (∀ j, (∀ k, k ≤ j → m.flags[k]? = some .left) → j < t → ts1[j]? = ts[j]?) ∧
      (∀ j, j < t → m1.flags[j]? = some .left) ∧ (m1 = m ∨ m1.flags[t]? = some .none) := by
    unfold FMps.centL
    by_cases c : t = 0
    · subst c
      exact ⟨m, ts, by simp, hr, Eqv.refl _, fun _ _ => ⟨rfl, rfl⟩, fun _ _ _ => rfl,
        fun _ h => absurd h (by omega), Or.inl rfl⟩
    · obtain ⟨m1, ts1, e, r, q, k1, k2, k3, k4⟩ := leftCanon_rep H hr (s := t - 1) (by omega)
      rw [show t - 1 + 1 = t by omega] at k1 k4
      exact ⟨m1, ts1, by rw [if_pos c, e], r, q, k1, fun j h1 h2 => k2 j h1 (by omega),
        fun j h => k3 j (by omega), k4⟩
  obtain ⟨m1, ts1, e1, r1, q1, a1, a2, a3, a4⟩ := A
  have l1 : ts1.length = ts.length := q1.len
  have B : ∃ m2 ts2, m1.centR qr2 svd t = .ok m2 ∧ Rep m2 ts2 ∧ Eqv ts1 ts2 ∧
      (∀ j, j < t → ts2[j]? = ts1[j]? ∧ m2.flags[j]? = m1.flags[j]?) ∧
      (∀ j, (∀ k, j ≤ k → k < ts.length → m1.flags[k]? = some .right) → t < j → ts2[j]? = ts1[j]?) ∧
      (∀ j, t < j → j < ts.length → m2.flags[j]? = some .right) ∧ (m2 = m1 ∨ m2.flags[t]? = some .none) := by
    unfold FMps.centR
    rw [r1.size, l1]
    by_cases c : t + 1 = ts.length
    · exact ⟨m1, ts1, by simp [c], r1, Eqv.refl _, fun _ _ => ⟨rfl, rfl⟩, fun _ _ _ => rfl,
        fun _ h h' => absurd h (by omega), Or.inl rfl⟩
    · obtain ⟨m2, ts2, e, r, q, k1, k2, k3, k4⟩ := rightCanon_rep H2 H' r1 (s := t) (by omega)
      rw [l1] at k2 k3
      exact ⟨m2, ts2, by rw [if_pos c, e], r, q, k1, k2, k3, k4⟩
  obtain ⟨m2, ts2, e2, r2, q2, b1, b2, b3, b4⟩ := B
  refine ⟨m1, m2, ts2, e1, e2, r2, q1.trans q2, ?_, ?_, ?_⟩
  · intro j hj
    by_cases c1 : j < t
    · rw [if_pos c1, (b1 j c1).2, a3 j c1]
    · rw [if_neg c1]
      by_cases c2 : t < j
      · rw [if_pos c2, b3 j c2 hj]
      · rw [if_neg c2]
        have hjt : j = t := by omega
        subst hjt
        rcases b4 with b4 | b4
        · rcases a4 with a4 | a4
          · subst b4 a4
            have hne : m2.flags[j]? ≠ Option.none := by simp [hr.flen]; omega
            rcases cano_cases _ hne with h | h | h
            · -- LEFT followed by RIGHT (or by nothing) is impossible
              exfalso
              have := hi.left j h
              by_cases c3 : j + 1 < ts.length
              · rw [b3 (j + 1) (by omega) c3] at this; simp at this
              · rw [List.getElem?_eq_none (by rw [hr.flen]; omega)] at this; simp at this
            · exact h
            · exfalso
              by_cases c3 : j = 0
              · subst c3; exact hi.zero h
              · have h' := a3 (j - 1) (by omega)
                have := hi.left (j - 1) h'
                rw [show j - 1 + 1 = j by omega, h] at this; simp at this
          · rw [b4, a4]
        · exact b4
  · intro j h1 h2
    rw [(b1 j h2).1, a2 j h1 h2]
  · intro j h1 h2
    rw [b2 j (fun k h3 h4 => by rw [(a1 k (by omega)).2]; exact h1 k h3 h4) h2, (a1 j h2).1]

theorem centralize_rep [StarRing K] [Fintype σ] (H : QRSpec qr) (H' : SVDSpec svd) {m : FMps σ K}
    {ts : List (Ten σ K)} (hr : Rep m ts) (hi : Inv m) {t : Nat} (ht : t < ts.length) :
    ∃ m' ts', m.centralize qr svd (t : Int) = .ok m' ∧ Rep m' ts' ∧ Eqv ts ts' ∧ m'.center = t ∧
      (∀ j, j < ts.length → m'.flags[j]? =
        some (if j < t then .left else if t < j then .right else .none)) ∧
      (∀ j, (∀ k, k ≤ j → m.flags[k]? = some .left) → j < t → ts'[j]? = ts[j]?) ∧
      (∀ j, (∀ k, j ≤ k → k < ts.length → m.flags[k]? = some .right) → t < j → ts'[j]? = ts[j]?) := by
  obtain ⟨m1, m2, ts2, e1, e2, r2, q, f, u1, u2⟩ := centHalves_rep (svd := svd) H H H' hr hi ht
  refine ⟨{ m2 with center := t }, ts2, ?_, ⟨r2.slots, r2.flen, r2.link⟩, q, rfl, f, u1, u2⟩
  unfold FMps.centralize
  rw [if_neg (by omega)]
  simp only [Int.toNat_natCast, e1, e2]

end
end Verif.Mps
