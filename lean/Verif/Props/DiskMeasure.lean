import Verif.Mps.DiskFacts
import Verif.Props.MpsArith
/-
Disk-based measurements: C43 (memory left empty) and C52 (values).

The directory `ts` holds a canonical MPS with centre 0, as every algorithm of the library leaves it:
`RightCanonical ts` says that the tensors of the sites 1, 2, … are right isometries.
-/
namespace Verif.Props
open Verif.Mps Finset

variable {σ K : Type} [CommRing K] [StarRing K] [Fintype σ] [DecidableEq σ]
variable {qr : Ten σ K → Ten σ K × Mat K}

theorem diskOneLoop_ok (H : QRSpec qr) {ts : List (Ten σ K)} {N : Nat} (hN : ts.length = N) (hc : RightCanonical ts)
    (op : Op σ K) : ∀ (n : Nat) {i : Nat} {m : FMps σ K} {C : Ten σ K}, Slots m N (only i C) → At ts i C → i + (n + 1) = N →
    ∃ m', diskOneLoop qr ts op (n + 1) i m = .ok (m', (List.range' i (n + 1)).map fun j =>
      expval ts (fun k => if k = j then op else idOp)) ∧ Slots m' N (fun _ => Option.none)
  | 0, i, m, C, hs, ha, hb => by
    obtain ⟨m1, e1, s1⟩ := hs.fetch (i := i) (by omega) (t := C) (by simp [only])
    obtain ⟨m2, e2, s2⟩ := s1.dealloc (i := i) (by omega)
    refine ⟨m2, ?_, s2.congr ?_⟩
    · unfold diskOneLoop
      rw [e1]
      show ((if 0 = 0 then m1.dealloc i else moveCenter qr ts m1 i) >>= _) = _
      rw [if_pos rfl, e2]
      show Except.ok (m2, [oneSiteAvg C op]) = _
      rw [at_oneSite hc ha op]; rfl
    · intro j _; simp only [upd, only]; by_cases h : j = i <;> simp [h]
  | n + 1, i, m, C, hs, ha, hb => by
    obtain ⟨m1, e1, s1⟩ := hs.fetch (i := i) (by omega) (t := C) (by simp [only])
    obtain ⟨m2, C2, e2, s2, a2⟩ := moveCenter_ok H hN s1 ha (by omega)
    obtain ⟨m3, e3, s3⟩ := diskOneLoop_ok H hN hc op n s2 a2 (by omega)
    refine ⟨m3, ?_, s3⟩
    rw [diskOneLoop, e1]
    show ((if n + 1 = 0 then m1.dealloc i else moveCenter qr ts m1 i) >>= _) = _
    rw [if_neg (by omega), e2]
    show (diskOneLoop qr ts op (n + 1) (i + 1) m2 >>= _) = _
    rw [e3, List.range'_succ (s := i), List.map_cons, ← at_oneSite hc ha op]
    rfl

/-- **C43, C52.** The disk version of `MeasureOneSiteOp`, started on an MPS without tensors in memory, returns the
expectation value on every site and leaves no tensor in memory. -/
theorem C52_disk_one_site (H : QRSpec qr) {ts : List (Ten σ K)} (hl : Linked ts) (hc : RightCanonical ts) (hn : ts ≠ [])
    {m : FMps σ K} (hm : m.size = ts.length) (he : m.isEmpty = true) (op : Op σ K) :
    ∃ m', diskOneSite qr ts m op = .ok (m', (List.range ts.length).map fun j =>
      expval ts (fun k => if k = j then op else idOp)) ∧ m'.isEmpty = true := by
  have s0 := slots_of_empty he
  rw [hm] at s0
  obtain ⟨n, hn'⟩ : ∃ n, ts.length = n + 1 := ⟨ts.length - 1, by have := List.length_pos_iff.mpr hn; omega⟩
  obtain ⟨t, ht⟩ := getE (ts := ts) (i := 0) (by omega)
  obtain ⟨m1, e1, s1⟩ := s0.loadTen (i := 0) (by omega) ht
  obtain ⟨m2, e2, s2⟩ := diskOneLoop_ok H rfl hc op n (i := 0) (C := t) s1 (at_zero hl ht) (by omega)
  refine ⟨m2, ?_, s2.isEmpty.mpr fun _ _ => rfl⟩
  unfold diskOneSite
  rw [if_pos he, e1, hm, hn']
  show diskOneLoop qr ts op (n + 1) 0 m1 = _
  rw [e2, List.range_eq_range']

theorem selectLoop_ok (H : QRSpec qr) {ts : List (Ten σ K)} {N : Nat} (hN : ts.length = N) (hc : RightCanonical ts)
    (ops : List (Op σ K)) : ∀ (xs : List Nat) {i : Nat} {m : FMps σ K} {C : Ten σ K}, Slots m N (only i C) → At ts i C →
    (i :: xs).IsChain (· ≤ ·) → (∀ x ∈ i :: xs, x < N) →
    ∃ m' C', selectLoop qr ts ops xs i m = .ok (m', xs.map fun j => ops.map fun op =>
      expval ts (fun k => if k = j then op else idOp)) ∧ Slots m' N (only (xs.getLast?.getD i) C')
  | [], i, m, C, hs, _, _, _ => ⟨m, C, rfl, hs⟩
  | x :: xs, i, m, C, hs, ha, hch, hb => by
    have hix : i ≤ x := (List.isChain_cons_cons.mp hch).1
    have hxN : x < N := hb x (by simp)
    obtain ⟨m1, C1, e1, s1, a1⟩ := moveLoop_ok H hN (x - i) hs ha (by omega)
    rw [show i + (x - i) = x by omega] at s1 a1
    obtain ⟨m2, e2, s2⟩ : ∃ m2, siteAvgs m1 ops x = .ok (m2, ops.map fun op =>
        expval ts (fun k => if k = x then op else idOp)) ∧ Slots m2 N (only x C1) := by
      obtain ⟨m2, e2, s2⟩ := s1.fetch (i := x) hxN (t := C1) (by simp [only])
      cases ops with
      | nil => exact ⟨m1, rfl, s1⟩
      | cons o os =>
        refine ⟨m2, ?_, s2⟩
        unfold siteAvgs
        rw [if_neg (by simp), e2]
        show Except.ok (m2, (o :: os).map (oneSiteAvg C1)) = _
        congr 2
        exact List.map_congr_left fun op _ => at_oneSite hc a1 op
    obtain ⟨m3, C3, e3, s3⟩ := selectLoop_ok H hN hc ops xs s2 a1 (List.isChain_cons_cons.mp hch).2
      (fun y hy => hb y (by simp at hy ⊢; tauto))
    refine ⟨m3, C3, ?_, ?_⟩
    · rw [selectLoop, e1]
      show (siteAvgs m1 ops x >>= _) = _
      rw [e2]
      show (selectLoop qr ts ops xs x m2 >>= _) = _
      rw [e3]; rfl
    · cases xs with
      | nil => exact s3
      | cons y ys =>
        obtain ⟨z, hz⟩ : ∃ z, (y :: ys).getLast? = some z := ⟨_, List.getLast?_eq_getLast_of_ne_nil (by simp)⟩
        rw [List.getLast?_cons_cons, hz]
        rw [hz] at s3
        exact s3

/-- **C43, C52.** The disk version of `MeasureOneSiteOp` for selected sites in ascending order (repetitions
allowed): row `i` holds the expectation values on `sites[i]`, and no tensor stays in memory. -/
theorem C52_disk_selected_sites (H : QRSpec qr) {ts : List (Ten σ K)} (hl : Linked ts) (hc : RightCanonical ts)
    {m : FMps σ K} (hm : m.size = ts.length) (he : m.isEmpty = true) (ops : List (Op σ K)) (sites : List Nat)
    (hne : sites ≠ []) (asc : sites.IsChain (· ≤ ·)) (hb : ∀ x ∈ sites, x < ts.length) :
    ∃ m', diskSelect qr ts m ops sites = .ok (m', sites.map fun j => ops.map fun op =>
      expval ts (fun k => if k = j then op else idOp)) ∧ m'.isEmpty = true := by
  have s0 := slots_of_empty he
  rw [hm] at s0
  match sites, hne with
  | x :: xs, _ =>
    have hpos : 0 < ts.length := by have := hb x (by simp); omega
    obtain ⟨t, ht⟩ := getE (ts := ts) (i := 0) hpos
    obtain ⟨m1, e1, s1⟩ := s0.loadTen (i := 0) hpos ht
    obtain ⟨m2, C2, e2, s2⟩ := selectLoop_ok H rfl hc ops (x :: xs) (i := 0) (C := t) s1 (at_zero hl ht)
      (List.isChain_cons_cons.mpr ⟨Nat.zero_le _, asc⟩)
      (by intro y hy; simp only [List.mem_cons] at hy; rcases hy with rfl | hy
          · exact hpos
          · exact hb y (by simpa using hy))
    obtain ⟨y, hy⟩ : ∃ y, (x :: xs).getLast? = some y := ⟨_, List.getLast?_eq_getLast_of_ne_nil (by simp)⟩
    have hyN : y < ts.length := hb y (List.mem_of_getLast? hy)
    obtain ⟨m3, e3, s3⟩ := s2.dealloc (i := y) hyN
    refine ⟨m3, ?_, s3.isEmpty.mpr ?_⟩
    · unfold diskSelect
      rw [e1]
      show (selectLoop qr ts ops (x :: xs) 0 m1 >>= _) = _
      rw [e2]
      simp only [bind, Except.bind, hy]
      rw [e3]; rfl
    · intro i _
      simp only [upd, only, hy, Option.getD_some]
      by_cases h : i = y <;> simp [h]

variable [DecidableEq K]

theorem eatLoop_ok {ts : List (Ten σ K)} {N : Nat} (hN : ts.length = N) (hl : Linked ts) {j : Nat} {C : Ten σ K}
    {O : Nat → Op σ K} {op : Op σ K} : ∀ (n : Nat) {k d : Nat} {E : Mat K} {m : FMps σ K},
    Slots m N (fun _ => Option.none) → Run ts j C O k d E → k + n < N → (∀ i, k < i → i ≤ k + n → O i = op) →
    ∃ m' d' E', (List.range' (k + 1) n).foldlM (eatSite ts op) (m, d, E) = .ok (m', d', E') ∧
      Slots m' N (fun _ => Option.none) ∧ Run ts j C O (k + n) d' E'
  | 0, k, d, E, m, hs, hr, _, _ => ⟨m, d, E, rfl, hs, hr⟩
  | n + 1, k, d, E, m, hs, hr, hb, ho => by
    obtain ⟨t, ht⟩ := getE (ts := ts) (i := k + 1) (by omega)
    obtain ⟨hd, hr'⟩ := hr.eat hl ht
    obtain ⟨m1, e1, s1⟩ := hs.loadTen (i := k + 1) (by omega) ht
    have e2 := s1.read (i := k + 1) (by omega) (t := t) (by simp [upd])
    obtain ⟨m3, e3, s3⟩ := s1.dealloc (i := k + 1) (by omega)
    have st : eatSite ts op (m, d, E) (k + 1) = .ok (m3, t.r, xl t t (O (k + 1)) E) := by
      unfold eatSite
      rw [e1]
      show (m1.read (k + 1) >>= _) = _
      rw [e2]
      show (if t.l = d then _ else _) = _
      rw [if_pos hd, e3, midSite_eq, ho (k + 1) (by omega) (by omega)]
      rfl
    obtain ⟨m4, d4, E4, e4, s4, r4⟩ := eatLoop_ok hN hl n (s3.congr (fun i _ => by simp [upd])) hr' (by omega)
      (fun i h1 h2 => ho i (by omega) (by omega))
    rw [show k + 1 + n = k + (n + 1) by omega] at r4
    exact ⟨m4, d4, E4, by rw [List.range'_succ, foldlM_cons_ok st, e4], s4, r4⟩

/-- The two-site correlator: `p1` on `x`, `o` strictly between, `p2` on `y`, identity elsewhere. -/
def corr (p1 p2 o : Op σ K) (x y : Nat) : Nat → Op σ K := fun i =>
  if i = x then p1 else if i = y then p2 else if x < i ∧ i < y then o else idOp

theorem twoLoop_ok {ts : List (Ten σ K)} {N : Nat} (hN : ts.length = N) (hl : Linked ts) (hc : RightCanonical ts)
    {s : Nat} {C : Ten σ K} (hat : At ts s C) (p1 p2 : Op σ K) (inst : Option (Op σ K)) :
    ∀ (ys : List Nat) {k d : Nat} {E : Mat K} {m : FMps σ K}, Slots m N (fun _ => Option.none) →
    (Run ts s C (fun i => if i = s then p1 else inst.getD idOp) k d E) → ((k + 1) :: ys).IsChain (· ≤ ·) →
    (∀ y ∈ ys, y < N) →
    ∃ m', twoLoop ts p2 inst s ys k (m, d, E) = .ok (m', ys.map fun y =>
      ([s, y], expval ts (corr p1 p2 (inst.getD idOp) s y))) ∧ Slots m' N (fun _ => Option.none)
  | [], k, d, E, m, hs, _, _, _ => ⟨m, rfl, hs⟩
  | y :: ys, k, d, E, m, hs, hr, hch, hb => by
    have hky : k + 1 ≤ y := (List.isChain_cons_cons.mp hch).1
    have hyN : y < N := hb y (by simp)
    have hsk := hr.le
    obtain ⟨m1, d1, E1, e1, s1, r1⟩ := eatLoop_ok (op := inst.getD siteId) hN hl (y - 1 - k) hs hr (by omega)
      (fun i h1 h2 => by rw [if_neg (by omega)]; rfl)
    rw [show k + (y - 1 - k) = y - 1 by omega] at r1
    obtain ⟨t, ht⟩ := getE (ts := ts) (i := y) (by omega)
    obtain ⟨m2, e2, s2⟩ := s1.loadTen (i := y) hyN ht
    obtain ⟨m3, e3, s3⟩ := s2.fetch (i := y) hyN (t := t) (by simp [upd])
    obtain ⟨m4, e4, s4⟩ := s3.dealloc (i := y) hyN
    have ht' : ts[y - 1 + 1]? = some t := by rw [show y - 1 + 1 = y by omega]; exact ht
    have hd := r1.dim t ht'
    have val : tailSite t p2 E1 = expval ts (corr p1 p2 (inst.getD idOp) s y) := by
      refine (r1.congr (O' := corr p1 p2 (inst.getD idOp) s y) ?_).tail hc hat ht' ?_ ?_ ?_
      · intro i h1 h2
        unfold corr
        by_cases a : i = s
        · rw [if_pos a, if_pos a]
        · rw [if_neg a, if_neg a, if_neg (by omega), if_pos (by omega)]
      · intro i hi; unfold corr; rw [if_neg (by omega), if_neg (by omega), if_neg (by omega)]
      · intro i hi; unfold corr; rw [if_neg (by omega), if_neg (by omega), if_neg (by omega)]
      · unfold corr; rw [if_neg (by omega), if_pos (by omega)]
    obtain ⟨m5, e5, s5⟩ := twoLoop_ok hN hl hc hat p1 p2 inst ys (k := max k (y - 1)) (d := d1) (E := E1)
      (s4.congr (fun i _ => by simp [upd])) (by rw [show max k (y - 1) = y - 1 by omega]; exact r1)
      (by
        have := (List.isChain_cons_cons.mp hch).2
        rw [show max k (y - 1) + 1 = y by omega]
        exact this)
      (fun z hz => hb z (by simp [hz]))
    refine ⟨m5, ?_, s5⟩
    rw [twoLoop, if_neg (by omega), e1]
    show (loadTen ts m1 y >>= _) = _
    rw [e2]
    show (m2.fetch y >>= _) = _
    rw [e3]
    show (if t.l = d1 then _ else _) = _
    rw [if_pos hd, e4]
    show (twoLoop ts p2 inst s ys (max k (y - 1)) (m4, d1, E1) >>= _) = _
    rw [e5, List.map_cons, ← val]
    rfl

/-- **C43, C52.** `MeasureTwoSiteOpGroup` with reference site `s` and ascending target sites behind it: every result
is the correlator with the insertion operator (identity by default) strictly between, in the order of the
targets; no tensor stays in memory. -/
theorem C52_disk_two_site (H : QRSpec qr) {ts : List (Ten σ K)} (hl : Linked ts) (hc : RightCanonical ts)
    {m : FMps σ K} (hm : m.size = ts.length) (he : m.isEmpty = true) (p1 p2 : Op σ K) (inst : Option (Op σ K))
    {s : Nat} (hs : s < ts.length) (ys : List Nat) (asc : ys.IsChain (· ≤ ·)) (behind : ∀ y ∈ ys, s < y)
    (hb : ∀ y ∈ ys, y < ts.length) :
    ∃ m', diskTwo qr ts m p1 p2 s ys inst = .ok (m', ys.map fun y =>
      ([s, y], expval ts (corr p1 p2 (inst.getD idOp) s y))) ∧ m'.isEmpty = true := by
  have s0 := slots_of_empty he
  rw [hm] at s0
  obtain ⟨m1, C, e1, s1, a1⟩ := centerTo_ok H rfl hl s0 hs
  obtain ⟨m2, e2, s2⟩ := s1.fetch (i := s) hs (t := C) (by simp [only])
  obtain ⟨m3, e3, s3⟩ := s2.dealloc (i := s) hs
  obtain ⟨m4, e4, s4⟩ := twoLoop_ok (N := ts.length) rfl hl hc a1 p1 p2 inst ys (k := s) (d := C.r) (E := headSite C p1) (m := m3)
    (s3.congr (fun i _ => by simp only [upd, only]; by_cases h : i = s <;> simp [h]))
    (run_head a1 hs (by simp))
    (by
      cases ys with
      | nil => exact List.IsChain.singleton _
      | cons y ys => exact List.isChain_cons_cons.mpr ⟨behind y (by simp), asc⟩)
    hb
  refine ⟨m4, ?_, s4.isEmpty.mpr fun _ _ => rfl⟩
  unfold diskTwo
  rw [e1]
  show (m1.fetch s >>= _) = _
  rw [e2]
  show (m2.dealloc s >>= _) = _
  rw [e3]
  exact e4

/-- **C43, C52.** The overload without a target list measures against every later site. -/
theorem C52_disk_two_site_all (H : QRSpec qr) {ts : List (Ten σ K)} (hl : Linked ts) (hc : RightCanonical ts)
    {m : FMps σ K} (hm : m.size = ts.length) (he : m.isEmpty = true) (p1 p2 : Op σ K) (inst : Option (Op σ K))
    {s : Nat} (hs : s < ts.length) :
    ∃ m', diskTwoAll qr ts m p1 p2 s inst = .ok (m', (List.range' (s + 1) (ts.length - (s + 1))).map fun y =>
      ([s, y], expval ts (corr p1 p2 (inst.getD idOp) s y))) ∧ m'.isEmpty = true := by
  unfold diskTwoAll
  rw [hm]
  refine C52_disk_two_site H hl hc hm he p1 p2 inst hs _ ?_ ?_ ?_
  · have h := (List.pairwise_lt_range' (s := s + 1) (n := ts.length - (s + 1)) (step := 1)).imp (fun h => Nat.le_of_lt h)
    exact h.isChain
  · intro y hy; have := List.mem_range'_1.mp hy; omega
  · intro y hy; have := List.mem_range'_1.mp hy; omega

/-- The tensors of the sites `a, …, b` are in memory, as on disk. -/
def win (ts : List (Ten σ K)) (a b : Nat) : Nat → Option (Ten σ K) := fun i =>
  if a ≤ i ∧ i ≤ b then ts[i]? else Option.none

theorem moveTo_ok {ts : List (Ten σ K)} {N : Nat} (hN : ts.length = N) (hl : Linked ts) {j : Nat} {C : Ten σ K}
    {O : Nat → Op σ K} {top : Nat} : ∀ (n : Nat) {k d : Nat} {E : Mat K} {m : FMps σ K},
    Slots m N (win ts (k + 1) top) → Run ts j C O k d E → k + n < N → (∀ i, k < i → i ≤ k + n → O i = idOp) →
    ∃ m' d' E', (List.range' (k + 1) n).foldlM (moveToStep ts) (m, d, E) = .ok (m', d', E') ∧
      Slots m' N (win ts (k + n + 1) top) ∧ Run ts j C O (k + n) d' E'
  | 0, k, d, E, m, hs, hr, _, _ => ⟨m, d, E, rfl, hs, hr⟩
  | n + 1, k, d, E, m, hs, hr, hb, ho => by
    obtain ⟨t, ht⟩ := getE (ts := ts) (i := k + 1) (by omega)
    obtain ⟨hd, hr'⟩ := hr.eat hl ht
    have s0 : Slots (⟨m.slots, m.flags.set (k + 1) .none, -1⟩ : FMps σ K) N (win ts (k + 1) top) := hs
    have hg : m.slots[k + 1]? = some (win ts (k + 1) top (k + 1)) := hs.get (by omega)
    obtain ⟨m1, e1, s1⟩ : ∃ m1, (match m.slots[k + 1]? with
        | some Option.none => loadTen ts (⟨m.slots, m.flags.set (k + 1) .none, -1⟩ : FMps σ K) (k + 1)
        | some (some _) => Except.ok (⟨m.slots, m.flags.set (k + 1) .none, -1⟩ : FMps σ K)
        | Option.none => Except.error Err.ub) = .ok m1 ∧ Slots m1 N (upd (win ts (k + 1) top) (k + 1) (some t)) := by
      rw [hg]
      by_cases h : k + 1 ≤ top
      · have hw : win ts (k + 1) top (k + 1) = some t := by unfold win; rw [if_pos ⟨Nat.le_refl _, h⟩, ht]
        rw [hw]
        refine ⟨_, rfl, s0.congr ?_⟩
        intro i _
        by_cases e : i = k + 1
        · subst e; simp [upd, hw]
        · simp [upd, e]
      · have hw : win ts (k + 1) top (k + 1) = Option.none := by unfold win; rw [if_neg (by omega)]
        rw [hw]
        exact s0.loadTen (i := k + 1) (by omega) ht
    have e2 := s1.read (i := k + 1) (by omega) (t := t) (by simp [upd])
    obtain ⟨m3, e3, s3⟩ := s1.dealloc (i := k + 1) (by omega)
    have st : moveToStep ts (m, d, E) (k + 1) = .ok (m3, t.r, xl t t (O (k + 1)) E) := by
      unfold moveToStep
      show ((match m.slots[k + 1]? with
        | some Option.none => loadTen ts (⟨m.slots, m.flags.set (k + 1) .none, -1⟩ : FMps σ K) (k + 1)
        | some (some _) => Except.ok (⟨m.slots, m.flags.set (k + 1) .none, -1⟩ : FMps σ K)
        | Option.none => Except.error Err.ub) >>= _) = _
      rw [e1]
      show (m1.read (k + 1) >>= _) = _
      rw [e2]
      show (if t.l = d then _ else _) = _
      rw [if_pos hd, e3, midSite_eq, ho (k + 1) (by omega) (by omega)]
      rfl
    obtain ⟨m4, d4, E4, e4, s4, r4⟩ := moveTo_ok hN hl n (k := k + 1) (top := top) (s3.congr (fun i _ => by
        unfold upd win
        by_cases e : i = k + 1
        · rw [if_pos e, if_neg (by omega)]
        · rw [if_neg e, if_neg e]
          by_cases h : k + 1 ≤ i ∧ i ≤ top
          · rw [if_pos h, if_pos (by omega)]
          · rw [if_neg h, if_neg (by omega)])) hr' (by omega)
      (fun i h1 h2 => ho i (by omega) (by omega))
    rw [show k + 1 + n = k + (n + 1) by omega] at r4 s4
    exact ⟨m4, d4, E4, by rw [List.range'_succ, foldlM_cons_ok st, e4], s4, r4⟩

/-- Slots `a … b` loaded on top of what is there. -/
def fill (ts : List (Ten σ K)) (f : Nat → Option (Ten σ K)) (a b : Nat) : Nat → Option (Ten σ K) := fun i =>
  if a ≤ i ∧ i < b then ts[i]? else f i

theorem keep_ok {ts : List (Ten σ K)} {N : Nat} (hN : ts.length = N) (hl : Linked ts) {j : Nat} {C : Ten σ K}
    {O : Nat → Op σ K} {op : Op σ K} {f : Nat → Option (Ten σ K)} {a : Nat} : ∀ (n : Nat) {k d : Nat} {E : Mat K} {m : FMps σ K},
    Slots m N (fill ts f a (k + 1)) → a ≤ k + 1 → Run ts j C O k d E → k + n < N → (∀ i, k < i → i ≤ k + n → O i = op) →
    ∃ m' d' E', (List.range' (k + 1) n).foldlM (keepStep ts op) (m, d, E) = .ok (m', d', E') ∧
      Slots m' N (fill ts f a (k + n + 1)) ∧ Run ts j C O (k + n) d' E'
  | 0, k, d, E, m, hs, _, hr, _, _ => ⟨m, d, E, rfl, hs, hr⟩
  | n + 1, k, d, E, m, hs, hak, hr, hb, ho => by
    obtain ⟨t, ht⟩ := getE (ts := ts) (i := k + 1) (by omega)
    obtain ⟨hd, hr'⟩ := hr.eat hl ht
    obtain ⟨m1, e1, s1⟩ := hs.loadTen (i := k + 1) (by omega) ht
    have e2 := s1.read (i := k + 1) (by omega) (t := t) (by simp [upd])
    have st : keepStep ts op (m, d, E) (k + 1) = .ok (m1, t.r, xl t t (O (k + 1)) E) := by
      unfold keepStep
      rw [e1]
      show (m1.read (k + 1) >>= _) = _
      rw [e2]
      show (if t.l = d then _ else _) = _
      rw [if_pos hd, midSite_eq, ho (k + 1) (by omega) (by omega)]
      rfl
    obtain ⟨m4, d4, E4, e4, s4, r4⟩ := keep_ok hN hl n (k := k + 1) (f := f) (a := a) (s1.congr (fun i _ => by
        unfold upd fill
        by_cases e : i = k + 1
        · rw [if_pos e, if_pos (by omega), e, ht]
        · rw [if_neg e]
          by_cases h : a ≤ i ∧ i < k + 1
          · rw [if_pos h, if_pos (by omega)]
          · rw [if_neg h, if_neg (by omega)])) (by omega) hr' (by omega)
      (fun i h1 h2 => ho i (by omega) (by omega))
    rw [show k + 1 + n = k + (n + 1) by omega] at r4 s4
    exact ⟨m4, d4, E4, by rw [List.range'_succ, foldlM_cons_ok st, e4], s4, r4⟩

/-- The four-site correlator: `p1 p2 p3 p4` on `r0 < r1 < x < y`, `o` strictly between `r0` and `r1` and strictly
between `x` and `y`, identity elsewhere. -/
def corr4 (p1 p2 p3 p4 o : Op σ K) (r0 r1 x y : Nat) : Nat → Op σ K := fun i =>
  if i = r0 then p1 else if i = r1 then p2 else if i = x then p3 else if i = y then p4
  else if (r0 < i ∧ i < r1) ∨ (x < i ∧ i < y) then o else idOp

/-- The part of it that belongs to the reference sites. -/
def ref4 (p1 p2 o : Op σ K) (r0 r1 : Nat) : Nat → Op σ K := fun i =>
  if i = r0 then p1 else if i = r1 then p2 else if r0 < i ∧ i < r1 then o else idOp

/-- The largest second target site, at least `b`. -/
def topOf (b : Nat) (tgts : List (Nat × Nat)) : Nat := tgts.foldl (fun a p => max a p.2) b

theorem fourLoop_ok {ts : List (Ten σ K)} {N : Nat} (hN : ts.length = N) (hl : Linked ts) (hc : RightCanonical ts)
    {r0 r1 : Nat} (h01 : r0 < r1) {C : Ten σ K} (hat : At ts r0 C) (p1 p2 p3 p4 o : Op σ K) :
    ∀ (tgts : List (Nat × Nat)) {k d : Nat} {E : Mat K} {m : FMps σ K} {top : Nat}, Slots m N (win ts (k + 1) top) →
    r1 ≤ k → Run ts r0 C (ref4 p1 p2 o r0 r1) k d E → ((k + 1, 0) :: tgts).IsChain (fun p q => p.1 ≤ q.1) →
    (∀ p ∈ tgts, p.1 < p.2 ∧ p.2 < N) →
    ∃ m', fourLoop ts p3 p4 o [r0, r1] tgts k (m, d, E) = .ok (m', tgts.map fun p =>
      ([r0, r1, p.1, p.2], expval ts (corr4 p1 p2 p3 p4 o r0 r1 p.1 p.2))) ∧
      Slots m' N (win ts ((tgts.map Prod.fst).getLast?.getD (k + 1)) (topOf top tgts))
  | [], k, d, E, m, top, hs, _, _, _, _ => ⟨m, rfl, hs⟩
  | (x, y) :: tgts, k, d, E, m, top, hs, h1k, hr, hch, hb => by
    have hkx : k + 1 ≤ x := (List.isChain_cons_cons.mp hch).1
    obtain ⟨hxy, hyN⟩ : x < y ∧ y < N := hb (x, y) (by simp)
    obtain ⟨m1, d1, E1, e1, s1, r1'⟩ := moveTo_ok hN hl (x - 1 - k) hs hr (by omega)
      (fun i h1 h2 => by unfold ref4; rw [if_neg (by omega), if_neg (by omega), if_neg (by omega)])
    rw [show k + (x - 1 - k) = x - 1 by omega] at r1' s1
    rw [show x - 1 + 1 = x by omega] at s1
    have rc := r1'.congr (O' := corr4 p1 p2 p3 p4 o r0 r1 x y) (fun i h1 h2 => by
      unfold ref4 corr4
      by_cases a : i = r0
      · rw [if_pos a, if_pos a]
      · rw [if_neg a, if_neg a]
        by_cases b : i = r1
        · rw [if_pos b, if_pos b]
        · rw [if_neg b, if_neg b, if_neg (show ¬ i = x by omega), if_neg (show ¬ i = y by omega)]
          by_cases c : r0 < i ∧ i < r1
          · rw [if_pos c, if_pos (Or.inl c)]
          · rw [if_neg c, if_neg (by omega)])
    obtain ⟨m2, d2, E2, e2, s2, r2⟩ := keep_ok (op := p3) (f := win ts x top) (a := x) hN hl 1 (k := x - 1) (d := d1) (E := E1) (m := m1)
      (s1.congr (fun i _ => by unfold fill; rw [if_neg (by omega)])) (by omega) rc (by omega)
      (fun i h1 h2 => by
        have : i = x := by omega
        unfold corr4; rw [if_neg (by omega), if_neg (by omega), if_pos this])
    rw [show x - 1 + 1 = x by omega] at e2 s2 r2
    replace e2 : keepStep ts p3 (m1, d1, E1) x = .ok (m2, d2, E2) := by
      have : keepStep ts p3 (m1, d1, E1) x >>= (fun s => pure s) = Except.ok (m2, d2, E2) := by simpa using e2
      simpa using this
    obtain ⟨m3, d3, E3, e3, s3, r3⟩ := keep_ok (op := o) (f := win ts x top) (a := x) hN hl (y - (x + 1)) (k := x) s2 (by omega) r2 (by omega)
      (fun i h1 h2 => by
        unfold corr4
        rw [if_neg (by omega), if_neg (by omega), if_neg (by omega), if_neg (by omega), if_pos (by omega)])
    rw [show x + (y - (x + 1)) = y - 1 by omega] at s3 r3
    rw [show y - 1 + 1 = y by omega] at s3
    obtain ⟨t, ht⟩ := getE (ts := ts) (i := y) (by omega)
    obtain ⟨m4, e4, s4⟩ := s3.loadTen (i := y) hyN ht
    obtain ⟨m5, e5, s5⟩ := s4.fetch (i := y) hyN (t := t) (by simp [upd])
    have ht' : ts[y - 1 + 1]? = some t := by rw [show y - 1 + 1 = y by omega]; exact ht
    have hd := r3.dim t ht'
    have val : tailSite t p4 E3 = expval ts (corr4 p1 p2 p3 p4 o r0 r1 x y) := by
      refine r3.tail hc hat ht' ?_ ?_ ?_
      · intro i hi; unfold corr4
        rw [if_neg (by omega), if_neg (by omega), if_neg (by omega), if_neg (by omega), if_neg (by omega)]
      · intro i hi; unfold corr4
        rw [if_neg (by omega), if_neg (by omega), if_neg (by omega), if_neg (by omega), if_neg (by omega)]
      · unfold corr4
        rw [if_neg (by omega), if_neg (by omega), if_neg (by omega), if_pos (by omega)]
    obtain ⟨m6, e6, s6⟩ := fourLoop_ok hN hl hc h01 hat p1 p2 p3 p4 o tgts (k := x - 1) (d := d1) (E := E1) (m := m5)
      (top := max top y)
      (s5.congr (fun i _ => by
        unfold upd fill win
        by_cases e : i = y
        · rw [if_pos e, if_pos (by omega), e, ht]
        · rw [if_neg e]
          by_cases h : x ≤ i ∧ i < y
          · rw [if_pos h, if_pos (by omega)]
          · rw [if_neg h]
            by_cases h' : x ≤ i ∧ i ≤ top
            · rw [if_pos h', if_pos (by omega)]
            · rw [if_neg h', if_neg (by omega)])) (by omega) r1'
      (by
        have := (List.isChain_cons_cons.mp hch).2
        rw [show x - 1 + 1 = x by omega]
        cases tgts with
        | nil => exact List.IsChain.singleton _
        | cons q qs => exact List.isChain_cons_cons.mpr (List.isChain_cons_cons.mp this))
      (fun z hz => hb z (by simp [hz]))
    refine ⟨m6, ?_, ?_⟩
    · rw [fourLoop, if_neg (by omega), if_neg (by omega), e1]
      show (keepStep ts p3 (m1, d1, E1) x >>= _) = _
      rw [e2]
      show ((List.range' (x + 1) (y - (x + 1))).foldlM (keepStep ts o) (m2, d2, E2) >>= _) = _
      rw [e3]
      show (loadTen ts m3 y >>= _) = _
      rw [e4]
      show (m4.fetch y >>= _) = _
      rw [e5]
      show (if t.l = d3 then _ else _) = _
      rw [if_pos hd]
      show (fourLoop ts p3 p4 o [r0, r1] tgts (x - 1) (m5, d1, E1) >>= _) = _
      rw [e6, List.map_cons, ← val]
      rfl
    · cases tgts with
      | nil =>
        rw [show x - 1 + 1 = x by omega] at s6
        exact s6
      | cons q qs =>
        obtain ⟨z, hz⟩ : ∃ z, ((q :: qs).map Prod.fst).getLast? = some z := ⟨_, List.getLast?_eq_getLast_of_ne_nil (by simp)⟩
        rw [hz] at s6
        rw [show ((x, y) :: q :: qs).map Prod.fst = x :: (q :: qs).map Prod.fst from rfl, List.map_cons, List.getLast?_cons_cons,
          ← List.map_cons, hz]
        exact s6

omit [StarRing K] [Fintype σ] [DecidableEq σ] [DecidableEq K] in
theorem deallocLoop_ok {N : Nat} {f : Nat → Option (Ten σ K)} : ∀ (n : Nat) {x : Nat} {m : FMps σ K}, Slots m N f → x + n ≤ N →
    ∃ m', (List.range' x n).foldlM FMps.dealloc m = .ok m' ∧
      Slots m' N (fun i => if x ≤ i ∧ i < x + n then Option.none else f i)
  | 0, x, m, hs, _ => ⟨m, rfl, hs.congr fun i _ => by rw [if_neg (by omega)]⟩
  | n + 1, x, m, hs, hb => by
    obtain ⟨m1, e1, s1⟩ := hs.dealloc (i := x) (by omega)
    obtain ⟨m2, e2, s2⟩ := deallocLoop_ok n (x := x + 1) s1 (by omega)
    refine ⟨m2, by rw [List.range'_succ, foldlM_cons_ok e1, e2], s2.congr fun i _ => ?_⟩
    unfold upd
    by_cases e : i = x
    · rw [if_neg (by omega), if_pos e, if_pos (by omega)]
    · rw [if_neg e]
      by_cases h : x + 1 ≤ i ∧ i < x + 1 + n
      · rw [if_pos h, if_pos (by omega)]
      · rw [if_neg h, if_neg (by omega)]

theorem le_topOf : ∀ (tgts : List (Nat × Nat)) (b : Nat), b ≤ topOf b tgts ∧ ∀ p ∈ tgts, p.2 ≤ topOf b tgts
  | [], b => ⟨Nat.le_refl b, by simp⟩
  | q :: qs, b => by
    obtain ⟨h1, h2⟩ := le_topOf qs (max b q.2)
    show b ≤ topOf (max b q.2) qs ∧ ∀ p ∈ q :: qs, p.2 ≤ topOf (max b q.2) qs
    refine ⟨by omega, fun p hp => ?_⟩
    rcases List.mem_cons.mp hp with rfl | hp
    · omega
    · exact h2 p hp

theorem topOf_le {c : Nat} : ∀ (tgts : List (Nat × Nat)) (b : Nat), b ≤ c → (∀ p ∈ tgts, p.2 ≤ c) → topOf b tgts ≤ c
  | [], _, h, _ => h
  | q :: qs, b, h, h2 => topOf_le qs (max b q.2) (by have := h2 q (by simp); omega) (fun p hp => h2 p (by simp [hp]))

/-- **C52.** `MeasureFourSiteOpGroup` with reference sites `r0 < r1`, target pairs `(x, y)` with `r1 < x < y < N`
sorted by their first site: every value is the four-point correlator. The tensors that are in memory after the
clean-up are exactly those of the sites behind the last pair's second site up to the largest second site of all
pairs. -/
theorem C52_disk_four_site (H : QRSpec qr) {ts : List (Ten σ K)} (hl : Linked ts) (hc : RightCanonical ts)
    {m : FMps σ K} (hm : m.size = ts.length) (he : m.isEmpty = true) (p1 p2 p3 p4 : Op σ K) (inst : Option (Op σ K))
    {r0 r1 : Nat} (h01 : r0 < r1) (tgts : List (Nat × Nat)) {lx ly : Nat} (hlast : tgts.getLast? = some (lx, ly))
    (sorted : tgts.IsChain (fun p q => p.1 ≤ q.1)) (hb : ∀ p ∈ tgts, r1 < p.1 ∧ p.1 < p.2 ∧ p.2 < ts.length) :
    ∃ m', diskFourRun qr ts m p1 p2 p3 p4 r0 r1 tgts inst = .ok (m', tgts.map fun p =>
      ([r0, r1, p.1, p.2], expval ts (corr4 p1 p2 p3 p4 (inst.getD idOp) r0 r1 p.1 p.2))) ∧
      m'.slots.length = ts.length ∧
      ∀ i, i < ts.length → m'.slots[i]? = some (if ly < i ∧ ∃ p ∈ tgts, i ≤ p.2 then ts[i]? else Option.none) := by
  have s0 := slots_of_empty he
  rw [hm] at s0
  have hmem : (lx, ly) ∈ tgts := List.mem_of_getLast? hlast
  obtain ⟨hx1, hxy, hyN⟩ := hb _ hmem
  simp only at hx1 hxy hyN
  obtain ⟨m1, C, e1, s1, a1⟩ := centerTo_ok H rfl hl s0 (s := r0) (by omega)
  obtain ⟨m2, e2, s2⟩ := s1.fetch (i := r0) (by omega) (t := C) (by simp [only])
  obtain ⟨m3, e3, s3⟩ := s2.dealloc (i := r0) (by omega)
  have rh : Run ts r0 C (ref4 p1 p2 (inst.getD idOp) r0 r1) r0 C.r (headSite C p1) :=
    run_head a1 (by omega) (by simp [ref4])
  obtain ⟨m4, d4, E4, e4, s4, q4⟩ := eatLoop_ok (op := inst.getD siteId) rfl hl (r1 - (r0 + 1)) (m := m3)
    (s3.congr (fun i _ => by simp only [upd, only]; by_cases h : i = r0 <;> simp [h])) rh (by omega)
    (fun i h1 h2 => by unfold ref4; rw [if_neg (by omega), if_neg (by omega), if_pos (by omega)]; rfl)
  obtain ⟨m5, d5, E5, e5, s5, q5⟩ := eatLoop_ok (op := p2) rfl hl 1 s4 q4 (by omega)
    (fun i h1 h2 => by unfold ref4; rw [if_neg (by omega), if_pos (by omega)])
  rw [show r0 + (r1 - (r0 + 1)) + 1 = r1 by omega] at e5 q5
  replace e5 : eatSite ts p2 (m4, d4, E4) r1 = .ok (m5, d5, E5) := by
    have : eatSite ts p2 (m4, d4, E4) r1 >>= (fun s => pure s) = Except.ok (m5, d5, E5) := by simpa using e5
    simpa using this
  have em5 : m5.isEmpty = true := s5.isEmpty.mpr fun _ _ => rfl
  obtain ⟨m6, e6, s6⟩ := fourLoop_ok rfl hl hc h01 a1 p1 p2 p3 p4 (inst.getD idOp) tgts (k := r1) (top := 0) (m := m5)
    (s5.congr (fun i _ => by unfold win; rw [if_neg (by omega)])) (Nat.le_refl r1) q5
    (by
      cases tgts with
      | nil => exact List.IsChain.singleton _
      | cons q qs => exact List.isChain_cons_cons.mpr ⟨(hb q (by simp)).1, sorted⟩)
    (fun p hp => (hb p hp).2)
  rw [List.getLast?_map, hlast] at s6
  obtain ⟨m7, e7, s7⟩ := deallocLoop_ok (ly + 1 - lx) (x := lx) s6 (by omega)
  refine ⟨m7, ?_, s7.len, ?_⟩
  · unfold diskFourRun
    rw [if_pos he]
    show (centerTo qr ts m r0 >>= _) = _
    rw [e1]
    show (m1.fetch r0 >>= _) = _
    rw [e2]
    show (m2.dealloc r0 >>= _) = _
    rw [e3]
    show ((List.range' (r0 + 1) (r1 - (r0 + 1))).foldlM (eatSite ts (inst.getD siteId)) (m3, C.r, headSite C p1) >>= _) = _
    rw [e4]
    show (eatSite ts p2 (m4, d4, E4) r1 >>= _) = _
    rw [e5]
    show (if m5.isEmpty = true then _ else _) = _
    rw [if_pos em5]
    show (fourLoop ts p3 p4 (inst.getD idOp) [r0, r1] tgts r1 (m5, d5, E5) >>= _) = _
    rw [e6]
    simp only [bind, Except.bind, hlast]
    rw [e7]
    rfl
  · intro i hi
    rw [s7.get hi]
    congr 1
    have hle : ∀ (c : Nat), c ≤ topOf 0 tgts → 0 < c → ∃ p ∈ tgts, c ≤ p.2 := by
      intro c h1 h2
      by_contra hcon
      push Not at hcon
      have := topOf_le (c := c - 1) tgts 0 (by omega) (fun p hp => by have := hcon p hp; omega)
      omega
    by_cases h : lx ≤ i ∧ i < lx + (ly + 1 - lx)
    · rw [if_pos h, if_neg (by omega)]
    · rw [if_neg h]
      unfold win
      show (if lx ≤ i ∧ i ≤ topOf 0 tgts then ts[i]? else Option.none) = _
      by_cases h2 : lx ≤ i ∧ i ≤ topOf 0 tgts
      · rw [if_pos h2, if_pos (show ly < i ∧ ∃ p ∈ tgts, i ≤ p.2 from ⟨by omega, hle i h2.2 (by omega)⟩)]
      · rw [if_neg h2, if_neg]
        rintro ⟨h3, p, hp, h4⟩
        have := (le_topOf tgts 0).2 p hp
        omega

/-- **C43.** The four-site measurement leaves no tensor in memory, and its closing assertion holds, exactly when no
target pair ends behind the pair that is last in the sorted list. -/
theorem C43_four_site_memory (H : QRSpec qr) {ts : List (Ten σ K)} (hl : Linked ts) (hc : RightCanonical ts)
    {m : FMps σ K} (hm : m.size = ts.length) (he : m.isEmpty = true) (p1 p2 p3 p4 : Op σ K) (inst : Option (Op σ K))
    {r0 r1 : Nat} (h01 : r0 < r1) (tgts : List (Nat × Nat)) {lx ly : Nat} (hlast : tgts.getLast? = some (lx, ly))
    (sorted : tgts.IsChain (fun p q => p.1 ≤ q.1)) (hb : ∀ p ∈ tgts, r1 < p.1 ∧ p.1 < p.2 ∧ p.2 < ts.length) :
    ((∀ p ∈ tgts, p.2 ≤ ly) → ∃ m', diskFour qr ts m p1 p2 p3 p4 r0 r1 tgts inst = .ok (m', tgts.map fun p =>
      ([r0, r1, p.1, p.2], expval ts (corr4 p1 p2 p3 p4 (inst.getD idOp) r0 r1 p.1 p.2))) ∧ m'.isEmpty = true) ∧
    ((∃ p ∈ tgts, ly < p.2) → diskFour qr ts m p1 p2 p3 p4 r0 r1 tgts inst = .error .assertFail) := by
  obtain ⟨m', e, hlen, hs⟩ := C52_disk_four_site H hl hc hm he p1 p2 p3 p4 inst h01 tgts hlast sorted hb
  have sl : Slots m' ts.length (fun i => if ly < i ∧ ∃ p ∈ tgts, i ≤ p.2 then ts[i]? else Option.none) := by
    unfold Slots
    refine List.ext_getElem? fun i => ?_
    by_cases hi : i < ts.length
    · rw [hs i hi, List.getElem?_map, List.getElem?_range hi]; rfl
    · rw [List.getElem?_eq_none (by omega), List.getElem?_eq_none (by simp; omega)]
  constructor
  · intro hall
    have em : m'.isEmpty = true := sl.isEmpty.mpr fun i _ => by
      rw [if_neg]; rintro ⟨h1, p, hp, h2⟩; have := hall p hp; omega
    refine ⟨m', ?_, em⟩
    unfold diskFour
    rw [e]
    exact if_pos em
  · rintro ⟨p, hp, h⟩
    have em : ¬ m'.isEmpty = true := by
      intro hh
      have hp2 := (hb p hp).2.2
      have := sl.isEmpty.mp hh p.2 hp2
      rw [if_pos (show ly < p.2 ∧ ∃ q ∈ tgts, p.2 ≤ q.2 from ⟨h, p, hp, Nat.le_refl _⟩)] at this
      obtain ⟨t, ht⟩ := getE (ts := ts) (i := p.2) hp2
      rw [ht] at this
      exact absurd this (by simp)
    unfold diskFour
    rw [e]
    exact if_neg em

/-! ### A concrete case: the GHZ state on `n + 2` sites, right-canonical with centre 0 -/

/-- A middle tensor. -/
def ghzMid : Ten Bool Int := ⟨2, 2, fun s a b => if a = b ∧ (b = 0) = (s = true) then 1 else 0⟩
/-- The last tensor. -/
def ghzEnd : Ten Bool Int := ⟨2, 1, fun s a _ => if (a = 0) = (s = true) then 1 else 0⟩
/-- The state. -/
def ghz (n : Nat) : List (Ten Bool Int) := exA :: (List.replicate n ghzMid ++ [ghzEnd])

theorem ghz_length (n : Nat) : (ghz n).length = n + 2 := by simp [ghz]

theorem ghz_linked (n : Nat) : Linked (ghz n) := by
  unfold ghz
  induction n with
  | zero => exact List.isChain_cons_cons.mpr ⟨rfl, List.IsChain.singleton _⟩
  | succ n ih =>
    rw [List.replicate_succ, List.cons_append]
    refine List.isChain_cons_cons.mpr ⟨rfl, ?_⟩
    cases n with
    | zero => exact List.isChain_cons_cons.mpr ⟨rfl, List.IsChain.singleton _⟩
    | succ n =>
      rw [List.replicate_succ, List.cons_append] at ih ⊢
      exact List.isChain_cons_cons.mpr ⟨rfl, (List.isChain_cons_cons.mp ih).2⟩

theorem ghzMid_iso : RightIso ghzMid := by
  intro a ha b hb
  have ha' : a = 0 ∨ a = 1 := by have : a < 2 := ha; omega
  have hb' : b = 0 ∨ b = 1 := by have : b < 2 := hb; omega
  rcases ha' with rfl | rfl <;> rcases hb' with rfl | rfl <;> decide

theorem ghzEnd_iso : RightIso ghzEnd := by
  intro a ha b hb
  have ha' : a = 0 ∨ a = 1 := by have : a < 2 := ha; omega
  have hb' : b = 0 ∨ b = 1 := by have : b < 2 := hb; omega
  rcases ha' with rfl | rfl <;> rcases hb' with rfl | rfl <;> decide

theorem ghz_canon (n : Nat) : RightCanonical (ghz n) := by
  intro j u hj hu
  obtain ⟨k, rfl⟩ : ∃ k, j = k + 1 := ⟨j - 1, by omega⟩
  have hm : u ∈ List.replicate n ghzMid ++ [ghzEnd] := List.mem_of_getElem? (i := k) hu
  rcases List.mem_append.mp hm with h | h
  · rw [(List.mem_replicate.mp h).2]; exact ghzMid_iso
  · rw [List.mem_singleton.mp h]; exact ghzEnd_iso

-- the one-site values and the correlators of the (unnormalised) GHZ state
example : ∃ m', diskOneSite qr0 (ghz 1) (FMps.fresh 3) upOp = .ok (m', [1, 1, 1]) ∧ m'.isEmpty = true := by
  obtain ⟨m', e, he⟩ := C52_disk_one_site (qr0_spec (K := Int)) (ghz_linked 1) (ghz_canon 1) (by simp [ghz])
    (m := FMps.fresh 3) rfl rfl upOp
  exact ⟨m', e.trans (by congr 2), he⟩

example : ∃ m', diskTwo qr0 (ghz 2) (FMps.fresh 4) upOp upOp 0 [1, 3] Option.none =
    .ok (m', [([0, 1], 1), ([0, 3], 1)]) ∧ m'.isEmpty = true := by
  obtain ⟨m', e, he⟩ := C52_disk_two_site (qr0_spec (K := Int)) (ghz_linked 2) (ghz_canon 2) (m := FMps.fresh 4) rfl rfl
    upOp upOp Option.none (s := 0) (by rw [ghz_length]; omega) [1, 3] (by decide) (by decide) (by rw [ghz_length]; decide)
  refine ⟨m', e.trans ?_, he⟩
  congr 2

/-- **C43 fails for the four-site measurement**: on eight sites, with reference sites 0, 1 and the target pairs
(2, 6), (3, 5), the closing assertion fails: the tensor of site 6 stays in memory. -/
theorem C43_four_site_violation (p1 p2 p3 p4 : Op Bool Int) (inst : Option (Op Bool Int)) :
    diskFour qr0 (ghz 6) (FMps.fresh 8) p1 p2 p3 p4 0 1 [(2, 6), (3, 5)] inst = .error .assertFail :=
  (C43_four_site_memory (qr0_spec (K := Int)) (ghz_linked 6) (ghz_canon 6) (m := FMps.fresh 8) rfl rfl p1 p2 p3 p4 inst
    (by omega) [(2, 6), (3, 5)] (lx := 3) (ly := 5) rfl (by decide) (by rw [ghz_length]; decide)).2
    ⟨(2, 6), by simp, by decide⟩

-- and a case in which it holds
example (p1 p2 p3 p4 : Op Bool Int) : ∃ r, diskFour qr0 (ghz 6) (FMps.fresh 8) p1 p2 p3 p4 0 1 [(2, 5), (3, 6)] Option.none =
    .ok r ∧ r.1.isEmpty = true := by
  obtain ⟨m', e, he⟩ := (C43_four_site_memory (qr0_spec (K := Int)) (ghz_linked 6) (ghz_canon 6) (m := FMps.fresh 8) rfl rfl
    p1 p2 p3 p4 Option.none
    (r0 := 0) (r1 := 1) (by omega) [(2, 5), (3, 6)] (lx := 3) (ly := 6) rfl (by decide) (by rw [ghz_length]; decide)).1 (by decide)
  exact ⟨_, e, he⟩

end Verif.Props
