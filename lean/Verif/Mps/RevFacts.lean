import Verif.Mps.FmpsFacts
/-
Lemmas about `Reverse` and about the truthfulness of the canonical flags.
-/
namespace Verif.Mps
open Finset

section
variable {σ K : Type} [CommRing K]

/-- The left index is inside the first tensor (nothing to check for the empty chain). -/
def InHead (ts : List (Ten σ K)) (a : Nat) : Prop := ∀ t, ts.head? = some t → a < t.l
/-- The right index is inside the last tensor. -/
def InLast (ts : List (Ten σ K)) (b : Nat) : Prop := ∀ t, ts.getLast? = some t → b < t.r

theorem amp_snoc (t : Ten σ K) (s : σ) (b : Nat) (hb : b < t.r) : ∀ (A : List (Ten σ K)) (sa : List σ) (a : Nat),
    sa.length = A.length → Linked (A ++ [t]) → InHead (A ++ [t]) a →
    amp (A ++ [t]) (sa ++ [s]) a b = ∑ k ∈ range t.l, amp A sa a k * t.v s k b := by
  intro A
  induction A with
  | nil =>
    intro sa a hs hl ha
    have : sa = [] := by simpa using hs
    subst this
    have ha' : a < t.l := ha t rfl
    simp only [List.nil_append, amp]
    simp [hb, ha']
  | cons t0 A ih =>
    intro sa a hs hl ha
    match sa, hs with
    | s0 :: sa, hs =>
      simp only [List.cons_append, amp_cons]
      have hl' : Linked (A ++ [t]) := linked_cons hl
      have : ∀ k ∈ range t0.r, t0.v s0 a k * amp (A ++ [t]) (sa ++ [s]) k b =
          ∑ x ∈ range t.l, t0.v s0 a k * amp A sa k x * t.v s x b := by
        intro k hk
        rw [ih sa k (by simpa using hs) hl', Finset.mul_sum]
        · exact Finset.sum_congr rfl fun x _ => by ring
        · intro u hu
          match hA : A ++ [t], hu with
          | w :: ws, hu =>
            simp at hu; subst hu
            rw [List.cons_append, hA] at hl
            rw [← linked_head hl]; simpa using hk
      rw [Finset.sum_congr rfl this, Finset.sum_comm]
      refine Finset.sum_congr rfl fun x _ => ?_
      rw [Finset.sum_mul]

theorem linked_rev {ts : List (Ten σ K)} (h : Linked ts) : Linked (ts.reverse.map Ten.tr) := by
  unfold Linked at *
  rw [List.isChain_map, List.isChain_reverse]
  exact List.IsChain.imp (fun a b hab => by simp [flip, Ten.tr, hab]) h

theorem amp_rev : ∀ (ts : List (Ten σ K)) (ss : List σ) (a b : Nat), ss.length = ts.length → Linked ts →
    InHead ts a → InLast ts b → amp (ts.reverse.map Ten.tr) ss.reverse b a = amp ts ss a b := by
  intro ts
  induction ts with
  | nil => intro ss a b _ _ _ _; simp [amp, eq_comm]
  | cons t ts ih =>
    intro ss a b hs hl ha hb
    match ss, hs with
    | s :: ss, hs =>
      have hrev := linked_rev hl
      simp only [List.reverse_cons, List.map_append, List.map_cons, List.map_nil] at hrev ⊢
      rw [amp_snoc t.tr s a (by simpa [Ten.tr] using ha t rfl) _ _ _ (by simpa using hs) hrev]
      · rw [amp_cons]
        simp only [Ten.tr]
        refine Finset.sum_congr rfl fun k hk => ?_
        rw [ih ss k b (by simpa using hs) (linked_cons hl)]
        · ring
        · intro u hu
          match ts, hu with
          | w :: ws, hu => simp at hu; subst hu; rw [← linked_head hl]; simpa using hk
        · intro u hu
          refine hb u ?_
          match ts, hu with
          | w :: ws, hu => rw [List.getLast?_cons_cons]; exact hu
      · intro u hu
        cases ts with
        | nil =>
          simp at hu; subst hu
          exact hb t (by simp)
        | cons w ws =>
          have : (((w :: ws).reverse.map Ten.tr) ++ [t.tr]).head? = ((w :: ws).getLast?).map Ten.tr := by
            rw [List.head?_append]
            simp only [List.head?_map, List.head?_reverse]
            cases h : (w :: ws).getLast? with
            | none => simp at h
            | some z => simp
          rw [this] at hu
          cases h : (w :: ws).getLast? with
          | none => simp at h
          | some z =>
            rw [h] at hu; simp at hu; subst hu
            exact hb z (by rw [List.getLast?_cons_cons]; exact h)

/-! ### Reverse as loops -/

/-- State after `n` swaps. -/
theorem swapLoop (m : FMps σ K) (hf : m.flags.length = m.slots.length) : ∀ n, 2 * n ≤ m.size →
    ∃ m', (List.range n).foldlM FMps.swapStep m = .ok m' ∧ m'.size = m.size ∧ m'.flags.length = m.flags.length ∧
      (n = 0 ∨ m'.center = -1) ∧
      (∀ j, j < m.size → m'.slots[j]? = if j < n ∨ m.size - n ≤ j then m.slots[m.size - 1 - j]? else m.slots[j]?)
      := by
  intro n
  induction n with
  | zero =>
    intro _
    refine ⟨m, rfl, rfl, rfl, Or.inl rfl, fun j hj => ?_⟩
    rw [if_neg (by omega)]
  | succ n ih =>
    intro hn
    obtain ⟨m1, e, hs, hfl, -, hj⟩ := ih (by omega)
    have p1 : m1.slots[n]? = m.slots[n]? := by rw [hj n (by omega), if_neg (by omega)]
    have p2 : m1.slots[m.size - 1 - n]? = m.slots[m.size - 1 - n]? := by
      rw [hj _ (by omega), if_neg (by omega)]
    obtain ⟨x, hx⟩ : ∃ x, m.slots[n]? = some x := ⟨m.slots[n]'(by unfold FMps.size at hn; omega), by simp⟩
    obtain ⟨y, hy⟩ : ∃ y, m.slots[m.size - 1 - n]? = some y :=
      ⟨m.slots[m.size - 1 - n]'(by unfold FMps.size at *; omega), by simp⟩
    have hlen : m1.slots.length = m.size := hs
    refine ⟨⟨(m1.slots.set n y).set (m.size - 1 - n) x, (m1.flags.set n .none).set (m.size - 1 - n) .none, -1⟩,
      ?_, by simp [FMps.size]; exact hs, by simpa using hfl, Or.inr rfl, fun j hjm => ?_⟩
    · rw [List.range_succ, List.foldlM_append, e]
      show (List.foldlM FMps.swapStep m1 [n] : Except Err (FMps σ K)) = _
      rw [List.foldlM_cons]
      unfold FMps.swapStep
      rw [hs, p1, p2, hx, hy]
      rfl
    · show ((m1.slots.set n y).set (m.size - 1 - n) x)[j]? = _
      rw [List.getElem?_set, List.length_set, List.getElem?_set]
      by_cases c1 : m.size - 1 - n = j
      · rw [if_pos c1, if_pos (by omega), if_pos (by omega)]
        rw [show m.size - 1 - j = n by omega, hx]
      · rw [if_neg c1]
        by_cases c2 : n = j
        · rw [if_pos c2, if_pos (by omega), if_pos (by omega), ← c2, hy]
        · rw [if_neg c2, hj j hjm]
          by_cases c3 : j < n ∨ m.size - n ≤ j
          · rw [if_pos c3, if_pos (by omega)]
          · rw [if_neg c3, if_neg (by omega)]

/-- State after `n` transpositions. -/
theorem trLoop (m : FMps σ K) (ts : List (Ten σ K)) (hm : m.slots = ts.map some)
    (hf : m.flags.length = ts.length) : ∀ n, n ≤ ts.length →
    ∃ m', (List.range n).foldlM FMps.trStep m = .ok m' ∧ m'.flags.length = m.flags.length ∧
      m'.slots.length = ts.length ∧
      (m'.center = -1 ∨ (n = 0 ∧ m'.center = m.center)) ∧
      (∀ j, j < n → m'.flags[j]? = some .none) ∧
      (∀ j, m'.slots[j]? = if j < n then ts[j]?.map (fun t => some t.tr) else ts[j]?.map some) := by
  intro n
  induction n with
  | zero =>
    intro _
    exact ⟨m, rfl, rfl, by simp [hm], Or.inr ⟨rfl, rfl⟩, fun j h => absurd h (by omega), fun j => by simp [hm]⟩
  | succ n ih =>
    intro hn
    obtain ⟨m1, e, hfl, hlen, -, hfn, hj⟩ := ih (by omega)
    obtain ⟨t, ht⟩ := getE (ts := ts) (i := n) (by omega)
    have p : m1.slots[n]? = some (some t) := by rw [hj n, if_neg (by omega), ht]; rfl
    refine ⟨⟨m1.slots.set n (some t.tr), m1.flags.set n .none, -1⟩, ?_, by simpa using hfl, by simpa using hlen,
      Or.inl rfl, ?_, ?_⟩
    · rw [List.range_succ, List.foldlM_append, e]
      show (List.foldlM FMps.trStep m1 [n] : Except Err (FMps σ K)) = _
      rw [List.foldlM_cons]
      unfold FMps.trStep
      rw [p]
      rfl
    · intro j hjn
      show (m1.flags.set n .none)[j]? = _
      rw [List.getElem?_set]
      by_cases c : n = j
      · rw [if_pos c, if_pos (by rw [hfl, hf]; omega)]
      · rw [if_neg c]; exact hfn j (by omega)
    · intro j
      show (m1.slots.set n (some t.tr))[j]? = _
      rw [List.getElem?_set]
      by_cases c : n = j
      · subst c
        rw [if_pos rfl, if_pos (by omega), if_pos (by omega), ht]; rfl
      · rw [if_neg c, hj j]
        by_cases c2 : j < n
        · rw [if_pos c2, if_pos (by omega)]
        · rw [if_neg c2, if_neg (by omega)]

theorem reverse_rep {m : FMps σ K} {ts : List (Ten σ K)} (hm : m.slots = ts.map some)
    (hf : m.flags.length = ts.length) (hne : ts ≠ []) :
    m.reverse = .ok ⟨(ts.reverse.map Ten.tr).map some, List.replicate ts.length .none, -1⟩ := by
  have hsz : m.size = ts.length := by simp [FMps.size, hm]
  have hpos : 0 < ts.length := List.length_pos_iff.mpr hne
  have hhalf : (if m.size % 2 = 0 then m.size / 2 else (m.size - 1) / 2) = m.size / 2 := by
    split <;> omega
  unfold FMps.reverse
  rw [hhalf]
  obtain ⟨m1, e1, s1, f1, -, j1⟩ := swapLoop m (by rw [hf, hm]; simp) (m.size / 2) (by omega)
  rw [e1]
  have hm1 : m1.slots = ts.reverse.map some := by
    apply List.ext_getElem?
    intro j
    by_cases hj : j < m.size
    · rw [j1 j hj, List.getElem?_map, List.getElem?_reverse (by omega), hm, List.getElem?_map, List.getElem?_map]
      split
      · rw [hsz]
      · rw [show ts.length - 1 - j = j by omega]
    · rw [List.getElem?_eq_none (by have : m1.slots.length = m.size := s1; omega),
        List.getElem?_eq_none (by simp; omega)]
  obtain ⟨m2, e2, f2, l2, c2, n2, j2⟩ := trLoop m1 ts.reverse hm1 (by rw [f1, hf]; simp) ts.reverse.length (Nat.le_refl _)
  have hs1 : m1.size = ts.reverse.length := by simp [FMps.size, hm1]
  simp only [hs1, e2]
  have hc : m2.center = -1 := by
    rcases c2 with h | ⟨h, -⟩
    · exact h
    · simp at h; exact absurd h hne
  unfold FMps.mirror
  rw [if_neg (by simp [hc])]
  have hsl : m2.slots = (ts.reverse.map Ten.tr).map some := by
    apply List.ext_getElem?
    intro j
    rw [j2 j]
    by_cases hj : j < ts.reverse.length
    · rw [if_pos hj, List.getElem?_map, List.getElem?_map]; cases ts.reverse[j]? <;> rfl
    · rw [if_neg hj, List.getElem?_eq_none (by omega), List.getElem?_eq_none (by simpa using hj)]; rfl
  have hfl : m2.flags = List.replicate ts.length .none := by
    apply List.ext_getElem?
    intro j
    by_cases hj : j < ts.length
    · rw [n2 j (by simpa using hj), List.getElem?_replicate, if_pos hj]
    · rw [List.getElem?_eq_none (by rw [f2, f1, hf]; omega), List.getElem?_eq_none (by simp; omega)]
  cases m2 with
  | mk a b c => simp only at hc hsl hfl; rw [hc, hsl, hfl]

/-- A successful `Reverse` had a tensor in every slot. -/
theorem reverse_full {m m' : FMps σ K} (h : m.reverse = .ok m') (hf : m.flags.length = m.slots.length) :
    ∃ ts : List (Ten σ K), m.slots = ts.map some := by
  by_contra hno
  -- some slot is empty
  have hex : ∃ j, j < m.size ∧ m.slots[j]? = some Option.none := by
    by_contra hn
    apply hno
    refine ⟨m.slots.filterMap id, ?_⟩
    have key : ∀ l : List (Option (Ten σ K)), (∀ o ∈ l, o ≠ Option.none) → l = (l.filterMap id).map some := by
      intro l
      induction l with
      | nil => intro _; rfl
      | cons o l ih =>
        intro ho
        match o, ho o (by simp) with
        | some t, _ =>
          simp
          simpa using ih (fun o h => ho o (by simp [h]))
    apply key
    intro o ho e
    subst e
    obtain ⟨j, hj, hx⟩ := List.mem_iff_getElem.mp ho
    exact hn ⟨j, hj, by simp [← hx]⟩
  obtain ⟨j, hj, hx⟩ := hex
  unfold FMps.reverse at h
  have hhalf : (if m.size % 2 = 0 then m.size / 2 else (m.size - 1) / 2) = m.size / 2 := by
    split <;> omega
  rw [hhalf] at h
  obtain ⟨m1, e1, s1, f1, -, j1⟩ := swapLoop m hf (m.size / 2) (by omega)
  rw [e1] at h
  simp only at h
  -- the empty slot ends up somewhere and the transposition loop meets it
  have hk : ∃ k, k < m1.size ∧ m1.slots[k]? = some Option.none := by
    by_cases c : j < m.size / 2 ∨ m.size - m.size / 2 ≤ j
    · refine ⟨m.size - 1 - j, by omega, ?_⟩
      rw [j1 _ (by omega)]
      rw [if_pos (by omega), show m.size - 1 - (m.size - 1 - j) = j by omega, hx]
    · refine ⟨j, by omega, ?_⟩
      rw [j1 j hj, if_neg c, hx]
  obtain ⟨k, hk, hkx⟩ := hk
  have bad : ∀ (l : List Nat) (m1 m2 : FMps σ K), m1.slots[k]? = some Option.none → k ∈ l →
      l.foldlM FMps.trStep m1 ≠ .ok m2 := by
    intro l
    induction l with
    | nil => intro _ _ _ h; simp at h
    | cons i l ih =>
      intro m1 m2 h1 h2 h3
      rw [List.foldlM_cons] at h3
      cases hst : m1.trStep i with
      | error e => rw [hst] at h3; cases h3
      | ok m3 =>
        rw [hst] at h3
        by_cases c : i = k
        · subst c; unfold FMps.trStep at hst; rw [h1] at hst; cases hst
        · refine ih m3 m2 ?_ (by simpa [Ne.symm c] using h2) h3
          unfold FMps.trStep at hst
          split at hst
          · cases hst
            show (m1.slots.set i _)[k]? = _
            rw [List.getElem?_set_ne c, h1]
          · cases hst
  cases hfold : (List.range m1.size).foldlM FMps.trStep m1 with
  | error e => rw [hfold] at h; cases h
  | ok m2 => exact bad _ m1 m2 hkx (by simpa using hk) hfold

/-! ### Truthful flags -/

variable [StarRing K] [Fintype σ]

/-- Whatever a flag claims about the tensor in its slot is true. -/
def Truthful (m : FMps σ K) : Prop :=
  ∀ (i : Nat) (t : Ten σ K), m.slots[i]? = some (some t) →
    (m.flags[i]? = some .left → LeftIso t) ∧ (m.flags[i]? = some .right → RightIso t)

theorem truthful_fresh (n : Nat) : Truthful (FMps.fresh n : FMps σ K) := by
  intro i t h
  simp only [FMps.fresh, List.getElem?_replicate] at h
  split at h <;> simp at h

theorem set_none_ne {fl : List Cano} {i : Nat} {c : Cano} (hc : c ≠ .none) :
    (fl.set i .none)[i]? ≠ some c := by
  rw [List.getElem?_set, if_pos rfl]
  split
  · intro h; simp at h; exact hc h.symm
  · simp

theorem truthful_write {m m' : FMps σ K} {i : Nat} {t : Ten σ K} (hm : Truthful m)
    (h : m.write i t = .ok m') : Truthful m' := by
  unfold FMps.write at h
  split at h
  · cases h
    intro j u hu
    by_cases c : i = j
    · subst c
      exact ⟨fun h => absurd h (set_none_ne (by simp)), fun h => absurd h (set_none_ne (by simp))⟩
    · simp only [List.getElem?_set_ne c] at hu ⊢
      exact hm j u hu
  · cases h

theorem truthful_touch {m m' : FMps σ K} {i : Nat} (hm : Truthful m)
    (h : m.touch i = .ok m') : Truthful m' := by
  unfold FMps.touch at h
  split at h
  · cases h
  · cases h
    intro j u hu
    by_cases c : i = j
    · subst c
      exact ⟨fun h => absurd h (set_none_ne (by simp)), fun h => absurd h (set_none_ne (by simp))⟩
    · simp only [List.getElem?_set_ne c] at hu ⊢
      exact hm j u hu
  · cases h
    intro j u hu
    by_cases c : i = j
    · subst c
      exact ⟨fun h => absurd h (set_none_ne (by simp)), fun h => absurd h (set_none_ne (by simp))⟩
    · simp only [List.getElem?_set_ne c]
      exact hm j u hu

theorem truthful_dealloc {m m' : FMps σ K} {i : Nat} (hm : Truthful m)
    (h : m.dealloc i = .ok m') : Truthful m' := by
  unfold FMps.dealloc at h
  split at h
  · cases h
    intro j u hu
    by_cases c : i = j
    · subst c
      simp only [List.getElem?_set] at hu
      simp at hu
    · simp only [List.getElem?_set_ne c] at hu
      exact hm j u hu
  · cases h

variable {qr svd : Ten σ K → Ten σ K × Mat K}

theorem truthful_leftTen (H : QRSpec qr) (m : FMps σ K) (i : Nat) (m' : FMps σ K) (hm : Truthful m)
    (h : m.leftTen qr i = .ok m') : Truthful m' := by
  unfold FMps.leftTen at h
  split at h
  · split at h
    · rename_i t u h0 h1
      split at h
      · cases h
        intro j w hw
        simp only at hw ⊢
        by_cases c1 : i + 1 = j
        · subst c1
          exact ⟨fun h => absurd h (set_none_ne (by simp)), fun h => absurd h (set_none_ne (by simp))⟩
        · rw [List.getElem?_set_ne c1] at hw ⊢
          by_cases c2 : i = j
          · subst c2
            rw [List.getElem?_set, if_pos rfl] at hw ⊢
            refine ⟨fun _ => ?_, fun h => ?_⟩
            · split at hw
              · simp at hw; subst hw; exact H.iso t
              · cases hw
            · split at h <;> simp at h
          · rw [List.getElem?_set_ne c2] at hw ⊢
            exact hm j w hw
      · cases h
    · cases h
  · cases h

theorem truthful_rightTen_iso (H : ∀ t, LeftIso (qr t).1) (H' : ∀ t, RightIso (svd t).1) (b : Bool) (m : FMps σ K)
    (i : Nat) (m' : FMps σ K) (hm : Truthful m) (h : m.rightTen qr svd b i = .ok m') : Truthful m' := by
  unfold FMps.rightTen at h
  split at h
  · cases h
  · rename_i i
    have gen : ∀ (t u : Ten σ K), RightIso u →
        Truthful (⟨(m.slots.set i (some t)).set (i + 1) (some u),
          (m.flags.set i .none).set (i + 1) .right, -1⟩ : FMps σ K) := by
      intro t u hu j w hw
      simp only at hw ⊢
      by_cases c1 : i + 1 = j
      · subst c1
        rw [List.getElem?_set, if_pos rfl] at hw ⊢
        refine ⟨fun h => ?_, fun _ => ?_⟩
        · split at h <;> simp at h
        · split at hw
          · simp at hw; subst hw; exact hu
          · cases hw
      · rw [List.getElem?_set_ne c1] at hw ⊢
        by_cases c2 : i = j
        · subst c2
          exact ⟨fun h => absurd h (set_none_ne (by simp)), fun h => absurd h (set_none_ne (by simp))⟩
        · rw [List.getElem?_set_ne c2] at hw ⊢
          exact hm j w hw
    split at h
    · split at h
      · split at h
        · cases h; exact gen _ _ (H' _)
        · cases h; exact gen _ _ (rightIso_tr (H _))
      · cases h
    · cases h

theorem truthful_rightTen (H : QRSpec qr) (H' : SVDSpec svd) (b : Bool) (m : FMps σ K) (i : Nat)
    (m' : FMps σ K) (hm : Truthful m) (h : m.rightTen qr svd b i = .ok m') : Truthful m' :=
  truthful_rightTen_iso H.iso H'.iso b m i m' hm h

theorem truthful_leftCanon (H : QRSpec qr) {m m' : FMps σ K} {s : Nat} (hm : Truthful m)
    (h : m.leftCanon qr s = .ok m') : Truthful m' := by
  unfold FMps.leftCanon at h
  split at h
  · cases h
  · cases h; exact hm
  · exact foldlM_inv (fun a b a' => truthful_leftTen H a b a') _ _ _ hm h

theorem truthful_rightCanon (H : QRSpec qr) (H' : SVDSpec svd) {m m' : FMps σ K} {s : Nat} (hm : Truthful m)
    (h : m.rightCanon qr svd s = .ok m') : Truthful m' := by
  unfold FMps.rightCanon at h
  split at h
  · split at h
    · cases h
    · cases h; exact hm
    · exact foldlM_inv (fun a b a' => truthful_rightTen H H' false a b a') _ _ _ hm h
  · cases h

theorem truthful_centralize (H : QRSpec qr) (H' : SVDSpec svd) {m m' : FMps σ K} {t : Int} (hm : Truthful m)
    (h : m.centralize qr svd t = .ok m') : Truthful m' := by
  unfold FMps.centralize at h
  split at h
  · cases h
  · split at h
    · cases h
    · rename_i m1 h1
      have i1 : Truthful m1 := by
        unfold FMps.centL at h1
        split at h1
        · exact truthful_leftCanon H hm h1
        · cases h1; exact hm
      split at h
      · cases h
      · rename_i m2 h2
        have i2 : Truthful m2 := by
          unfold FMps.centR at h2
          split at h2
          · exact truthful_rightCanon H H' i1 h2
          · cases h2; exact i1
        cases h
        exact i2

theorem truthful_alloc {m m' : FMps σ K} {i : Nat} (hm : Truthful m)
    (h : m.alloc i = .ok m') : Truthful m' := by
  unfold FMps.alloc at h
  split at h
  · cases h
    intro j u hu
    by_cases c : i = j
    · subst c
      simp only [List.getElem?_set] at hu
      simp at hu
      obtain ⟨-, rfl⟩ := hu
      exact ⟨fun _ x hx => absurd hx (by simp), fun _ x hx => absurd hx (by simp)⟩
    · simp only [List.getElem?_set_ne c] at hu
      exact hm j u hu
  · cases h

/-! ### Histories -/

/-- The call is not `LoadTen`. -/
def Call.noLoad : Call σ K → Prop
  | .load _ _ => False
  | _ => True

omit [StarRing K] [Fintype σ] in
theorem size_leftTen (n : Nat) (m : FMps σ K) (i : Nat) (m' : FMps σ K) (hm : m.size = n)
    (h : m.leftTen qr i = .ok m') : m'.size = n := by
  unfold FMps.leftTen at h
  split at h
  · split at h
    · split at h
      · cases h; simpa [FMps.size] using hm
      · cases h
    · cases h
  · cases h

omit [StarRing K] [Fintype σ] in
theorem size_rightTen (n : Nat) (b : Bool) (m : FMps σ K) (i : Nat) (m' : FMps σ K) (hm : m.size = n)
    (h : m.rightTen qr svd b i = .ok m') : m'.size = n := by
  unfold FMps.rightTen at h
  split at h
  · cases h
  · split at h
    · split at h
      · split at h
        · cases h; simpa [FMps.size] using hm
        · cases h; simpa [FMps.size] using hm
      · cases h
    · cases h

omit [StarRing K] [Fintype σ] in
theorem size_leftCanon {n s : Nat} {m m' : FMps σ K} (hm : m.size = n) (h : m.leftCanon qr s = .ok m') :
    m'.size = n := by
  unfold FMps.leftCanon at h
  split at h
  · cases h
  · cases h; exact hm
  · exact foldlM_inv (fun a b a' => size_leftTen n a b a') _ _ _ hm h

omit [StarRing K] [Fintype σ] in
theorem size_rightCanon {n s : Nat} {m m' : FMps σ K} (hm : m.size = n)
    (h : m.rightCanon qr svd s = .ok m') : m'.size = n := by
  unfold FMps.rightCanon at h
  split at h
  · split at h
    · cases h
    · cases h; exact hm
    · exact foldlM_inv (fun a b a' => size_rightTen n false a b a') _ _ _ hm h
  · cases h

omit [StarRing K] [Fintype σ] in
theorem size_centralize {n : Nat} {t : Int} {m m' : FMps σ K} (hm : m.size = n)
    (h : m.centralize qr svd t = .ok m') : m'.size = n := by
  unfold FMps.centralize at h
  split at h
  · cases h
  · split at h
    · cases h
    · rename_i m1 h1
      have i1 : m1.size = n := by
        unfold FMps.centL at h1
        split at h1
        · exact size_leftCanon hm h1
        · cases h1; exact hm
      split at h
      · cases h
      · rename_i m2 h2
        have i2 : m2.size = n := by
          unfold FMps.centR at h2
          split at h2
          · exact size_rightCanon i1 h2
          · cases h2; exact i1
        cases h
        exact i2

omit [StarRing K] [Fintype σ] in
/-- `Reverse` from a reachable state: what it returns. -/
theorem reverse_cases {m m' : FMps σ K} (hi : Inv m) (h : m.reverse = .ok m') :
    m'.size = m.size ∧ (m.slots = [] ∧ m'.slots = [] ∧ m'.flags = [] ∨
      m'.flags = List.replicate m.size .none ∧ m'.center = -1) := by
  obtain ⟨ts, hts⟩ := reverse_full h hi.flen
  have hf : m.flags.length = ts.length := by rw [hi.flen, hts]; simp
  by_cases hne : ts = []
  · subst hne
    have hfl : m.flags = [] := by simpa using hf
    have hsl : m.slots = [] := by simpa using hts
    unfold FMps.reverse at h
    have : m.size = 0 := by simp [FMps.size, hsl]
    simp only [this] at h
    have e : m' = m.mirror := by
      have h' : (.ok (m.mirror) : Except Err (FMps σ K)) = .ok m' := by
        simpa [FMps.size, hsl, pure, Except.pure] using h
      cases h'; rfl
    subst e
    unfold FMps.mirror
    split
    · exact ⟨rfl, Or.inl ⟨hsl, hsl, by simp [hfl]⟩⟩
    · exact ⟨rfl, Or.inl ⟨hsl, hsl, hfl⟩⟩
  · rw [reverse_rep hts hf hne] at h
    cases h
    have : m.size = ts.length := by simp [FMps.size, hts]
    exact ⟨by simp [FMps.size, hts], Or.inr ⟨by simp [this], rfl⟩⟩

omit [StarRing K] [Fintype σ] in
theorem inv_reverse {m m' : FMps σ K} (hi : Inv m) (h : m.reverse = .ok m') : Inv m' := by
  obtain ⟨hs, h | ⟨h1, -⟩⟩ := reverse_cases hi h
  · exact ⟨by simp [h.2.1, h.2.2], by simp [h.2.2], by simp [h.2.2]⟩
  · refine ⟨by rw [h1, List.length_replicate]; exact hs.symm, ?_, ?_⟩
    · intro i hx
      rw [h1, List.getElem?_replicate] at hx
      split at hx <;> simp at hx
    · rw [h1, List.getElem?_replicate]; split <;> simp

theorem truthful_reverse {m m' : FMps σ K} (hi : Inv m) (h : m.reverse = .ok m') : Truthful m' := by
  obtain ⟨hs, h | ⟨h1, -⟩⟩ := reverse_cases hi h
  · intro i t ht; simp [h.2.1] at ht
  · intro i t _
    rw [h1, List.getElem?_replicate]
    refine ⟨fun h => ?_, fun h => ?_⟩
    · split at h <;> simp at h
    · split at h <;> simp at h

omit [StarRing K] [Fintype σ] in
theorem call_inv {n : Nat} (m : FMps σ K) (c : Call σ K) (m' : FMps σ K) (hm : Inv m ∧ m.size = n)
    (h : m.call qr svd c = .ok m') : Inv m' ∧ m'.size = n := by
  obtain ⟨hi, hn⟩ := hm
  cases c with
  | write i t =>
    refine ⟨inv_write hi h, ?_⟩
    simp only [FMps.call, FMps.write] at h; split at h <;> cases h; simpa [FMps.size] using hn
  | touch i =>
    refine ⟨inv_touch hi h, ?_⟩
    simp only [FMps.call, FMps.touch] at h; split at h <;> cases h <;> simpa [FMps.size] using hn
  | leftTen i => exact ⟨inv_leftTen _ _ _ hi h, size_leftTen _ _ _ _ hn h⟩
  | rightTen i b => exact ⟨inv_rightTen _ _ _ _ hi h, size_rightTen _ _ _ _ _ hn h⟩
  | left s => exact ⟨inv_leftCanon hi h, size_leftCanon hn h⟩
  | right s => exact ⟨inv_rightCanon hi h, size_rightCanon hn h⟩
  | centralize t => exact ⟨inv_centralize hi h, size_centralize hn h⟩
  | reverse => exact ⟨inv_reverse hi h, (reverse_cases hi h).1.trans hn⟩
  | load i t =>
    refine ⟨inv_load hi h, ?_⟩
    simp only [FMps.call, FMps.load] at h; split at h <;> cases h; simpa [FMps.size] using hn
  | alloc i =>
    refine ⟨inv_alloc hi h, ?_⟩
    simp only [FMps.call, FMps.alloc] at h; split at h <;> cases h; simpa [FMps.size] using hn
  | dealloc i =>
    refine ⟨inv_dealloc hi h, ?_⟩
    simp only [FMps.call, FMps.dealloc] at h; split at h <;> cases h; simpa [FMps.size] using hn

omit [StarRing K] [Fintype σ] in
theorem history_inv {n : Nat} {cs : List (Call σ K)} {m : FMps σ K} (h : FMps.history qr svd n cs = .ok m) :
    Inv m ∧ m.size = n :=
  foldlM_inv (P := fun m : FMps σ K => Inv m ∧ m.size = n) (fun a b a' => call_inv a b a') cs _ _
    ⟨inv_fresh n, by simp [FMps.size, FMps.fresh]⟩ h

theorem call_truthful (H : QRSpec qr) (H' : SVDSpec svd) (m : FMps σ K) (c : Call σ K) (m' : FMps σ K)
    (hc : c.noLoad) (hm : Inv m ∧ Truthful m) (h : m.call qr svd c = .ok m') : Inv m' ∧ Truthful m' := by
  refine ⟨(call_inv (n := m.size) m c m' ⟨hm.1, rfl⟩ h).1, ?_⟩
  obtain ⟨hi, ht⟩ := hm
  cases c with
  | write i t => exact truthful_write ht h
  | touch i => exact truthful_touch ht h
  | leftTen i => exact truthful_leftTen H _ _ _ ht h
  | rightTen i b => exact truthful_rightTen H H' _ _ _ _ ht h
  | left s => exact truthful_leftCanon H ht h
  | right s => exact truthful_rightCanon H H' ht h
  | centralize t => exact truthful_centralize H H' ht h
  | reverse => exact truthful_reverse hi h
  | load i t => exact hc.elim
  | alloc i => exact truthful_alloc ht h
  | dealloc i => exact truthful_dealloc ht h

theorem foldlM_inv_mem {α β : Type} {ε : Type} {f : α → β → Except ε α} {P : α → Prop} :
    ∀ (l : List β) (a a' : α), (∀ a b a', b ∈ l → P a → f a b = .ok a' → P a') → P a →
      l.foldlM f a = .ok a' → P a' := by
  intro l
  induction l with
  | nil => intro a a' _ ha h; simp [pure, Except.pure] at h; exact h ▸ ha
  | cons b l ih =>
    intro a a' hf ha h
    rw [List.foldlM_cons] at h
    cases hb : f a b with
    | error e => rw [hb] at h; cases h
    | ok a1 =>
      rw [hb] at h
      exact ih a1 a' (fun a b a' hm => hf a b a' (by simp [hm])) (hf a b a1 (by simp) ha hb) h

theorem history_truthful (H : QRSpec qr) (H' : SVDSpec svd) {n : Nat} {cs : List (Call σ K)} {m : FMps σ K}
    (hc : ∀ c ∈ cs, c.noLoad) (h : FMps.history qr svd n cs = .ok m) : Truthful m :=
  (foldlM_inv_mem (P := fun m : FMps σ K => Inv m ∧ Truthful m) cs _ _
    (fun a b a' hb => call_truthful H H' a b a' (hc b hb)) ⟨inv_fresh n, truthful_fresh n⟩ h).2

end
end Verif.Mps
