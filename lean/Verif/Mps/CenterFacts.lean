import Verif.Mps.RevFacts
import Verif.Mps.MeasureFacts
/-
The centre an MPS or MPO reports: whenever a call succeeds and leaves a centre, the flags around it are the
mixed-canonical ones. Unlike the lemmas of FmpsFacts nothing is assumed about the tensors.
-/
namespace Verif.Mps
variable {σ K : Type} [CommRing K] {qr svd : Ten σ K → Ten σ K × Mat K}

theorem leftTen_flags {m m' : FMps σ K} {i : Nat} (h : m.leftTen qr i = .ok m') :
    i + 1 < m.size ∧ m'.flags = (m.flags.set i .left).set (i + 1) .none ∧ m'.center = -1 ∧ m'.size = m.size := by
  unfold FMps.leftTen at h
  split at h
  · next hi =>
    split at h
    · split at h
      · cases h; exact ⟨hi, rfl, rfl, by simp [FMps.size]⟩
      · cases h
    · cases h
  · cases h

theorem rightTen_flags {b : Bool} {m m' : FMps σ K} {i : Nat} (h : m.rightTen qr svd b i = .ok m') :
    0 < i ∧ i < m.size ∧ m'.flags = (m.flags.set (i - 1) .none).set i .right ∧ m'.center = -1 ∧ m'.size = m.size := by
  unfold FMps.rightTen at h
  split at h
  · cases h
  · next i =>
    split at h
    · next hu =>
      have hi : i + 1 < m.size := (List.getElem?_eq_some_iff.mp hu).1
      split at h
      · split at h
        · cases h; exact ⟨by omega, hi, rfl, rfl, by simp [FMps.size]⟩
        · cases h; exact ⟨by omega, hi, rfl, rfl, by simp [FMps.size]⟩
      · cases h
    · cases h

theorem foldlM_cons_inv {α β ε : Type} {f : α → β → Except ε α} {a a' : α} {b : β} {l : List β}
    (h : (b :: l).foldlM f a = .ok a') : ∃ a1, f a b = .ok a1 ∧ l.foldlM f a1 = .ok a' := by
  rw [List.foldlM_cons] at h
  cases e : f a b with
  | error x => rw [e] at h; cases h
  | ok a1 => rw [e] at h; exact ⟨a1, rfl, h⟩

theorem leftLoop_flags : ∀ (n i : Nat) (m m' : FMps σ K), m.flags.length = m.size →
    (List.range' i n).foldlM (FMps.leftTen qr) m = .ok m' →
    (n ≠ 0 → i + n < m.size ∧ m'.center = -1) ∧ m'.size = m.size ∧ m'.flags.length = m.size ∧
      (∀ j, j < m.size → m'.flags[j]? =
        if i ≤ j ∧ j < i + n then some .left else if j = i + n ∧ n ≠ 0 then some .none else m.flags[j]?)
  | 0, i, m, m', hf, h => by
    simp [pure, Except.pure] at h
    subst h
    refine ⟨by simp, rfl, hf, fun j _ => ?_⟩
    rw [if_neg (by omega), if_neg (by omega)]
  | n + 1, i, m, m', hf, h => by
    rw [List.range'_succ] at h
    obtain ⟨m1, e1, h⟩ := foldlM_cons_inv h
    obtain ⟨a1, a2, a3, a4⟩ := leftTen_flags e1
    obtain ⟨b1, b2, b3, b4⟩ := leftLoop_flags n (i + 1) m1 m' (by rw [a2, a4]; simpa using hf) h
    refine ⟨fun _ => ⟨?_, ?_⟩, by rw [b2, a4], by rw [b3, a4], fun j hj => ?_⟩
    · by_cases c : n = 0
      · omega
      · have := (b1 c).1; rw [a4] at this; omega
    · by_cases c : n = 0
      · subst c; simp [pure, Except.pure] at h; rw [← h, a3]
      · exact (b1 c).2
    · rw [b4 j (by rw [a4]; exact hj), a2]
      by_cases c1 : i + 1 ≤ j ∧ j < i + 1 + n
      · rw [if_pos c1, if_pos (by omega)]
      · rw [if_neg c1]
        by_cases c2 : j = i + 1 + n ∧ n ≠ 0
        · rw [if_pos c2, if_neg (by omega), if_pos (by omega)]
        · rw [if_neg c2, List.getElem?_set, List.length_set]
          by_cases c3 : i + 1 = j
          · rw [if_pos c3, if_pos (by omega), if_neg (by omega), if_pos (by omega)]
          · rw [if_neg c3, List.getElem?_set]
            by_cases c4 : i = j
            · rw [if_pos c4, if_pos (by omega), if_pos (by omega)]
            · rw [if_neg c4, if_neg (by omega), if_neg (by omega)]

theorem rightLoop_flags {b : Bool} : ∀ (n i : Nat) (m m' : FMps σ K), m.flags.length = m.size →
    (List.range' (i + 1) n).reverse.foldlM (FMps.rightTen qr svd b) m = .ok m' →
    (n ≠ 0 → i + n < m.size ∧ m'.center = -1) ∧ m'.size = m.size ∧ m'.flags.length = m.size ∧
      (∀ j, j < m.size → m'.flags[j]? =
        if i + 1 ≤ j ∧ j < i + 1 + n then some .right
        else if j = i ∧ n ≠ 0 then some .none else m.flags[j]?)
  | 0, i, m, m', hf, h => by
    simp [pure, Except.pure] at h
    subst h
    refine ⟨by simp, rfl, hf, fun j _ => ?_⟩
    rw [if_neg (by omega), if_neg (by omega)]
  | n + 1, i, m, m', hf, h => by
    rw [range'_rev_succ] at h
    obtain ⟨m1, e1, h⟩ := foldlM_cons_inv h
    obtain ⟨a0, a1, a2, a3, a4⟩ := rightTen_flags e1
    obtain ⟨b1, b2, b3, b4⟩ := rightLoop_flags n i m1 m' (by rw [a2, a4]; simpa using hf) h
    refine ⟨fun _ => ⟨by omega, ?_⟩, by rw [b2, a4], by rw [b3, a4], fun j hj => ?_⟩
    · by_cases c : n = 0
      · subst c; simp [pure, Except.pure] at h; rw [← h, a3]
      · exact (b1 c).2
    · rw [b4 j (by rw [a4]; exact hj), a2]
      by_cases c1 : i + 1 ≤ j ∧ j < i + 1 + n
      · rw [if_pos c1, if_pos (by omega)]
      · rw [if_neg c1]
        by_cases c2 : j = i ∧ n ≠ 0
        · rw [if_pos c2, if_neg (by omega), if_pos (by omega)]
        · rw [if_neg c2, List.getElem?_set, List.length_set]
          by_cases c3 : i + 1 + n = j
          · rw [if_pos c3, if_pos (by omega), if_pos (by omega)]
          · rw [if_neg c3, List.getElem?_set]
            by_cases c4 : i + 1 + n - 1 = j
            · rw [if_pos c4, if_pos (by omega), if_neg (by omega), if_pos (by omega)]
            · rw [if_neg c4, if_neg (by omega), if_neg (by omega)]

/-- The search of `LeftCanonicalize` in any list of flags. -/
theorem scanL_any (fl : List Cano) : ∀ (n i : Nat) (r : Option Nat), scanL fl n i = .ok r →
    (r = Option.none ∧ ∀ j, i ≤ j → j ≤ i + n → fl[j]? = some .left) ∨
    (∃ k, r = some k ∧ i ≤ k ∧ k ≤ i + n ∧ ∀ j, i ≤ j → j < k → fl[j]? = some .left)
  | n, i, r, h => by
    unfold scanL at h
    split at h
    · cases h
    · next hx =>
      cases n with
      | zero =>
        simp only at h; cases h
        left
        refine ⟨rfl, fun j h1 h2 => ?_⟩
        rw [show j = i by omega, hx]
      | succ n =>
        simp only at h
        rcases scanL_any fl n (i + 1) r h with ⟨h1, h2⟩ | ⟨k, h1, h2, h3, h4⟩
        · left
          refine ⟨h1, fun j g1 g2 => ?_⟩
          by_cases c : j = i
          · rw [c, hx]
          · exact h2 j (by omega) (by omega)
        · right
          refine ⟨k, h1, by omega, by omega, fun j g1 g2 => ?_⟩
          by_cases c : j = i
          · rw [c, hx]
          · exact h4 j (by omega) (by omega)
    · cases h
      right
      exact ⟨i, rfl, by omega, by omega, by omega⟩

theorem leftCanon_flags {m m' : FMps σ K} {s : Nat} (hf : m.flags.length = m.size) (h : m.leftCanon qr s = .ok m') :
    m'.size = m.size ∧ m'.flags.length = m.size ∧ (∀ j, j ≤ s → m'.flags[j]? = some .left) ∧
      (∀ j, s + 1 < j → j < m.size → m'.flags[j]? = m.flags[j]?) ∧
      (m' = m ∨ m'.flags[s + 1]? = some .none ∧ m'.center = -1) := by
  unfold FMps.leftCanon at h
  cases e : scanL m.flags s 0 with
  | error x => rw [e] at h; cases h
  | ok r =>
    rw [e] at h
    rcases scanL_any m.flags s 0 r e with ⟨rfl, h2⟩ | ⟨k, rfl, h1, h2, h3⟩
    · simp only at h
      cases h
      exact ⟨rfl, hf, fun j hj => h2 j (by omega) (by omega), fun _ _ _ => rfl, Or.inl rfl⟩
    · simp only at h
      obtain ⟨b1, b2, b3, b4⟩ := leftLoop_flags (s + 1 - k) k m m' hf h
      obtain ⟨c1, c2⟩ := b1 (by omega)
      refine ⟨b2, b3, fun j hj => ?_, fun j hj hj' => ?_, Or.inr ⟨?_, c2⟩⟩
      · rw [b4 j (by omega)]
        by_cases c : k ≤ j
        · rw [if_pos (by omega)]
        · rw [if_neg (by omega), if_neg (by omega)]; exact h3 j (by omega) (by omega)
      · rw [b4 j hj', if_neg (by omega), if_neg (by omega)]
      · rw [b4 (s + 1) (by omega), if_neg (by omega), if_pos (by omega)]

theorem rightCanon_flags {m m' : FMps σ K} {s : Nat} (hf : m.flags.length = m.size)
    (h : m.rightCanon qr svd (s + 1) = .ok m') :
    m'.size = m.size ∧ m'.flags.length = m.size ∧ (∀ j, s < j → j < m.size → m'.flags[j]? = some .right) ∧
      (∀ j, j < s → m'.flags[j]? = m.flags[j]?) ∧
      (m' = m ∨ m'.flags[s]? = some .none ∧ m'.center = -1) := by
  unfold FMps.rightCanon at h
  split at h
  · next hs =>
    have hsc := scanR_spec m.flags (m.size - 1 - (s + 1)) (s + 1) (by omega)
    rw [show s + 1 + (m.size - 1 - (s + 1)) = m.size - 1 by omega] at hsc
    rcases hsc with ⟨h1, h2⟩ | ⟨k, h1, h2, h3, h4, h5⟩
    · rw [h1] at h
      simp only at h
      cases h
      exact ⟨rfl, hf, fun j hj hj' => h2 j (by omega) (by omega), fun _ _ => rfl, Or.inl rfl⟩
    · rw [h1] at h
      simp only at h
      rw [show k + 1 - (s + 1) = k - s by omega] at h
      obtain ⟨b1, b2, b3, b4⟩ := rightLoop_flags (k - s) s m m' hf h
      obtain ⟨c1, c2⟩ := b1 (by omega)
      refine ⟨b2, b3, fun j hj hj' => ?_, fun j hj => ?_, Or.inr ⟨?_, c2⟩⟩
      · rw [b4 j hj']
        by_cases c : j ≤ k
        · rw [if_pos (by omega)]
        · rw [if_neg (by omega), if_neg (by omega)]; exact h5 j (by omega) (by omega)
      · rw [b4 j (by omega), if_neg (by omega), if_neg (by omega)]
      · rw [b4 s (by omega), if_neg (by omega), if_pos (by omega)]
  · cases h

/-- The two halves of `Centralize` leave the mixed-canonical flags. -/
theorem centHalves_flags {qr2 : Ten σ K → Ten σ K × Mat K} {m m1 m2 : FMps σ K} {t : Nat} (hi : Inv m)
    (h1 : m.centL qr t = .ok m1) (h2 : m1.centR qr2 svd t = .ok m2) :
    t < m.size ∧ m2.size = m.size ∧ ∀ j, j < m.size → m2.flags[j]? =
      some (if j < t then .left else if t < j then .right else .none) := by
  have hf : m.flags.length = m.size := hi.flen
  have A : m1.size = m.size ∧ m1.flags.length = m.size ∧ (∀ j, j < t → m1.flags[j]? = some .left) ∧
      (∀ j, t < j → j < m.size → m1.flags[j]? = m.flags[j]?) ∧ (m1 = m ∨ m1.flags[t]? = some .none) := by
    unfold FMps.centL at h1
    split at h1
    · next ht =>
      obtain ⟨a1, a2, a3, a4, a5⟩ := leftCanon_flags hf h1
      rw [show t - 1 + 1 = t by omega] at a4 a5
      exact ⟨a1, a2, fun j hj => a3 j (by omega), a4, a5.imp id And.left⟩
    · next ht =>
      cases h1
      exact ⟨rfl, hf, fun j hj => by omega, fun _ _ _ => rfl, Or.inl rfl⟩
  obtain ⟨a1, a2, a3, a4, a5⟩ := A
  have B : t < m.size ∧ m2.size = m.size ∧ (∀ j, t < j → j < m.size → m2.flags[j]? = some .right) ∧
      (∀ j, j < t → m2.flags[j]? = m1.flags[j]?) ∧ (m2 = m1 ∨ m2.flags[t]? = some .none) := by
    unfold FMps.centR at h2
    split at h2
    · next ht =>
      have hts : t + 1 < m1.size := by
        unfold FMps.rightCanon at h2
        split at h2
        · next h => exact h
        · cases h2
      obtain ⟨b1, b2, b3, b4, b5⟩ := rightCanon_flags (by rw [a2, a1]) h2
      exact ⟨by omega, by rw [b1, a1], fun j h h' => b3 j h (by omega), b4, b5.imp id And.left⟩
    · next ht =>
      cases h2
      have ht' : t + 1 = m1.size := by simpa using ht
      exact ⟨by omega, a1, fun j h h' => by omega, fun _ _ => rfl, Or.inl rfl⟩
  obtain ⟨b0, b1, b2, b3, b4⟩ := B
  refine ⟨b0, b1, fun j hj => ?_⟩
  by_cases c1 : j < t
  · rw [if_pos c1, b3 j c1, a3 j c1]
  · rw [if_neg c1]
    by_cases c2 : t < j
    · rw [if_pos c2, b2 j c2 hj]
    · rw [if_neg c2]
      have hjt : j = t := by omega
      subst hjt
      rcases b4 with b4 | b4
      · rcases a5 with a5 | a5
        · subst b4 a5
          have hne : m2.flags[j]? ≠ Option.none := by simp [hf]; omega
          rcases cano_cases _ hne with h | h | h
          · exfalso
            have := hi.left j h
            by_cases c3 : j + 1 < m2.size
            · rw [b2 (j + 1) (by omega) c3] at this; simp at this
            · rw [List.getElem?_eq_none (by omega)] at this; simp at this
          · exact h
          · exfalso
            by_cases c3 : j = 0
            · subst c3; exact hi.zero h
            · have h' := a3 (j - 1) (by omega)
              have := hi.left (j - 1) h'
              rw [show j - 1 + 1 = j by omega, h] at this; simp at this
        · rw [b4, a5]
      · exact b4

/-- A centre, if reported, is a site and the flags around it are the mixed-canonical ones. -/
def Centred (m : FMps σ K) : Prop :=
  m.center = -1 ∨ ∃ c : Nat, c < m.size ∧ m.center = (c : Int) ∧ ∀ j, j < m.size → m.flags[j]? =
    some (if j < c then .left else if c < j then .right else .none)

theorem centred_centralize {m m' : FMps σ K} {t : Int} (hi : Inv m) (h : m.centralize qr svd t = .ok m') :
    Centred m' ∧ m'.center = t := by
  unfold FMps.centralize at h
  split at h
  · cases h
  · next ht =>
    cases e1 : m.centL qr t.toNat with
    | error x => rw [e1] at h; cases h
    | ok m1 =>
      rw [e1] at h
      simp only at h
      cases e2 : m1.centR qr svd t.toNat with
      | error x => rw [e2] at h; cases h
      | ok m2 =>
        rw [e2] at h
        simp only at h
        cases h
        obtain ⟨a, b, c⟩ := centHalves_flags hi e1 e2
        have b' : FMps.size { m2 with center := t } = m.size := b
        refine ⟨Or.inr ⟨t.toNat, by omega, ?_, fun j hj => c j (by omega)⟩, rfl⟩
        show t = _
        omega

theorem centred_of_none {m : FMps σ K} (h : m.center = -1) : Centred m := Or.inl h

theorem center_fold {α : Type} {f : FMps σ K → α → Except Err (FMps σ K)}
    (hf : ∀ m a m', f m a = .ok m' → m'.center = -1) : ∀ (l : List α) (m m' : FMps σ K), l ≠ [] →
    l.foldlM f m = .ok m' → m'.center = -1
  | [], _, _, h, _ => absurd rfl h
  | [a], m, m', _, h => by
    obtain ⟨m1, e, h⟩ := foldlM_cons_inv h
    simp [pure, Except.pure] at h; rw [← h]; exact hf _ _ _ e
  | a :: b :: l, m, m', _, h => by
    obtain ⟨m1, e, h⟩ := foldlM_cons_inv h
    exact center_fold hf (b :: l) m1 m' (by simp) h

theorem center_write {m m' : FMps σ K} {i : Nat} {t : Ten σ K} (h : m.write i t = .ok m') : m'.center = -1 := by
  unfold FMps.write at h
  split at h
  · cases h; rfl
  · cases h

theorem center_touch {m m' : FMps σ K} {i : Nat} (h : m.touch i = .ok m') : m'.center = -1 := by
  unfold FMps.touch at h
  split at h <;> cases h <;> rfl

theorem centred_keep {m m' : FMps σ K} (h : Centred m) (e1 : m'.center = m.center) (e2 : m'.flags = m.flags)
    (e3 : m'.size = m.size) : Centred m' := by
  rcases h with h | ⟨c, h1, h2, h3⟩
  · exact Or.inl (by rw [e1, h])
  · exact Or.inr ⟨c, by omega, by rw [e1, h2], fun j hj => by rw [e2]; exact h3 j (by omega)⟩

theorem centred_leftCanon {m m' : FMps σ K} {s : Nat} (hi : Inv m) (hc : Centred m) (h : m.leftCanon qr s = .ok m') :
    Centred m' := by
  rcases (leftCanon_flags hi.flen h).2.2.2.2 with e | e
  · rw [e]; exact hc
  · exact Or.inl e.2

theorem centred_rightCanon {m m' : FMps σ K} {s : Nat} (hi : Inv m) (hc : Centred m)
    (h : m.rightCanon qr svd s = .ok m') : Centred m' := by
  unfold FMps.rightCanon at h
  split at h
  · split at h
    · cases h
    · cases h; exact hc
    · next k hk =>
      by_cases c : (List.range' s (k + 1 - s)).reverse = []
      · rw [c] at h
        simp [pure, Except.pure] at h
        rw [← h]; exact hc
      · exact Or.inl (center_fold (fun m a m' e => (rightTen_flags e).2.2.2.1) _ _ _ c h)
  · cases h

theorem center_reverse {m m' : FMps σ K} (hc : m.size = 0 → m.center = -1) (h : m.reverse = .ok m') : m'.center = -1 := by
  unfold FMps.reverse at h
  split at h
  · cases h
  · next m1 e1 =>
    split at h
    · cases h
    · next m2 e2 =>
      cases h
      have sw : ∀ m i m', FMps.swapStep (σ := σ) (K := K) m i = .ok m' → m'.center = -1 ∧ m'.size = m.size := by
        intro m i m' e
        unfold FMps.swapStep at e
        split at e
        · cases e; exact ⟨rfl, by simp [FMps.size]⟩
        · cases e
      have st : ∀ m i m', FMps.trStep (σ := σ) (K := K) m i = .ok m' → m'.center = -1 := by
        intro m i m' e
        unfold FMps.trStep at e
        split at e
        · cases e; rfl
        · cases e
      have c2 : m2.center = -1 := by
        by_cases c : List.range m1.size = []
        · have hs0 : m1.size = 0 := by simpa using c
          rw [c] at e2
          simp [pure, Except.pure] at e2
          rw [← e2]
          have sz : m1.size = m.size := foldlM_inv (P := fun x => x.size = m.size)
            (fun a b a' ha e => by rw [(sw a b a' e).2, ha]) _ _ _ rfl e1
          have : m.size = 0 := by omega
          rw [this] at e1
          simp [pure, Except.pure] at e1
          rw [← e1]; exact hc this
        · exact center_fold st _ _ _ c e2
      unfold FMps.mirror
      rw [if_neg (by simp [c2])]
      exact c2

/-- Every call keeps the centre honest. -/
theorem centred_call {m m' : FMps σ K} {c : Call σ K} (hi : Inv m) (hc : Centred m)
    (h : m.call qr svd c = .ok m') : Centred m' := by
  cases c with
  | write i t => exact Or.inl (center_write h)
  | touch i => exact Or.inl (center_touch h)
  | leftTen i => exact Or.inl (leftTen_flags h).2.2.1
  | rightTen i b => exact Or.inl (rightTen_flags h).2.2.2.1
  | left s => exact centred_leftCanon hi hc h
  | right s => exact centred_rightCanon hi hc h
  | centralize t => exact (centred_centralize hi h).1
  | reverse =>
    refine Or.inl (center_reverse (fun h0 => ?_) h)
    rcases hc with hc | ⟨c, h1, -⟩
    · exact hc
    · omega
  | load i t =>
    simp only [FMps.call, FMps.load] at h
    split at h
    · cases h; exact centred_keep hc rfl rfl (by simp [FMps.size])
    · cases h
  | alloc i =>
    simp only [FMps.call, FMps.alloc] at h
    split at h
    · cases h; exact centred_keep hc rfl rfl (by simp [FMps.size])
    · cases h
  | dealloc i =>
    simp only [FMps.call, FMps.dealloc] at h
    split at h
    · cases h; exact centred_keep hc rfl rfl (by simp [FMps.size])
    · cases h

theorem history_centred {n : Nat} {cs : List (Call σ K)} {m : FMps σ K} (h : FMps.history qr svd n cs = .ok m) :
    Centred m := by
  have := foldlM_inv (P := fun m : FMps σ K => (Inv m ∧ m.size = n) ∧ Centred m) (f := FMps.call qr svd)
    (fun a b a' ha e => ⟨call_inv a b a' ha.1 e, centred_call ha.1.1 ha.2 e⟩) _ _ _
    ⟨⟨inv_fresh n, by simp [FMps.fresh, FMps.size]⟩, Or.inl rfl⟩ h
  exact this.2

end Verif.Mps
