import Verif.Mps.ExpMpo
import Verif.Props.VarProd
import Mathlib.Algebra.CharZero.Defs
/-
Lemmas for C68: the steps of the Taylor expansion of a `FiniteMPO`.
-/
namespace Verif.Props
open Verif.Mps Finset

/-! ### Histories made of assignments -/
section hist
variable {σ K : Type} [CommRing K] [Fintype σ] [DecidableEq σ] {N : Nat}

/-- The object can be produced by calls that keep the flags. -/
def Tracked (qr svd tsvd : Ten (σ × σ) K → Ten (σ × σ) K × Mat K) (nrm : Ten (σ × σ) K → K × Ten (σ × σ) K) (terr : Ten (σ × σ) K → K) (N : Nat)
    (m : FMpo σ K) : Prop :=
  ∃ cs, FMpo.history qr svd nrm tsvd terr N cs = .ok m ∧ (∀ c ∈ cs, ∀ d, c ≠ .loadDir d) ∧ (∀ c ∈ cs, ∀ k, c ≠ .allScale k)

variable {qr svd tsvd : Ten (σ × σ) K → Ten (σ × σ) K × Mat K} {nrm : Ten (σ × σ) K → K × Ten (σ × σ) K} {terr : Ten (σ × σ) K → K}

/-- A full object without flags and centre is the result of writing its tensors into a new object. -/
theorem tracked_plain {sl : List (Option (Ten (σ × σ) K))} {ts : List (Ten (σ × σ) K)} (hs : sl = ts.map some) (hp : 0 < ts.length) :
    Tracked qr svd tsvd nrm terr ts.length ⟨sl, List.replicate ts.length .none, -1⟩ := by
  subst hs
  let c (i : Nat) : MpoCall σ K := .write i (ts[i]?.getD ⟨0, 0, fun _ _ _ => 0⟩)
  refine ⟨(List.range ts.length).map c, ?_, ?_, ?_⟩
  · unfold FMpo.history
    rw [List.foldlM_map]
    have := fold_replace0 (f := fun m i => FMpo.call qr svd nrm tsvd terr m (c i)) (ws := ts.map some) (c := (FMpo.fresh ts.length : FMpo σ K))
      (by simp [FMpo.fresh, FMps.fresh]) (by simp [FMpo.fresh, FMps.fresh]) (by simp [FMpo.fresh, FMps.fresh]; omega) ?_
    · have hl : (FMpo.fresh ts.length : FMpo σ K).slots.length = ts.length := by simp [FMpo.fresh, FMps.fresh]
      rw [hl] at this
      exact this
    · intro c' i t w h1 h2 h3 h4
      rw [List.getElem?_map] at h4
      obtain ⟨w', hw', rfl⟩ := Option.map_eq_some_iff.mp h4
      show c'.write i (ts[i]?.getD _) = _
      rw [hw']
      unfold FMps.write
      exact if_pos (by rw [h1]; exact (List.getElem?_eq_some_iff.mp h3).1)
  · intro x hx d
    obtain ⟨i, -, rfl⟩ := List.mem_map.mp hx
    simp [c]
  · intro x hx d
    obtain ⟨i, -, rfl⟩ := List.mem_map.mp hx
    simp [c]

theorem Tracked.append {m m' : FMpo σ K} {c : MpoCall σ K} (h : Tracked qr svd tsvd nrm terr N m) (hc : FMpo.call qr svd nrm tsvd terr m c = .ok m')
    (h1 : ∀ d, c ≠ .loadDir d) (h2 : ∀ k, c ≠ .allScale k) : Tracked qr svd tsvd nrm terr N m' := by
  obtain ⟨cs, a, b, d⟩ := h
  refine ⟨cs ++ [c], ?_, ?_, ?_⟩
  · unfold FMpo.history at a ⊢
    rw [List.foldlM_append, a]
    show (FMpo.call qr svd nrm tsvd terr m c >>= pure) = _
    rw [hc]; rfl
  · intro x hx
    rcases List.mem_append.mp hx with h | h
    · exact b x h
    · simp at h; subst h; exact h1
  · intro x hx
    rcases List.mem_append.mp hx with h | h
    · exact d x h
    · simp at h; subst h; exact h2

end hist

/-! ### Bonds -/
section bonds
variable {σ K : Type} [Field K] {N : Nat}

theorem foldl_max_le (l : List (Option (Ten (σ × σ) K))) : ∀ (D0 D : Nat),
    l.foldl (fun D o => max D (match o with | some t => t.r | Option.none => 0)) D0 ≤ D ↔ D0 ≤ D ∧ ∀ t, some t ∈ l → t.r ≤ D := by
  induction l with
  | nil => intro D0 D; simp
  | cons o l ih =>
    intro D0 D
    rw [List.foldl_cons, ih]
    cases o with
    | none => simp
    | some t =>
      simp only [max_le_iff, List.mem_cons, Option.some.injEq]
      constructor
      · rintro ⟨⟨a, b⟩, c⟩
        exact ⟨a, fun u hu => by rcases hu with rfl | hu; exacts [b, c u hu]⟩
      · rintro ⟨a, b⟩
        exact ⟨⟨a, b t (Or.inl rfl)⟩, fun u hu => b u (Or.inr hu)⟩

/-- `GetMaxBondDim() ≤ D` says that every inner bond is at most `D`. -/
theorem maxBond_le {m : FMpo σ K} {ts : List (Ten (σ × σ) K)} (r : Rep m ts) {D : Nat} :
    FMpo.maxBond m ≤ D ↔ 1 ≤ D ∧ ∀ (i : Nat) (t : Ten (σ × σ) K), i + 1 < ts.length → ts[i]? = some t → t.r ≤ D := by
  refine (foldl_max_le _ _ _).trans ?_
  rw [r.size, r.slots]
  refine and_congr_right fun _ => ?_
  constructor
  · intro h i t hi ht
    apply h
    refine List.mem_of_getElem? (i := i) ?_
    rw [List.getElem?_take_of_lt (by omega), List.getElem?_map, ht]; rfl
  · intro h t ht
    obtain ⟨i, hi⟩ := List.getElem?_of_mem ht
    by_cases c : i < ts.length - 1
    · rw [List.getElem?_take_of_lt c, List.getElem?_map] at hi
      refine h i t (by omega) ?_
      cases hx : ts[i]? with
      | none => rw [hx] at hi; cases hi
      | some u => rw [hx] at hi; simp at hi; rw [hi]
    · rw [List.getElem?_eq_none (by simp; omega)] at hi; cases hi

theorem one_le_maxBond {m : FMpo σ K} {ts : List (Ten (σ × σ) K)} (r : Rep m ts) : 1 ≤ FMpo.maxBond m :=
  ((maxBond_le r).mp (Nat.le_refl _)).1

/-- A chain with a bond of dimension zero is the zero operator. -/
theorem amp_zero_bond : ∀ (ts : List (Ten (σ × σ) K)) (i : Nat) (t : Ten (σ × σ) K), Linked ts → ts[i]? = some t → 0 < i → t.l = 0 →
    ∀ ss a b, amp ts ss a b = 0
  | [], _, _, _, h, _, _ => by simp at h
  | [u], i, t, _, h, hi, _ => by
    obtain ⟨i, rfl⟩ : ∃ k, i = k + 1 := ⟨i - 1, by omega⟩
    simp at h
  | u :: v :: ts, i, t, hl, h, hi, h0 => by
    intro ss a b
    obtain ⟨i, rfl⟩ : ∃ k, i = k + 1 := ⟨i - 1, by omega⟩
    cases ss with
    | nil => rfl
    | cons s ss =>
      show ∑ j ∈ range u.r, u.v s a j * amp (v :: ts) ss j b = 0
      have l0 : u.r = v.l := linked_get hl 0 u v rfl rfl
      cases i with
      | zero =>
        have : t = v := by simpa using h.symm
        subst this
        rw [l0, h0]; rfl
      | succ i =>
        refine sum_eq_zero fun j _ => ?_
        rw [amp_zero_bond (v :: ts) (i + 1) t (hl.tail) (by simpa using h) (by omega) h0, mul_zero]

theorem zero_of_zeroBond {m : FMpo σ K} {O : Matrix (Fin N → σ) (Fin N → σ) K} (h : IsOp m O) (hz : ¬ NoZeroBond m) : O = 0 := by
  obtain ⟨ts, r, rfl, a1, a2, rfl⟩ := h.rep
  unfold NoZeroBond at hz
  push Not at hz
  obtain ⟨i, t, ht, h0⟩ := hz
  have h0 : t.l = 0 := by omega
  have ht' : ts[i]? = some t := by
    rw [r.slots, List.getElem?_map] at ht; simpa using ht
  have hi : 0 < i := by
    rcases Nat.eq_zero_or_pos i with rfl | h
    · cases ts with
      | nil => simp at ht'
      | cons u us =>
        simp at ht'; subst ht'
        have : u.l = 1 := a1
        omega
    · exact h
  funext s s'
  exact amp_zero_bond ts i t r.link ht' hi h0 _ 0 0

variable [Fintype σ]

theorem foldlM_ub {α β : Type} {f : α → β → Except Err α} (hf : ∀ a b, (∃ a', f a b = .ok a') ∨ f a b = .error .ub) :
    ∀ (l : List β) (a : α), (∃ b ∈ l, ∀ a, f a b = .error .ub) → l.foldlM f a = .error .ub
  | [], _, h => by obtain ⟨b, h, -⟩ := h; cases h
  | b :: l, a, h => by
    rw [List.foldlM_cons]
    rcases hf a b with ⟨a', e⟩ | e
    · rw [e]
      obtain ⟨b', hb, h⟩ := h
      rcases List.mem_cons.mp hb with rfl | hb
      · rw [h] at e; cases e
      · exact foldlM_ub hf l a' ⟨b', hb, h⟩
    · rw [e]; rfl

/-- The uncompressed product with a bond of dimension zero. -/
theorem product_zeroBond {a b out : FMpo σ K} {A B : Matrix (Fin N → σ) (Fin N → σ) K} (ha : IsOp a A) (hb : IsOp b B) (za : ¬ NoZeroBond a)
    (hs : out.size = N) (hf : out.flags.length = N) : FMpo.product a b out = .error .ub := by
  obtain ⟨ts, ra, rfl, a1, a2, rfl⟩ := ha.rep
  obtain ⟨us, rb, hl, b1, b2, rfl⟩ := hb.rep
  have hs' : out.slots.length = ts.length := hs
  have hp : 0 < ts.length := List.length_pos_iff.mpr (ne_nil_of_pos a1)
  unfold NoZeroBond at za
  push Not at za
  obtain ⟨i, t, ht, h0⟩ := za
  have hi : i < ts.length := by
    have := (List.getElem?_eq_some_iff.mp ht).1
    rw [ra.slots] at this; simpa using this
  obtain ⟨u, hu⟩ := getE (ts := us) (i := i) (by omega)
  unfold FMpo.product
  rw [ra.size, ← hs', clearOut_eq (by rw [hf, hs']) (by omega)]
  refine foldlM_ub (fun m j => ?_) _ _ ⟨i, by simp [hs', hi], fun m => ?_⟩
  · unfold FMpo.prodStep FMps.read FMps.write
    cases a.slots[j]? with
    | none => exact Or.inr rfl
    | some o =>
      cases o with
      | none => exact Or.inr rfl
      | some t =>
        cases b.slots[j]? with
        | none => exact Or.inr rfl
        | some o =>
          cases o with
          | none => exact Or.inr rfl
          | some u =>
            show (∃ a', (if 0 < t.l ∧ 0 < u.l then if j < m.size then _ else _ else _) = _) ∨ (if 0 < t.l ∧ 0 < u.l then if j < m.size then _ else _ else _) = _
            split
            · split
              · exact Or.inl ⟨_, rfl⟩
              · exact Or.inr rfl
            · exact Or.inr rfl
  · unfold FMpo.prodStep
    rw [read_ok ht, read_ok (rb.get hu)]
    exact if_neg (by omega)

end bonds
end Verif.Props
