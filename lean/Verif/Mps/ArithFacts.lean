import Verif.Mps.MeasureFacts
import Mathlib.Algebra.BigOperators.Intervals
/-
Lemmas on the inner product and the sum of two MPS.
-/
namespace Verif.Mps
open Finset

section inner
variable {σ K : Type} [CommRing K] [StarRing K] [Fintype σ] [DecidableEq σ]

/-- Right dimension of a chain that starts at a bond of dimension `d`. -/
def outR (d : Nat) : List (Ten σ K) → Nat
  | [] => d
  | t :: ts => outR t.r ts

omit [StarRing K] [Fintype σ] [DecidableEq σ] in
theorem outR_eq : ∀ (ts : List (Ten σ K)) (d : Nat), ts ≠ [] → outR d ts = lastR ts
  | [t], d, _ => rfl
  | t :: u :: ts, d, _ => by rw [outR, outR_eq (u :: ts) t.r (by simp), ← lastR_cons_cons t]

omit [StarRing K] in
theorem prod_idOp {n : Nat} (s s' : Fin n → σ) :
    (∏ i, (idOp (s i) (s' i) : K)) = if s = s' then 1 else 0 := by
  by_cases h : s = s'
  · subst h; simp [idOp]
  · rw [if_neg h]
    obtain ⟨i, hi⟩ := Function.ne_iff.mp h
    exact Finset.prod_eq_zero (Finset.mem_univ i) (by simp [idOp, hi])

theorem blk_id (ts us : List (Ten σ K)) (b b' a a' : Nat) :
    blk ts us (fun _ => idOp) b b' a a' =
      ∑ s : Fin ts.length → σ, amp ts (List.ofFn s) a b * star (amp us (List.ofFn s) a' b') := by
  unfold blk
  refine sum_congr rfl fun s _ => ?_
  rw [Finset.sum_eq_single s]
  · rw [prod_idOp, if_pos rfl, mul_one]
  · intro s' _ h; rw [prod_idOp, if_neg (Ne.symm h)]; simp
  · intro h; exact absurd (Finset.mem_univ s) h

theorem innerLoop_eq (A B : FMps σ K) : ∀ (ts us : List (Ten σ K)) (i d d' : Nat) (E : Mat K),
    ts.length = us.length → (∀ j t, ts[j]? = some t → A.slots[i + j]? = some (some t)) →
    (∀ j t, us[j]? = some t → B.slots[i + j]? = some (some t)) →
    (∀ t, ts.head? = some t → t.l = d) → (∀ t, us.head? = some t → t.l = d') → Linked ts → Linked us →
    0 < outR d ts → 0 < outR d' us →
    innerLoop A B ts.length i (d, d') E = .ok (pair d d' E (blk ts us (fun _ => idOp) 0 0))
  | [], [], i, d, d', E, _, _, _, _, _, _, _, h1, h2 => by
    simp only [outR] at h1 h2
    simp only [List.length_nil, innerLoop]
    rw [if_pos ⟨h1, h2⟩]
    congr 1
    unfold pair
    rw [Finset.sum_eq_single 0, Finset.sum_eq_single 0]
    · simp [blk_nil]
    · intro b _ hb; simp [blk_nil, hb]
    · intro h; simp at h; omega
    · intro a _ ha; refine Finset.sum_eq_zero fun b _ => ?_; simp [blk_nil, ha]
    · intro h; simp at h; omega
  | t :: ts, u :: us, i, d, d', E, hl, hA, hB, ht, hu, l1, l2, h1, h2 => by
    have a0 : A.slots[i]? = some (some t) := hA 0 t rfl
    have b0 : B.slots[i]? = some (some u) := hB 0 u rfl
    have e1 : t.l = d := ht t rfl
    have e2 : u.l = d' := hu u rfl
    have ih := innerLoop_eq A B ts us (i + 1) t.r u.r (xl t u idOp E) (by simpa using hl)
      (fun j w hj => by rw [show i + 1 + j = i + (j + 1) by omega]; exact hA (j + 1) w (by simpa using hj))
      (fun j w hj => by rw [show i + 1 + j = i + (j + 1) by omega]; exact hB (j + 1) w (by simpa using hj))
      (by
        intro w hw
        cases ts with
        | nil => simp at hw
        | cons x xs => simp at hw; subst hw; exact (linked_head l1).symm)
      (by
        intro w hw
        cases us with
        | nil => simp at hw
        | cons x xs => simp at hw; subst hw; exact (linked_head l2).symm)
      (linked_cons l1) (linked_cons l2) h1 h2
    simp only [List.length_cons, innerLoop, read_ok a0, read_ok b0, innerStep_eq]
    show (if t.l = d ∧ u.l = d' then innerLoop A B ts.length (i + 1) (t.r, u.r) (xl t u idOp E) else _) = _
    rw [if_pos ⟨e1, e2⟩, ih, ← pair_xr, e1, e2]
    congr 2
    funext a a'
    exact (blk_cons t u ts us (fun _ => idOp) 0 0 a a').symm

end inner

section add
variable {σ K : Type} [CommRing K]

/-- The tensor `Expand` produces. -/
def expTen (left right : Bool) (t u : Ten σ K) : Ten σ K :=
  ⟨if left then t.l + u.l else t.l, if right then t.r + u.r else t.r, fun s x y =>
      let inA := (!left || x < t.l) && (!right || y < t.r)
      let inB := (!left || t.l ≤ x) && (!right || t.r ≤ y)
      if inA then t.v s x y
      else if inB then u.v s (if left then x - t.l else x) (if right then y - t.r else y)
      else 0⟩

theorem expand_ok {left right : Bool} {t u : Ten σ K} (h1 : left = true ∨ t.l = u.l) (h2 : right = true ∨ t.r = u.r) :
    expand left right t u = .ok (expTen left right t u) := by
  unfold expand; rw [if_pos ⟨h1, h2⟩]; rfl

/-- The tensors of the sum, from site 1 on. -/
def addTail : List (Ten σ K) → List (Ten σ K) → List (Ten σ K)
  | [t], [u] => [expTen true false t u]
  | t :: ts, u :: us => expTen true true t u :: addTail ts us
  | _, _ => []

/-- The tensors of the sum. -/
def addAll : List (Ten σ K) → List (Ten σ K) → List (Ten σ K)
  | t :: ts, u :: us => expTen false true t u :: addTail ts us
  | _, _ => []

theorem addTail_get : ∀ (ts us : List (Ten σ K)) (i : Nat) (t u : Ten σ K), ts.length = us.length →
    ts[i]? = some t → us[i]? = some u →
    (addTail ts us)[i]? = some (if i + 1 = ts.length then expTen true false t u else expTen true true t u)
  | [a], [b], i, t, u, _, h1, h2 => by
    cases i with
    | zero => simp at h1 h2; subst h1 h2; simp [addTail]
    | succ i => simp at h1
  | a :: a' :: ts, b :: b' :: us, i, t, u, hl, h1, h2 => by
    cases i with
    | zero => simp at h1 h2; subst h1 h2; simp [addTail]
    | succ i =>
      have := addTail_get (a' :: ts) (b' :: us) i t u (by simpa using hl) (by simpa using h1) (by simpa using h2)
      rw [show addTail (a :: a' :: ts) (b :: b' :: us) = expTen true true a b :: addTail (a' :: ts) (b' :: us) from rfl]
      rw [List.getElem?_cons_succ, this]
      simp

theorem addTail_length : ∀ (ts us : List (Ten σ K)), ts.length = us.length → (addTail ts us).length = ts.length
  | [], [], _ => rfl
  | [a], [b], _ => rfl
  | a :: a' :: ts, b :: b' :: us, hl => by
    rw [show addTail (a :: a' :: ts) (b :: b' :: us) = expTen true true a b :: addTail (a' :: ts) (b' :: us) from rfl]
    simp [addTail_length (a' :: ts) (b' :: us) (by simpa using hl)]

theorem sum_split (p q : Nat) (f g : Nat → K) :
    ∑ k ∈ range (p + q), (if k < p then f k else g (k - p)) = ∑ k ∈ range p, f k + ∑ k ∈ range q, g k := by
  rw [Finset.sum_range_add]
  congr 1
  · exact sum_congr rfl fun k hk => by rw [if_pos (by simpa using hk)]
  · exact sum_congr rfl fun k hk => by rw [if_neg (by omega), Nat.add_sub_cancel_left]

/-- Amplitudes of the tail: the two blocks do not mix. -/
theorem addTail_amp : ∀ (ts us : List (Ten σ K)), ts.length = us.length → ts ≠ [] → Linked ts → Linked us →
    lastR ts = lastR us → ∀ ss b, b < lastR ts →
    (∀ x, x < headL ts → amp (addTail ts us) ss x b = amp ts ss x b) ∧
    (∀ y, amp (addTail ts us) ss (headL ts + y) b = amp us ss y b)
  | [t], [u], _, _, _, _, hr, ss, b, hb => by
    have hr : t.r = u.r := hr
    cases ss with
    | nil => simp [addTail, amp]
    | cons s ss =>
      simp only [addTail, amp_cons, headL]
      refine ⟨fun x hx => ?_, fun y => ?_⟩
      · simp [expTen, hx, amp]
      · simp [expTen, amp, hr]
  | t :: t' :: ts, u :: u' :: us, hl, _, l1, l2, hr, ss, b, hb => by
    cases ss with
    | nil => simp [addTail, amp]
    | cons s ss =>
      have ih := addTail_amp (t' :: ts) (u' :: us) (by simpa using hl) (by simp) (linked_cons l1) (linked_cons l2)
        (by rw [← lastR_cons_cons t, ← lastR_cons_cons u]; exact hr) ss b (by rw [← lastR_cons_cons t]; exact hb)
      have h1 : t.r = t'.l := linked_head l1
      have h2 : u.r = u'.l := linked_head l2
      rw [show addTail (t :: t' :: ts) (u :: u' :: us) = expTen true true t u :: addTail (t' :: ts) (u' :: us) from rfl]
      simp only [amp_cons]
      have key : ∀ x, (∑ k ∈ range (expTen true true t u).r, (expTen true true t u).v s x k * amp (addTail (t' :: ts) (u' :: us)) ss k b)
          = (∑ k ∈ range t.r, if x < t.l then t.v s x k * amp (t' :: ts) ss k b else 0) +
            ∑ k ∈ range u.r, if t.l ≤ x then u.v s (x - t.l) k * amp (u' :: us) ss k b else 0 := by
        intro x
        rw [← sum_split t.r u.r (fun k => if x < t.l then t.v s x k * amp (t' :: ts) ss k b else 0)
          (fun k => if t.l ≤ x then u.v s (x - t.l) k * amp (u' :: us) ss k b else 0)]
        refine sum_congr rfl fun k hk => ?_
        simp only [expTen, if_true, Bool.not_true, Bool.false_or, Bool.and_eq_true, decide_eq_true_eq]
        by_cases c : k < t.r
        · rw [if_pos c]
          by_cases cx : x < t.l
          · rw [if_pos ⟨cx, c⟩, if_pos cx, ih.1 k (by simp only [headL]; omega)]
          · rw [if_neg (by simp [cx]), if_neg (by simp; omega), if_neg cx]; ring
        · rw [if_neg c, if_neg (by simp [c])]
          by_cases cx : t.l ≤ x
          · rw [if_pos ⟨cx, by omega⟩, if_pos cx]
            have := ih.2 (k - t.r)
            simp only [headL] at this
            rw [← h1, show t.r + (k - t.r) = k by omega] at this
            rw [this]
          · rw [if_neg (by simp [cx]), if_neg cx]; ring
      refine ⟨fun x hx => ?_, fun y => ?_⟩
      · simp only [headL] at hx
        rw [key]
        simp only [if_pos hx, if_neg (show ¬ t.l ≤ x by omega), Finset.sum_const_zero, add_zero]
      · simp only [headL]
        rw [key]
        simp only [if_neg (show ¬ t.l + y < t.l by omega), if_pos (Nat.le_add_right _ _), Finset.sum_const_zero, zero_add, Nat.add_sub_cancel_left]

theorem addAll_amp {ts us : List (Ten σ K)} (hl : ts.length = us.length) (h2 : 2 ≤ ts.length) (l1 : Linked ts)
    (l2 : Linked us) (hr : lastR ts = lastR us) (ss : List σ) (a b : Nat) (hb : b < lastR ts) :
    amp (addAll ts us) ss a b = amp ts ss a b + amp us ss a b := by
  match ts, us, hl, h2 with
  | t :: t' :: ts, u :: u' :: us, hl, _ =>
    cases ss with
    | nil => simp [addAll, amp]
    | cons s ss =>
      have ih := addTail_amp (t' :: ts) (u' :: us) (by simpa using hl) (by simp) (linked_cons l1) (linked_cons l2)
        (by rw [← lastR_cons_cons t, ← lastR_cons_cons u]; exact hr) ss b (by rw [← lastR_cons_cons t]; exact hb)
      have h1 : t.r = t'.l := linked_head l1
      rw [show addAll (t :: t' :: ts) (u :: u' :: us) = expTen false true t u :: addTail (t' :: ts) (u' :: us) from rfl]
      simp only [amp_cons]
      rw [← sum_split t.r u.r (fun k => t.v s a k * amp (t' :: ts) ss k b) (fun k => u.v s a k * amp (u' :: us) ss k b)]
      refine sum_congr rfl fun k hk => ?_
      simp only [expTen, Bool.not_true, Bool.false_or, Bool.not_false, Bool.true_or, Bool.true_and, if_true, decide_eq_true_eq,
        Bool.false_eq_true, if_false]
      by_cases c : k < t.r
      · rw [if_pos c, if_pos c, ih.1 k (by simp only [headL]; omega)]
      · rw [if_neg c, if_neg c, if_pos (by omega)]
        have := ih.2 (k - t.r)
        simp only [headL] at this
        rw [← h1, show t.r + (k - t.r) = k by omega] at this
        rw [this]

theorem addTail_linked : ∀ (ts us : List (Ten σ K)), ts.length = us.length → Linked ts → Linked us →
    Linked (addTail ts us) ∧ (ts ≠ [] → headL (addTail ts us) = headL ts + headL us) ∧
      (ts ≠ [] → lastR (addTail ts us) = lastR ts)
  | [], [], _, _, _ => ⟨List.IsChain.nil, by simp, by simp⟩
  | [t], [u], _, _, _ => ⟨List.IsChain.singleton _, fun _ => rfl, fun _ => rfl⟩
  | t :: t' :: ts, u :: u' :: us, hl, l1, l2 => by
    obtain ⟨a, b, c⟩ := addTail_linked (t' :: ts) (u' :: us) (by simpa using hl) (linked_cons l1) (linked_cons l2)
    rw [show addTail (t :: t' :: ts) (u :: u' :: us) = expTen true true t u :: addTail (t' :: ts) (u' :: us) from rfl]
    have hlen := addTail_length (t' :: ts) (u' :: us) (by simpa using hl)
    cases hx : addTail (t' :: ts) (u' :: us) with
    | nil => rw [hx] at hlen; simp at hlen
    | cons w ws =>
      rw [hx] at a b c
      refine ⟨linked_mk ?_ a, fun _ => rfl, fun _ => ?_⟩
      · have hb := b (by simp)
        simp only [headL] at hb
        rw [hb, ← linked_head l1, ← linked_head l2]; rfl
      · rw [lastR_cons_cons, c (by simp), lastR_cons_cons]

theorem addAll_linked {ts us : List (Ten σ K)} (hl : ts.length = us.length) (h2 : 2 ≤ ts.length) (l1 : Linked ts)
    (l2 : Linked us) : Linked (addAll ts us) ∧ headL (addAll ts us) = headL ts ∧ lastR (addAll ts us) = lastR ts := by
  match ts, us, hl, h2 with
  | t :: t' :: ts, u :: u' :: us, hl, _ =>
    obtain ⟨a, b, c⟩ := addTail_linked (t' :: ts) (u' :: us) (by simpa using hl) (linked_cons l1) (linked_cons l2)
    rw [show addAll (t :: t' :: ts) (u :: u' :: us) = expTen false true t u :: addTail (t' :: ts) (u' :: us) from rfl]
    have hlen := addTail_length (t' :: ts) (u' :: us) (by simpa using hl)
    cases hx : addTail (t' :: ts) (u' :: us) with
    | nil => rw [hx] at hlen; simp at hlen
    | cons w ws =>
      rw [hx] at a b c
      refine ⟨linked_mk ?_ a, rfl, ?_⟩
      · have hb := b (by simp)
        simp only [headL] at hb
        rw [hb, ← linked_head l1, ← linked_head l2]; rfl
      · rw [lastR_cons_cons, c (by simp), lastR_cons_cons]

/-- A loop that stores `w i` at every index. -/
theorem fold_write {N : Nat} {f : FMps σ K → Nat → Except Err (FMps σ K)} {w : Nat → Ten σ K}
    (hf : ∀ c i, c.size = N → i < N → f c i = .ok ⟨c.slots.set i (some (w i)), c.flags.set i .none, -1⟩) :
    ∀ (n i : Nat) (c : FMps σ K), c.size = N → c.flags.length = N → i + n ≤ N → 0 < n →
    ∃ c', (List.range' i n).foldlM f c = .ok c' ∧ c'.size = N ∧ c'.flags.length = N ∧ c'.center = -1 ∧
      (∀ j, c'.slots[j]? = if i ≤ j ∧ j < i + n then some (some (w j)) else c.slots[j]?) ∧
      (∀ j, c'.flags[j]? = if i ≤ j ∧ j < i + n then some .none else c.flags[j]?)
  | 0, _, _, _, _, _, h => absurd h (by omega)
  | n + 1, i, c, hc, hfl, hb, _ => by
    have e := hf c i hc (by omega)
    rw [List.range'_succ, foldlM_cons_ok e]
    have hc' : FMps.size (⟨c.slots.set i (some (w i)), c.flags.set i .none, -1⟩ : FMps σ K) = N := by
      simpa [FMps.size] using hc
    have hs : c.slots.length = N := hc
    by_cases c0 : n = 0
    · subst c0
      refine ⟨_, rfl, hc', by simpa using hfl, rfl, fun j => ?_, fun j => ?_⟩
      · simp only [List.getElem?_set]
        by_cases h : i = j
        · subst h; rw [if_pos rfl, if_pos (by omega), if_pos (by omega)]
        · rw [if_neg h, if_neg (by omega)]
      · simp only [List.getElem?_set]
        by_cases h : i = j
        · subst h; rw [if_pos rfl, if_pos (by omega), if_pos (by omega)]
        · rw [if_neg h, if_neg (by omega)]
    · obtain ⟨c2, e2, s2, f2, z2, g2, k2⟩ := fold_write hf n (i + 1) _ hc' (by simpa using hfl) (by omega) (by omega)
      refine ⟨c2, e2, s2, f2, z2, fun j => ?_, fun j => ?_⟩
      · rw [g2]
        simp only [List.getElem?_set]
        by_cases h : i = j
        · subst h; rw [if_neg (by omega), if_pos rfl, if_pos (by omega), if_pos (by omega)]
        · rw [if_neg h]
          by_cases h' : i + 1 ≤ j ∧ j < i + 1 + n
          · rw [if_pos h', if_pos (by omega)]
          · rw [if_neg h', if_neg (by omega)]
      · rw [k2]
        simp only [List.getElem?_set]
        by_cases h : i = j
        · subst h; rw [if_neg (by omega), if_pos rfl, if_pos (by omega), if_pos (by omega)]
        · rw [if_neg h]
          by_cases h' : i + 1 ≤ j ∧ j < i + 1 + n
          · rw [if_pos h', if_pos (by omega)]
          · rw [if_neg h', if_neg (by omega)]

theorem addAll_length {ts us : List (Ten σ K)} (hl : ts.length = us.length) : (addAll ts us).length = ts.length := by
  match ts, us, hl with
  | [], [], _ => rfl
  | t :: ts, u :: us, hl => simp [addAll, addTail_length ts us (by simpa using hl)]

/-- `FiniteMPSAdd` stores the tensors of the sum. -/
theorem mpsAdd_eq {A B C : FMps σ K} {ts us : List (Ten σ K)} (hA : A.slots = ts.map some) (hB : B.slots = us.map some)
    (hl : ts.length = us.length) (hC : C.size = ts.length) (hf : C.flags.length = ts.length) (h2 : 2 ≤ ts.length)
    (e1 : headL ts = headL us) (e2 : lastR ts = lastR us) :
    mpsAdd A B C = .ok ⟨(addAll ts us).map some, List.replicate ts.length .none, -1⟩ := by
  have sA : A.size = ts.length := by simp [FMps.size, hA]
  have sB : B.size = us.length := by simp [FMps.size, hB]
  have hAl := addAll_length hl
  unfold mpsAdd
  rw [if_pos ⟨by omega, by omega⟩, sA]
  have hf' : ∀ c i, c.size = ts.length → i < ts.length → addStep ts.length A B c i =
      .ok ⟨c.slots.set i (some ((addAll ts us)[i]?.getD ⟨0, 0, fun _ _ _ => 0⟩)), c.flags.set i .none, -1⟩ := by
    intro c i hc hi
    obtain ⟨t, ht⟩ := getE (ts := ts) hi
    obtain ⟨u, hu⟩ := getE (ts := us) (i := i) (by omega)
    have ra : A.read i = .ok t := read_ok (by rw [hA, List.getElem?_map, ht]; rfl)
    have rb : B.read i = .ok u := read_ok (by rw [hB, List.getElem?_map, hu]; rfl)
    have ca : c.alloc i = .ok { c with slots := c.slots.set i (some ⟨0, 0, fun _ _ _ => 0⟩) } := by
      unfold FMps.alloc; rw [if_pos (by omega)]
    have hw : (if i = 0 then expand false true t u else if i + 1 = ts.length then expand true false t u
        else expand true true t u) = .ok ((addAll ts us)[i]?.getD ⟨0, 0, fun _ _ _ => 0⟩) := by
      match ts, us, hl, ht, hu, e1, e2, h2 with
      | t0 :: ts, u0 :: us, hl, ht, hu, e1, e2, h2 =>
        cases i with
        | zero =>
          simp at ht hu; subst ht hu
          rw [if_pos rfl, expand_ok (Or.inr e1) (Or.inl rfl)]; rfl
        | succ i =>
          simp at ht hu
          have g := addTail_get ts us i t u (by simpa using hl) ht hu
          have : (addAll (t0 :: ts) (u0 :: us))[i + 1]? = some (if i + 1 = ts.length then expTen true false t u else expTen true true t u) := by
            rw [← g]; simp [addAll]
          rw [this, if_neg (by omega)]
          by_cases hx : i + 1 = ts.length
          · rw [if_pos (by simpa using hx), if_pos hx, expand_ok (Or.inl rfl)]
            · rfl
            · right
              rw [lastR_eq, lastR_eq] at e2
              have a1 : (t0 :: ts)[(t0 :: ts).length - 1]? = some t := by
                rw [List.length_cons, Nat.add_sub_cancel, ← hx, List.getElem?_cons_succ, ht]
              have a2 : (u0 :: us)[(u0 :: us).length - 1]? = some u := by
                rw [← hl, List.length_cons, Nat.add_sub_cancel, ← hx, List.getElem?_cons_succ, hu]
              rw [a1, a2] at e2
              simpa using e2
          · rw [if_neg (by simpa using hx), if_neg hx, expand_ok (Or.inl rfl) (Or.inl rfl)]; rfl
    simp only [addStep, ca, ra, rb]
    show ((if i = 0 then expand false true t u else if i + 1 = ts.length then expand true false t u
        else expand true true t u) >>= fun w => FMps.write { c with slots := c.slots.set i (some ⟨0, 0, fun _ _ _ => 0⟩) } i w) = _
    rw [hw]
    show FMps.write _ _ _ = _
    unfold FMps.write
    rw [if_pos (by simp only [FMps.size, List.length_set]; have : c.slots.length = ts.length := hc; omega)]
    simp [List.set_set]
  obtain ⟨c', e, s, f, z, g, k⟩ := fold_write hf' ts.length 0 C hC hf (by omega) (by omega)
  rw [List.range_eq_range', e]
  cases c' with
  | mk sl fl ce =>
    simp only at z; subst z
    congr 2
    · apply List.ext_getElem?
      intro j
      rw [show sl[j]? = _ from g j, List.getElem?_map]
      have : sl.length = ts.length := s
      by_cases hj : 0 ≤ j ∧ j < 0 + ts.length
      · rw [if_pos hj]
        obtain ⟨w, hw⟩ : ∃ w, (addAll ts us)[j]? = some w := ⟨(addAll ts us)[j]'(by omega), by simp⟩
        rw [hw]; rfl
      · rw [if_neg hj, List.getElem?_eq_none (by have : C.slots.length = ts.length := hC; omega),
          List.getElem?_eq_none (by omega)]; rfl
    · apply List.ext_getElem?
      intro j
      rw [show fl[j]? = _ from k j, List.getElem?_replicate]
      by_cases hj : 0 ≤ j ∧ j < 0 + ts.length
      · rw [if_pos hj, if_pos (by omega)]
      · rw [if_neg hj, if_neg (by omega), List.getElem?_eq_none (by omega)]

end add
end Verif.Mps
