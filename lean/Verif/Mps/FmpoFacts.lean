import Verif.Mps.Fmpo
import Verif.Mps.ArithFacts
import Verif.Mps.MeasureFacts
import Verif.Mps.RevFacts
import Mathlib.Algebra.BigOperators.Intervals
/-
Lemmas about the `FiniteMPO` model: amplitudes of scaled, multiplied and traced chains, and the effect of each call.
-/
namespace Verif.Mps
open Finset

/-! ### Amplitudes of scaled chains -/
section scale
variable {τ K : Type} [CommRing K]

theorem amp_scale_set (c : K) : ∀ (i : Nat) (ts : List (Ten τ K)) (t : Ten τ K), ts[i]? = some t →
    ∀ ss a b, amp (ts.set i (scaleTen c t)) ss a b = c * amp ts ss a b := by
  intro i
  induction i with
  | zero =>
    intro ts t ht ss a b
    match ts, ht with
    | t' :: ts, ht =>
      simp at ht; subst ht
      match ss with
      | [] => simp [amp]
      | s :: ss =>
        simp only [List.set_cons_zero, amp_cons, scaleTen, Finset.mul_sum]
        exact sum_congr rfl fun k _ => by ring
  | succ i ih =>
    intro ts t ht ss a b
    match ts, ht with
    | t' :: ts, ht =>
      match ss with
      | [] => simp [amp]
      | s :: ss =>
        simp only [List.set_cons_succ, amp_cons, Finset.mul_sum]
        refine sum_congr rfl fun k _ => ?_
        rw [ih ts t (by simpa using ht)]; ring

theorem amp_scale_all (c : K) : ∀ (ts : List (Ten τ K)) (ss : List τ) (a b : Nat),
    ss.length = ts.length → amp (ts.map (scaleTen c)) ss a b = c ^ ts.length * amp ts ss a b := by
  intro ts
  induction ts with
  | nil => intro ss a b h; simp [amp]
  | cons t ts ih =>
    intro ss a b h
    match ss, h with
    | s :: ss, h =>
      simp only [List.map_cons, amp_cons, Finset.mul_sum, List.length_cons]
      refine sum_congr rfl fun k _ => ?_
      rw [ih ss k b (by simpa using h)]
      simp only [scaleTen]; ring

theorem linked_set_same {ts : List (Ten τ K)} {i : Nat} {t u : Ten τ K} (h : Linked ts) (ht : ts[i]? = some t)
    (hl : u.l = t.l) (hr : u.r = t.r) :
    Linked (ts.set i u) ∧ headL (ts.set i u) = headL ts ∧ lastR (ts.set i u) = lastR ts := by
  refine ⟨?_, ?_, ?_⟩
  · revert i
    induction ts with
    | nil => intro i ht; simp at ht
    | cons t0 ts ih =>
      intro i ht
      cases i with
      | zero =>
        simp at ht; subst ht
        match ts, h with
        | [], _ => exact List.IsChain.singleton _
        | w :: ws, h => exact linked_mk (by rw [hr]; exact linked_head h) (linked_cons h)
      | succ i =>
        have := ih (linked_cons h) (i := i) (by simpa using ht)
        match ts, ht with
        | w :: ws, ht =>
          cases i with
          | zero =>
            simp at ht; subst ht
            simp only [List.set_cons_succ, List.set_cons_zero] at this ⊢
            exact linked_mk (by rw [hl]; exact linked_head h) this
          | succ i =>
            simp only [List.set_cons_succ] at this ⊢
            exact linked_mk (linked_head h) this
  · match ts, i, ht with
    | t0 :: ts, 0, ht => simp at ht; subst ht; simp [headL, hl]
    | t0 :: ts, i + 1, ht => simp [headL]
  · rw [lastR_eq, lastR_eq, List.length_set, List.getElem?_set]
    have hi := (List.getElem?_eq_some_iff.mp ht).1
    by_cases c : i = ts.length - 1
    · rw [if_pos c, if_pos (by omega), ← c, ht]; simp [hr]
    · rw [if_neg c]

end scale

/-! ### Products -/
section prod
variable {σ K : Type} [CommRing K] [Fintype σ]

theorem sum_range_mul_div (a b : Nat) (f : Nat → Nat → K) :
    ∑ k ∈ range (a * b), f (k / b) (k % b) = ∑ i ∈ range a, ∑ j ∈ range b, f i j := by
  induction a with
  | zero => simp
  | succ a ih =>
    rw [Nat.succ_mul, Finset.sum_range_add, ih, Finset.sum_range_succ]
    congr 1
    refine sum_congr rfl fun j hj => ?_
    have hj' : j < b := by simpa using hj
    rw [show (a * b + j) / b = a by
      rw [Nat.mul_comm, Nat.mul_add_div (by omega), Nat.div_eq_of_lt hj']; rfl,
      show (a * b + j) % b = j by
      rw [Nat.mul_comm, Nat.mul_add_mod, Nat.mod_eq_of_lt hj']]

theorem prod_amp : ∀ (ts us : List (Ten (σ × σ) K)) (n p q : Nat), ts.length = n → us.length = n →
    Linked ts → Linked us → (∀ t, ts.head? = some t → t.l = p) → (∀ u, us.head? = some u → u.l = q) →
    ∀ (s s' : Fin n → σ) (x y : Nat), x < p * q → y < outR p ts * outR q us →
    amp (List.zipWith prodTen ts us) (List.ofFn fun i => (s i, s' i)) x y =
      ∑ m : Fin n → σ, amp ts (List.ofFn fun i => (s i, m i)) (x / q) (y / outR q us) *
        amp us (List.ofFn fun i => (m i, s' i)) (x % q) (y % outR q us) := by
  intro ts
  induction ts with
  | nil =>
    intro us n p q hn hu _ _ _ _ s s' x y hx hy
    simp at hn; subst hn
    have : us = [] := List.length_eq_zero_iff.mp hu
    subst this
    simp only [outR] at hy ⊢
    simp only [List.zipWith_nil_left, amp, Finset.univ_unique, Finset.sum_singleton]
    by_cases e : x = y
    · subst e; simp
    · rw [if_neg e]
      by_cases e1 : x / q = y / q
      · have e2 : ¬ x % q = y % q := by
          intro e2
          apply e
          rw [← Nat.div_add_mod x q, ← Nat.div_add_mod y q, e1, e2]
        simp [e2]
      · simp [e1]
  | cons t ts ih =>
    intro us n p q hn hu l1 l2 hp hq s s' x y hx hy
    match us, n, hn, hu with
    | u :: us, n + 1, hn, hu =>
      have et : t.l = p := hp t rfl
      have eu : u.l = q := hq u rfl
      have hn' : ts.length = n := by simpa using hn
      have hu' : us.length = n := by simpa using hu
      have hp' : ∀ w, ts.head? = some w → w.l = t.r := by
        intro w hw
        match ts, hw with
        | w' :: _, hw => simp at hw; subst hw; exact (linked_head l1).symm
      have hq' : ∀ w, us.head? = some w → w.l = u.r := by
        intro w hw
        match us, hw with
        | w' :: _, hw => simp at hw; subst hw; exact (linked_head l2).symm
      simp only [outR] at hy ⊢
      simp only [List.zipWith_cons_cons, List.ofFn_succ, amp_cons]
      rw [sum_cons]
      simp only [Fin.cons_zero, Fin.cons_succ]
      have key : ∀ k ∈ range (t.r * u.r),
          (prodTen t u).v (s 0, s' 0) x k * amp (List.zipWith prodTen ts us)
            (List.ofFn fun i => (s i.succ, s' i.succ)) k y =
          ∑ z, ∑ m : Fin n → σ,
            (t.v (s 0, z) (x / q) (k / u.r) * amp ts (List.ofFn fun i => (s i.succ, m i)) (k / u.r) (y / outR u.r us)) *
            (u.v (z, s' 0) (x % q) (k % u.r) * amp us (List.ofFn fun i => (m i, s' i.succ)) (k % u.r) (y % outR u.r us)) := by
        intro k hk
        have hk' : k < t.r * u.r := by simpa using hk
        rw [ih us n t.r u.r hn' hu' (linked_cons l1) (linked_cons l2) hp' hq' (fun i => s i.succ)
          (fun i => s' i.succ) k y hk' hy]
        simp only [prodTen, eu, Finset.sum_mul, Finset.mul_sum]
        rw [Finset.sum_comm]
        exact sum_congr rfl fun z _ => sum_congr rfl fun m _ => by ring
      rw [show (prodTen t u).r = t.r * u.r from rfl, sum_congr rfl key,
        sum_range_mul_div t.r u.r (fun i j => ∑ z, ∑ m : Fin n → σ,
            (t.v (s 0, z) (x / q) i * amp ts (List.ofFn fun i => (s i.succ, m i)) i (y / outR u.r us)) *
            (u.v (z, s' 0) (x % q) j * amp us (List.ofFn fun i => (m i, s' i.succ)) j (y % outR u.r us)))]
      rw [Finset.sum_congr rfl fun i _ => Finset.sum_comm, Finset.sum_comm]
      refine sum_congr rfl fun z _ => ?_
      rw [Finset.sum_congr rfl fun i _ => Finset.sum_comm, Finset.sum_comm]
      refine sum_congr rfl fun m _ => ?_
      rw [Finset.sum_mul_sum]

theorem prod_linked : ∀ (ts us : List (Ten (σ × σ) K)), ts.length = us.length → Linked ts → Linked us →
    Linked (List.zipWith prodTen ts us)
  | [], _, _, _, _ => by simp [Linked]
  | [t], [u], _, _, _ => by simp [Linked]
  | t :: t' :: ts, u :: u' :: us, h, l1, l2 => by
    simp only [List.zipWith_cons_cons]
    refine linked_mk ?_ ?_
    · simp only [prodTen, linked_head l1, linked_head l2]
    · exact prod_linked (t' :: ts) (u' :: us) (by simpa using h) (linked_cons l1) (linked_cons l2)
  | [_], _ :: _ :: _, h, _, _ => by simp at h
  | _ :: _ :: _, [_], h, _, _ => by simp at h

theorem prod_lastR : ∀ (ts us : List (Ten (σ × σ) K)), ts.length = us.length →
    lastR (List.zipWith prodTen ts us) = lastR ts * lastR us
  | [], [], _ => by simp [lastR]
  | [t], [u], _ => by simp [lastR, prodTen]
  | t :: t' :: ts, u :: u' :: us, h => by
    simp only [List.zipWith_cons_cons]
    rw [lastR_cons_cons, lastR_cons_cons, lastR_cons_cons]
    exact prod_lastR (t' :: ts) (u' :: us) (by simpa using h)
  | [_], _ :: _ :: _, h => by simp at h
  | _ :: _ :: _, [_], h => by simp at h

end prod

/-! ### Loops that replace every tensor -/
section loops
variable {τ K : Type} [CommRing K]

theorem set_take_drop {α : Type} (ws ts : List α) (i : Nat) (w : α) (hw : ws[i]? = some w) (hi : i < ts.length) :
    (ws.take i ++ ts.drop i).set i w = ws.take (i + 1) ++ ts.drop (i + 1) := by
  have hi' := (List.getElem?_eq_some_iff.mp hw).1
  have lt : (ws.take i).length = i := by simp; omega
  rw [List.set_append_right _ _ (by omega), lt, Nat.sub_self, List.drop_eq_getElem_cons hi, List.set_cons_zero,
    List.take_add_one, hw]
  simp

theorem get_take_drop {α : Type} (ws ts : List α) (i : Nat) (hi : i ≤ ws.length) :
    (ws.take i ++ ts.drop i)[i]? = ts[i]? := by
  have lt : (ws.take i).length = i := by simp; omega
  rw [List.getElem?_append_right (by omega), lt, Nat.sub_self, List.getElem?_drop]; simp

/-- A loop that replaces tensor `ts[i]` by `ws[i]` at every index. -/
theorem fold_replace {f : FMps τ K → Nat → Except Err (FMps τ K)} {ts ws : List (Option (Ten τ K))} {fl : List Cano}
    (hl : ws.length = ts.length) (hfl : fl.length = ts.length)
    (hf : ∀ c i t w, c.size = ts.length → c.slots[i]? = some t → ts[i]? = some t → ws[i]? = some w →
      f c i = .ok ⟨c.slots.set i w, c.flags.set i .none, -1⟩) :
    ∀ (n i : Nat) (c : FMps τ K), i + n = ts.length → c.slots = ws.take i ++ ts.drop i →
      c.flags = (List.replicate ts.length .none).take i ++ fl.drop i →
      ∃ c', (List.range' i n).foldlM f c = .ok c' ∧ c'.slots = ws ∧ c'.flags = List.replicate ts.length .none ∧
        (0 < n → c'.center = -1)
  | 0, i, c, hn, hs, hf' => by
    refine ⟨c, rfl, ?_, ?_, fun h => absurd h (by omega)⟩
    · rw [hs, show i = ts.length by omega, List.drop_length, ← hl, List.take_length]; simp
    · rw [hf', show i = ts.length by omega, ← hfl, List.drop_length]; simp [hfl]
  | n + 1, i, c, hn, hs, hf' => by
    have hi : i < ts.length := by omega
    have hw : ws[i]? = some ws[i] := by simp
    have ht : ts[i]? = some ts[i] := by simp
    have e := hf c i ts[i] ws[i] (by simp only [FMps.size, hs]; simp; omega)
      (by rw [hs, get_take_drop _ _ _ (by omega), ht]) ht hw
    rw [List.range'_succ, foldlM_cons_ok e]
    obtain ⟨c', e', s', f', z'⟩ := fold_replace hl hfl hf n (i + 1)
      ⟨c.slots.set i ws[i], c.flags.set i .none, -1⟩ (by omega)
      (by simp only [hs]; exact set_take_drop _ _ _ _ hw hi)
      (by simp only [hf']; exact set_take_drop _ _ _ _ (by simp [hi]) (by omega))
    refine ⟨c', e', s', f', fun _ => ?_⟩
    by_cases h0 : n = 0
    · subst h0; simp [pure, Except.pure] at e'; rw [← e']
    · exact z' (by omega)

theorem fold_replace0 {f : FMps τ K → Nat → Except Err (FMps τ K)} {ws : List (Option (Ten τ K))} {c : FMps τ K}
    (hl : ws.length = c.slots.length) (hfl : c.flags.length = c.slots.length) (hp : 0 < c.slots.length)
    (hf : ∀ c' i t w, c'.size = c.slots.length → c'.slots[i]? = some t → c.slots[i]? = some t → ws[i]? = some w →
      f c' i = .ok ⟨c'.slots.set i w, c'.flags.set i .none, -1⟩) :
    (List.range c.slots.length).foldlM f c = .ok ⟨ws, List.replicate c.slots.length .none, -1⟩ := by
  obtain ⟨⟨s, fl, z⟩, e, s', f', z'⟩ := fold_replace (f := f) (ts := c.slots) (ws := ws) (fl := c.flags) hl hfl hf
    c.slots.length 0 c (by omega) (by simp) (by simp)
  rw [List.range_eq_range', e]
  simp only at s' f' z'
  rw [s', f', z' hp]

end loops

/-! ### The calls -/
section calls
variable {σ K : Type} [CommRing K]

/-- `addAll` as `expand` chooses it, site by site. -/
theorem addAll_site {ts us : List (Ten σ K)} (hl : ts.length = us.length) (h2 : 2 ≤ ts.length)
    (e1 : headL ts = headL us) (e2 : lastR ts = lastR us) {i : Nat} {t u w : Ten σ K} (ht : ts[i]? = some t)
    (hu : us[i]? = some u) (hw : (addAll ts us)[i]? = some w) :
    (if i = 0 then expand false true t u else if i + 1 = ts.length then expand true false t u
      else expand true true t u) = .ok w := by
  match ts, us, hl, ht, hu, e1, e2, h2 with
  | t0 :: ts, u0 :: us, hl, ht, hu, e1, e2, h2 =>
    cases i with
    | zero =>
      simp [addAll] at ht hu hw; subst ht hu hw
      rw [if_pos rfl, expand_ok (Or.inr e1) (Or.inl rfl)]
    | succ i =>
      simp only [List.getElem?_cons_succ, addAll] at ht hu hw
      have g := addTail_get ts us i t u (by simpa using hl) ht hu
      rw [g] at hw
      rw [if_neg (by omega)]
      by_cases hx : i + 1 = ts.length
      · rw [if_pos hx] at hw
        cases hw
        rw [if_pos (by simpa using hx), expand_ok (Or.inl rfl)]
        right
        rw [lastR_eq, lastR_eq] at e2
        have a1 : (t0 :: ts)[(t0 :: ts).length - 1]? = some t := by
          simp only [List.length_cons, Nat.add_sub_cancel, ← hx, List.getElem?_cons_succ]; exact ht
        have hx' : i + 1 = us.length := by rw [hx]; simpa using hl
        have a2 : (u0 :: us)[(u0 :: us).length - 1]? = some u := by
          simp only [List.length_cons, Nat.add_sub_cancel, ← hx', List.getElem?_cons_succ]; exact hu
        rw [a1, a2] at e2
        simpa using e2
      · rw [if_neg hx] at hw
        cases hw
        rw [if_neg (by simpa using hx), expand_ok (Or.inl rfl) (Or.inl rfl)]

end calls

section calls
variable {σ K : Type} [CommRing K]

theorem addStep_eq {N : Nat} {a b : FMpo σ K} {i : Nat} {t u w : Ten (σ × σ) K} (ha : a.slots[i]? = some (some t))
    (hb : b.slots[i]? = some (some u))
    (hw : (if i = 0 then expand false true t u else if i + 1 = N then expand true false t u
      else expand true true t u) = .ok w) :
    FMpo.addStep N b a i = .ok ⟨a.slots.set i (some w), a.flags.set i .none, -1⟩ := by
  unfold FMpo.addStep
  simp only [ha]
  rw [read_ok hb]
  show ((if i = 0 then expand false true t u else if i + 1 = N then expand true false t u
      else expand true true t u) >>= fun w => a.write i w) = _
  rw [hw]
  show a.write i w = _
  unfold FMps.write
  exact if_pos (List.getElem?_eq_some_iff.mp ha).1

theorem addAssign_eq {A B : FMpo σ K} {ts us : List (Ten (σ × σ) K)} (hA : A.slots = ts.map some)
    (hB : B.slots = us.map some) (hl : ts.length = us.length) (hf : A.flags.length = ts.length) (h2 : 2 ≤ ts.length)
    (e1 : headL ts = headL us) (e2 : lastR ts = lastR us) :
    FMpo.addAssign A B = .ok ⟨(addAll ts us).map some, List.replicate ts.length .none, -1⟩ := by
  have sA : A.slots.length = ts.length := by simp [hA]
  have sB : B.size = us.length := by simp [FMps.size, hB]
  unfold FMpo.addAssign
  rw [if_pos (by rw [sB]; simp [FMps.size, sA, hl])]
  have := fold_replace0 (f := FMpo.addStep ts.length B) (ws := (addAll ts us).map some) (c := A)
    (by simp [sA, addAll_length hl]) (by rw [hf, sA]) (by omega) ?_
  · rw [show A.size = ts.length from sA, ← sA, show FMpo.addStep A.slots.length B = FMpo.addStep ts.length B by rw [sA]]
    exact this
  · intro c i t w hc h1 h2' h3
    rw [hA, List.getElem?_map] at h2'
    rw [List.getElem?_map] at h3
    obtain ⟨t', ht', rfl⟩ := Option.map_eq_some_iff.mp h2'
    obtain ⟨w', hw', rfl⟩ := Option.map_eq_some_iff.mp h3
    obtain ⟨u, hu⟩ := getE (ts := us) (i := i) (by rw [← hl]; exact (List.getElem?_eq_some_iff.mp ht').1)
    exact addStep_eq h1 (by rw [hB, List.getElem?_map, hu]; rfl) (addAll_site hl h2 e1 e2 ht' hu hw')

theorem addSelf_eq {A : FMpo σ K} {ts : List (Ten (σ × σ) K)} (hA : A.slots = ts.map some)
    (hf : A.flags.length = ts.length) (h2 : 2 ≤ ts.length) :
    FMpo.addSelf A = .ok ⟨(addAll ts ts).map some, List.replicate ts.length .none, -1⟩ := by
  have sA : A.slots.length = ts.length := by simp [hA]
  unfold FMpo.addSelf
  have := fold_replace0 (f := fun m i => FMpo.addStep ts.length m m i) (ws := (addAll ts ts).map some) (c := A)
    (by simp [sA, addAll_length]) (by rw [hf, sA]) (by omega) ?_
  · rw [show A.size = ts.length from sA]
    rw [sA] at this
    exact this
  · intro c i t w hc h1 h2' h3
    rw [hA, List.getElem?_map] at h2'
    rw [List.getElem?_map] at h3
    obtain ⟨t', ht', rfl⟩ := Option.map_eq_some_iff.mp h2'
    obtain ⟨w', hw', rfl⟩ := Option.map_eq_some_iff.mp h3
    exact addStep_eq h1 h1 (addAll_site rfl h2 rfl rfl ht' ht' hw')

theorem clearOut_eq {m : FMpo σ K} (hf : m.flags.length = m.slots.length) (hp : 0 < m.slots.length) :
    FMpo.clearOut m.slots.length m =
      .ok ⟨List.replicate m.slots.length (some ⟨0, 0, fun _ _ _ => 0⟩), List.replicate m.slots.length .none, -1⟩ := by
  unfold FMpo.clearOut
  refine fold_replace0 (by simp) hf hp ?_
  intro c i t w hc h1 h2 h3
  have : i < m.slots.length := (List.getElem?_eq_some_iff.mp h2).1
  rw [List.getElem?_replicate, if_pos this] at h3
  cases h3
  unfold FMps.write
  rw [if_pos (by rw [hc]; exact this)]

theorem product_eq [Fintype σ] {A B C : FMpo σ K} {ts us : List (Ten (σ × σ) K)} (hA : A.slots = ts.map some)
    (hB : B.slots = us.map some) (hl : us.length = ts.length) (hC : C.size = ts.length) (hf : C.flags.length = ts.length)
    (hn : 0 < ts.length) (p1 : ∀ t ∈ ts, 0 < t.l) (p2 : ∀ u ∈ us, 0 < u.l) :
    FMpo.product A B C = .ok ⟨(List.zipWith prodTen ts us).map some, List.replicate ts.length .none, -1⟩ := by
  have sA : A.size = ts.length := by simp [FMps.size, hA]
  have sC : C.slots.length = ts.length := hC
  unfold FMpo.product
  rw [sA, ← sC, clearOut_eq (by rw [hf, sC]) (by omega)]
  show (List.range C.slots.length).foldlM (FMpo.prodStep A B)
    (⟨List.replicate C.slots.length (some ⟨0, 0, fun _ _ _ => 0⟩), List.replicate C.slots.length .none, -1⟩ : FMpo σ K) = _
  have := fold_replace0 (f := FMpo.prodStep A B) (ws := (List.zipWith prodTen ts us).map some)
    (c := ⟨List.replicate C.slots.length (some ⟨0, 0, fun _ _ _ => 0⟩), List.replicate C.slots.length .none, -1⟩)
    (by simp [sC, hl]) (by simp) (by simp; omega) ?_
  · simpa using this
  · intro c i t w hc h1 h2 h3
    simp only [List.length_replicate] at hc
    rw [List.getElem?_map] at h3
    obtain ⟨w', hw', rfl⟩ := Option.map_eq_some_iff.mp h3
    have hi := (List.getElem?_eq_some_iff.mp hw').1
    simp only [List.length_zipWith] at hi
    obtain ⟨t', ht⟩ := getE (ts := ts) (i := i) (by omega)
    obtain ⟨u', hu⟩ := getE (ts := us) (i := i) (by omega)
    have hw2 : w' = prodTen t' u' := by
      rw [List.getElem?_zipWith, ht, hu] at hw'; simpa using hw'.symm
    unfold FMpo.prodStep
    rw [read_ok (show A.slots[i]? = some (some t') by rw [hA, List.getElem?_map, ht]; rfl),
      read_ok (show B.slots[i]? = some (some u') by rw [hB, List.getElem?_map, hu]; rfl)]
    show (if 0 < t'.l ∧ 0 < u'.l then c.write i (prodTen t' u') else _) = _
    rw [if_pos ⟨p1 _ (List.mem_of_getElem? ht), p2 _ (List.mem_of_getElem? hu)⟩, hw2]
    unfold FMps.write
    rw [if_pos (by rw [hc]; omega)]

theorem productInPlace_eq [Fintype σ] {A B : FMpo σ K} (hf : A.flags.length = A.slots.length) (hn : 0 < A.slots.length)
    (hB : B.slots.length = A.slots.length) (hfull : ∀ i, i < B.slots.length → ∃ u, B.slots[i]? = some (some u)) :
    FMpo.productInPlace A B = .error .ub := by
  unfold FMpo.productInPlace
  rw [show A.size = A.slots.length from rfl, clearOut_eq hf hn]
  show (List.range A.slots.length).foldlM (fun m i => FMpo.prodStep m B m i)
    (⟨List.replicate A.slots.length (some ⟨0, 0, fun _ _ _ => 0⟩), List.replicate A.slots.length .none, -1⟩ : FMpo σ K) = _
  obtain ⟨n, hn'⟩ : ∃ n, A.slots.length = n + 1 := ⟨A.slots.length - 1, by omega⟩
  obtain ⟨u, hu⟩ := hfull 0 (by omega)
  rw [hn', List.range_eq_range', List.range'_succ, List.foldlM_cons]
  have : FMpo.prodStep (σ := σ) (K := K) ⟨List.replicate (n + 1) (some ⟨0, 0, fun _ _ _ => 0⟩), List.replicate (n + 1) .none, -1⟩ B
      ⟨List.replicate (n + 1) (some ⟨0, 0, fun _ _ _ => 0⟩), List.replicate (n + 1) .none, -1⟩ 0 = .error .ub := by
    unfold FMpo.prodStep
    rw [read_ok (t := (⟨0, 0, fun _ _ _ => 0⟩ : Ten (σ × σ) K)) (by simp), read_ok hu]
    rfl
  rw [this]; rfl

theorem identity_eq [DecidableEq σ] {S : FMpo σ K} {ts : List (Ten (σ × σ) K)} (hS : S.slots = ts.map some)
    (hd : 0 < headL ts) :
    FMpo.identity S = .ok ⟨List.replicate ts.length (some ⟨headL ts, headL ts, fun s a b =>
      if a = 0 ∧ b = 0 ∧ s.1 = s.2 then 1 else 0⟩), List.replicate ts.length .none, -1⟩ := by
  match ts, hd with
  | t :: ts, hd =>
    have sS : S.size = (t :: ts).length := by simp [FMps.size, hS]
    unfold FMpo.identity
    rw [read_ok (show S.slots[0]? = some (some t) by rw [hS]; rfl)]
    show (List.range S.size).foldlM (FMpo.identityStep S t.l) (FMpo.fresh S.size) = _
    have := fold_replace0 (f := FMpo.identityStep S t.l)
      (ws := List.replicate (t :: ts).length (some ⟨t.l, t.l, fun s a b => if a = 0 ∧ b = 0 ∧ s.1 = s.2 then 1 else 0⟩))
      (c := FMpo.fresh S.size) (by simp [FMpo.fresh, FMps.fresh, sS]) (by simp [FMpo.fresh, FMps.fresh])
      (by simp [FMpo.fresh, FMps.fresh, sS]) ?_
    · simpa [FMpo.fresh, FMps.fresh, sS, headL] using this
    · intro c i x w hc h1 h2 h3
      have hi := (List.getElem?_eq_some_iff.mp h3).1
      rw [List.length_replicate] at hi
      rw [List.getElem?_replicate, if_pos hi] at h3
      cases h3
      obtain ⟨t', ht⟩ := getE (ts := t :: ts) (i := i) hi
      unfold FMpo.identityStep
      rw [read_ok (show S.slots[i]? = some (some t') by rw [hS, List.getElem?_map, ht]; rfl)]
      show (if 0 < t.l then _ else _) = _
      rw [if_pos (show 0 < t.l from hd)]
      unfold FMps.write
      rw [if_pos (by rw [hc]; simp [FMpo.fresh, FMps.fresh, sS]; simpa using hi)]

/-- The amplitude of the identity chain. -/
theorem identity_amp [DecidableEq σ] (d : Nat) (hd : 0 < d) : ∀ (n : Nat) (s s' : Fin n → σ),
    amp (K := K) (List.replicate n ⟨d, d, fun s a b => if a = 0 ∧ b = 0 ∧ s.1 = s.2 then 1 else 0⟩)
      (List.ofFn fun i => (s i, s' i)) 0 0 = if s = s' then 1 else 0
  | 0, s, s' => by simp [amp, Subsingleton.elim s s']
  | n + 1, s, s' => by
    simp only [List.replicate_succ, List.ofFn_succ, amp_cons]
    rw [Finset.sum_eq_single 0]
    · rw [identity_amp d hd n (fun i => s i.succ) (fun i => s' i.succ)]
      have : s = s' ↔ s 0 = s' 0 ∧ (fun i : Fin n => s i.succ) = (fun i => s' i.succ) := by
        constructor
        · rintro rfl; exact ⟨rfl, rfl⟩
        · rintro ⟨h0, h1⟩
          funext i
          refine Fin.cases h0 (fun j => congrFun h1 j) i
      by_cases c1 : s 0 = s' 0
      · by_cases c2 : (fun i : Fin n => s i.succ) = (fun i => s' i.succ)
        · rw [if_pos c2, if_pos (this.mpr ⟨c1, c2⟩)]; simp [c1]
        · rw [if_neg c2, if_neg (fun h => c2 (this.mp h).2)]; simp
      · rw [if_neg (fun h => c1 (this.mp h).1), if_neg (fun h => c1 h.2.2)]; simp
    · intro k _ hk; rw [if_neg (fun h => hk h.2.1)]; simp
    · intro h; simp at h; omega

/-- The loop of `Trace`. -/
theorem traceLoop_eq [Fintype σ] [DecidableEq σ] : ∀ (ts : List (Ten (σ × σ) K)) (m : FMpo σ K) (i d : Nat) (v : Nat → K),
    (∀ j t, ts[j]? = some t → m.slots[i + j]? = some (some t)) → (∀ t, ts.head? = some t → t.l = d) → Linked ts →
    m.center = -1 →
    ∃ fl v', (List.range' i ts.length).foldlM FMpo.traceStep (m, d, v) = .ok (⟨m.slots, fl, -1⟩, outR d ts, v') ∧
      fl.length = m.flags.length ∧
      (∀ j, j < fl.length → (i ≤ j ∧ j < i + ts.length) ∨ m.flags[j]? = some .none → fl[j]? = some .none) ∧
      ∀ b, b < outR d ts → v' b = ∑ s : Fin ts.length → σ, ∑ a ∈ range d, v a * amp ts (List.ofFn fun k => (s k, s k)) a b := by
  intro ts
  induction ts with
  | nil =>
    intro m i d v _ _ _ hc
    refine ⟨m.flags, v, ?_, rfl, fun j hj h => ?_, fun b hb => ?_⟩
    · cases m; simp only at hc; subst hc; rfl
    · rcases h with h | h
      · simp at h; omega
      · exact h
    · simp only [outR] at hb
      simp [amp, hb]
  | cons t ts ih =>
    intro m i d v hm hh hl hc
    have hd : t.l = d := hh t rfl
    have h0 := hm 0 t rfl
    rw [Nat.add_zero] at h0
    have hstep : FMpo.traceStep (m, d, v) i = .ok (⟨m.slots, m.flags.set i .none, -1⟩, t.r,
        fun b => ∑ q, ∑ p, (∑ a ∈ range t.l, v a * t.v (p, q) a b) * siteId p q) := by
      unfold FMpo.traceStep
      simp only [read_ok h0]
      have : m.touch i = .ok ⟨m.slots, m.flags.set i .none, -1⟩ := by unfold FMps.touch; simp only [h0]
      show (m.touch i >>= fun m1 => if t.l = d then _ else _) = _
      rw [this]
      show (if t.l = d then _ else _) = _
      rw [if_pos hd]; rfl
    have hh' : ∀ w, ts.head? = some w → w.l = t.r := by
      intro w hw
      match ts, hw with
      | w' :: _, hw => simp at hw; subst hw; exact (linked_head hl).symm
    obtain ⟨fl, v', e, k1, k2, k3⟩ := ih ⟨m.slots, m.flags.set i .none, -1⟩ (i + 1) t.r
      (fun b => ∑ q, ∑ p, (∑ a ∈ range t.l, v a * t.v (p, q) a b) * siteId p q) (fun j u hj => by
        have := hm (j + 1) u (by simpa using hj)
        rw [show i + (j + 1) = i + 1 + j by omega] at this; exact this) hh' (linked_cons hl) rfl
    refine ⟨fl, v', ?_, by simpa using k1, fun j hj h => ?_, fun b hb => ?_⟩
    · rw [List.length_cons, List.range'_succ, foldlM_cons_ok hstep, e]; rfl
    · simp only [List.length_set] at k1
      refine k2 j hj ?_
      by_cases c : i = j
      · right; subst c
        show (m.flags.set i .none)[i]? = _
        rw [List.getElem?_set, if_pos rfl, if_pos (by omega)]
      · rcases h with h | h
        · left; simp only [List.length_cons] at h; omega
        · right
          show (m.flags.set i .none)[j]? = _
          rw [List.getElem?_set, if_neg c]; exact h
    · rw [k3 b hb, List.length_cons, sum_cons]
      simp only [List.ofFn_succ, amp_cons, Fin.cons_zero, Fin.cons_succ, siteId]
      rw [Finset.sum_comm (s := (univ : Finset σ))]
      refine sum_congr rfl fun s _ => ?_
      simp only [mul_ite, mul_one, mul_zero, Finset.sum_ite_eq', Finset.mem_univ, if_true, Finset.sum_mul, Finset.mul_sum, hd]
      rw [Finset.sum_comm]
      refine sum_congr rfl fun q _ => ?_
      rw [Finset.sum_comm]
      exact sum_congr rfl fun a _ => sum_congr rfl fun k _ => by ring

theorem trace_eq [Fintype σ] [DecidableEq σ] {m : FMpo σ K} {ts : List (Ten (σ × σ) K)} (hr : Rep m ts) (hn : ts ≠ [])
    (h0 : 0 < headL ts) (h1 : 0 < lastR ts) :
    FMpo.trace m = .ok (⟨m.slots, List.replicate ts.length .none, -1⟩,
      ∑ s : Fin ts.length → σ, amp ts (List.ofFn fun k => (s k, s k)) 0 0) := by
  match ts, hn with
  | t :: ts, _ =>
    have r0 := hr.get (i := 0) (t := t) rfl
    have tch : m.touch 0 = .ok ⟨m.slots, m.flags.set 0 .none, -1⟩ := by unfold FMps.touch; simp only [r0]
    obtain ⟨fl, v', e, k1, k2, k3⟩ := traceLoop_eq (t :: ts) ⟨m.slots, m.flags.set 0 .none, -1⟩ 0 t.l
      (fun a => if a = 0 then 1 else 0) (fun j u hj => by rw [Nat.zero_add]; exact hr.get hj)
      (fun w hw => by simp at hw; rw [hw]) hr.link rfl
    have o : outR t.l (t :: ts) = lastR (t :: ts) := outR_eq _ _ (by simp)
    have h0' : 0 < t.l := h0
    have hfl : fl = List.replicate (t :: ts).length .none := by
      have hl := hr.flen
      simp only [List.length_set] at k1
      apply List.ext_getElem?
      intro j
      by_cases c : j < (t :: ts).length
      · rw [k2 j (by omega) (Or.inl ⟨by omega, by omega⟩), List.getElem?_replicate, if_pos c]
      · rw [List.getElem?_eq_none (by omega), List.getElem?_replicate, if_neg c]
    unfold FMpo.trace
    rw [read_ok r0]
    show (m.touch 0 >>= fun m0 => if 0 < t.l then ((List.range m.size).foldlM FMpo.traceStep (m0, t.l, fun a => if a = 0 then 1 else 0)
      >>= fun s => if 0 < s.2.1 then pure (s.1, s.2.2 0) else Except.error Err.ub) else _) = _
    rw [tch]
    show (if 0 < t.l then _ else _) = _
    rw [if_pos h0', hr.size, List.range_eq_range', e]
    show (if 0 < outR t.l (t :: ts) then _ else _) = _
    rw [if_pos (by rw [o]; exact h1)]
    show Except.ok ((⟨m.slots, fl, -1⟩ : FMpo σ K), v' 0) = _
    rw [hfl, k3 0 (by rw [o]; exact h1)]
    congr 2
    refine sum_congr rfl fun s _ => ?_
    rw [Finset.sum_eq_single 0]
    · simp
    · intro a _ ha; simp [ha]
    · intro h; simp at h; omega

theorem scale_eq {m : FMpo σ K} {ts : List (Ten (σ × σ) K)} (hr : Rep m ts) (hn : ts ≠ []) (c : K)
    (hc : m.center = -1 ∨ ∃ i, i < ts.length ∧ m.center = (i : Int)) :
    ∃ i t, i < ts.length ∧ ts[i]? = some t ∧ (m.center = -1 → i = 0) ∧ (m.center ≠ -1 → m.center = (i : Int)) ∧
      FMpo.scale m c = .ok ⟨(ts.set i (scaleTen c t)).map some, m.flags.set i .none, m.center⟩ := by
  have hlen : 0 < ts.length := List.length_pos_iff.mpr hn
  unfold FMpo.scale
  rcases hc with hc | ⟨i, hi, hc⟩
  · obtain ⟨t, ht⟩ := getE (ts := ts) (i := 0) hlen
    refine ⟨0, t, hlen, ht, fun _ => rfl, fun h => absurd hc h, ?_⟩
    rw [if_neg (by simp [hc]), read_ok (hr.get ht)]
    show m.write 0 (scaleTen c t) = _
    unfold FMps.write
    rw [if_pos (by rw [hr.size]; exact hlen), hc, hr.slots, List.map_set]
  · obtain ⟨t, ht⟩ := getE (ts := ts) (i := i) hi
    refine ⟨i, t, hi, ht, fun h => by omega, fun _ => hc, ?_⟩
    rw [if_pos (by omega), if_neg (by omega), show m.center.toNat = i by omega, read_ok (hr.get ht)]
    show (m.write i (scaleTen c t) >>= fun m1 => pure { m1 with center := m.center }) = _
    have : m.write i (scaleTen c t) = .ok ⟨(ts.set i (scaleTen c t)).map some, m.flags.set i .none, -1⟩ := by
      unfold FMps.write
      rw [if_pos (by rw [hr.size]; exact hi), hr.slots, List.map_set]
    rw [this]; rfl

theorem normalize_eq {nrm : Ten (σ × σ) K → K × Ten (σ × σ) K} {m : FMpo σ K} {ts : List (Ten (σ × σ) K)} (hr : Rep m ts)
    (hn : ts ≠ []) (hc : m.center = -1 ∨ ∃ i, i < ts.length ∧ m.center = (i : Int)) :
    ∃ i t, i < ts.length ∧ ts[i]? = some t ∧ (m.center = -1 → i = 0) ∧ (m.center ≠ -1 → m.center = (i : Int)) ∧
      FMpo.normalize nrm m = .ok (⟨(ts.set i (nrm t).2).map some, m.flags.set i .none, m.center⟩, (nrm t).1) := by
  have hlen : 0 < ts.length := List.length_pos_iff.mpr hn
  unfold FMpo.normalize
  rcases hc with hc | ⟨i, hi, hc⟩
  · obtain ⟨t, ht⟩ := getE (ts := ts) (i := 0) hlen
    refine ⟨0, t, hlen, ht, fun _ => rfl, fun h => absurd hc h, ?_⟩
    rw [if_neg (by simp [hc]), read_ok (hr.get ht)]
    show (m.write 0 (nrm t).2 >>= fun m1 => pure (m1, (nrm t).1)) = _
    have : m.write 0 (nrm t).2 = .ok ⟨(ts.set 0 (nrm t).2).map some, m.flags.set 0 .none, -1⟩ := by
      unfold FMps.write
      rw [if_pos (by rw [hr.size]; exact hlen), hr.slots, List.map_set]
    rw [this, hc]; rfl
  · obtain ⟨t, ht⟩ := getE (ts := ts) (i := i) hi
    refine ⟨i, t, hi, ht, fun h => by omega, fun _ => hc, ?_⟩
    rw [if_pos (by omega), if_neg (by omega), show m.center.toNat = i by omega, read_ok (hr.get ht)]
    show (m.write i (nrm t).2 >>= fun m1 => pure ({ m1 with center := m.center }, (nrm t).1)) = _
    have : m.write i (nrm t).2 = .ok ⟨(ts.set i (nrm t).2).map some, m.flags.set i .none, -1⟩ := by
      unfold FMps.write
      rw [if_pos (by rw [hr.size]; exact hi), hr.slots, List.map_set]
    rw [this]; rfl

end calls

/-! ### Canonical form by QR on the left and SVD on the right -/
section cano
variable {σ K : Type} [CommRing K]

/-- An SVD from the right as a transposed QR. -/
def svdAsQr (svd : Ten (σ × σ) K → Ten (σ × σ) K × Mat K) (t : Ten (σ × σ) K) : Ten (σ × σ) K × Mat K :=
  ((svd t.tr).1.tr, fun j a => (svd t.tr).2 a j)

theorem rightTen_svd (qr svd : Ten (σ × σ) K → Ten (σ × σ) K × Mat K) (m : FMpo σ K) (i : Nat) :
    FMpo.rightTen qr svd m i = FMps.rightTen (svdAsQr svd) svd false m i := rfl

theorem centR_svd (qr svd : Ten (σ × σ) K → Ten (σ × σ) K × Mat K) (m : FMpo σ K) (t : Nat) :
    FMpo.centR qr svd m t = FMps.centR (svdAsQr svd) svd m t := rfl

theorem rightCanon_svd (qr svd : Ten (σ × σ) K → Ten (σ × σ) K × Mat K) (m : FMpo σ K) (t : Nat) :
    FMpo.rightCanon qr svd m t = FMps.rightCanon (svdAsQr svd) svd m t := rfl

theorem svdAsQr_spec [StarRing K] [Fintype σ] {svd : Ten (σ × σ) K → Ten (σ × σ) K × Mat K} (H : SVDSpec svd) :
    QRSpec (svdAsQr svd) where
  dim := fun t => H.dim t.tr
  fac := by
    intro t s a b ha hb
    have := H.fac t.tr s b a hb ha
    simp only [svdAsQr]
    rw [show t.v s a b = t.tr.v s b a from rfl, this]
    exact Finset.sum_congr rfl fun j _ => by simp [Ten.tr]; ring
  iso := by
    intro t x hx y hy
    have := H.iso t.tr y hy x hx
    simp only [svdAsQr, Ten.tr] at this ⊢
    rw [show (if x = y then (1 : K) else 0) = if y = x then 1 else 0 by simp [eq_comm], ← this]
    exact Finset.sum_congr rfl fun s _ => Finset.sum_congr rfl fun b _ => by ring

theorem mpoCentralize_rep [StarRing K] [Fintype σ] {qr svd : Ten (σ × σ) K → Ten (σ × σ) K × Mat K} (H : QRSpec qr)
    (H' : SVDSpec svd) {m : FMpo σ K} {ts : List (Ten (σ × σ) K)} (hr : Rep m ts) (hi : Inv m) {t : Nat}
    (ht : t < ts.length) :
    ∃ m' ts', FMpo.centralize qr svd m (t : Int) = .ok m' ∧ Rep m' ts' ∧ Eqv ts ts' ∧ m'.center = t ∧
      (∀ j, j < ts.length → m'.flags[j]? =
        some (if j < t then .left else if t < j then .right else .none)) ∧
      (∀ j, (∀ k, k ≤ j → m.flags[k]? = some .left) → j < t → ts'[j]? = ts[j]?) ∧
      (∀ j, (∀ k, j ≤ k → k < ts.length → m.flags[k]? = some .right) → t < j → ts'[j]? = ts[j]?) := by
  obtain ⟨m1, m2, ts2, e1, e2, r2, q, f, u1, u2⟩ := centHalves_rep (svd := svd) H (svdAsQr_spec H') H' hr hi ht
  refine ⟨{ m2 with center := t }, ts2, ?_, ⟨r2.slots, r2.flen, r2.link⟩, q, rfl, f, u1, u2⟩
  unfold FMpo.centralize
  rw [if_neg (by omega)]
  simp only [Int.toNat_natCast, e1, centR_svd, e2]

end cano
end Verif.Mps
