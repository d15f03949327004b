import Verif.Algo.Lanczos
/-
Facts about the Lanczos solvers: the invariant of the loops.
-/
namespace Verif.Algo
open LSt

/-- At the end of round `m`: the basis vectors `βs`, the last product, and the objects `O` of the caller are live. -/
structure LInv (K m : Nat) (O : Multiset Nat) (βs : List Nat) (s : LSt) : Prop where
  len : βs.length = m + 1
  hm : m < K
  bases : ∀ i, s.bases i = βs[i]?
  live : s.live = s.last ::ₘ ((βs : Multiset Nat) + O)
  wa : ∀ i, i ≤ m → s.wa i = true
  wb : ∀ i, i < m → s.wb i = true
  wn : ∀ i, i ≤ m → s.wn i = true
  prods : s.prods = m + 1

theorem use_ok {s : LSt} {q : Nat} (h : q ∈ s.live) : s.use (some q) = .ok () := if_pos h

theorem rd_ok {K : Nat} {w : Nat → Bool} {i : Nat} (h : i < K) (hw : w i = true) : rd K w i = .ok () := by
  unfold rd; rw [if_pos h, if_pos hw]

theorem useB_ok {s : LSt} {K i : Nat} {βs : List Nat} (hK : βs.length ≤ K) (hb : ∀ i, s.bases i = βs[i]?)
    (hl : ∀ q, q ∈ βs → q ∈ s.live) (hi : i < βs.length) : s.useB K i = .ok () := by
  unfold useB
  rw [if_pos (by omega), hb, List.getElem?_eq_getElem hi]
  exact use_ok (hl _ (List.getElem_mem hi))

theorem all_ok {f : Nat → Except LErr Unit} : ∀ {l : List Nat}, (∀ i, i ∈ l → f i = .ok ()) → all f l = .ok ()
  | [], _ => rfl
  | i :: l, h => by
    rw [all, h i List.mem_cons_self]
    exact all_ok fun j hj => h j (List.mem_cons_of_mem _ hj)

theorem tridiag_ok {K n : Nat} {vec : Bool} {s : LSt} (hn : n ≤ K) (ha : ∀ i, i < n → s.wa i = true)
    (hb : ∀ i, i + 1 < n → s.wb i = true) :
    ∃ j, tridiag K n vec s = .ok (if vec then some j else none,
      { s with live := if vec then j ::ₘ s.live else s.live, next := s.next + if vec then 4 else 3 }) := by
  refine ⟨s.next + 1 + 1 + 1, ?_⟩
  have e1 : all (rd K s.wa) (List.range n) = .ok () :=
    all_ok fun i hi => rd_ok (by have := List.mem_range.mp hi; omega) (ha i (List.mem_range.mp hi))
  have e2 : all (rd K s.wb) (List.range (n - 1)) = .ok () :=
    all_ok fun i hi => rd_ok (by have := List.mem_range.mp hi; omega) (hb i (by have := List.mem_range.mp hi; omega))
  have n1 : s.next + 1 ≠ s.next := by omega
  have n2 : s.next + 1 + 1 ≠ s.next := by omega
  have n3 : s.next + 1 + 1 + 1 ≠ s.next := by omega
  have n4 : s.next + 1 + 1 ≠ s.next + 1 := by omega
  have n5 : s.next + 1 + 1 + 1 ≠ s.next + 1 := by omega
  have n6 : s.next + 1 + 1 + 1 ≠ s.next + 1 + 1 := by omega
  cases vec
  · simp only [tridiag, LSt.new, e1, e2, bind, Except.bind, del, Multiset.mem_cons, true_or, or_true, if_true,
      Multiset.erase_cons_tail _ n1, Multiset.erase_cons_tail _ n2, Multiset.erase_cons_tail _ n4,
      Multiset.erase_cons_head, Bool.false_eq_true, if_false]
  · simp only [tridiag, LSt.new, e1, e2, bind, Except.bind, del, Multiset.mem_cons, true_or, or_true, if_true,
      Multiset.erase_cons_tail _ n1, Multiset.erase_cons_tail _ n2, Multiset.erase_cons_tail _ n3, Multiset.erase_cons_tail _ n4,
      Multiset.erase_cons_tail _ n5, Multiset.erase_cons_tail _ n6, Multiset.erase_cons_head]

theorem delAll_ok {R : Multiset Nat} : ∀ {βs : List Nat} {j : Nat} {s : LSt}, s.live = (βs : Multiset Nat) + R →
    delAll (βs.map some ++ List.replicate j none) s = .ok { s with live := R }
  | [], 0, s, h => by
    have h' : s.live = R := by rw [h]; simp
    obtain ⟨l, n, b, la, wa, wb, wn, pr⟩ := s
    simp only at h'
    subst h'
    rfl
  | [], j + 1, s, h => by
    rw [List.replicate_succ]
    exact delAll_ok (βs := []) (j := j) h
  | q :: βs, j, s, h => by
    have h' : s.live = q ::ₘ ((βs : Multiset Nat) + R) := by rw [h, ← Multiset.cons_coe, Multiset.cons_add]
    have e : s.del (some q) = .ok { s with live := (βs : Multiset Nat) + R } := by
      unfold del
      simp only [h', Multiset.mem_cons_self, if_true, Multiset.erase_cons_head]
    rw [List.map_cons, List.cons_append, delAll, e]
    exact delAll_ok (βs := βs) (j := j) (s := { s with live := (βs : Multiset Nat) + R }) rfl

theorem range_bases {βs : List Nat} {bases : Nat → Option Nat} (hb : ∀ i, bases i = βs[i]?) {k : Nat} (hk : βs.length ≤ k) :
    (List.range k).map bases = βs.map some ++ List.replicate (k - βs.length) none := by
  apply List.ext_getElem?
  intro i
  rw [List.getElem?_map, List.getElem?_append, List.length_map]
  by_cases hi : i < βs.length
  · rw [if_pos hi, List.getElem?_range (by omega), List.getElem?_map, List.getElem?_eq_getElem hi]
    simp [hb, hi]
  · rw [if_neg hi, List.getElem?_replicate]
    by_cases hk' : i < k
    · rw [List.getElem?_range hk', if_pos (by omega)]
      simp [hb, Nat.not_lt.mp hi]
    · rw [List.getElem?_eq_none (by simp; omega), if_neg (by omega)]
      rfl

theorem free_ok {K k : Nat} {βs : List Nat} {s : LSt} {R : Multiset Nat} (hb : ∀ i, s.bases i = βs[i]?)
    (h1 : βs.length ≤ k) (h2 : k ≤ K) {v : Option Nat}
    (hl : s.live = (v.elim 0 (fun w => {w})) + (s.last ::ₘ ((βs : Multiset Nat) + R))) :
    lanczosFree K k v s = .ok { s with live := R } := by
  have e1 : s.del v = .ok { s with live := s.last ::ₘ ((βs : Multiset Nat) + R) } := by
    cases v with
    | none =>
      have h' : s.live = s.last ::ₘ ((βs : Multiset Nat) + R) := by rw [hl]; simp
      rw [← h']; rfl
    | some w =>
      have h' : s.live = w ::ₘ (s.last ::ₘ ((βs : Multiset Nat) + R)) := by rw [hl, ← Multiset.singleton_add]; rfl
      unfold del
      simp only [h', Multiset.mem_cons_self, if_true, Multiset.erase_cons_head]
  have e2 := delAll_ok (R := s.last ::ₘ R) (βs := βs) (j := k - βs.length)
    (s := { s with live := s.last ::ₘ ((βs : Multiset Nat) + R) }) (by simp [Multiset.add_cons])
  unfold lanczosFree
  rw [e1]
  simp only [bind, Except.bind, if_pos h2, range_bases hb h1, e2]
  unfold del
  simp only [Multiset.mem_cons_self, if_true, Multiset.erase_cons_head]

theorem finish_ok {K k it w : Nat} {all : Bool} {βs : List Nat} {s : LSt} {R : Multiset Nat} (hb : ∀ i, s.bases i = βs[i]?)
    (hk : βs.length = k) (h1 : 1 ≤ k) (h2 : k ≤ K) (hl : s.live = w ::ₘ (s.last ::ₘ ((βs : Multiset Nat) + R))) :
    ∃ r, finish K k it all (some w) s = .ok r ∧ r.iters = it ∧ r.fin.live = r.vec ::ₘ R ∧ r.fin.prods = s.prods := by
  have u0 : s.useB K 0 = .ok () := useB_ok (by omega) hb (fun q hq => by rw [hl]; simp [hq]) (by omega)
  obtain ⟨s', hs'⟩ : ∃ s', s' = { s with live := s.next ::ₘ s.live, next := s.next + 1 } := ⟨_, rfl⟩
  have hb' : ∀ i, s'.bases i = βs[i]? := by rw [hs']; exact hb
  have hl' : s'.live = (some w).elim 0 (fun w => {w}) + (s'.last ::ₘ ((βs : Multiset Nat) + (s.next ::ₘ R))) := by
    rw [hs']
    simp only [hl, Option.elim_some, Multiset.singleton_add, Multiset.add_cons]
    rw [Multiset.cons_swap s.next w, Multiset.cons_swap s.next s.last, Multiset.cons_swap w s.last, Multiset.cons_swap w s.next]
  have u1 : s'.use (some w) = .ok () := use_ok (by rw [hl']; simp)
  have u2 : LSt.all (s'.useB K) (List.range k) = .ok () := all_ok fun i hi =>
    useB_ok (by omega) hb' (fun q hq => by rw [hl']; simp [hq]) (by have := List.mem_range.mp hi; omega)
  have u3 : lanczosFree K (if all then K else k) (some w) s' = .ok { s' with live := s.next ::ₘ R } :=
    free_ok hb' (by split <;> omega) (by split <;> omega) hl'
  refine ⟨⟨it, s.next, { s' with live := s.next ::ₘ R }⟩, ?_, rfl, rfl, by rw [hs']⟩
  unfold finish
  simp only [u0, bind, Except.bind, LSt.new]
  rw [← hs', u1]
  simp only [u2, u3]

theorem residual_ok {v : LVariant} {K m : Nat} {O : Multiset Nat} {βs : List Nat} {s : LSt} (h : LInv K m O βs s) :
    residual v K (m + 1) s = .ok () := by
  have hlen := h.len
  have hK := h.hm
  have hu : ∀ i, i ≤ m → s.useB K i = .ok () := fun i hi =>
    useB_ok (by omega) h.bases (fun q hq => by rw [h.live]; simp [hq]) (by omega)
  unfold residual
  rw [show m + 1 - 1 = m by omega, rd_ok hK (h.wa m (Nat.le_refl _))]
  simp only [bind, Except.bind, hu m (Nat.le_refl _)]
  have hlast : s.use (some s.last) = .ok () := use_ok (by rw [h.live]; simp)
  by_cases hm : m = 0
  · subst hm
    simp [hlast]
  · rw [if_pos (by omega)]
    have e1 : rd K s.wn m = .ok () := rd_ok hK (h.wn m (Nat.le_refl _))
    have e2 : rd K s.wb (m - 1) = .ok () := rd_ok (by omega) (h.wb _ (by omega))
    have e3 := hu (m - 1) (by omega)
    cases v.useN
    · simp [e2, e3, hlast]
    · simp [e1, e3, hlast]

theorem extend_ok {v : LVariant} {K m : Nat} {O : Multiset Nat} {βs : List Nat} {s : LSt} (h : LInv K m O βs s) (hm : m + 1 < K) :
    ∃ s', extend v K (m + 1) s = .ok s' ∧ LInv K (m + 1) O (βs ++ [s.last]) s' := by
  have hlen := h.len
  obtain ⟨s1, hs1⟩ : ∃ s1 : LSt, s1 = { s with
      wn := Function.update s.wn (m + 1) true
      wb := Function.update s.wb (m + 1 - 1) true
      bases := Function.update s.bases (m + 1) (some s.last) } := ⟨_, rfl⟩
  have hb : ∀ i, s1.bases i = (βs ++ [s.last])[i]? := fun i => by
    rw [hs1]
    simp only
    by_cases hi : i = m + 1
    · subst hi
      rw [Function.update_self, ← hlen, List.getElem?_append_right (Nat.le_refl _)]
      simp
    · rw [Function.update_of_ne hi, h.bases]
      by_cases hi' : i < m + 1
      · rw [List.getElem?_append_left (by omega)]
      · rw [List.getElem?_eq_none (by omega), List.getElem?_eq_none (by simp; omega)]
  have hu : s1.useB K (m + 1) = .ok () := by
    refine useB_ok (by simp; omega) hb (fun q hq => ?_) (by simp; omega)
    rw [hs1]
    simp only [h.live]
    rcases List.mem_append.mp hq with hq | hq
    · simp [hq]
    · simp at hq; simp [hq]
  refine ⟨{ s1 with live := s1.next ::ₘ s1.live, next := s1.next + 1, last := s1.next, wa := Function.update s1.wa (m + 1) true, prods := s1.prods + 1 }, ?_, ?_⟩
  · unfold extend
    simp only [show decide (m + 1 < K) = true from decide_eq_true hm, show decide (m + 1 - 1 < K) = true from decide_eq_true (by omega),
      Bool.not_true, Bool.and_false, Bool.false_eq_true, if_false, bind, Except.bind, pure, Except.pure]
    rw [← hs1, hu]
    rfl
  · refine ⟨by simp; omega, hm, hb, ?_, fun i hi => ?_, fun i hi => ?_, fun i hi => ?_, ?_⟩
    · rw [hs1]
      simp only [h.live]
      rw [show ((βs ++ [s.last] : List Nat) : Multiset Nat) = s.last ::ₘ (βs : Multiset Nat) by
        rw [← Multiset.coe_add, Multiset.coe_singleton, Multiset.add_comm, Multiset.singleton_add], Multiset.cons_add]
    · simp only [hs1]
      by_cases hi' : i = m + 1
      · subst hi'; simp
      · rw [Function.update_of_ne hi']; exact h.wa i (by omega)
    · simp only [hs1]
      by_cases hi' : i = m + 1 - 1
      · subst hi'; simp
      · rw [Function.update_of_ne hi']; exact h.wb i (by omega)
    · simp only [hs1]
      by_cases hi' : i = m + 1
      · subst hi'; simp
      · rw [Function.update_of_ne hi']; exact h.wn i (by omega)
    · simp only [hs1]; rw [h.prods]

theorem LInv.scratch {K m : Nat} {O O' : Multiset Nat} {βs : List Nat} {s : LSt} (h : LInv K m O βs s) {n : Nat} {l : Multiset Nat}
    (hl : l = s.last ::ₘ ((βs : Multiset Nat) + O')) : LInv K m O' βs { s with live := l, next := n } :=
  ⟨h.len, h.hm, h.bases, hl, h.wa, h.wb, h.wn, h.prods⟩

theorem init_ok {K p : Nat} {O : Multiset Nat} {next : Nat} (hK : 1 ≤ K) :
    ∃ s, lanczosInit K p (p ::ₘ O) next = .ok s ∧ LInv K 0 O [p] s := by
  obtain ⟨s1, hs1⟩ : ∃ s1 : LSt, s1 = ⟨p ::ₘ O, next, Function.update (fun _ => none) 0 (some p), 0, fun _ => false, fun _ => false,
    fun _ => false, 0⟩ := ⟨_, rfl⟩
  have hb : ∀ i, s1.bases i = [p][i]? := fun i => by
    rw [hs1]
    cases i with
    | zero => rfl
    | succ i => simp
  have hu : s1.useB K 0 = .ok () := useB_ok (by simpa using hK) hb (fun q hq => by rw [hs1]; simp at hq; simp [hq]) (by simp)
  refine ⟨{ s1 with live := s1.next ::ₘ s1.live, next := s1.next + 1, last := s1.next, wa := Function.update s1.wa 0 true, wn := Function.update s1.wn 0 true, prods := 1 }, ?_, ?_⟩
  · unfold lanczosInit
    rw [if_neg (by omega)]
    simp only [bind, Except.bind, pure, Except.pure]
    rw [← hs1, hu]
    rfl
  · refine ⟨rfl, by omega, hb, ?_, fun i hi => ?_, fun i hi => by omega, fun i hi => ?_, rfl⟩
    · rw [hs1]; rfl
    · obtain rfl : i = 0 := by omega
      simp
    · obtain rfl : i = 0 := by omega
      simp

end Verif.Algo
