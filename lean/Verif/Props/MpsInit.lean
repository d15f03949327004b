import Verif.Mps.Init
import Verif.Mps.Inst
import Verif.Props.MpsCano
/-
Product-state initialisation: C42.
-/
namespace Verif.Props
open Verif.Mps

section
variable {Q σ : Type} [AddCommGroup Q]

/-- The divergence of a tensor with one sector `l` on the IN bond, `r` on the OUT bond and physical quantum
number `p` (OUT): OUT legs count positively, IN legs negatively. Specification. -/
def flux (l p r : Q) : Q := -l + p + r

/-- The bonds `b_0, …, b_N` of a chain are the tensors' bonds, in order: neighbours share their bond. -/
def Bonds (ts : List (QTen Q σ)) (b : List Q) : Prop :=
  b.length = ts.length + 1 ∧
  ∀ (i : Nat) (t : QTen Q σ), ts[i]? = some t →
    ∃ l r, b[i]? = some l ∧ b[i + 1]? = some r ∧ t.lq = [(l, 1)] ∧ t.rq = [(r, 1)] ∧ t.site = i

theorem initTail_spec (qn : Nat → σ → Q) : ∀ (ss : List σ) (i : Nat) (rv : Q), ss ≠ [] →
    ∃ b : List Q, b.length = ss.length + 1 ∧ (initTail qn i rv ss).length = ss.length ∧
      b[0]? = some rv ∧ b[ss.length]? = some 0 ∧
      (∀ j t, (initTail qn i rv ss)[j]? = some t → ∃ l r, b[j]? = some l ∧ b[j + 1]? = some r ∧
        t.lq = [(l, 1)] ∧ t.rq = [(r, 1)] ∧ t.site = i + j ∧ ss[j]? = some t.lab ∧
        flux l (qn (i + j) t.lab) r =
          if j + 1 = ss.length then -(rv - ((ss.zipIdx i).map (fun p => qn p.2 p.1)).sum) else 0)
  | [s], i, rv, _ => by
    refine ⟨[rv, 0], rfl, rfl, rfl, rfl, ?_⟩
    intro j t h
    match j with
    | 0 =>
      simp only [initTail, List.getElem?_cons_zero, Option.some.injEq] at h
      subst h
      refine ⟨rv, 0, rfl, rfl, rfl, rfl, rfl, rfl, ?_⟩
      simp [flux]; exact neg_add_eq_sub _ _
    | j + 1 => simp [initTail] at h
  | s :: s' :: ss, i, rv, _ => by
    obtain ⟨b, hb, hlen, h0, hl, hs⟩ := initTail_spec qn (s' :: ss) (i + 1) (rv - qn i s) (by simp)
    refine ⟨rv :: b, by simp [hb], by simp [initTail, hlen], rfl, ?_, ?_⟩
    · simpa using hl
    · intro j t h
      match j with
      | 0 =>
        simp only [initTail, List.getElem?_cons_zero, Option.some.injEq] at h
        subst h
        refine ⟨rv, rv - qn i s, rfl, h0, rfl, rfl, rfl, rfl, ?_⟩
        simp [flux]
      | j + 1 =>
        simp only [initTail, List.getElem?_cons_succ] at h
        obtain ⟨l, r, e1, e2, e3, e4, e5, e6, e7⟩ := hs j t h
        refine ⟨l, r, e1, e2, e3, e4, by rw [e5]; omega, e6, ?_⟩
        rw [show i + (j + 1) = i + 1 + j by omega, e7]
        simp only [List.length_cons, Nat.add_right_cancel_iff]
        split
        · simp [List.zipIdx_cons, sub_sub]
        · rfl

/-- **C42.** `DirectStateInitMps`: bonds match, outer bonds are zero, the whole divergence sits on site 0 and every
other tensor has zero flux. -/
theorem C42_direct (qn : Nat → σ → Q) (labs : List σ) (h : 1 ≤ labs.length) :
    ∃ b, Bonds (directInit qn labs) b ∧ (directInit qn labs).length = labs.length ∧
      b[0]? = some 0 ∧ b[labs.length]? = some 0 ∧
      (∀ i s l r, labs[i]? = some s → b[i]? = some l → b[i + 1]? = some r →
        flux l (qn i s) r = if i = 0 then divOf qn labs else 0) ∧
      (directInit qn labs).map (·.lab) = labs := by
  match labs, h with
  | [s], _ =>
    have hd : divOf qn [s] - qn 0 s = 0 := by simp [divOf]
    refine ⟨[0, 0], ⟨rfl, ?_⟩, rfl, rfl, rfl, ?_, rfl⟩
    · intro i t ht
      match i with
      | 0 =>
        simp only [directInit, List.getElem?_cons_zero, Option.some.injEq] at ht
        subst ht
        exact ⟨0, 0, rfl, rfl, by rw [hd], rfl, rfl⟩
      | i + 1 => simp [directInit] at ht
    · intro i s' l r hs hl hr
      match i with
      | 0 => simp at hs hl hr; subst hs hl hr; simp [flux, divOf]
      | i + 1 => simp at hs
  | s :: s' :: ss, _ =>
    obtain ⟨b, hb, hlen, h0, hl, hs⟩ := initTail_spec qn (s' :: ss) 1 (divOf qn (s :: s' :: ss) - qn 0 s) (by simp)
    have hz : divOf qn (s :: s' :: ss) - qn 0 s - (((s' :: ss).zipIdx 1).map (fun p => qn p.2 p.1)).sum = 0 := by
      simp [divOf, List.zipIdx_cons]
    have hlab : (directInit qn (s :: s' :: ss)).map (·.lab) = s :: s' :: ss := by
      simp only [directInit, List.map_cons]
      congr 1
      apply List.ext_getElem?
      intro j
      rw [List.getElem?_map]
      cases e : (initTail qn 1 (divOf qn (s :: s' :: ss) - qn 0 s) (s' :: ss))[j]? with
      | none =>
        rw [List.getElem?_eq_none_iff] at e
        exact (List.getElem?_eq_none (by omega)).symm
      | some t => obtain ⟨l, r, -, -, -, -, -, e6, -⟩ := hs j t e; rw [e6]; rfl
    refine ⟨0 :: b, ⟨by simp [directInit, hb, hlen], ?_⟩, by simp [directInit, hlen], rfl, by simpa using hl, ?_, hlab⟩
    · intro i t ht
      match i with
      | 0 =>
        simp only [directInit, List.getElem?_cons_zero, Option.some.injEq] at ht
        subst ht
        exact ⟨0, _, rfl, h0, rfl, rfl, rfl⟩
      | i + 1 =>
        simp only [directInit, List.getElem?_cons_succ] at ht
        obtain ⟨l, r, e1, e2, e3, e4, e5, -, -⟩ := hs i t ht
        exact ⟨l, r, e1, e2, e3, e4, by rw [e5]; omega⟩
    · intro i x l r hx hl' hr'
      match i with
      | 0 =>
        simp only [List.getElem?_cons_zero, Option.some.injEq, Nat.zero_add, List.getElem?_cons_succ] at hx hl' hr'
        subst hx hl'
        rw [h0] at hr'; cases hr'
        simp [flux]
      | i + 1 =>
        simp only [List.getElem?_cons_succ] at hx hl' hr'
        have hi : i < (initTail qn 1 (divOf qn (s :: s' :: ss) - qn 0 s) (s' :: ss)).length := by
          rw [hlen]; exact (List.getElem?_eq_some_iff.mp hx).1
        obtain ⟨l', r', e1, e2, -, -, -, e6, e7⟩ := hs i _ (List.getElem?_eq_getElem hi)
        rw [hl'] at e1; rw [hr'] at e2; rw [hx] at e6
        cases e1; cases e2
        have e6' := Option.some.inj e6
        rw [← e6', hz] at e7
        rw [show i + 1 = 1 + i by omega, e7]
        simp

/-- **C42.** `DirectStateInitZeroDivMps` on at least two sites: bonds match and outer bonds are zero, but the
divergence sits on the last site; the documentation's "every tensor has 0-flux" holds exactly when the total
quantum number is zero. -/
theorem C42_zero_div (qn : Nat → σ → Q) (labs : List σ) (h : 2 ≤ labs.length) :
    ∃ b, Bonds (zeroDivInit qn labs) b ∧ (zeroDivInit qn labs).length = labs.length ∧
      b[0]? = some 0 ∧ b[labs.length]? = some 0 ∧
      (∀ i s l r, labs[i]? = some s → b[i]? = some l → b[i + 1]? = some r →
        flux l (qn i s) r = if i + 1 = labs.length then divOf qn labs else 0) ∧
      (zeroDivInit qn labs).map (·.lab) = labs := by
  match labs, h with
  | s :: s' :: ss, _ =>
    obtain ⟨b, hb, hlen, h0, hl, hs⟩ := initTail_spec qn (s' :: ss) 1 (0 - qn 0 s) (by simp)
    have hz : -(0 - qn 0 s - (((s' :: ss).zipIdx 1).map (fun p => qn p.2 p.1)).sum) = divOf qn (s :: s' :: ss) := by
      simp only [divOf]
      rw [show (s :: s' :: ss).zipIdx = (s, 0) :: (s' :: ss).zipIdx 1 from rfl, List.map_cons, List.sum_cons, zero_sub,
        neg_sub, sub_neg_eq_add, add_comm]
    have hlab : (zeroDivInit qn (s :: s' :: ss)).map (·.lab) = s :: s' :: ss := by
      simp only [zeroDivInit, List.map_cons]
      congr 1
      apply List.ext_getElem?
      intro j
      rw [List.getElem?_map]
      cases e : (initTail qn 1 (0 - qn 0 s) (s' :: ss))[j]? with
      | none =>
        rw [List.getElem?_eq_none_iff] at e
        exact (List.getElem?_eq_none (by omega)).symm
      | some t => obtain ⟨l, r, -, -, -, -, -, e6, -⟩ := hs j t e; rw [e6]; rfl
    refine ⟨0 :: b, ⟨by simp only [zeroDivInit, List.length_cons, hb, hlen], ?_⟩, by simp only [zeroDivInit, List.length_cons, hlen], rfl, by simpa using hl, ?_, hlab⟩
    · intro i t ht
      match i with
      | 0 =>
        simp only [zeroDivInit, List.getElem?_cons_zero, Option.some.injEq] at ht
        subst ht
        exact ⟨0, _, rfl, h0, rfl, rfl, rfl⟩
      | i + 1 =>
        simp only [zeroDivInit, List.getElem?_cons_succ] at ht
        obtain ⟨l, r, e1, e2, e3, e4, e5, -, -⟩ := hs i t ht
        exact ⟨l, r, e1, e2, e3, e4, by rw [e5]; omega⟩
    · intro i x l r hx hl' hr'
      match i with
      | 0 =>
        simp only [List.getElem?_cons_zero, Option.some.injEq, Nat.zero_add, List.getElem?_cons_succ] at hx hl' hr'
        subst hx hl'
        rw [h0] at hr'; cases hr'
        simp [flux]
      | i + 1 =>
        simp only [List.getElem?_cons_succ] at hx hl' hr'
        have hi : i < (initTail qn 1 (0 - qn 0 s) (s' :: ss)).length := by
          rw [hlen]; exact (List.getElem?_eq_some_iff.mp hx).1
        obtain ⟨l', r', e1, e2, -, -, -, e6, e7⟩ := hs i _ (List.getElem?_eq_getElem hi)
        rw [hl'] at e1; rw [hr'] at e2; rw [hx] at e6
        cases e1; cases e2
        have e6' := Option.some.inj e6
        rw [← e6', hz] at e7
        rw [show i + 1 = 1 + i by omega, e7]
        simp only [List.length_cons]
        by_cases hc : i + 1 = ss.length + 1
        · rw [if_pos hc, if_pos (by omega)]
        · rw [if_neg hc, if_neg (by omega)]

/-- **C42 violated for one site.** The zero-divergence variant gives a one-site MPS a non-zero left outer bond and
twice the quantum number as flux. -/
theorem C42_zero_div_single_site (qn : Nat → σ → Q) (s : σ) :
    ∃ t, zeroDivInit qn [s] = [t] ∧ t.lq = [(-qn 0 s, 1)] ∧ t.rq = [(0, 1)] ∧
      flux (-qn 0 s) (qn 0 s) 0 = qn 0 s + qn 0 s :=
  ⟨_, rfl, by simp, rfl, by simp [flux]⟩
end

section state
variable {Q σ K : Type} [AddCommGroup Q] [CommRing K] [StarRing K] [Fintype σ] [DecidableEq σ]

omit [Fintype σ] [StarRing K] in
theorem amp_product (ts : List (QTen Q σ)) (ss : List σ) (h : ss.length = ts.length) :
    amp (ts.map (QTen.ten (K := K))) ss 0 0 = if ts.map (·.lab) = ss then 1 else 0 := by
  induction ts generalizing ss with
  | nil =>
    have : ss = [] := List.length_eq_zero_iff.mp h
    subst this; rfl
  | cons t ts ih =>
    cases ss with
    | nil => simp at h
    | cons s ss =>
      have ih' := ih ss (by simpa using h)
      rw [List.map_cons, amp_cons]
      show ∑ k ∈ Finset.range 1, _ = _
      rw [Finset.sum_range_one, ih']
      simp only [QTen.ten, and_self, and_true, List.map_cons, List.cons.injEq]
      by_cases h1 : s = t.lab
      · subst h1; simp
      · simp [h1, Ne.symm h1]

omit [Fintype σ] [StarRing K] in
theorem linked_product : ∀ ts : List (QTen Q σ), Linked (ts.map (QTen.ten (K := K)))
  | [] => List.IsChain.nil
  | [_] => List.IsChain.singleton _
  | _ :: t :: ts => linked_mk rfl (linked_product (t :: ts))

omit [Fintype σ] [StarRing K] [DecidableEq σ] in
theorem deallocs_ok (qr svd : Ten σ K → Ten σ K × Mat K) (n : Nat) : ∀ (is : List Nat) (m : FMps σ K),
    m.slots.length = n → (∀ i ∈ is, i < n) →
    ∃ m', (is.map Call.dealloc).foldlM (FMps.call qr svd) m = .ok m' ∧ m'.slots.length = n
  | [], m, h, _ => ⟨m, rfl, h⟩
  | i :: is, m, h, hi => by
    have e : m.call qr svd (.dealloc i) = .ok { m with slots := m.slots.set i Option.none } := by
      exact if_pos (show i < m.slots.length by rw [h]; exact hi i (by simp))
    obtain ⟨m', e', h'⟩ := deallocs_ok qr svd n is { m with slots := m.slots.set i Option.none } (by simp [h])
      (fun j hj => hi j (by simp [hj]))
    exact ⟨m', by rw [List.map_cons, List.foldlM_cons, e]; exact e', h'⟩

omit [Fintype σ] [StarRing K] [DecidableEq σ] in
theorem writes_ok (qr svd : Ten σ K → Ten σ K × Mat K) (n : Nat) (m : FMps σ K) (hm : m.slots.length = n)
    (ts : List (Ten σ K)) : ts.length ≤ n →
    ∃ m', (ts.zipIdx.map (fun p => Call.write p.2 p.1)).foldlM (FMps.call qr svd) m = .ok m' ∧
      m'.slots = ts.map some ++ m.slots.drop ts.length := by
  induction ts using List.reverseRecOn with
  | nil => intro _; exact ⟨m, rfl, by simp⟩
  | append_singleton ts t ih =>
    intro h
    simp only [List.length_append, List.length_cons, List.length_nil] at h
    obtain ⟨m', e, hs⟩ := ih (by omega)
    have hlen : m'.slots.length = n := by rw [hs]; simp; omega
    have e2 : m'.call qr svd (.write ts.length t) =
        .ok ⟨m'.slots.set ts.length (some t), m'.flags.set ts.length .none, -1⟩ := by
      exact if_pos (show ts.length < m'.slots.length by omega)
    refine ⟨⟨m'.slots.set ts.length (some t), m'.flags.set ts.length .none, -1⟩, ?_, ?_⟩
    · rw [List.zipIdx_append, List.map_append, List.foldlM_append, e]
      rw [Nat.zero_add]
      show (m'.call qr svd (.write ts.length t) >>= pure) = _
      rw [e2]; rfl
    · simp only [hs]
      rw [List.set_append_right _ _ (by simp), List.length_map, Nat.sub_self, List.drop_eq_getElem_cons (by omega),
        List.set_cons_zero]
      simp

/-- The tensors of a product state stored on an MPS with any previous history. -/
theorem init_state {qr svd : Ten σ K → Ten σ K × Mat K} (H : QRSpec qr) (H' : SVDSpec svd) {n : Nat}
    {cs : List (Call σ K)} {m : FMps σ K} (hist : FMps.history qr svd n cs = .ok m) (ts : List (QTen Q σ))
    (hts : ts.length = n) (hn : 1 ≤ n) :
    ∃ m' ts', FMps.history qr svd n (cs ++ initCalls ts) = .ok m' ∧ m'.center = 0 ∧
      m'.flags = mixedFlags n 0 ∧ m'.slots = ts'.map some ∧
      ∀ ss, ss.length = n → amp ts' ss 0 0 = if ss = ts.map (·.lab) then 1 else 0 := by
  have hsz : m.slots.length = n := (history_inv hist).2
  obtain ⟨m1, e1, h1⟩ := deallocs_ok qr svd n (List.range ts.length) m hsz (by simp [hts])
  obtain ⟨m2, e2, h2⟩ := writes_ok qr svd n m1 h1 (ts.map (QTen.ten (K := K))) (by simp [hts])
  have hz : (ts.zipIdx.map (fun p => Call.write p.2 (p.1.ten (K := K)))) =
      ((ts.map (QTen.ten (K := K))).zipIdx.map (fun p => Call.write p.2 p.1)) := by
    rw [List.zipIdx_map, List.map_map]; rfl
  have hist2 : FMps.history qr svd n (cs ++ ((List.range ts.length).map Call.dealloc ++
      ts.zipIdx.map (fun p => Call.write p.2 (p.1.ten (K := K))))) = .ok m2 := by
    unfold FMps.history at hist ⊢
    rw [List.foldlM_append, hist]
    show (List.foldlM (FMps.call qr svd) m _) = _
    rw [List.foldlM_append, e1]
    show (List.foldlM (FMps.call qr svd) m1 _) = _
    rw [hz]; exact e2
  obtain ⟨m', ts', e, c, f, s, -, q, -, -⟩ := C14_centralize H H' hist2 (ts := ts.map (QTen.ten (K := K)))
    (by rw [h2, List.drop_eq_nil_of_le (by simp [h1, hts]), List.append_nil]) (linked_product ts) (t := 0) hn
  refine ⟨m', ts', ?_, c, f, s, ?_⟩
  · rw [← e]
    simp [initCalls]
  · intro ss hss
    have hh : headL (ts.map (QTen.ten (K := K))) = 1 := by
      cases ts with
      | nil => simp at hts; omega
      | cons t ts => rfl
    rw [q.2.2.2 ss 0 0 (by rw [hh]; omega), amp_product ts ss (by omega)]
    simp [eq_comm]

/-- **C42.** Whatever was done with the MPS before, after `DirectStateInitMps(mps, labs)` it represents exactly the
basis state `labs` (amplitude one there, zero elsewhere) and is centralised at site 0. -/
theorem C42_direct_state {qr svd : Ten σ K → Ten σ K × Mat K} (H : QRSpec qr) (H' : SVDSpec svd)
    {cs : List (Call σ K)} {m : FMps σ K} (qn : Nat → σ → Q) (labs : List σ) (h1 : 1 ≤ labs.length)
    (hist : FMps.history qr svd labs.length cs = .ok m) :
    ∃ m' ts', FMps.history qr svd labs.length (cs ++ initCalls (directInit qn labs)) = .ok m' ∧
      m'.center = 0 ∧ m'.flags = mixedFlags labs.length 0 ∧ m'.slots = ts'.map some ∧
      ∀ ss, ss.length = labs.length → amp ts' ss 0 0 = if ss = labs then 1 else 0 := by
  obtain ⟨b, -, hl, -, -, -, hlab⟩ := C42_direct qn labs h1
  obtain ⟨m', ts', e, c, f, s, a⟩ := init_state H H' hist (directInit qn labs) hl h1
  exact ⟨m', ts', e, c, f, s, by rw [hlab] at a; exact a⟩

/-- **C42.** The same for `DirectStateInitZeroDivMps`. -/
theorem C42_zero_div_state {qr svd : Ten σ K → Ten σ K × Mat K} (H : QRSpec qr) (H' : SVDSpec svd)
    {cs : List (Call σ K)} {m : FMps σ K} (qn : Nat → σ → Q) (labs : List σ) (h1 : 2 ≤ labs.length)
    (hist : FMps.history qr svd labs.length cs = .ok m) :
    ∃ m' ts', FMps.history qr svd labs.length (cs ++ initCalls (zeroDivInit qn labs)) = .ok m' ∧
      m'.center = 0 ∧ m'.flags = mixedFlags labs.length 0 ∧ m'.slots = ts'.map some ∧
      ∀ ss, ss.length = labs.length → amp ts' ss 0 0 = if ss = labs then 1 else 0 := by
  obtain ⟨b, -, hl, -, -, -, hlab⟩ := C42_zero_div qn labs h1
  obtain ⟨m', ts', e, c, f, s, a⟩ := init_state H H' hist (zeroDivInit qn labs) hl (by omega)
  exact ⟨m', ts', e, c, f, s, by rw [hlab] at a; exact a⟩
end state

section extend
variable {Q σ : Type} [AddCommGroup Q]

omit [AddCommGroup Q] in
theorem sectorAt_uniform {D : Nat} (hD : 0 < D) : ∀ (l : List (Q × Nat)) (j : Nat), (∀ p ∈ l, p.2 = D) →
    sectorAt l (j * D) = (l[j]?).map (·.1)
  | [], j, _ => by simp [sectorAt]
  | (q, d) :: l, 0, h => by
    have : d = D := h (q, d) (by simp)
    simp [sectorAt, this, hD]
  | (q, d) :: l, j + 1, h => by
    have hd : d = D := h (q, d) (by simp)
    have := sectorAt_uniform hD l j (fun p hp => h p (by simp [hp]))
    simp only [sectorAt, hd, Nat.add_mul, Nat.one_mul, List.getElem?_cons_succ]
    rw [if_neg (by omega), Nat.add_sub_cancel]; exact this

theorem extBond_ok (qn : Nat → σ → Q) {D : Nat} (hD : 0 < D) (i : Nat) (lv : List (Q × Nat))
    (hu : ∀ p ∈ lv, p.2 = D) : ∀ (ss : List σ) (j : Nat), j + ss.length ≤ lv.length →
    ∃ r, extBond qn D i lv j ss = some r ∧ r.length = ss.length ∧ (∀ p ∈ r, p.2 = D) ∧
      ∀ k s q, ss[k]? = some s → (lv[j + k]?).map (·.1) = some q → (r[k]?).map (·.1) = some (q - qn i s)
  | [], j, _ => ⟨[], rfl, rfl, by simp, by simp⟩
  | s :: ss, j, h => by
    simp only [List.length_cons] at h
    obtain ⟨r, e, hl, hr, hk⟩ := extBond_ok qn hD i lv hu ss (j + 1) (by omega)
    have hj : lv[j]? = some lv[j] := List.getElem?_eq_getElem (by omega)
    refine ⟨((lv[j]).1 - qn i s, D) :: r, ?_, by simp [hl], ?_, ?_⟩
    · simp only [extBond, sectorAt_uniform hD lv j hu, hj, e]; rfl
    · intro p hp; rcases List.mem_cons.mp hp with rfl | hp
      · rfl
      · exact hr p hp
    · intro k x q hx hq
      match k with
      | 0 =>
        simp only [List.getElem?_cons_zero, Option.some.injEq] at hx
        subst hx
        simp only [Nat.add_zero, hj, Option.map_some, Option.some.injEq] at hq
        simp [hq]
      | k + 1 =>
        simp only [List.getElem?_cons_succ] at hx ⊢
        exact hk k x q hx (by rw [show j + 1 + k = j + (k + 1) by omega]; exact hq)

/-- Quantum number of state `j` summed over the sites `< i`. Specification. -/
def prefixQn (qn : Nat → σ → Q) (state : Nat → σ) (i : Nat) : Q := ((List.range i).map (fun k => qn k (state k))).sum

theorem prefixQn_succ (qn : Nat → σ → Q) (state : Nat → σ) (i : Nat) :
    prefixQn qn state (i + 1) = prefixQn qn state i + qn i (state i) := by
  simp [prefixQn, List.range_succ]

theorem extMiddle_ok (qn : Nat → σ → Q) {D : Nat} (hD : 0 < D) (states : List (Nat → σ)) (div : Q) :
    ∀ (n i : Nat) (lv : List (Q × Nat)), lv.length = states.length → (∀ p ∈ lv, p.2 = D) →
      (∀ (j : Nat) (f : Nat → σ), states[j]? = some f → (lv[j]?).map (·.1) = some (div - prefixQn qn f i)) →
      ∃ bs, extMiddle qn D (fun i => states.map (fun f => f i)) n i lv = some bs ∧ bs.length = n ∧
        ∀ k b, bs[k]? = some b → b.length = states.length ∧ (∀ p ∈ b, p.2 = D) ∧
          ∀ (j : Nat) (f : Nat → σ), states[j]? = some f → (b[j]?).map (·.1) = some (div - prefixQn qn f (i + 1 + k))
  | 0, i, lv, _, _, _ => ⟨[], rfl, rfl, by simp⟩
  | n + 1, i, lv, hl, hu, hv => by
    obtain ⟨r, e, hrl, hr, hk⟩ := extBond_ok qn hD i lv hu (states.map (fun f => f i)) 0 (by simp [hl])
    have hr' : ∀ (j : Nat) (f : Nat → σ), states[j]? = some f →
        (r[j]?).map (·.1) = some (div - prefixQn qn f (i + 1)) := by
      intro j f hj
      rw [hk j (f i) (div - prefixQn qn f i) (by rw [List.getElem?_map, hj]; rfl) (by rw [Nat.zero_add]; exact hv j f hj),
        prefixQn_succ, sub_sub]
    obtain ⟨bs, e2, hbl, hb⟩ := extMiddle_ok qn hD states div n (i + 1) r (by simpa using hrl) hr hr'
    refine ⟨r :: bs, ?_, by simp [hbl], ?_⟩
    · simp only [extMiddle, e]
      show (extMiddle qn D _ n (i + 1) r >>= _) = _
      rw [e2]; rfl
    · intro k b hkb
      match k with
      | 0 =>
        simp only [List.getElem?_cons_zero, Option.some.injEq] at hkb
        subst hkb
        exact ⟨by simpa using hrl, hr, hr'⟩
      | k + 1 =>
        simp only [List.getElem?_cons_succ] at hkb
        obtain ⟨h1, h2, h3⟩ := hb k b hkb
        exact ⟨h1, h2, fun j f hj => by rw [show i + 1 + (k + 1) = i + 1 + 1 + k by omega]; exact h3 j f hj⟩

/-- **C42.** `ExtendDirectRandomInitMps` on `N ≥ 2` sites with `enlarged_dim ≥ 1`: every sector lookup succeeds, and
for each given product state `j` with the same total quantum number as the first, the `j`-th sectors of the bonds
form a path on which every tensor has an allowed block of the divergence it is filled with (the total on site 0,
zero elsewhere). So every given state is in the variational space. -/
theorem C42_extended (qn : Nat → σ → Q) {D N : Nat} (hD : 0 < D) (hN : 2 ≤ N) (states : List (Nat → σ)) (div : Q) :
    ∃ bonds, extAll qn D N (fun i => states.map (fun f => f i)) div = some bonds ∧ bonds.length = N + 1 ∧
      bonds[0]? = some [(0, 1)] ∧ bonds[N]? = some [(0, 1)] ∧
      (∀ i b, 0 < i → i < N → bonds[i]? = some b → b.length = states.length ∧ ∀ p ∈ b, p.2 = D) ∧
      ∀ (j : Nat) (f : Nat → σ), states[j]? = some f → prefixQn qn f N = div →
        ∃ path : Nat → Q, path 0 = 0 ∧ path N = 0 ∧
          (∀ i b, 0 < i → i < N → bonds[i]? = some b → (b[j]?).map (·.1) = some (path i)) ∧
          (∀ i, i < N → flux (path i) (qn i (f i)) (path (i + 1)) = if i = 0 then div else 0) := by
  have hr0 : ∀ (j : Nat) (f : Nat → σ), states[j]? = some f →
      (((states.map (fun f => f 0)).map (fun s => (div - qn 0 s, D)))[j]?).map (·.1) =
        some (div - prefixQn qn f 1) := by
    intro j f hj
    simp [List.getElem?_map, hj, prefixQn]
  obtain ⟨bs, e, hl, hb⟩ := extMiddle_ok qn hD states div (N - 2) 1
    ((states.map (fun f => f 0)).map (fun s => (div - qn 0 s, D))) (by simp)
    (by intro p hp; simp only [List.map_map, List.mem_map] at hp; obtain ⟨f, -, rfl⟩ := hp; rfl) hr0
  have hbonds : ∀ i b, 0 < i → i < N →
      ([(0, 1)] :: (((states.map (fun f => f 0)).map (fun s => (div - qn 0 s, D))) :: bs) ++ [[(0, 1)]])[i]? = some b →
      (b.length = states.length ∧ ∀ p ∈ b, p.2 = D) ∧ ∀ (j : Nat) (f : Nat → σ), states[j]? = some f →
        (b[j]?).map (·.1) = some (div - prefixQn qn f i) := by
    intro i b h0 hi hib
    match i, h0 with
    | 1, _ =>
      simp only [List.cons_append, List.getElem?_cons_succ, List.getElem?_cons_zero, Option.some.injEq] at hib
      subst hib
      refine ⟨⟨by simp, ?_⟩, hr0⟩
      intro p hp; simp only [List.map_map, List.mem_map] at hp; obtain ⟨f, -, rfl⟩ := hp; rfl
    | i + 2, _ =>
      simp only [List.cons_append, List.getElem?_cons_succ] at hib
      rw [List.getElem?_append_left (by omega)] at hib
      obtain ⟨a1, a2, a3⟩ := hb i b hib
      exact ⟨⟨a1, a2⟩, fun j f hj => by rw [a3 j f hj, show 1 + 1 + i = i + 2 by omega]⟩
  refine ⟨[(0, 1)] :: (((states.map (fun f => f 0)).map (fun s => (div - qn 0 s, D))) :: bs) ++ [[(0, 1)]],
    ?_, by simp [hl]; omega, rfl, ?_, fun i b h0 hi hib => (hbonds i b h0 hi hib).1, ?_⟩
  · have : extBonds qn D N (fun i => states.map (fun f => f i)) div =
        some (((states.map (fun f => f 0)).map (fun s => (div - qn 0 s, D))) :: bs) := by
      simp only [extBonds, e]; rfl
    simp only [extAll, this]; rfl
  · rw [List.getElem?_append_right (by simp [hl]; omega)]
    simp only [List.length_cons, hl]
    rw [show N - (N - 2 + 1 + 1) = 0 by omega]; rfl
  · intro j f hj htot
    refine ⟨fun i => if i = 0 then 0 else div - prefixQn qn f i, rfl, ?_, ?_, ?_⟩
    · show (if N = 0 then 0 else div - prefixQn qn f N) = 0
      rw [if_neg (by omega), htot, sub_self]
    · intro i b h0 hi hib
      show _ = some (if i = 0 then 0 else div - prefixQn qn f i)
      rw [if_neg (by omega)]
      exact (hbonds i b h0 hi hib).2 j f hj
    · intro i hi
      by_cases h0 : i = 0
      · subst h0
        simp [flux, prefixQn]
      · simp only [if_neg h0, Nat.add_one_ne_zero, if_false]
        rw [prefixQn_succ, flux]
        simp [← sub_sub]
end extend

/-! ### Non-vacuity: a Néel state of three spins, integer quantum numbers -/
example : ∃ b, Bonds (directInit (Q := Int) (fun _ s => if s then 1 else -1) [true, false, true]) b ∧
    b = [0, 0, 1, 0] := by
  refine ⟨_, ⟨by decide, ?_⟩, rfl⟩
  intro i t h
  match i with
  | 0 => simp [directInit, initTail] at h; subst h; exact ⟨0, 0, rfl, rfl, rfl, rfl, rfl⟩
  | 1 => simp [directInit, initTail] at h; subst h; exact ⟨0, 1, rfl, rfl, rfl, rfl, rfl⟩
  | 2 => simp [directInit, initTail] at h; subst h; exact ⟨1, 0, rfl, rfl, rfl, rfl, rfl⟩
  | i + 3 => simp [directInit, initTail] at h

example : divOf (Q := Int) (fun _ s => if s then 1 else -1) [true, false, true] = 1 := by decide

/-- Two product states of equal magnetisation on four sites with `enlarged_dim = 2`. -/
example : extAll (Q := Int) (fun _ s => if s then 1 else -1) 2 4
    (fun i => [fun i => i % 2 == 0, fun i => decide (i < 2)].map (fun f => f i)) 0 =
      some [[(0, 1)], [(-1, 2), (-1, 2)], [(0, 2), (-2, 2)], [(-1, 2), (-1, 2)], [(0, 1)]] := by decide

example : ∃ m, FMps.history qr0 (svd0 (K := Int)) 3 [] = .ok m := ⟨_, rfl⟩

end Verif.Props
