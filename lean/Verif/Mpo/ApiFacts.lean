import Verif.Mpo.Spec
import Verif.Mpo.GenFacts
import Mathlib.Algebra.BigOperators.Group.Finset.Basic
import Mathlib.Data.List.Sort
/- From `AddTerm` histories to finite state machine terms (helper facts). -/
namespace Verif.Mpo
open SparMat NullElem Finset

/-! ### Label tables -/

theorem convert_spec {α : Type} [DecidableEq α] (hub : List α) (a : α) :
    (convert hub a).2[(convert hub a).1]? = some a ∧ hub <+: (convert hub a).2 ∧
      (hub.Nodup → (convert hub a).2.Nodup) := by
  unfold convert
  cases h : hub.idxOf? a with
  | some k =>
    simp only
    rw [List.idxOf?_eq_some_iff] at h
    obtain ⟨h1, h2, _⟩ := h
    refine ⟨?_, List.prefix_refl _, fun h => h⟩
    rw [List.getElem?_eq_getElem h1, h2]
  | none =>
    simp only
    rw [List.idxOf?_eq_none_iff] at h
    refine ⟨by simp, List.prefix_append _ _, fun hn => ?_⟩
    rw [List.nodup_append]
    refine ⟨hn, by simp, ?_⟩
    intro x hx y hy
    simp at hy; subst hy
    exact fun e => h (e ▸ hx)

theorem prefix_get {α : Type} {a b : List α} (h : a <+: b) {k : Nat} {x : α} (hx : a[k]? = some x) : b[k]? = some x := by
  obtain ⟨t, rfl⟩ := h
  have : k < a.length := by
    refine Nat.lt_of_not_le fun hcon => ?_
    rw [List.getElem?_eq_none hcon] at hx; cases hx
  rw [List.getElem?_append_left this]; exact hx

theorem nodup_inj {α : Type} {a : List α} (h : a.Nodup) {i j : Nat} {x : α} (hi : a[i]? = some x) (hj : a[j]? = some x) :
    i = j := by
  have h1 : i < a.length := by
    refine Nat.lt_of_not_le fun hcon => ?_
    rw [List.getElem?_eq_none hcon] at hi; cases hi
  have h2 : j < a.length := by
    refine Nat.lt_of_not_le fun hcon => ?_
    rw [List.getElem?_eq_none hcon] at hj; cases hj
  rw [List.getElem?_eq_getElem h1] at hi
  rw [List.getElem?_eq_getElem h2] at hj
  exact (List.Nodup.getElem_inj_iff h).1 (by rw [Option.some.inj hi, Option.some.inj hj])

theorem convertAll_spec {α : Type} [DecidableEq α] : ∀ (as hub : List α),
    hub <+: (convertAll hub as).2 ∧ (hub.Nodup → (convertAll hub as).2.Nodup) ∧
    (convertAll hub as).1.length = as.length ∧
    ∀ (i : Nat) (a : α), as[i]? = some a → ∃ l, (convertAll hub as).1[i]? = some l ∧ (convertAll hub as).2[l]? = some a
  | [], hub => ⟨List.prefix_refl _, fun h => h, rfl, by simp⟩
  | a :: as, hub => by
    obtain ⟨c1, c2, c3⟩ := convert_spec hub a
    obtain ⟨i1, i2, i3, i4⟩ := convertAll_spec as (convert hub a).2
    refine ⟨c2.trans i1, fun h => i2 (c3 h), by simp [convertAll, i3], ?_⟩
    intro i x hx
    cases i with
    | zero =>
      simp at hx; subst hx
      exact ⟨(convert hub a).1, by simp [convertAll], prefix_get i1 c1⟩
    | succ i =>
      simp at hx
      obtain ⟨l, h1, h2⟩ := i4 i x hx
      exact ⟨l, by simpa [convertAll] using h1, h2⟩

/-! ### Sites and operators of one term -/

section
variable {C T : Type} [DecidableEq C] [DecidableEq T] [G : GenTypes C T]

/-- Operator on site `s`: the first listed one, or the identity. -/
def opAtSite (l : List (Nat × T)) (ids : List T) (s : Nat) : Option T :=
  match l[l.findIdx (fun a => a.1 == s)]? with
  | some a => some a.2
  | none => ids[s]?

omit [DecidableEq T] in
theorem opAtSite_mem {l : List (Nat × T)} (ids : List T) (hn : (l.map (·.1)).Nodup) {a : Nat × T} (ha : a ∈ l) :
    opAtSite l ids a.1 = some a.2 := by
  unfold opAtSite
  have hlt : l.findIdx (fun b => b.1 == a.1) < l.length := by
    rw [List.findIdx_lt_length]; exact ⟨a, ha, by simp⟩
  rw [List.getElem?_eq_getElem hlt]
  have hp := List.findIdx_getElem (w := hlt)
  simp only [beq_iff_eq] at hp
  obtain ⟨j, hj, e⟩ := List.getElem_of_mem ha
  have : l.findIdx (fun b => b.1 == a.1) = j := by
    have := (List.Nodup.getElem_inj_iff hn (i := l.findIdx (fun b => b.1 == a.1)) (j := j)
      (hi := by simpa using hlt) (hj := by simpa using hj)).1
    apply this
    simp only [List.getElem_map]
    rw [e, hp]
  simp only [this, e]

omit [DecidableEq T] in
theorem opAtSite_not_mem {l : List (Nat × T)} (ids : List T) {s : Nat} (hs : s ∉ l.map (·.1)) :
    opAtSite l ids s = ids[s]? := by
  unfold opAtSite
  have : l.findIdx (fun b => b.1 == s) = l.length := by
    apply List.findIdx_eq_length_of_false
    intro x hx
    simp only [beq_eq_false_iff_ne]
    intro e
    exact hs (List.mem_map.2 ⟨x, hx, e⟩)
  rw [this, List.getElem?_eq_none (Nat.le_refl _)]

/-- The representations produced for consecutive sites. -/
theorem mkReprs_spec (ids : List T) (cl : Nat) (l : List (Nat × T)) : ∀ (n a : Nat) (hub : List T), a + n ≤ ids.length →
    ∃ os hub', mkReprs ids cl l hub (List.range' a n) = .ok (os, hub') ∧ os.length = n ∧ hub <+: hub' ∧
      (hub.Nodup → hub'.Nodup) ∧
      ∀ j, j < n → ∃ lb x, opAtSite l ids (a + j) = some x ∧ hub'[lb]? = some x ∧
        os[j]? = some [(lb, if l.head?.map (·.1) = some (a + j) then [cl] else [0])] := by
  intro n
  induction n with
  | zero => intro a hub _; exact ⟨[], hub, rfl, rfl, List.prefix_refl _, fun h => h, by omega⟩
  | succ n ih =>
    intro a hub han
    -- the operator at site `a`
    have hone : ∃ o hub1 lb x, siteRepr ids cl l hub a = .ok (o, hub1) ∧ opAtSite l ids a = some x ∧
        hub1[lb]? = some x ∧ o = [(lb, if l.head?.map (·.1) = some a then [cl] else [0])] ∧ hub <+: hub1 ∧
        (hub.Nodup → hub1.Nodup) := by
      unfold opAtSite siteRepr
      cases hf : l[l.findIdx (fun b => b.1 == a)]? with
      | some b =>
        obtain ⟨c1, c2, c3⟩ := convert_spec hub b.2
        have hlt : l.findIdx (fun b => b.1 == a) < l.length := by
          refine Nat.lt_of_not_le fun hcon => ?_
          rw [List.getElem?_eq_none hcon] at hf; cases hf
        have hp := List.findIdx_getElem (w := hlt)
        refine ⟨_, _, (convert hub b.2).1, b.2, rfl, rfl, c1, ?_, c2, c3⟩
        have : (l.findIdx (fun b => b.1 == a) = 0) ↔ l.head?.map (·.1) = some a := by
          cases l with
          | nil => simp at hlt
          | cons h t =>
            rw [List.findIdx_cons]
            by_cases hh : h.1 = a
            · simp [hh]
            · have : (h.1 == a) = false := by simpa using hh
              simp [hh, this]
        by_cases h0 : l.head?.map (·.1) = some a
        · rw [if_pos (this.2 h0), if_pos h0]; rfl
        · rw [if_neg (fun h => h0 (this.1 h)), if_neg h0]; rfl
      | none =>
        have ha : a < ids.length := by omega
        simp only [List.getElem?_eq_getElem ha]
        obtain ⟨c1, c2, c3⟩ := convert_spec hub ids[a]
        refine ⟨_, _, (convert hub ids[a]).1, ids[a], rfl, rfl, c1, ?_, c2, c3⟩
        rw [if_neg]
        · rfl
        · cases l with
          | nil => simp
          | cons h t =>
            intro hh
            simp at hh
            rw [List.findIdx_cons] at hf
            simp [hh] at hf
    obtain ⟨o, hub1, lb, x, e1, e2, e3, e4, e5, e6⟩ := hone
    obtain ⟨os, hub', i1, i2, i3, i4, i5⟩ := ih (a + 1) hub1 (by omega)
    refine ⟨o :: os, hub', ?_, by simp [i2], e5.trans i3, fun h => i4 (e6 h), ?_⟩
    · rw [List.range'_succ]
      unfold mkReprs
      simp only [e1, i1, bind, Except.bind, pure, Except.pure]
    · intro j hj
      cases j with
      | zero => exact ⟨lb, x, e2, prefix_get i3 e3, by simp [e4]⟩
      | succ j =>
        obtain ⟨lb', x', f1, f2, f3⟩ := i5 j (by omega)
        have : a + 1 + j = a + (j + 1) := by omega
        rw [this] at f1 f3
        exact ⟨lb', x', f1, f2, by simpa using f3⟩

/-- Normalised coefficient and site-sorted operator list of a call. -/
def normCall (c : Call C T) : C × List (Nat × T) :=
  let l := sortBySite (c.idxs.zip c.ops)
  let (c', ts) := normalize c.coef (l.map (·.2))
  (c', (l.map (·.1)).zip ts)

omit [DecidableEq C] [DecidableEq T] in
theorem normalize_length (c : C) (ts : List T) : (normalize c ts).2.length = ts.length := by
  induction ts generalizing c with
  | nil => rfl
  | cons t ts ih => unfold normalize; split <;> simp [ih]

omit [DecidableEq C] [DecidableEq T] [G : GenTypes C T] in
theorem sortBySite_perm (l : List (Nat × T)) : (sortBySite l).Perm l := by
  unfold sortBySite; split
  · exact List.Perm.refl _
  · exact List.mergeSort_perm _ _

omit [DecidableEq C] [DecidableEq T] [G : GenTypes C T] in
theorem sortBySite_sorted (l : List (Nat × T)) : (sortBySite l).Pairwise (fun a b => a.1 ≤ b.1) := by
  unfold sortBySite; split
  · assumption
  · have := List.pairwise_mergeSort (le := fun (a b : Nat × T) => decide (a.1 ≤ b.1))
      (fun a b c h1 h2 => by simp at *; omega) (fun a b => by simp; omega) l
    simpa using this

omit [DecidableEq C] [DecidableEq T] in
theorem normCall_sites (c : Call C T) (hl : c.ops.length = c.idxs.length) :
    ((normCall c).2.map (·.1)).Perm c.idxs ∧ (normCall c).2.map (·.1) = (sortBySite (c.idxs.zip c.ops)).map (·.1) := by
  have e : (normCall c).2.map (·.1) = (sortBySite (c.idxs.zip c.ops)).map (·.1) := by
    unfold normCall
    simp only
    rw [List.map_fst_zip]
    simp [normalize_length]
  refine ⟨?_, e⟩
  rw [e]
  refine ((sortBySite_perm _).map _).trans ?_
  rw [List.map_fst_zip (by omega)]

/-- What is known about the machine term registered for a call. -/
structure Resolved (chub : List C) (thub ids : List T) (c : C) (l : List (Nat × T)) (t : Term) : Prop where
  ne : l ≠ []
  asc : l.Pairwise (fun a b => a.1 < b.1)
  hd : l.head?.map (·.1) = some t.head
  tl : l.getLast?.map (·.1) = some t.tail
  ht : t.head ≤ t.tail
  tN : t.tail < ids.length
  len : t.ops.length = t.tail + 1 - t.head
  rep : ∃ cl, chub[cl]? = some c ∧ ∀ s, t.head ≤ s → s ≤ t.tail → ∃ lb x, opAtSite l ids s = some x ∧
    thub[lb]? = some x ∧ t.ops[s - t.head]? = some [(lb, if s = t.head then [cl] else [0])]

omit [DecidableEq C] [DecidableEq T] [G : GenTypes C T] in
theorem Resolved.mono {chub chub' : List C} {thub thub' ids : List T} {c : C} {l : List (Nat × T)} {t : Term}
    (h : Resolved chub thub ids c l t) (h1 : chub <+: chub') (h2 : thub <+: thub') : Resolved chub' thub' ids c l t := by
  obtain ⟨cl, hc, hr⟩ := h.rep
  refine ⟨h.ne, h.asc, h.hd, h.tl, h.ht, h.tN, h.len, cl, prefix_get h1 hc, fun s hs1 hs2 => ?_⟩
  obtain ⟨lb, x, a, b, d⟩ := hr s hs1 hs2
  exact ⟨lb, x, a, prefix_get h2 b, d⟩

/-- Generator state after a history of effective calls. -/
structure GenInv (ids : List T) (idO : Nat → OpRepr) (g : Generator C T) (calls : List (Call C T)) (ts : List Term) : Prop where
  hN : g.N = ids.length
  hids : g.ids = ids
  cnd : g.coefHub.Nodup
  c0 : g.coefHub[0]? = some (GenTypes.cone T)
  tnd : g.opHub.Nodup
  hid : ∀ s, s < ids.length → ∃ lb, g.opHub[lb]? = ids[s]? ∧ idO s = [(lb, kIdCoef)]
  fsm : FsmRep ids.length idO g.fsm ts
  terms : List.Forall₂ (fun c t => Resolved g.coefHub g.opHub ids (normCall c).1 (normCall c).2 t) calls ts

theorem genInv_new (ids : List T) : ∃ idO, GenInv ids idO (Generator.new ids : Generator C T) [] [] := by
  obtain ⟨h1, h2, h3, h4⟩ := convertAll_spec ids ([] : List T)
  refine ⟨fun i => OpRepr.ofLabel ((convertAll [] ids).1.getD i 0), rfl, rfl, by simp [Generator.new], by simp [Generator.new],
    h2 (by simp), ?_, fsmRep_new _ _, List.Forall₂.nil⟩
  intro s hs
  obtain ⟨l, e1, e2⟩ := h4 s ids[s] (List.getElem?_eq_getElem hs)
  refine ⟨l, by rw [List.getElem?_eq_getElem hs]; exact e2, ?_⟩
  rw [List.getD_eq_getElem?_getD, e1]; rfl

omit [DecidableEq C] [DecidableEq T] [G : GenTypes C T] in
theorem asc_head_le {l : List (Nat × T)} (h : l.Pairwise (fun a b => a.1 < b.1)) {a b : Nat × T} (ha : l.head? = some a)
    (hb : l.getLast? = some b) : a.1 ≤ b.1 := by
  cases l with
  | nil => cases ha
  | cons x l =>
    simp at ha; subst ha
    cases l with
    | nil => simp at hb; subst hb; exact Nat.le_refl _
    | cons y l =>
      have hm : b ∈ y :: l := by
        have : (x :: y :: l).getLast? = (y :: l).getLast? := by simp [List.getLast?_cons_cons]
        rw [this] at hb
        exact List.mem_of_getLast? hb
      have := (List.pairwise_cons.1 h).1 b hm
      omega

theorem genInv_addTerm {ids : List T} {idO : Nat → OpRepr} {g : Generator C T} {calls : List (Call C T)} {ts : List Term}
    (h : GenInv ids idO g calls ts) {c : Call C T} (hv : c.Valid ids.length) (hneg : c.negligible = false) :
    ∃ g' t, g.addTerm c.coef c.ops c.idxs = .ok g' ∧ GenInv ids idO g' (calls ++ [c]) (ts ++ [t]) := by
  have hneg1 : ¬ c.coef = GenTypes.czero T := by
    intro e; simp [Call.negligible, e] at hneg
  have hneg2 : GenTypes.tooSmall T c.coef = false := by
    simp [Call.negligible] at hneg; exact hneg.2
  obtain ⟨np, ns⟩ := normCall_sites c hv.len
  -- facts about the sorted list
  have hl0 : (sortBySite (c.idxs.zip c.ops)).map (·.1) = (normCall c).2.map (·.1) := ns.symm
  have hnd : ((normCall c).2.map (·.1)).Nodup := np.nodup_iff.2 hv.nodup
  have hasc : (normCall c).2.Pairwise (fun a b => a.1 < b.1) := by
    have h1 : ((normCall c).2.map (·.1)).Pairwise (· ≤ ·) := by
      rw [ns, List.pairwise_map]; exact sortBySite_sorted _
    have h2 : ((normCall c).2.map (·.1)).Pairwise (· < ·) := by
      refine (h1.and hnd).imp ?_
      rintro a b ⟨x, y⟩; omega
    rw [List.pairwise_map] at h2; exact h2
  have hne : (normCall c).2 ≠ [] := by
    intro e
    rw [e] at np
    exact hv.ne (List.nil_perm.1 np)
  obtain ⟨hd, hhd⟩ : ∃ a, (normCall c).2.head? = some a := by
    cases hx : (normCall c).2 with
    | nil => exact absurd hx hne
    | cons a l => exact ⟨a, rfl⟩
  obtain ⟨lt, hlt⟩ : ∃ a, (normCall c).2.getLast? = some a := by
    cases hx : (normCall c).2.getLast? with
    | none => rw [List.getLast?_eq_none_iff] at hx; exact absurd hx hne
    | some a => exact ⟨a, rfl⟩
  obtain ⟨hd0, hhd0, ehd⟩ : ∃ a, (sortBySite (c.idxs.zip c.ops)).head? = some a ∧ a.1 = hd.1 := by
    have := congrArg List.head? hl0
    rw [List.head?_map, List.head?_map, hhd] at this
    cases hx : (sortBySite (c.idxs.zip c.ops)).head? with
    | none => rw [hx] at this; cases this
    | some a => rw [hx] at this; exact ⟨a, rfl, by simpa using this⟩
  obtain ⟨lt0, hlt0, elt⟩ : ∃ a, (sortBySite (c.idxs.zip c.ops)).getLast? = some a ∧ a.1 = lt.1 := by
    have := congrArg List.getLast? hl0
    rw [List.getLast?_map, List.getLast?_map, hlt] at this
    cases hx : (sortBySite (c.idxs.zip c.ops)).getLast? with
    | none => rw [hx] at this; cases this
    | some a => rw [hx] at this; exact ⟨a, rfl, by simpa using this⟩
  have hle := asc_head_le hasc hhd hlt
  have hltN : lt.1 < ids.length := by
    apply hv.lt
    exact np.mem_iff.1 (List.mem_map.2 ⟨lt, List.mem_of_getLast? hlt, rfl⟩)
  -- run the call
  obtain ⟨os, hub', m1, m2, m3, m4, m5⟩ := mkReprs_spec ids (convert g.coefHub (normCall c).1).1 (normCall c).2
    (lt.1 + 1 - hd.1) hd.1 g.opHub (by omega)
  obtain ⟨c1, c2, c3⟩ := convert_spec g.coefHub (normCall c).1
  let t : Term := ⟨hd.1, lt.1, os⟩
  have tv : t.Valid ids.length := ⟨hle, hltN, m2⟩
  obtain ⟨f', p1, p2⟩ := fsmRep_addPath h.fsm tv
  refine ⟨{ g with coefHub := (convert g.coefHub (normCall c).1).2, opHub := hub', fsm := f' }, t, ?_, ?_⟩
  · unfold Generator.addTerm
    rw [if_neg (by rw [hv.len]; simp), if_neg hneg1, if_neg (by rw [hneg2]; simp), if_neg]
    · simp only [hhd0, hlt0]
      rw [if_neg (by rw [h.hN]; omega)]
      rw [ehd, elt]
      have e1 : (normalize c.coef ((sortBySite (c.idxs.zip c.ops)).map (·.2))).1 = (normCall c).1 := rfl
      have e2 : ((sortBySite (c.idxs.zip c.ops)).map (·.1)).zip
          (normalize c.coef ((sortBySite (c.idxs.zip c.ops)).map (·.2))).2 = (normCall c).2 := rfl
      rw [e2, e1, h.hids, m1]
      simp only [bind, Except.bind, pure, Except.pure]
      have p1' : g.fsm.addPath hd.1 lt.1 os = .ok f' := p1
      rw [p1']
    · rw [h.hN]
      simp only [List.any_eq_true, decide_eq_true_eq, not_exists, not_and, Nat.not_le]
      exact fun s hs => hv.lt s hs
  · refine ⟨h.hN, h.hids, c3 h.cnd, prefix_get c2 h.c0, m4 h.tnd, ?_, p2, ?_⟩
    · intro s hs
      obtain ⟨lb, a1, a2⟩ := h.hid s hs
      refine ⟨lb, ?_, a2⟩
      rw [List.getElem?_eq_getElem hs] at a1 ⊢
      exact prefix_get m3 a1
    · refine List.rel_append (h.terms.imp fun a b hab => hab.mono c2 m3) ?_
      refine List.Forall₂.cons ⟨hne, hasc, by rw [hhd]; rfl, by rw [hlt]; rfl, hle, hltN, m2,
        (convert g.coefHub (normCall c).1).1, c1, fun s hs1 hs2 => ?_⟩ List.Forall₂.nil
      have hs1' : hd.1 ≤ s := hs1
      have hs2' : s ≤ lt.1 := hs2
      obtain ⟨lb, x, b1, b2, b3⟩ := m5 (s - hd.1) (by omega)
      have : hd.1 + (s - hd.1) = s := by omega
      rw [this] at b1 b3
      refine ⟨lb, x, b1, b2, ?_⟩
      show os[s - hd.1]? = _
      rw [b3, hhd]
      by_cases hse : s = hd.1
      · subst hse; simp [t]
      · rw [if_neg (by simp; omega), if_neg hse]

theorem addTerm_negligible {g : Generator C T} {c : Call C T} (hl : c.ops.length = c.idxs.length)
    (hneg : c.negligible = true) : g.addTerm c.coef c.ops c.idxs = .ok g := by
  unfold Generator.addTerm
  rw [if_neg (by rw [hl]; simp)]
  by_cases h1 : c.coef = GenTypes.czero T
  · rw [if_pos h1]
  · rw [if_neg h1, if_pos]
    simp [Call.negligible, h1] at hneg; exact hneg

theorem history_spec (ids : List T) (calls : List (Call C T)) (hv : ∀ c ∈ calls, c.Valid ids.length) :
    ∃ g idO ts, history ids calls = .ok g ∧ GenInv ids idO g (effective calls) ts := by
  obtain ⟨idO, h0⟩ := genInv_new (C := C) ids
  have : ∀ (cs pre : List (Call C T)) (g : Generator C T) (ts : List Term), GenInv ids idO g (effective pre) ts →
      (∀ c ∈ cs, c.Valid ids.length) → ∃ g' ts', cs.foldlM (fun g c => g.addTerm c.coef c.ops c.idxs) g = .ok g' ∧
        GenInv ids idO g' (effective (pre ++ cs)) ts' := by
    intro cs
    induction cs with
    | nil => intro pre g ts hg _; exact ⟨g, ts, rfl, by simpa using hg⟩
    | cons c cs ih =>
      intro pre g ts hg hcs
      have key : ∃ g1 ts1, g.addTerm c.coef c.ops c.idxs = .ok g1 ∧ GenInv ids idO g1 (effective (pre ++ [c])) ts1 := by
        by_cases hn : c.negligible = true
        · refine ⟨g, ts, addTerm_negligible (hcs c (by simp)).len hn, ?_⟩
          have : effective (pre ++ [c]) = effective pre := by simp [effective, List.filter_append, hn]
          rw [this]; exact hg
        · have hn' : c.negligible = false := by simpa using hn
          obtain ⟨g1, t, e1, e2⟩ := genInv_addTerm hg (hcs c (by simp)) hn'
          refine ⟨g1, ts ++ [t], e1, ?_⟩
          have : effective (pre ++ [c]) = effective pre ++ [c] := by simp [effective, List.filter_append, hn']
          rw [this]; exact e2
      obtain ⟨g1, ts1, e1, e2⟩ := key
      obtain ⟨g2, ts2, f1, f2⟩ := ih (pre ++ [c]) g1 ts1 e2 (fun x hx => hcs x (by simp [hx]))
      refine ⟨g2, ts2, ?_, by simpa using f2⟩
      rw [List.foldlM_cons, e1]; exact f1
  obtain ⟨g, ts, e1, e2⟩ := this calls [] (Generator.new ids) [] h0 hv
  exact ⟨g, idO, ts, e1, e2⟩

end
end Verif.Mpo
