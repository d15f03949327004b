import Verif.Mpo.ApiFacts
import Mathlib.Tactic.Ring
/- Value of the registered terms and the exact form of the duplicate drop (helper facts). -/
namespace Verif.Mpo
open SparMat NullElem Finset

/-! ### Which terms are dropped -/

theorem single_eqv {l c l' c' : Label} (h : OpRepr.eqv [(l, [c])] [(l', [c'])] = true) : l = l' ∧ c = c' := by
  have h1 := val_eqv (R := Nat) (fun _ => 1) (fun x => if x = l then 1 else 0) h
  have h2 := val_eqv (R := Nat) (fun x => if x = c then 1 else 0) (fun _ => 1) h
  simp [OpRepr.val, CoefRepr.val] at h1 h2
  exact ⟨h1.symm, h2.symm⟩

/-- Number of coefficient labels in an entry. -/
def weight (o : OpRepr) : Nat := OpRepr.val (fun _ => 1) (fun _ => 1) o

theorem weight_single (l c : Label) : weight [(l, [c])] = 1 := by simp [weight, OpRepr.val, CoefRepr.val]
theorem weight_add (a b : OpRepr) : weight (OpRepr.add a b) = weight a + weight b := val_add _ _ _ _
theorem weight_eqv {a b : OpRepr} (h : OpRepr.eqv a b = true) : weight a = weight b := val_eqv _ _ h

section
variable {f : Fsm} {idOps : Nat → OpRepr} {ts : List Term}

theorem acc_cases {i x y : Nat} (hop : ∀ k, k < ts.length → ∃ l c, opK idOps ts k i = [(l, [c])]) :
    ∀ k, k ≤ ts.length →
      ((∀ k', k' < k → ¬ (f.idx ts i k' = x ∧ f.idx ts (i + 1) k' = y)) ∧ f.acc idOps ts i x y k = []) ∨
      (∃ l c, (∃ k', k' < k ∧ f.idx ts i k' = x ∧ f.idx ts (i + 1) k' = y) ∧
        (∀ k', k' < k → f.idx ts i k' = x ∧ f.idx ts (i + 1) k' = y → opK idOps ts k' i = [(l, [c])]) ∧
        f.acc idOps ts i x y k = [(l, [c])]) ∨
      (∃ j1 j2, j1 < k ∧ j2 < k ∧ (f.idx ts i j1 = x ∧ f.idx ts (i + 1) j1 = y) ∧ (f.idx ts i j2 = x ∧ f.idx ts (i + 1) j2 = y) ∧
        opK idOps ts j1 i ≠ opK idOps ts j2 i ∧ 2 ≤ weight (f.acc idOps ts i x y k)) := by
  intro k
  induction k with
  | zero => intro _; exact Or.inl ⟨by omega, rfl⟩
  | succ k ih =>
    intro hk
    rw [Fsm.acc]
    by_cases hm : f.idx ts i k = x ∧ f.idx ts (i + 1) k = y
    · rw [if_pos hm]
      obtain ⟨l, c, e⟩ := hop k (by omega)
      rcases ih (by omega) with ⟨h1, h2⟩ | ⟨l', c', ⟨j, hj, hjm⟩, h2, h3⟩ | ⟨j1, j2, a1, a2, a3, a4, a5, a6⟩
      · refine Or.inr (Or.inl ⟨l, c, ⟨k, by omega, hm⟩, ?_, ?_⟩)
        · intro k' hk' hc
          by_cases hkk : k' = k
          · rw [hkk, e]
          · exact absurd hc (h1 k' (by omega))
        · rw [h2, e]; rfl
      · by_cases hq : OpRepr.eqv [(l', [c'])] [(l, [c])] = true
        · obtain ⟨rfl, rfl⟩ := single_eqv hq
          refine Or.inr (Or.inl ⟨l', c', ⟨k, by omega, hm⟩, ?_, ?_⟩)
          · intro k' hk' hc
            by_cases hkk : k' = k
            · rw [hkk, e]
            · exact h2 k' (by omega) hc
          · rw [h3, e]; unfold comb; simp [hq]
        · refine Or.inr (Or.inr ⟨j, k, by omega, by omega, hjm, hm, ?_, ?_⟩)
          · rw [h2 j hj hjm, e]; intro he; rw [he, opEqv_refl] at hq; exact hq rfl
          · rw [h3, e]; unfold comb
            have : OpRepr.eqv [(l', [c'])] [(l, [c])] = false := by simpa using hq
            simp [this, weight_add, weight_single]
      · refine Or.inr (Or.inr ⟨j1, j2, by omega, by omega, a3, a4, a5, ?_⟩)
        unfold comb
        split
        · rename_i he
          have : f.acc idOps ts i x y k = [] := by simpa using he
          rw [this] at a6; simp [weight] at a6
        · split
          · rw [weight_add]; omega
          · exact a6
    · rw [if_neg hm]
      rcases ih (by omega) with ⟨h1, h2⟩ | ⟨l', c', ⟨j, hj, hjm⟩, h2, h3⟩ | ⟨j1, j2, a1, a2, a3, a4, a5, a6⟩
      · refine Or.inl ⟨fun k' hk' => ?_, h2⟩
        by_cases hkk : k' = k
        · rw [hkk]; exact hm
        · exact h1 k' (by omega)
      · refine Or.inr (Or.inl ⟨l', c', ⟨j, by omega, hjm⟩, fun k' hk' hc => ?_, h3⟩)
        have : k' ≠ k := fun e => hm (e ▸ hc)
        exact h2 k' (by omega) hc
      · exact Or.inr (Or.inr ⟨j1, j2, by omega, by omega, a3, a4, a5, a6⟩)
end

/-- The term `k` is a one-site term dropped because all earlier one-site terms of its site (at least one) equal it. -/
def Dropped (idOps : Nat → OpRepr) (ts : List Term) (k : Nat) : Prop :=
  ∃ t, ts[k]? = some t ∧ t.head = t.tail ∧
    (∃ k' t', k' < k ∧ ts[k']? = some t' ∧ t'.head = t.head ∧ t'.tail = t.head) ∧
    ∀ k' t', k' < k → ts[k']? = some t' → t'.head = t.head → t'.tail = t.head → opK idOps ts k' t.head = opK idOps ts k t.head

theorem surv_iff_not_dropped {N : Nat} {idOps : Nat → OpRepr} {f : Fsm} {ts : List Term} (h : FsmRep N idOps f ts)
    (hv : ∀ t ∈ ts, t.Valid N) (hs : ∀ t ∈ ts, t.Shape) (hid : IdShape N idOps) {k : Nat} (hk : k < ts.length) :
    f.surv idOps ts k ↔ ¬ Dropped idOps ts k := by
  rw [surv_iff hk]
  have hvk := hv _ (List.getElem_mem hk)
  have h1 := hvk.ht
  have h2 := hvk.tN
  by_cases hone : ts[k].head = ts[k].tail
  · have hi : ts[k].head < N := by omega
    have hmatch : ∀ j, (hj : j < ts.length) → ((f.idx ts ts[k].head j = f.idx ts ts[k].head k ∧
        f.idx ts (ts[k].head + 1) j = f.idx ts (ts[k].head + 1) k) ↔ ts[j].head = ts[k].head ∧ ts[j].tail = ts[k].head) := by
      intro j hj
      have hvj := (hv _ (List.getElem_mem hj)).ht
      rw [same_iff h hv (by omega) hj hk, same_iff h hv (by omega) hj hk]
      constructor
      · rintro ⟨a, b⟩
        by_cases hjk : j = k
        · subst hjk; omega
        · omega
      · intro a; omega
    obtain ⟨l, c, e⟩ := opK_head (idOps := idOps) hv hs hk
    have cases' := acc_cases (f := f) (idOps := idOps) (ts := ts) (i := ts[k].head) (x := f.idx ts ts[k].head k)
      (y := f.idx ts (ts[k].head + 1) k) (fun j hj => opK_single hv hs hid hi hj) k (by omega)
    unfold Fsm.eff
    rcases cases' with ⟨a1, a2⟩ | ⟨l', c', ⟨j, hj, hjm⟩, a2, a3⟩ | ⟨j1, j2, a1, a2, a3, a4, a5, a6⟩
    · constructor
      · rintro _ ⟨t, ht, _, ⟨k', t', hk', ht', b1, b2⟩, _⟩
        rw [List.getElem?_eq_getElem hk] at ht; cases ht
        have hkl : k' < ts.length := by omega
        rw [List.getElem?_eq_getElem hkl] at ht'; cases ht'
        exact a1 k' hk' ((hmatch k' hkl).2 ⟨b1, b2⟩)
      · intro _; exact Or.inl a2
    · rw [a3, e]
      constructor
      · rintro hc ⟨t, ht, _, _, ball⟩
        rw [List.getElem?_eq_getElem hk] at ht; cases ht
        have hjl : j < ts.length := by omega
        have := (hmatch j hjl).1 hjm
        have hh := ball j ts[j] hj (List.getElem?_eq_getElem hjl) this.1 this.2
        rw [a2 j hj hjm, e] at hh
        rw [hh, opEqv_refl] at hc
        simp at hc
      · intro hnd
        right
        by_contra hq
        have hq' : OpRepr.eqv [(l', [c'])] [(l, [c])] = true := by simpa using hq
        obtain ⟨rfl, rfl⟩ := single_eqv hq'
        apply hnd
        have hjl : j < ts.length := by omega
        have := (hmatch j hjl).1 hjm
        refine ⟨_, List.getElem?_eq_getElem hk, hone, ⟨j, _, hj, List.getElem?_eq_getElem hjl, this.1, this.2⟩, ?_⟩
        intro k' t' hk' ht' b1 b2
        have hkl : k' < ts.length := by omega
        rw [List.getElem?_eq_getElem hkl] at ht'; cases ht'
        rw [a2 k' hk' ((hmatch k' hkl).2 ⟨b1, b2⟩), e]
    · have hne : OpRepr.eqv (f.acc idOps ts ts[k].head (f.idx ts ts[k].head k) (f.idx ts (ts[k].head + 1) k) k)
          (opK idOps ts k ts[k].head) = false := by
        by_contra hq
        have := weight_eqv (by simpa using hq : OpRepr.eqv _ _ = true)
        rw [e, weight_single] at this
        omega
      constructor
      · rintro _ ⟨t, ht, _, _, ball⟩
        rw [List.getElem?_eq_getElem hk] at ht; cases ht
        have hl1 : j1 < ts.length := by omega
        have hl2 : j2 < ts.length := by omega
        have m1 := (hmatch j1 hl1).1 a3
        have m2 := (hmatch j2 hl2).1 a4
        apply a5
        rw [ball j1 _ a1 (List.getElem?_eq_getElem hl1) m1.1 m1.2, ball j2 _ a2 (List.getElem?_eq_getElem hl2) m2.1 m2.2]
      · intro _; exact Or.inr hne
  · constructor
    · rintro _ ⟨t, ht, ho, _⟩
      rw [List.getElem?_eq_getElem hk] at ht; cases ht
      exact hone ho
    · intro _
      exact eff_mid h hv (by omega) hk (Or.inr (by omega))

/-! ### Value of a resolved term -/

section
variable {R C T : Type} [CommRing R] [DecidableEq C] [DecidableEq T] [G : GenTypes C T]

omit [DecidableEq C] [DecidableEq T] in
theorem Resolved.shape {chub : List C} {thub ids : List T} {c : C} {l : List (Nat × T)} {t : Term}
    (h : Resolved chub thub ids c l t) : t.Valid ids.length ∧ t.Shape := by
  obtain ⟨cl, hc, hr⟩ := h.rep
  refine ⟨⟨h.ht, h.tN, h.len⟩, ?_, ?_⟩
  · obtain ⟨lb, x, _, _, e⟩ := hr t.head (Nat.le_refl _) h.ht
    rw [Nat.sub_self, if_pos rfl] at e
    exact ⟨lb, cl, e⟩
  · intro j o hj ho
    have hjl : j < t.ops.length := by
      refine Nat.lt_of_not_le fun hcon => ?_
      rw [List.getElem?_eq_none hcon] at ho; cases ho
    have := h.len
    obtain ⟨lb, x, _, _, e⟩ := hr (t.head + j) (by omega) (by omega)
    rw [Nat.add_sub_cancel_left, ho, if_neg (by omega)] at e
    exact ⟨lb, Option.some.inj e⟩

/-- Value of an optional operator on site `s`. -/
def otval (v : Vals R C T) (s : Nat) (x : Option T) : R := (x.map (v.tval s)).getD 0

omit [DecidableEq C] [DecidableEq T] in
theorem normalize_val (v : Vals R C T) : ∀ (ss : List Nat) (c : C) (ts : List T), ss.length = ts.length →
    v.cval (normalize c ts).1 * ((ss.zip (normalize c ts).2).map (fun a => v.tval a.1 a.2)).prod =
      v.cval c * ((ss.zip ts).map (fun a => v.tval a.1 a.2)).prod
  | [], c, [], _ => by simp [normalize]
  | s :: ss, c, t :: ts, h => by
    have ih := fun c => normalize_val v ss c ts (by simpa using h)
    unfold normalize
    by_cases hn : GenTypes.negFirst C t = true
    · simp only [hn, if_true, List.zip_cons_cons, List.map_cons, List.prod_cons]
      have := ih (GenTypes.cneg T c)
      rw [v.cneg] at this
      rw [v.tneg]
      calc _ = - v.tval s t * (v.cval (normalize (GenTypes.cneg T c) ts).1 *
            ((ss.zip (normalize (GenTypes.cneg T c) ts).2).map (fun a => v.tval a.1 a.2)).prod) := by ring
        _ = _ := by rw [this]; ring
    · have hn' : GenTypes.negFirst C t = false := by simpa using hn
      simp only [hn', Bool.false_eq_true, if_false, List.zip_cons_cons, List.map_cons, List.prod_cons]
      calc _ = v.tval s t * (v.cval (normalize c ts).1 *
            ((ss.zip (normalize c ts).2).map (fun a => v.tval a.1 a.2)).prod) := by ring
        _ = _ := by rw [ih c]; ring

omit [DecidableEq C] [DecidableEq T] in
/-- Sorting and sign normalisation preserve the product. -/
theorem normCall_val (v : Vals R C T) (c : Call C T) :
    v.cval (normCall c).1 * ((normCall c).2.map (fun a => v.tval a.1 a.2)).prod =
      v.cval c.coef * ((c.idxs.zip c.ops).map (fun a => v.tval a.1 a.2)).prod := by
  unfold normCall
  simp only
  rw [normalize_val v _ _ _ (by simp)]
  have : ((sortBySite (c.idxs.zip c.ops)).map (·.1)).zip ((sortBySite (c.idxs.zip c.ops)).map (·.2)) =
      sortBySite (c.idxs.zip c.ops) := by
    rw [List.zip_map', List.map_id'']
    intro x; rfl
  rw [this]
  congr 1
  exact ((sortBySite_perm _).map _).prod_eq

theorem pathVal_resolved {ids : List T} {idO : Nat → OpRepr} {g : Generator C T} {calls : List (Call C T)} {ts : List Term}
    (h : GenInv ids idO g calls ts) (v : Vals R C T) {k : Nat} {c : Call C T} (hv : c.Valid ids.length)
    (hc : calls[k]? = some c) :
    pathVal idO ts ids.length (coefVal v g) (opVal v g) k 0 = termVal v ids c := by
  have hkc : k < calls.length := by
    refine Nat.lt_of_not_le fun hcon => ?_
    rw [List.getElem?_eq_none hcon] at hc; cases hc
  have hlen := h.terms.length_eq
  have hk : k < ts.length := by omega
  have hres := (List.forall₂_iff_get.1 h.terms).2 k hkc hk
  simp only [List.get_eq_getElem] at hres
  have ec : calls[k] = c := by rw [List.getElem?_eq_getElem hkc] at hc; exact Option.some.inj hc
  rw [ec] at hres
  obtain ⟨cl, hcl, hr⟩ := hres.rep
  have hnd : ((normCall c).2.map (·.1)).Nodup := ((normCall_sites c hv.len).1).nodup_iff.2 hv.nodup
  -- value at one site
  have site : ∀ s, s < ids.length → OpRepr.val (coefVal v g) (opVal v g s) (opK idO ts k s) =
      (if s = ts[k].head then v.cval (normCall c).1 else 1) * otval v s (opAtSite (normCall c).2 ids s) := by
    intro s hs
    have c0 : coefVal v g 0 = 1 := by unfold coefVal; rw [h.c0]; simp [v.one]
    by_cases hin : s < ts[k].head ∨ ts[k].tail < s
    · rw [opK_id hk hin, if_neg (by have := hres.ht; omega)]
      obtain ⟨lb, e1, e2⟩ := h.hid s hs
      rw [e2, opAtSite_not_mem]
      · simp [OpRepr.val, CoefRepr.val, c0, opVal, e1, otval]
      · intro hmem
        obtain ⟨a, ha, rfl⟩ := List.mem_map.1 hmem
        have hb : ts[k].head ≤ a.1 ∧ a.1 ≤ ts[k].tail := by
          have hasc := hres.asc
          constructor
          · cases hl : (normCall c).2 with
            | nil => rw [hl] at ha; cases ha
            | cons x r =>
              have := hres.hd
              rw [hl] at this ha hasc
              simp at this
              rcases List.mem_cons.1 ha with rfl | hr
              · omega
              · have := (List.pairwise_cons.1 hasc).1 a hr; omega
          · rcases List.eq_nil_or_concat (normCall c).2 with hl | ⟨r, x, hl⟩
            · rw [hl] at ha; cases ha
            · have := hres.tl
              rw [List.concat_eq_append] at hl
              rw [hl] at this ha hasc
              simp at this
              rcases List.mem_append.1 ha with hr | hr
              · have := (List.pairwise_append.1 hasc).2.2 a hr x (by simp); omega
              · simp at hr; subst hr; omega
        omega
    · obtain ⟨lb, x, e1, e2, e3⟩ := hr s (by omega) (by omega)
      have : opK idO ts k s = [(lb, if s = ts[k].head then [cl] else [0])] := by
        unfold opK; rw [List.getElem?_eq_getElem hk]; simp only [opAt]
        rw [if_neg hin, List.getD_eq_getElem?_getD, e3]; rfl
      rw [this, e1]
      by_cases hsh : s = ts[k].head
      · simp [OpRepr.val, CoefRepr.val, hsh, coefVal, hcl, opVal, e2, otval]
      · simp [OpRepr.val, CoefRepr.val, hsh, c0, opVal, e2, otval]
  unfold pathVal
  rw [Finset.prod_congr rfl (fun s hs => site s (by simpa using hs)), Finset.prod_mul_distrib]
  have hhd : ts[k].head < ids.length := by have := hres.ht; have := hres.tN; omega
  rw [Finset.prod_ite_eq' _ ts[k].head (fun _ => v.cval (normCall c).1), if_pos (by simpa using hhd)]
  rw [← Finset.range_eq_Ico, ← Finset.prod_filter_mul_prod_filter_not (range ids.length) (fun s => s ∈ c.idxs)]
  have p1 : ∏ s ∈ (range ids.length).filter (fun s => s ∈ c.idxs), otval v s (opAtSite (normCall c).2 ids s) =
      ((normCall c).2.map (fun a => v.tval a.1 a.2)).prod := by
    have hset : (range ids.length).filter (fun s => s ∈ c.idxs) = ((normCall c).2.map (·.1)).toFinset := by
      ext s
      simp only [Finset.mem_filter, Finset.mem_range, List.mem_toFinset]
      rw [(normCall_sites c hv.len).1.mem_iff]
      exact ⟨fun h => h.2, fun h => ⟨hv.lt s h, h⟩⟩
    rw [hset, List.prod_toFinset _ hnd, List.map_map]
    congr 1
    refine List.map_congr_left fun a ha => ?_
    simp only [Function.comp]
    rw [opAtSite_mem ids hnd ha]; simp [otval]
  have p2 : ∏ s ∈ (range ids.length).filter (fun s => ¬ s ∈ c.idxs), otval v s (opAtSite (normCall c).2 ids s) =
      ∏ s ∈ (range ids.length).filter (fun s => s ∉ c.idxs), (ids[s]?.map (v.tval s)).getD 0 := by
    refine Finset.prod_congr rfl fun s hs => ?_
    rw [opAtSite_not_mem]
    · rfl
    · rw [(normCall_sites c hv.len).1.mem_iff]; exact (Finset.mem_filter.1 hs).2
  rw [p1, p2, ← mul_assoc, normCall_val]
  rfl

/-! ### Dropped terms are exactly the colliding calls -/

omit [DecidableEq C] [DecidableEq T] in
theorem normCall_one {c : Call C T} (hl : c.ops.length = c.idxs.length) {s : Nat} (hs : c.idxs = [s]) :
    ∃ x, normalize c.coef c.ops = ((normCall c).1, [x]) ∧ (normCall c).2 = [(s, x)] := by
  obtain ⟨o, ho⟩ : ∃ o, c.ops = [o] := by
    rw [hs] at hl; exact List.length_eq_one_iff.1 hl
  unfold normCall
  rw [hs, ho]
  have : sortBySite ([s].zip [o]) = [(s, o)] := by simp [sortBySite]
  rw [this]
  simp only [List.map_cons, List.map_nil]
  obtain ⟨x, hx⟩ : ∃ x, (normalize c.coef [o]).2 = [x] := List.length_eq_one_iff.1 (by rw [normalize_length]; rfl)
  refine ⟨x, ?_, ?_⟩
  · rw [← hx]
  · rw [hx]; rfl

omit [DecidableEq C] [DecidableEq T] in
theorem Resolved.one_iff {chub : List C} {thub ids : List T} {c : Call C T} {t : Term}
    (h : Resolved chub thub ids (normCall c).1 (normCall c).2 t) (hv : c.Valid ids.length) (s : Nat) :
    (t.head = s ∧ t.tail = s) ↔ c.idxs = [s] := by
  constructor
  · rintro ⟨h1, h2⟩
    have hl : (normCall c).2.map (·.1) = [s] := by
      have hhd := h.hd
      have htl := h.tl
      have hasc := h.asc
      cases hx : (normCall c).2 with
      | nil => exact absurd hx h.ne
      | cons a r =>
        rw [hx] at hhd htl hasc
        simp at hhd
        cases r with
        | nil => simp; omega
        | cons b r =>
          obtain ⟨z, hz, hz1⟩ : ∃ z, (b :: r).getLast? = some z ∧ z.1 = t.tail := by
            rw [List.getLast?_cons_cons] at htl
            cases hq : (b :: r).getLast? with
            | none => rw [hq] at htl; cases htl
            | some z => rw [hq] at htl; exact ⟨z, rfl, by simpa using htl⟩
          have := (List.pairwise_cons.1 hasc).1 z (List.mem_of_getLast? hz)
          omega
    have := (normCall_sites c hv.len).1
    rw [hl] at this
    exact List.perm_singleton.1 this.symm
  · intro hs
    obtain ⟨x, _, hx⟩ := normCall_one hv.len hs
    have hhd := h.hd
    have htl := h.tl
    rw [hx] at hhd htl
    simp at hhd htl
    omega

theorem dropped_iff {ids : List T} {idO : Nat → OpRepr} {g : Generator C T} {calls : List (Call C T)} {ts : List Term}
    (h : GenInv ids idO g calls ts) (hv : ∀ c ∈ calls, c.Valid ids.length) {k : Nat} {c : Call C T}
    (hc : calls[k]? = some c) : Dropped idO ts k ↔ collides (calls.take k) c := by
  have hkc : k < calls.length := by
    refine Nat.lt_of_not_le fun hcon => ?_
    rw [List.getElem?_eq_none hcon] at hc; cases hc
  have hlen := h.terms.length_eq
  have ec : calls[k] = c := by rw [List.getElem?_eq_getElem hkc] at hc; exact Option.some.inj hc
  have hR : ∀ j, (h1 : j < calls.length) → (h2 : j < ts.length) →
      Resolved g.coefHub g.opHub ids (normCall calls[j]).1 (normCall calls[j]).2 ts[j] := by
    intro j h1 h2
    have := (List.forall₂_iff_get.1 h.terms).2 j h1 h2
    simpa only [List.get_eq_getElem] using this
  have hV : ∀ j, (h1 : j < calls.length) → calls[j].Valid ids.length := fun j h1 => hv _ (List.getElem_mem h1)
  -- equal operators on one site
  have key : ∀ j1 j2 s, (h1 : j1 < calls.length) → (h2 : j2 < calls.length) → calls[j1].idxs = [s] → calls[j2].idxs = [s] →
      (opK idO ts j1 s = opK idO ts j2 s ↔ normalize calls[j1].coef calls[j1].ops = normalize calls[j2].coef calls[j2].ops) := by
    have one : ∀ j s, (h1 : j < calls.length) → calls[j].idxs = [s] → ∃ lb cl x, opK idO ts j s = [(lb, [cl])] ∧
        g.opHub[lb]? = some x ∧ g.coefHub[cl]? = some (normCall calls[j]).1 ∧
        normalize calls[j].coef calls[j].ops = ((normCall calls[j]).1, [x]) := by
      intro j s h1 hs
      have hr := hR j h1 (by omega)
      obtain ⟨hh, ht⟩ := (hr.one_iff (hV j h1) s).2 hs
      obtain ⟨x, e1, e2⟩ := normCall_one (hV j h1).len hs
      obtain ⟨cl, hcl, hrep⟩ := hr.rep
      obtain ⟨lb, x', f1, f2, f3⟩ := hrep s (by omega) (by omega)
      have hx : x' = x := by
        rw [e2] at f1
        have := opAtSite_mem ids (l := [(s, x)]) (by simp) (a := (s, x)) (by simp)
        rw [this] at f1
        exact (Option.some.inj f1).symm
      refine ⟨lb, cl, x, ?_, by rw [f2, hx], hcl, e1⟩
      unfold opK; rw [List.getElem?_eq_getElem (by omega : j < ts.length)]; simp only [opAt]
      rw [if_neg (by omega), List.getD_eq_getElem?_getD, f3, if_pos hh.symm]; rfl
    intro j1 j2 s h1 h2 hs1 hs2
    obtain ⟨lb, cl, x, a1, a2, a3, a4⟩ := one j1 s h1 hs1
    obtain ⟨lb', cl', x', b1, b2, b3, b4⟩ := one j2 s h2 hs2
    rw [a1, b1, a4, b4]
    constructor
    · intro he
      simp only [List.cons.injEq, Prod.mk.injEq, and_true] at he
      obtain ⟨rfl, rfl⟩ := he
      rw [a2] at b2; rw [a3] at b3
      rw [Option.some.inj b2, Option.some.inj b3]
    · intro he
      simp only [Prod.mk.injEq, List.cons.injEq, and_true] at he
      obtain ⟨e1, e2⟩ := he
      rw [← e1] at b3; rw [← e2] at b2
      rw [nodup_inj h.tnd a2 b2, nodup_inj h.cnd a3 b3]
  have hkt : k < ts.length := by omega
  have take_get : ∀ {b}, b ∈ calls.take k → ∃ j, ∃ hj : j < calls.length, j < k ∧ calls[j] = b := by
    intro b hb
    obtain ⟨j, hj, e⟩ := List.getElem_of_mem hb
    rw [List.length_take] at hj
    exact ⟨j, by omega, by omega, by rw [← e, List.getElem_take]⟩
  have mem_take : ∀ j, j < k → (hj : j < calls.length) → calls[j] ∈ calls.take k := by
    intro j hjk hj
    exact List.mem_take_iff_getElem.2 ⟨j, by omega, rfl⟩
  constructor
  · rintro ⟨t, ht, hone, ⟨k', t', hk', ht', b1, b2⟩, ball⟩
    rw [List.getElem?_eq_getElem hkt] at ht; cases ht
    have hsk : calls[k].idxs = [ts[k].head] := ((hR k hkc hkt).one_iff (hV k hkc) _).1 ⟨rfl, hone.symm⟩
    have all : ∀ j, (hjk : j < k) → calls[j].idxs = [ts[k].head] → sameOneSite calls[j] c := by
      intro j hjk hj
      have := ((hR j (by omega) (by omega)).one_iff (hV j (by omega)) _).2 hj
      have e := ball j ts[j] hjk (List.getElem?_eq_getElem (by omega)) this.1 this.2
      rw [key j k _ (by omega) hkc hj hsk] at e
      refine ⟨_, hj, by rw [← ec]; exact hsk, ?_⟩
      rw [e, ec]
    refine ⟨?_, ?_⟩
    · have hk'l : k' < ts.length := by omega
      rw [List.getElem?_eq_getElem hk'l] at ht'; cases ht'
      refine ⟨calls[k'], mem_take k' hk' (by omega), all k' hk' ?_⟩
      exact ((hR k' (by omega) (by omega)).one_iff (hV k' (by omega)) _).1 ⟨b1, b2⟩
    · intro b hb he
      obtain ⟨j, hj, hjk, rfl⟩ := take_get hb
      refine all j hjk ?_
      rw [he, ← ec, hsk]
  · rintro ⟨⟨b, hb, s, hb1, hb2, _⟩, ball⟩
    obtain ⟨j, hj, hjk, rfl⟩ := take_get hb
    have hsk : calls[k].idxs = [s] := by rw [ec]; exact hb2
    have hk1 := ((hR k hkc hkt).one_iff (hV k hkc) s).2 hsk
    have hj1 := ((hR j hj (by omega)).one_iff (hV j hj) s).2 hb1
    refine ⟨ts[k], List.getElem?_eq_getElem hkt, by omega, ⟨j, ts[j], hjk, List.getElem?_eq_getElem (by omega), by omega, by omega⟩, ?_⟩
    intro k' t' hk' ht' c1 c2
    have hk'l : k' < ts.length := by omega
    rw [List.getElem?_eq_getElem hk'l] at ht'; cases ht'
    have hs' : calls[k'].idxs = [s] := ((hR k' (by omega) hk'l).one_iff (hV k' (by omega)) s).1 (by omega)
    obtain ⟨s', _, _, e⟩ := ball calls[k'] (mem_take k' hk' (by omega)) (by rw [hs', hb2])
    rw [hk1.1, key k' k s (by omega) hkc hs' hsk, e, ec]

end

/-! ### Chain values -/

section
variable {R C T : Type} [CommRing R] [DecidableEq C] [DecidableEq T] [G : GenTypes C T]

theorem mpoVal_eq (v : Vals R C T) (g : Generator C T) (ms : List (SparMat OpRepr)) :
    mpoVal v g ms = chainVal (coefVal v g) (opVal v g) 0 ms 0 := by
  unfold mpoVal
  have : ∀ (ms : List (SparMat OpRepr)) (i r : Nat), matChain ((ms.zipIdx i).map (fun ms =>
      ((fun x y => OpRepr.val (coefVal v g) (opVal v g ms.2) (ms.1.get x y)), ms.1.cols))) r =
      chainVal (coefVal v g) (opVal v g) i ms r := by
    intro ms
    induction ms with
    | nil => intro i r; rfl
    | cons m ms ih =>
      intro i r
      simp only [List.zipIdx_cons, List.map_cons, matChain, chainVal]
      refine Finset.sum_congr rfl fun c _ => ?_
      rw [ih]
  exact this ms 0 0

end
end Verif.Mpo
