import Verif.Mpo.QNSort
/-
Bridges between the helper facts and the specification vocabulary used by the property theorems.
-/
namespace Verif.Mpo
open SparMat NullElem Finset

section
variable {Q : Type}

theorem sectorOf_expand : ∀ (vb : List (Q × Nat)) (x : Nat) (q : Q), sectorOf vb x = .ok q ↔ (expand vb)[x]? = some q
  | [], x, q => by simp [sectorOf, expand]
  | (q', d) :: vb, x, q => by
    have ih := sectorOf_expand vb (x - d) q
    have he : expand ((q', d) :: vb) = List.replicate d q' ++ expand vb := by simp [expand]
    rw [he]
    unfold sectorOf
    by_cases hx : x < d
    · rw [if_pos hx, List.getElem?_append_left (by simpa using hx)]
      simp [hx]
    · rw [if_neg hx, List.getElem?_append_right (by simp; omega), List.length_replicate]
      exact ih

theorem expand_length : ∀ (vb : List (Q × Nat)), (expand vb).length = (vb.map (·.2)).sum
  | [] => rfl
  | (q', d) :: vb => by
    have he : expand ((q', d) :: vb) = List.replicate d q' ++ expand vb := by simp [expand]
    rw [he, List.length_append, expand_length vb]; simp

theorem consistent_of [DecidableEq Q] [AddCommGroup Q] {d : Label → Q} : ∀ {l : List (SiteTen Q)} {vb : List (Q × Nat)},
    (∀ t ∈ l, TenOK d t) → Linked vb l → Consistent d vb l
  | [], vb, _, h => h
  | t :: l, vb, h, ⟨h1, h2⟩ => by
    have ht := h t (by simp)
    refine ⟨h1, ht.rnd, ht.rpos, by rw [expand_length, ht.ldim], by rw [expand_length, ht.rdim], ?_,
      consistent_of (fun t h' => h t (by simp [h'])) h2⟩
    intro x y ql qr hx hy kc hkc
    have hxl : x < t.mat.rows := by
      rw [← ht.ldim, ← expand_length]
      exact (List.getElem?_eq_some_iff.1 hx).1
    have hyl : y < t.mat.cols := by
      rw [← ht.rdim, ← expand_length]
      exact (List.getElem?_eq_some_iff.1 hy).1
    obtain ⟨a, b, e1, e2, e3⟩ := ht.div x y hxl hyl kc.1 ⟨kc, hkc, rfl⟩
    rw [sectorOf_expand] at e1 e2
    rw [hx] at e1; rw [hy] at e2
    cases e1; cases e2
    rw [e3, sub_add_cancel]

end

section
variable {C T : Type} [DecidableEq C] [DecidableEq T] [G : GenTypes C T]
variable {R : Type} [CommRing R]

open Classical in
theorem keptSum_eq (v : Vals R C T) (ids : List T) : ∀ (calls before : List (Call C T)),
    keptSum v ids before calls =
      ∑ k ∈ range calls.length, (calls[k]?.elim 0 (fun c => if collides (before ++ calls.take k) c then 0 else termVal v ids c))
  | [], _ => by simp [keptSum]
  | c :: calls, before => by
    rw [keptSum, keptSum_eq v ids calls (before ++ [c]), List.length_cons, Finset.sum_range_succ']
    simp only [List.getElem?_cons_succ, List.take_succ_cons, List.getElem?_cons_zero, List.take_zero, List.append_nil,
      Option.elim, List.append_assoc, List.singleton_append]
    exact add_comm _ _

theorem keptSum_of_noCollision (v : Vals R C T) (ids : List T) : ∀ (calls before : List (Call C T)),
    (∀ pre c post, calls = pre ++ c :: post → ¬ collides (before ++ pre) c) →
    keptSum v ids before calls = (calls.map (termVal v ids)).sum
  | [], _, _ => rfl
  | c :: calls, before, h => by
    rw [keptSum, if_neg (by simpa using h [] c calls rfl), List.map_cons, List.sum_cons,
      keptSum_of_noCollision v ids calls (before ++ [c])]
    intro pre c' post e
    have := h (c :: pre) c' post (by rw [e]; rfl)
    simpa using this

theorem keptSum_append (v : Vals R C T) (ids : List T) : ∀ (calls before : List (Call C T)) (c : Call C T),
    keptSum v ids before (calls ++ [c]) = keptSum v ids before calls + keptSum v ids (before ++ calls) [c]
  | [], before, c => by rw [List.append_nil]; simp [keptSum]
  | d :: calls, before, c => by
    rw [List.cons_append, keptSum, keptSum, keptSum_append v ids calls (before ++ [d]) c, add_assoc]
    simp

theorem history_gen {ids : List T} {calls : List (Call C T)} (hv : ∀ c ∈ calls, c.Valid ids.length) {g : Generator C T}
    (hg : history ids calls = .ok g) : ∃ idO ts, GenInv ids idO g (effective calls) ts := by
  obtain ⟨g', idO, ts, e, h⟩ := history_spec ids calls hv
  rw [hg] at e
  cases e
  exact ⟨idO, ts, h⟩

theorem effective_valid {n : Nat} {calls : List (Call C T)} (hv : ∀ c ∈ calls, c.Valid n) :
    ∀ c ∈ effective calls, c.Valid n := fun c hc => hv c (List.mem_filter.1 hc).1

theorem value_raw {ids : List T} {calls : List (Call C T)} (hv : ∀ c ∈ calls, c.Valid ids.length) {g : Generator C T}
    (hg : history ids calls = .ok g) (hne : effective calls ≠ []) {raw : List (SparMat OpRepr)}
    (hraw : g.fsm.genMatRepr = .ok raw) (v : Vals R C T) : mpoVal v g raw = keptSum v ids [] (effective calls) := by
  obtain ⟨idO, ts, h⟩ := history_gen hv hg
  obtain ⟨ms, e1, hm⟩ := genMatRepr_spec h.fsm (fun t ht => (h.valid t ht).1)
  rw [hraw] at e1
  cases e1
  rw [h.value (effective_valid hv) hne v hm, keptSum_eq]
  rfl

theorem coefVal_zero {ids : List T} {calls : List (Call C T)} {idO : Nat → OpRepr} {ts : List Term} {g : Generator C T}
    (h : GenInv ids idO g calls ts) (v : Vals R C T) : coefVal v g 0 = 1 := by
  unfold coefVal; rw [h.c0]; simp [v.one]

/-- The whole of `Gen`, both variants. -/
theorem gen_spec {Q : Type} [DecidableEq Q] [AddCommGroup Q] {ids : List T} {calls : List (Call C T)}
    (hv : ∀ c ∈ calls, c.Valid ids.length) {g : Generator C T}
    (hg : history ids calls = .ok g) (hne : effective calls ≠ []) (tdiv : T → Q)
    (hneg : ∀ t, tdiv (GenTypes.tneg C t) = tdiv t) (hid : ∀ t ∈ ids, tdiv t = 0)
    (hneu : ∀ c ∈ effective calls, (c.ops.map tdiv).sum = 0) (compress : Bool) :
    ∃ ms l, (if compress then g.fsm.genCompressed else g.fsm.genMatRepr) = .ok ms ∧ g.gen tdiv 0 compress = .ok l ∧
      Consistent (fun lb => (g.opHub[lb]?).elim 0 tdiv) [(0, 1)] l ∧
      List.Forall₂ (fun (t : SiteTen Q) m => t.mat.rows = m.rows ∧ t.mat.cols = m.cols) l ms ∧
      ∀ {R : Type} [CommRing R] (v : Vals R C T), mpoVal v g (l.map (·.mat)) = keptSum v ids [] (effective calls) := by
  obtain ⟨idO, ts, h⟩ := history_gen hv hg
  obtain ⟨raw, comp, e1, e2, e3, e4, e5, e6, e7, e8, e9, e10⟩ := h.compressed hne
  obtain ⟨q, hq, hG⟩ := h.gchain (effective_valid hv) hne tdiv hneg hid hneu e1
  have main : ∀ ms, (if compress then g.fsm.genCompressed else g.fsm.genMatRepr) = .ok ms → DimOK ms →
      (∀ m, ms.head? = some m → m.rows = 1) → GChain (labDiv tdiv g.opHub) q ms →
      (∀ {R : Type} [CommRing R] (v : Vals R C T), mpoVal v g ms = keptSum v ids [] (effective calls)) → ms ≠ [] →
      ∃ ms l, (if compress then g.fsm.genCompressed else g.fsm.genMatRepr) = .ok ms ∧ g.gen tdiv 0 compress = .ok l ∧
      Consistent (fun lb => (g.opHub[lb]?).elim 0 tdiv) [(0, 1)] l ∧
      List.Forall₂ (fun (t : SiteTen Q) m => t.mat.rows = m.rows ∧ t.mat.cols = m.cols) l ms ∧
      ∀ {R : Type} [CommRing R] (v : Vals R C T), mpoVal v g (l.map (·.mat)) = keptSum v ids [] (effective calls) := by
    intro ms hms hD hr hG hval hnil
    cases ms with
    | nil => exact absurd rfl hnil
    | cons m rest =>
      obtain ⟨l, l1, l2, l3, l4, l5⟩ := genMats_spec hD (hr m rfl) hG hq
      refine ⟨m :: rest, l, hms, ?_, consistent_of l2 l3, l4.imp fun _ _ h => ⟨h.1, h.2.1⟩, ?_⟩
      · unfold Generator.gen
        simp only [hms, bind, Except.bind]
        exact l1
      · intro R _ v
        rw [mpoVal_eq, l5, ← mpoVal_eq, hval]
  have hlen : 0 < ids.length := by
    obtain ⟨c, hc⟩ := List.exists_mem_of_ne_nil _ hne
    have := effective_valid hv c hc
    obtain ⟨s, hs⟩ := List.exists_mem_of_ne_nil _ this.ne
    have := this.lt s hs
    omega
  have hrn : raw ≠ [] := by intro e; rw [e] at e7; simp at e7; omega
  cases compress with
  | true =>
    refine main comp e2 e5 e9 (e10 Q _ q hG) ?_ ?_
    · intro R _ v
      rw [mpoVal_eq, e3 R _ _ (coefVal_zero h v), ← mpoVal_eq]
      exact value_raw hv hg hne e1 v
    · intro e; rw [e] at e6; cases e6; exact hrn rfl
  | false =>
    refine main raw e1 e4 e8 hG ?_ hrn
    intro R _ v
    exact value_raw hv hg hne e1 v

end
end Verif.Mpo
