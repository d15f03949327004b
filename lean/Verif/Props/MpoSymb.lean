import Verif.Mpo.SparMat
import Verif.Mpo.Sem
import Verif.Mpo.Ifsm
/-
Property theorems C10 (sparse matrix), C11 (symbolic algebra), C46 (infinite-MPO state machine).
-/
namespace Verif.Props
open Verif.Mpo SparMat NullElem

/-! ### C10 -/

section
variable {α : Type} [NullElem α]

/-- The edits of `SparMat`. -/
inductive Edit (α : Type) where
  | set (x y : Nat) (e : α)
  | removeRow (x : Nat)
  | removeCol (y : Nat)
  | swapRows (a b : Nat)
  | swapCols (a b : Nat)
  | transposeRows (perm : List Nat)
  | transposeCols (perm : List Nat)

/-- The edit performed by the code. -/
def Edit.run (m : SparMat α) : Edit α → Except Err (SparMat α)
  | .set x y e => m.setElem x y e
  | .removeRow x => m.removeRow x
  | .removeCol y => m.removeCol y
  | .swapRows a b => m.swapTwoRows a b
  | .swapCols a b => m.swapTwoCols a b
  | .transposeRows p => m.transposeRows p
  | .transposeCols p => m.transposeCols p

/-- Specification: a plain table, given as the list of its rows. -/
abbrev Table (α : Type) := List (List α)

def Table.width (t : Table α) : Nat := (t.head?.map List.length).getD 0

/-- exchange two elements of a list -/
def swapElems {β : Type} (d : β) (l : List β) (a b : Nat) : List β := (l.set a (l.getD b d)).set b (l.getD a d)

/-- Specification of the edits on a plain table. A table without entries is the empty list. Storing the null
element has no effect. -/
def Edit.spec (t : Table α) : Edit α → Table α
  | .set x y e => if isNull e then t else t.modify x (·.set y e)
  | .removeRow x => t.eraseIdx x
  | .removeCol y => (t.map (·.eraseIdx y)).filter (fun r => !r.isEmpty)
  | .swapRows a b => swapElems [] t a b
  | .swapCols a b => t.map (fun r => swapElems nullelem r a b)
  | .transposeRows p => p.map (fun i => t.getD i [])
  | .transposeCols p => t.map (fun r => p.map (fun i => r.getD i nullelem))

/-- The arguments are in range; transposition arguments are permutations. -/
def Edit.InRange (t : Table α) : Edit α → Prop
  | .set x y _ => x < t.length ∧ y < Table.width t
  | .removeRow x => x < t.length
  | .removeCol y => y < Table.width t
  | .swapRows a b => a < t.length ∧ b < t.length
  | .swapCols a b => a < Table.width t ∧ b < Table.width t
  | .transposeRows p => p.Perm (List.range t.length)
  | .transposeCols p => p.Perm (List.range (Table.width t))

/-- All edits of the history are in range when their turn comes. -/
def InRangeAll (t : Table α) : List (Edit α) → Prop
  | [] => True
  | e :: es => e.InRange t ∧ InRangeAll (e.spec t) es

/-- The matrix represents the table. -/
structure Reps (m : SparMat α) (t : Table α) : Prop where
  wf : m.WF
  rows : m.rows = t.length
  cols : m.cols = Table.width t
  rect : ∀ r ∈ t, r.length = m.cols
  pos : t ≠ [] → 0 < m.cols
  entry : ∀ x y, x < m.rows → y < m.cols → m.get x y = (t.getD x []).getD y nullelem

omit [NullElem α] in
theorem width_eq {t : Table α} {c : Nat} (hr : ∀ r ∈ t, r.length = c) (h0 : t = [] → c = 0) : Table.width t = c := by
  cases t with
  | nil => simp [Table.width, h0 rfl]
  | cons r t => simp [Table.width, hr r (by simp)]

omit [NullElem α] in
theorem getD_mem {t : List (List α)} {x : Nat} (hx : x < t.length) : t.getD x [] ∈ t := by
  rw [List.getD_eq_getElem?_getD, List.getElem?_eq_getElem hx]; simp

theorem swapElems_getD {β : Type} (d : β) (l : List β) {a b x : Nat} (ha : a < l.length) (hb : b < l.length) (hx : x < l.length) :
    (swapElems d l a b).getD x d = l.getD (exch a b x) d := by
  unfold swapElems exch
  simp only [List.getD_eq_getElem?_getD, List.getElem?_set, List.length_set]
  by_cases h1 : b = x
  · subst h1
    simp only [if_true, hb, Option.getD_some]
    by_cases h2 : a = b
    · subst h2; simp
    · rw [if_neg (Ne.symm h2)]
  · rw [if_neg h1]
    by_cases h2 : a = x
    · subst h2; simp [ha]
    · rw [if_neg h2, if_neg (Ne.symm h2), if_neg (Ne.symm h1)]

theorem reps_step {m : SparMat α} {t : Table α} (h : Reps m t) (e : Edit α) (hr : e.InRange t) :
    ∃ m', e.run m = .ok m' ∧ Reps m' (e.spec t) := by
  have h0 : t = [] → m.cols = 0 := fun ht => by rw [h.cols, ht]; rfl
  cases e with
  | set x y e =>
    obtain ⟨hx, hy⟩ := hr
    rw [← h.rows] at hx; rw [← h.cols] at hy
    obtain ⟨m', e1, e2, e3, e4, e5⟩ := setElem_spec h.wf hx hy e
    refine ⟨m', e1, ?_⟩
    simp only [Edit.spec]
    by_cases hn : isNull e = true
    · rw [if_pos hn]
      refine ⟨e2, by rw [e3, h.rows], by rw [e4, h.cols], by rw [e4]; exact h.rect, by rw [e4]; exact h.pos, ?_⟩
      intro x' y' hx' hy'
      rw [e4] at hy'; rw [e3] at hx'
      rw [e5 x' y' hy', if_pos hn]
      split
      · rename_i hxy; rw [hxy.1, hxy.2]; exact h.entry x y hx hy
      · exact h.entry x' y' hx' hy'
    · rw [if_neg hn]
      have hrect : ∀ r ∈ t.modify x (·.set y e), r.length = m'.cols := by
        intro r hr
        rw [e4]
        obtain ⟨i, hi⟩ := List.mem_iff_getElem?.1 hr
        rw [List.getElem?_modify] at hi
        cases hti : t[i]? with
        | none => simp [hti] at hi
        | some r0 =>
          rw [hti] at hi
          have := h.rect r0 (List.mem_of_getElem? hti)
          simp only [Option.map_eq_map, Option.map_some, Option.some.injEq] at hi
          split at hi <;> subst hi <;> simpa using this
      have hne : t.modify x (·.set y e) ≠ [] := by
        intro hc; have : (t.modify x (·.set y e)).length = 0 := by rw [hc]; rfl
        rw [List.length_modify, ← h.rows] at this; omega
      refine ⟨e2, by simp [e3, h.rows], (width_eq hrect (fun hc => absurd hc hne)).symm, hrect, fun _ => by omega, ?_⟩
      intro x' y' hx' hy'
      rw [e4] at hy'; rw [e3] at hx'
      rw [e5 x' y' hy', if_neg hn]
      rw [List.getD_eq_getElem?_getD (l := t.modify _ _), List.getElem?_modify]
      have hx2 : x' < t.length := by rw [← h.rows]; exact hx'
      rw [List.getElem?_eq_getElem hx2]
      simp only [Option.map_eq_map, Option.map_some, Option.getD_some]
      have hent := h.entry x' y' hx' hy'
      rw [List.getD_eq_getElem?_getD (l := t), List.getElem?_eq_getElem hx2, Option.getD_some] at hent
      by_cases hxx : x = x'
      · subst hxx
        rw [if_pos rfl]
        have hl := h.rect t[x] (List.getElem_mem hx2)
        rw [List.getD_eq_getElem?_getD, List.getElem?_set]
        by_cases hyy : y = y'
        · subst hyy
          rw [if_pos ⟨rfl, rfl⟩, if_pos rfl, if_pos (by omega)]; rfl
        · rw [if_neg (fun hc => hyy hc.2.symm), if_neg hyy, hent, List.getD_eq_getElem?_getD]
      · rw [if_neg (fun hc => hxx hc.1.symm), if_neg hxx, hent]
  | removeRow x =>
    have hx : x < m.rows := by rw [h.rows]; exact hr
    simp only [Edit.spec, Edit.run]
    by_cases h1 : m.rows = 1
    · refine ⟨SparMat.empty, by unfold SparMat.removeRow; rw [if_neg (by omega), if_pos h1], ?_⟩
      have ht : t.eraseIdx x = [] := by
        refine List.length_eq_zero_iff.1 ?_
        rw [List.length_eraseIdx_of_lt (by rw [← h.rows]; exact hx), ← h.rows, h1]
      rw [ht]
      exact ⟨wf_empty, rfl, rfl, by simp, by simp, by intro a b ha; exact absurd ha (by simp [SparMat.empty])⟩
    · obtain ⟨m', e1, e2, e3, e4, e5⟩ := removeRow_spec h.wf hx h1
      have hrect : ∀ r ∈ t.eraseIdx x, r.length = m'.cols := by
        intro r hr'; rw [e4]; exact h.rect r (List.mem_of_mem_eraseIdx hr')
      have hlen : (t.eraseIdx x).length = m.rows - 1 := by
        rw [List.length_eraseIdx_of_lt (by rw [← h.rows]; exact hx), h.rows]
      have hne : t.eraseIdx x ≠ [] := by
        intro hc; rw [hc] at hlen; simp at hlen; omega
      refine ⟨m', e1, e2, by rw [e3, hlen], (width_eq hrect (fun hc => absurd hc hne)).symm, hrect, ?_, ?_⟩
      · intro _; rw [e4]; refine h.pos ?_
        intro hc; rw [h.rows, hc] at hx; simp at hx
      · intro a b ha hb
        rw [e3] at ha; rw [e4] at hb
        rw [e5 a b ha hb, h.entry _ _ (by split <;> omega) hb]
        congr 1
        rw [List.getD_eq_getElem?_getD, List.getD_eq_getElem?_getD, List.getElem?_eraseIdx]
        split <;> rfl
  | removeCol y =>
    have hy : y < m.cols := by rw [h.cols]; exact hr
    simp only [Edit.spec, Edit.run]
    have htne : t ≠ [] := by intro hc; rw [h0 hc] at hy; omega
    have hrpos : 0 < m.rows := by rw [h.rows]; exact List.length_pos_of_ne_nil htne
    by_cases h1 : m.cols = 1
    · refine ⟨SparMat.empty, by unfold SparMat.removeCol; rw [if_neg (by omega), if_pos h1], ?_⟩
      have ht : (t.map (·.eraseIdx y)).filter (fun r => !r.isEmpty) = [] := by
        rw [List.filter_eq_nil_iff]
        intro r hr'
        obtain ⟨r0, hr0, rfl⟩ := List.mem_map.1 hr'
        have hl := h.rect r0 hr0
        have : (r0.eraseIdx y).length = 0 := by rw [List.length_eraseIdx_of_lt (by omega)]; omega
        rw [List.length_eq_zero_iff.1 this]; simp
      rw [ht]
      exact ⟨wf_empty, rfl, rfl, by simp, by simp, by intro a b ha; exact absurd ha (by simp [SparMat.empty])⟩
    · obtain ⟨m', e1, e2, e3, e4, e5⟩ := removeCol_spec h.wf hy h1 hrpos
      have hf : (t.map (·.eraseIdx y)).filter (fun r => !r.isEmpty) = t.map (·.eraseIdx y) := by
        rw [List.filter_eq_self]
        intro r hr'
        obtain ⟨r0, hr0, rfl⟩ := List.mem_map.1 hr'
        have hl := h.rect r0 hr0
        have hl2 : (r0.eraseIdx y).length = m.cols - 1 := by rw [List.length_eraseIdx_of_lt (by omega)]; omega
        cases hc : r0.eraseIdx y with
        | nil => rw [hc] at hl2; simp at hl2; omega
        | cons _ _ => rfl
      rw [hf]
      have hrect : ∀ r ∈ t.map (·.eraseIdx y), r.length = m'.cols := by
        intro r hr'
        obtain ⟨r0, hr0, rfl⟩ := List.mem_map.1 hr'
        have hl := h.rect r0 hr0
        rw [List.length_eraseIdx_of_lt (by omega), e4]; omega
      refine ⟨m', e1, e2, by rw [e3, h.rows]; simp, (width_eq hrect (fun hc => absurd (by simpa using hc) htne)).symm, hrect,
        fun _ => by omega, ?_⟩
      intro a b ha hb
      rw [e3] at ha; rw [e4] at hb
      rw [e5 a b ha hb, h.entry _ _ ha (by split <;> omega)]
      have ha2 : a < t.length := by rw [← h.rows]; exact ha
      rw [List.getD_eq_getElem?_getD (l := t.map _), List.getElem?_map, List.getD_eq_getElem?_getD (l := t), List.getElem?_eq_getElem ha2]
      simp only [Option.map_some, Option.getD_some]
      rw [List.getD_eq_getElem?_getD, List.getD_eq_getElem?_getD, List.getElem?_eraseIdx]
      split <;> rfl
  | swapRows a b =>
    obtain ⟨ha, hb⟩ := hr
    rw [← h.rows] at ha hb
    obtain ⟨m', e1, e2, e3, e4, e5⟩ := swapTwoRows_spec h.wf ha hb
    simp only [Edit.spec, Edit.run]
    have hlen : (swapElems [] t a b).length = t.length := by simp [swapElems]
    have hrect : ∀ r ∈ swapElems [] t a b, r.length = m'.cols := by
      intro r hr'
      rw [e4]
      unfold swapElems at hr'
      rcases List.mem_or_eq_of_mem_set hr' with h' | h'
      · rcases List.mem_or_eq_of_mem_set h' with h'' | h''
        · exact h.rect r h''
        · subst h''; exact h.rect _ (getD_mem (by rw [← h.rows]; exact hb))
      · subst h'; exact h.rect _ (getD_mem (by rw [← h.rows]; exact ha))
    have hne : t ≠ [] := by intro hc; rw [h.rows, hc] at ha; simp at ha
    have hne' : swapElems [] t a b ≠ [] := by
      intro hc; rw [hc] at hlen; exact hne (List.length_eq_zero_iff.1 hlen.symm)
    refine ⟨m', e1, e2, by rw [e3, h.rows, hlen], (width_eq hrect (fun hc => absurd hc hne')).symm, hrect,
      fun _ => by rw [e4]; exact h.pos hne, ?_⟩
    intro x y hx hy
    rw [e3] at hx; rw [e4] at hy
    rw [e5 x y hx hy, h.entry _ _ (exch_lt ha hb hx) hy]
    rw [h.rows] at ha hb hx
    rw [swapElems_getD [] t ha hb hx]
  | swapCols a b =>
    obtain ⟨ha, hb⟩ := hr
    rw [← h.cols] at ha hb
    obtain ⟨m', e1, e2, e3, e4, e5⟩ := swapTwoCols_spec h.wf ha hb
    simp only [Edit.spec, Edit.run]
    have hrect : ∀ r ∈ t.map (fun r => swapElems nullelem r a b), r.length = m'.cols := by
      intro r hr'
      obtain ⟨r0, hr0, rfl⟩ := List.mem_map.1 hr'
      rw [e4, ← h.rect r0 hr0]; simp [swapElems]
    have hne : t ≠ [] := by intro hc; rw [h0 hc] at ha; omega
    refine ⟨m', e1, e2, by rw [e3, h.rows]; simp, (width_eq hrect (fun hc => absurd (by simpa using hc) hne)).symm, hrect,
      fun _ => by rw [e4]; exact h.pos hne, ?_⟩
    intro x y hx hy
    rw [e3] at hx; rw [e4] at hy
    rw [e5 x y hx hy, h.entry _ _ hx (exch_lt ha hb hy)]
    have hx2 : x < t.length := by rw [← h.rows]; exact hx
    have hl := h.rect t[x] (List.getElem_mem hx2)
    rw [List.getD_eq_getElem?_getD (l := t.map _), List.getElem?_map, List.getD_eq_getElem?_getD (l := t), List.getElem?_eq_getElem hx2]
    simp only [Option.map_some, Option.getD_some]
    rw [swapElems_getD nullelem _ (by omega) (by omega) (by omega)]
  | transposeRows p =>
    have hp : p.Perm (List.range m.rows) := by rw [h.rows]; exact hr
    obtain ⟨m', e1, e2, e3, e4, e5⟩ := transposeRows_spec h.wf hp
    simp only [Edit.spec, Edit.run]
    have hmem : ∀ i ∈ p, i < t.length := fun i hi => by have := hp.mem_iff.1 hi; rw [h.rows] at this; simpa using this
    have hlen : p.length = t.length := by have := hp.length_eq; rw [h.rows] at this; simpa using this
    have hrect : ∀ r ∈ p.map (fun i => t.getD i []), r.length = m'.cols := by
      intro r hr'
      obtain ⟨i, hi, rfl⟩ := List.mem_map.1 hr'
      rw [e4]; exact h.rect _ (getD_mem (hmem i hi))
    have hiff : p.map (fun i => t.getD i []) = [] ↔ t = [] := by
      rw [List.map_eq_nil_iff]
      constructor
      · intro hc; rw [hc] at hlen; exact List.length_eq_zero_iff.1 hlen.symm
      · intro hc; rw [hc] at hlen; exact List.length_eq_zero_iff.1 hlen
    refine ⟨m', e1, e2, by rw [e3, h.rows]; simp [hlen], (width_eq hrect (fun hc => by rw [e4]; exact h0 (hiff.1 hc))).symm, hrect,
      fun hc => by rw [e4]; exact h.pos (fun hc' => hc (hiff.2 hc')), ?_⟩
    intro x y hx hy
    rw [e3] at hx; rw [e4] at hy
    have hx2 : x < p.length := by rw [hlen, ← h.rows]; exact hx
    have hpx : p.getD x 0 = p[x] := by rw [List.getD_eq_getElem?_getD, List.getElem?_eq_getElem hx2]; rfl
    rw [e5 x y hx hy, h.entry _ _ (by rw [hpx, h.rows]; exact hmem _ (List.getElem_mem hx2)) hy, hpx]
    congr 1
    rw [List.getD_eq_getElem?_getD (l := p.map _), List.getElem?_map, List.getElem?_eq_getElem hx2]; rfl
  | transposeCols p =>
    have hp : p.Perm (List.range m.cols) := by rw [h.cols]; exact hr
    obtain ⟨m', e1, e2, e3, e4, e5⟩ := transposeCols_spec h.wf hp
    simp only [Edit.spec, Edit.run]
    have hmem : ∀ i ∈ p, i < m.cols := fun i hi => by simpa using hp.mem_iff.1 hi
    have hlen : p.length = m.cols := by simpa using hp.length_eq
    have hrect : ∀ r ∈ t.map (fun r => p.map (fun i => r.getD i nullelem)), r.length = m'.cols := by
      intro r hr'
      obtain ⟨r0, hr0, rfl⟩ := List.mem_map.1 hr'
      rw [e4]; simp [hlen]
    refine ⟨m', e1, e2, by rw [e3, h.rows]; simp, (width_eq hrect (fun hc => by rw [e4]; exact h0 (by simpa using hc))).symm, hrect,
      fun hc => by rw [e4]; exact h.pos (fun hc' => hc (by rw [hc']; rfl)), ?_⟩
    intro x y hx hy
    rw [e3] at hx; rw [e4] at hy
    have hy2 : y < p.length := by omega
    have hpy : p.getD y 0 = p[y] := by rw [List.getD_eq_getElem?_getD, List.getElem?_eq_getElem hy2]; rfl
    rw [e5 x y hx hy, h.entry _ _ hx (by rw [hpy]; exact hmem _ (List.getElem_mem hy2)), hpy]
    have hx2 : x < t.length := by rw [← h.rows]; exact hx
    rw [List.getD_eq_getElem?_getD (l := t.map _), List.getElem?_map, List.getD_eq_getElem?_getD (l := t), List.getElem?_eq_getElem hx2]
    simp only [Option.map_some, Option.getD_some]
    rw [List.getD_eq_getElem?_getD (l := p.map _), List.getElem?_map, List.getElem?_eq_getElem hy2]; rfl

/-- C10: after any history of in-range edits on a new `r`×`c` matrix no edit failed, the matrix has the shape of the
plain table after the same edits, each entry reads as in the table, `IsNull` tells whether it is null, and two
different entries never share storage. -/
theorem C10_sparse_matrix_refines_table (r c : Nat) (hr : 0 < r) (hc : 0 < c) (es : List (Edit α))
    (hes : InRangeAll (List.replicate r (List.replicate c (nullelem : α))) es) :
    ∃ m : SparMat α, es.foldlM Edit.run (SparMat.mk' r c) = .ok m ∧
      let t := es.foldl Edit.spec (List.replicate r (List.replicate c (nullelem : α)))
      m.rows = t.length ∧ m.cols = Table.width t ∧
      (∀ x y, x < t.length → y < Table.width t → m.get x y = (t.getD x []).getD y nullelem ∧
        (m.isNullAt x y = true ↔ (t.getD x []).getD y nullelem = nullelem)) ∧
      ∀ p q k : Nat, m.indexes[p]? = some (some k) → m.indexes[q]? = some (some k) → p = q := by
  have run : ∀ (es : List (Edit α)) (m : SparMat α) (t : Table α), Reps m t → InRangeAll t es →
      ∃ m', es.foldlM Edit.run m = .ok m' ∧ Reps m' (es.foldl Edit.spec t) := by
    intro es
    induction es with
    | nil => intro m t h _; exact ⟨m, rfl, h⟩
    | cons e es ih =>
      rintro m t h ⟨h1, h2⟩
      obtain ⟨m1, e1, e2⟩ := reps_step h e h1
      obtain ⟨m2, e3, e4⟩ := ih m1 _ e2 h2
      exact ⟨m2, by rw [List.foldlM_cons, e1]; exact e3, e4⟩
  have fin : ∀ (m : SparMat α) (t : Table α), Reps m t → (∀ x y, x < t.length → y < Table.width t →
      m.get x y = (t.getD x []).getD y nullelem ∧ (m.isNullAt x y = true ↔ (t.getD x []).getD y nullelem = nullelem)) := by
    intro m t h x y hx hy
    rw [← h.rows] at hx; rw [← h.cols] at hy
    have := h.entry x y hx hy
    exact ⟨this, by rw [isNullAt_iff h.wf, this]⟩
  have hinit : Reps (SparMat.mk' (r) c : SparMat α) (List.replicate (r) (List.replicate c nullelem)) := by
    refine ⟨wf_mk' _ _, by simp [SparMat.mk'], by simp [SparMat.mk', Table.width, List.head?_replicate, Nat.ne_of_gt hr], ?_, fun _ => hc, ?_⟩
    · intro x hx; rw [List.eq_of_mem_replicate hx]; simp [SparMat.mk']
    · intro x y hx hy
      simp only [SparMat.mk'] at hx hy
      rw [get_mk', List.getD_eq_getElem?_getD (l := List.replicate r _), List.getElem?_replicate, if_pos hx, Option.getD_some,
        List.getD_eq_getElem?_getD, List.getElem?_replicate, if_pos hy, Option.getD_some]
  obtain ⟨m, e1, e2⟩ := run es _ _ hinit hes
  exact ⟨m, e1, e2.rows, e2.cols, fin m _ e2, e2.wf.inj⟩

/-- A concrete history: fill, overwrite, remove a column, exchange and permute rows. -/
example : InRangeAll (List.replicate 2 (List.replicate 3 ([] : OpRepr)))
      [.set 0 1 [(5, [0])], .set 1 2 [(6, [0])], .removeCol 0, .swapRows 0 1, .transposeCols [1, 0], .set 0 0 []] ∧
    [Edit.set 0 1 [(5, [0])], .set 1 2 [(6, [0])], .removeCol 0, .swapRows 0 1, .transposeCols [1, 0], .set 0 0 []].foldl
      Edit.spec (List.replicate 2 (List.replicate 3 ([] : OpRepr))) = [[[(6, [0])], []], [[], [(5, [0])]]] := by
  refine ⟨⟨?_, ?_, ?_, ?_, ?_, ?_, trivial⟩, rfl⟩ <;> simp [Edit.InRange, Edit.spec, Table.width, swapElems, isNull]
  decide

end

/-! ### C11 -/

section
variable {R : Type} [CommSemiring R] (cv : Label → R) (ov : Label → R)

/-- C11: equal coefficients have the same value; `+` is the sum. -/
theorem C11_coef_sound (a b : CoefRepr) :
    (CoefRepr.eqv a b = true → (a.map cv).sum = (b.map cv).sum) ∧
    ((CoefRepr.add a b).map cv).sum = (a.map cv).sum + (b.map cv).sum :=
  ⟨fun h => cval_eqv cv h, cval_add cv a b⟩

/-- C11: equal operators have the same value, `+` is the sum, building an operator from a list sums it. -/
theorem C11_op_sound (a b : OpRepr) (l : List (Label × CoefRepr)) :
    (OpRepr.eqv a b = true → OpRepr.val cv ov a = OpRepr.val cv ov b) ∧
    OpRepr.val cv ov (OpRepr.add a b) = OpRepr.val cv ov a + OpRepr.val cv ov b ∧
    OpRepr.val cv ov (OpRepr.ofList l) = (l.map (fun kc => (kc.2.map cv).sum * ov kc.1)).sum := by
  refine ⟨fun h => val_eqv cv ov h, val_add cv ov a b, ?_⟩
  have := val_add cv ov [] l
  simp only [OpRepr.add] at this
  unfold OpRepr.ofList
  rw [this]; simp [OpRepr.val, CoefRepr.val]

/-- C11: splitting off a coefficient and the guarded multiplication are exact. -/
theorem C11_split_sound (h0 : cv 0 = 1) (a : OpRepr) :
    OpRepr.val cv ov a = ((separate a).1.map cv).sum * OpRepr.val cv ov (separate a).2 ∧
    ∀ (c : CoefRepr) (r : OpRepr), incompleteMulti c a = .ok r →
      OpRepr.val cv ov r = (c.map cv).sum * OpRepr.val cv ov a :=
  ⟨val_separate cv ov a h0, fun _ _ h => val_incompleteMulti cv ov h h0⟩

example : OpRepr.eqv [(3, [1, 2]), (5, [0])] [(3, [2, 1]), (5, [0])] = true ∧
    separate [(3, [1, 2]), (5, [2, 1])] = ([1, 2], [(3, [0]), (5, [0])]) ∧
    OpRepr.add [(3, [1])] [(2, [0]), (3, [4])] = [(2, [0]), (3, [1, 4])] := by decide
end

/-! ### C46 -/

/-- State after a history of `AddPath` calls whose failures are caught by the caller. -/
def ihistory (ids : List OpRepr) (calls : List (Nat × List OpRepr)) : IFsm :=
  calls.foldl (fun f c => (f.addPath c.1 c.2).1) (IFsm.new ids)

/-- C46: what the property asks for fails for every input. In every state reachable by calls (failures being
caught) no call of `AddPath` succeeds: it ends in an exception, an out-of-bounds access, a failed assertion or
`exit(1)`, for every unit cell, head site and operator list. -/
theorem C46_infinite_machine_accepts_no_term (ids : List OpRepr) (calls : List (Nat × List OpRepr)) (head : Nat)
    (ops : List OpRepr) : ((ihistory ids calls).addPath head ops).2 ≠ .ok := by
  have inv : ∀ (calls : List (Nat × List OpRepr)) (f : IFsm), f.Inv → (calls.foldl (fun f c => (f.addPath c.1 c.2).1) f).Inv := by
    intro calls
    induction calls with
    | nil => intro f h; exact h
    | cons c calls ih => intro f h; exact ih _ (IFsm.addPath_fails h c.1 c.2).2
  exact (IFsm.addPath_fails (inv calls _ (IFsm.inv_new ids)) head ops).1

/-- For the two-site term `A B` starting at site 0 of a two-site cell the failure is the exception of `std::map::at`;
starting at site 1 as well. -/
example : ((IFsm.new [[(0, [0])], [(0, [0])]]).addPath 0 [[(1, [0])], [(2, [0])]]).2 = .outOfRange ∧
    ((IFsm.new [[(0, [0])], [(0, [0])]]).addPath 1 [[(1, [0])], [(2, [0])]]).2 = .outOfRange := by decide

end Verif.Props
