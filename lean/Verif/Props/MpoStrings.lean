import Verif.Mpo.InstFacts
import Verif.Props.MpoGen
/-
Property theorems C08 (insertion operators) and C47 (two-operator overload).
-/
namespace Verif.Props
open Verif.Mpo SparMat NullElem

section
variable {C T : Type} [DecidableEq C] [DecidableEq T] [GenTypes C T] {R : Type} [CommRing R]

/-- `f` gives, site by site, the operators of a term with physical operators `phys` (site, operator) and the
insertion operator `insts[i]` on the sites strictly between the physical sites `i` and `i+1`; `out` is the operator
to the right of the last physical site (`none`: identity). -/
structure IsString (ids : List T) (phys : List (Nat × T)) (insts : List T) (out : Option T) (f : Nat → T) : Prop where
  at_phys : ∀ p ∈ phys, f p.1 = p.2
  gap : ∀ (i : Nat) (p q : Nat × T) (t : T), phys[i]? = some p → phys[i + 1]? = some q → insts[i]? = some t →
    ∀ s, p.1 < s → s < q.1 → f s = t
  left : ∀ s, s < ids.length → (∀ p ∈ phys, s < p.1) → ids[s]? = some (f s)
  right : ∀ s, s < ids.length → (∀ p ∈ phys, p.1 < s) → out.or ids[s]? = some (f s)

/-- The value of a call with at least two sites adds up, whatever came before. -/
theorem add_multi_site (ids : List T) (calls : List (Call C T)) (c : Call C T) (hv : ∀ c ∈ calls, c.Valid ids.length)
    (hc : c.Valid ids.length) (hn : c.negligible = false) (h2 : 2 ≤ c.idxs.length) :
    ∃ g g' ms', history ids calls = .ok g ∧ g.addTerm c.coef c.ops c.idxs = .ok g' ∧ g'.fsm.genMatRepr = .ok ms' ∧
      ∀ v : Vals R C T, mpoVal v g' ms' = keptSum v ids [] (effective calls) + termVal v ids c := by
  have heff : effective (calls ++ [c]) = effective calls ++ [c] := by simp [effective, hn]
  have hv' : ∀ d ∈ calls ++ [c], d.Valid ids.length := by
    intro d hd
    rcases List.mem_append.1 hd with h | h
    · exact hv d h
    · simp at h; subst h; exact hc
  obtain ⟨g', ms', k1, k2, _, k4⟩ := C01_generated_mpo_exact (R := R) ids (calls ++ [c]) hv' (by rw [heff]; simp)
  obtain ⟨g, _, _, hg, _⟩ := history_spec ids calls hv
  have hadd : g.addTerm c.coef c.ops c.idxs = .ok g' := by
    unfold history at k1 hg
    rw [List.foldlM_append, hg] at k1
    have k2 : (g.addTerm c.coef c.ops c.idxs >>= pure) = .ok g' := k1
    simpa using k2
  refine ⟨g, g', ms', hg, hadd, k2, fun v => ?_⟩
  rw [k4, heff, keptSum_append]
  simp only [keptSum, List.nil_append, add_zero]
  rw [if_neg]
  rintro ⟨⟨b, _, s, _, hs, _⟩, _⟩
  rw [hs] at h2; simp at h2

omit [DecidableEq C] [DecidableEq T] [GenTypes C T] in
/-- Sites and operators of the interleaved list, strictly ascending physical sites. -/
theorem inter_gap : ∀ (phys : List (Nat × T)) (insts : List T) (p0 pl : Nat × T), insts.length + 1 = phys.length →
    phys.Pairwise (fun a b => a.1 < b.1) → phys.head? = some p0 → phys.getLast? = some pl →
    (inter phys ((List.range (phys.length - 1)).map (gapSeg phys insts))).map (·.1) =
      List.range' p0.1 (pl.1 + 1 - p0.1) ∧
    ∀ a ∈ inter phys ((List.range (phys.length - 1)).map (gapSeg phys insts)), a ∈ phys ∨
      ∃ (i : Nat) (p q : Nat × T), phys[i]? = some p ∧ phys[i + 1]? = some q ∧ insts[i]? = some a.2 ∧ p.1 < a.1 ∧ a.1 < q.1
  | [], insts, _, _, h, _, _, _ => by simp at h
  | [p], insts, p0, pl, h, _, h0, hl => by
    simp at h0 hl; subst h0; subst hl
    simp [inter]
  | p :: q :: ps, [], _, _, h, _, _, _ => by simp at h
  | p :: q :: ps, t :: ts, p0, pl, h, hs, h0, hl => by
    have hpq : p.1 < q.1 := (List.pairwise_cons.1 hs).1 q (by simp)
    obtain ⟨i1, i2⟩ := inter_gap (q :: ps) ts q pl (by simpa using h) (List.pairwise_cons.1 hs).2 rfl
      (by rw [List.getLast?_cons_cons] at hl; exact hl)
    have hpl : q.1 ≤ pl.1 := by
      rw [List.getLast?_cons_cons] at hl
      have := List.mem_of_getLast? hl
      rcases List.mem_cons.1 this with rfl | h'
      · exact Nat.le_refl _
      · have := (List.pairwise_cons.1 (List.pairwise_cons.1 hs).2).1 pl h'; omega
    simp at h0; subst h0
    have hseg : (List.range ((p :: q :: ps).length - 1)).map (gapSeg (p :: q :: ps) (t :: ts)) =
        (List.range' (p.1 + 1) (q.1 - (p.1 + 1))).map (fun j => (j, t)) ::
          (List.range ((q :: ps).length - 1)).map (gapSeg (q :: ps) ts) := by
      simp only [List.length_cons, Nat.add_sub_cancel]
      rw [List.range_succ_eq_map, List.map_cons, List.map_map]
      rfl
    rw [hseg]
    simp only [inter, List.map_append, List.map_cons, i1, List.map_map]
    constructor
    · have e : (List.range' (p.1 + 1) (q.1 - (p.1 + 1))).map ((fun x : Nat × T => x.1) ∘ fun j => (j, t)) =
          List.range' (p.1 + 1) (q.1 - (p.1 + 1)) := by
        rw [show ((fun x : Nat × T => x.1) ∘ fun j => (j, t)) = id from rfl, List.map_id]
      rw [e, List.cons_append, show pl.1 + 1 - p.1 = (q.1 - (p.1 + 1) + (pl.1 + 1 - q.1)) + 1 by omega,
        List.range'_succ]
      congr 1
      have := List.range'_append_1 (s := p.1 + 1) (m := q.1 - (p.1 + 1)) (n := pl.1 + 1 - q.1)
      rw [show p.1 + 1 + (q.1 - (p.1 + 1)) = q.1 by omega] at this
      exact this
    · intro a ha
      rcases List.mem_append.1 ha with ha | ha
      · rcases List.mem_cons.1 ha with rfl | ha
        · left; simp
        · right
          obtain ⟨j, hj, rfl⟩ := List.mem_map.1 ha
          have hj := List.mem_range'_1.1 hj
          exact ⟨0, p, q, rfl, rfl, rfl, by simp; omega, by simp; omega⟩
      · rcases i2 a ha with h' | ⟨i, x, y, h1, h2, h3, h4, h5⟩
        · left; exact List.mem_cons_of_mem _ h'
        · right; exact ⟨i + 1, x, y, by simpa using h1, by simpa using h2, by simpa using h3, h4, h5⟩

omit [DecidableEq C] [DecidableEq T] [GenTypes C T] in
theorem asc_bounds {phys : List (Nat × T)} (hs : phys.Pairwise (fun a b => a.1 < b.1)) {p0 pl : Nat × T}
    (h0 : phys.head? = some p0) (hl : phys.getLast? = some pl) : ∀ p ∈ phys, p0.1 ≤ p.1 ∧ p.1 ≤ pl.1 := by
  intro p hp
  constructor
  · cases phys with
    | nil => cases hp
    | cons x r =>
      simp at h0; subst h0
      rcases List.mem_cons.1 hp with rfl | hr
      · omega
      · have := (List.pairwise_cons.1 hs).1 p hr; omega
  · rcases List.eq_nil_or_concat phys with rfl | ⟨r, x, rfl⟩
    · cases hp
    · rw [List.concat_eq_append] at hl hp hs
      simp at hl; subst hl
      rcases List.mem_append.1 hp with hr | hr
      · have := (List.pairwise_append.1 hs).2.2 p hr x (by simp); omega
      · simp at hr; subst hr; omega

/-- C08, uniform insertion operators without tail: after any history of valid calls, the term consists of the
physical operators on their sites, `insts[i]` strictly between physical sites `i` and `i+1`, identities outside. -/
theorem C08_string_between (ids : List T) (calls : List (Call C T)) (hv : ∀ c ∈ calls, c.Valid ids.length) (coef : C)
    (hn : coef ≠ GenTypes.czero T) (hn' : GenTypes.tooSmall T coef = false) (phys : List (Nat × T)) (insts : List T)
    (h2 : 2 ≤ phys.length) (hlen : insts.length + 1 = phys.length) (hs : phys.Pairwise (fun a b => a.1 < b.1))
    (hlt : ∀ p ∈ phys, p.1 < ids.length) :
    ∃ g g' ms', history ids calls = .ok g ∧ g.addTermInst coef phys insts none = .ok g' ∧ g'.fsm.genMatRepr = .ok ms' ∧
      ∀ (v : Vals R C T) (f : Nat → T), IsString ids phys insts none f → mpoVal v g' ms' =
        keptSum v ids [] (effective calls) + v.cval coef * ∏ s ∈ Finset.range ids.length, v.tval s (f s) := by
  obtain ⟨p0, h0⟩ : ∃ p, phys.head? = some p := by cases phys with | nil => simp at h2 | cons p _ => exact ⟨p, rfl⟩
  obtain ⟨pl, hl⟩ : ∃ p, phys.getLast? = some p := by
    cases h : phys.getLast? with
    | none => rw [List.getLast?_eq_none_iff] at h; subst h; simp at h2
    | some p => exact ⟨p, rfl⟩
  obtain ⟨e1, e2⟩ := inter_gap phys insts p0 pl hlen hs h0 hl
  have hb := asc_bounds hs h0 hl
  have hpl := hlt pl (List.mem_of_getLast? hl)
  generalize hL : inter phys ((List.range (phys.length - 1)).map (gapSeg phys insts)) = L at e1 e2
  have hLp : L.Perm (phys ++ ((List.range (phys.length - 1)).map (gapSeg phys insts)).flatten) := by
    rw [← hL]; exact inter_perm _ _ (by simp)
  have hLlen : 2 ≤ L.length := by rw [hLp.length_eq, List.length_append]; omega
  let c : Call C T := ⟨coef, L.map (·.2), L.map (·.1)⟩
  have hc : c.Valid ids.length := by
    refine ⟨by simp [c], ?_, ?_, ?_⟩
    · intro h; have : (L.map (·.1)).length = 0 := by rw [show L.map (·.1) = [] from h]; rfl
      rw [List.length_map] at this; omega
    · simp only [c, e1]; exact List.nodup_range'
    · intro s hs'
      simp only [c, e1] at hs'
      have := List.mem_range'_1.1 hs'
      have := (hb p0 (List.mem_of_head? h0)).2
      omega
  obtain ⟨g, g', ms', a1, a2, a3, a4⟩ := add_multi_site (R := R) ids calls c hv hc (by simp [Call.negligible, c, hn, hn']) (by simpa [c] using hLlen)
  have hN : g.N = ids.length := by
    obtain ⟨g2, _, _, b1, b2⟩ := history_spec ids calls hv
    rw [a1] at b1; cases b1; exact b2.hN
  refine ⟨g, g', ms', a1, ?_, a3, fun v f hf => ?_⟩
  · unfold Generator.addTermInst
    rw [instList_none _ _ _ h2 hlen, hL]
    exact a2
  · rw [a4 v, termVal_of_fun v ids c hc f]
    · intro a ha
      have hz : (c.idxs.zip c.ops) = L := by simp only [c]; rw [List.zip_map', List.map_id'']; exact fun _ => rfl
      rw [hz] at ha
      rcases e2 a ha with h | ⟨i, p, q, h1, h2, h3, h4, h5⟩
      · exact hf.at_phys a h
      · exact hf.gap i p q a.2 h1 h2 h3 a.1 h4 h5
    · intro s hs' hns
      simp only [c, e1] at hns
      rw [List.mem_range'_1] at hns
      by_cases hside : s < p0.1
      · exact hf.left s hs' fun p hp => by have := hb p hp; omega
      · have := hf.right s hs' fun p hp => by have := hb p hp; omega
        simpa using this

/-- C08, uniform insertion operators with a tail operator: exact behaviour of the code. The operator `t` ends up
on all sites behind the last physical one, but the term carries an extra factor −1 if the leading element of `t` is
negative (its ignored copy on the last physical site is sign-normalised too). -/
theorem C08_string_tail_exact (ids : List T) (calls : List (Call C T)) (hv : ∀ c ∈ calls, c.Valid ids.length) (coef : C)
    (hn : coef ≠ GenTypes.czero T) (hn' : GenTypes.tooSmall T coef = false)
    (hm : GenTypes.cneg T coef ≠ GenTypes.czero T) (hm' : GenTypes.tooSmall T (GenTypes.cneg T coef) = false)
    (phys : List (Nat × T)) (insts : List T) (t : T)
    (h2 : 2 ≤ phys.length) (hlen : insts.length + 1 = phys.length) (hs : phys.Pairwise (fun a b => a.1 < b.1))
    (hlt : ∀ p ∈ phys, p.1 < ids.length) :
    ∃ g g' ms', history ids calls = .ok g ∧ g.addTermInst coef phys (insts ++ [t]) none = .ok g' ∧
      g'.fsm.genMatRepr = .ok ms' ∧
      ∀ (v : Vals R C T) (f : Nat → T), IsString ids phys insts (some t) f → mpoVal v g' ms' =
        keptSum v ids [] (effective calls) + (if GenTypes.negFirst C t then -1 else 1) *
          (v.cval coef * ∏ s ∈ Finset.range ids.length, v.tval s (f s)) := by
  obtain ⟨p0, h0⟩ : ∃ p, phys.head? = some p := by cases phys with | nil => simp at h2 | cons p _ => exact ⟨p, rfl⟩
  obtain ⟨pl, hl⟩ : ∃ p, phys.getLast? = some p := by
    cases h : phys.getLast? with
    | none => rw [List.getLast?_eq_none_iff] at h; subst h; simp at h2
    | some p => exact ⟨p, rfl⟩
  obtain ⟨e1, e2⟩ := inter_gap phys insts p0 pl hlen hs h0 hl
  have hb := asc_bounds hs h0 hl
  have hpl := hlt pl (List.mem_of_getLast? hl)
  have h0l := (hb p0 (List.mem_of_head? h0)).2
  -- the list ends with the last physical operator
  obtain ⟨A, hA⟩ : ∃ A, inter phys ((List.range (phys.length - 1)).map (gapSeg phys insts)) = A ++ [pl] := by
    have : Inhabited (Nat × T) := ⟨pl⟩
    rw [inter_range _ _ (by simp; omega), List.getLastD_eq_getLast?, hl]
    exact ⟨_, rfl⟩
  have hLp := inter_perm phys ((List.range (phys.length - 1)).map (gapSeg phys insts)) (by simp)
  have hLlen : 2 ≤ (A ++ [pl]).length := by rw [← hA, hLp.length_eq, List.length_append]; omega
  rw [hA] at e1 e2
  let B : List (Nat × T) := (List.range' (pl.1 + 1) (ids.length - (pl.1 + 1))).map (fun j => (j, t))
  have hBs : B.map (·.1) = List.range' (pl.1 + 1) (ids.length - (pl.1 + 1)) := by
    simp only [B, List.map_map]
    rw [show ((fun x : Nat × T => x.1) ∘ fun j => (j, t)) = id from rfl, List.map_id]
  have hsites : (A ++ [pl] ++ B).map (·.1) = List.range' p0.1 (ids.length - p0.1) := by
    rw [List.map_append, e1, hBs]
    have := List.range'_append_1 (s := p0.1) (m := pl.1 + 1 - p0.1) (n := ids.length - (pl.1 + 1))
    rw [show p0.1 + (pl.1 + 1 - p0.1) = pl.1 + 1 by omega,
      show pl.1 + 1 - p0.1 + (ids.length - (pl.1 + 1)) = ids.length - p0.1 by omega] at this
    exact this
  let c : Call C T := ⟨flip1 coef t, (A ++ [pl] ++ B).map (·.2), (A ++ [pl] ++ B).map (·.1)⟩
  have hflip : flip1 coef t ≠ GenTypes.czero T ∧ GenTypes.tooSmall T (flip1 coef t) = false := by
    unfold flip1; split
    · exact ⟨hm, hm'⟩
    · exact ⟨hn, hn'⟩
  have hc : c.Valid ids.length := by
    refine ⟨by simp [c], by simp [c], ?_, ?_⟩
    · simp only [c, hsites]; exact List.nodup_range'
    · intro s hs'
      simp only [c, hsites] at hs'
      have := List.mem_range'_1.1 hs'
      omega
  obtain ⟨g, g', ms', a1, a2, a3, a4⟩ := add_multi_site (R := R) ids calls c hv hc
    (by simp [Call.negligible, c, hflip.1, hflip.2])
    (by have := hLlen; simp only [c, List.length_map, List.length_append] at this ⊢; omega)
  have hN : g.N = ids.length := by
    obtain ⟨g2, _, _, b1, b2⟩ := history_spec ids calls hv
    rw [a1] at b1; cases b1; exact b2.hN
  refine ⟨g, g', ms', a1, ?_, a3, fun v f hf => ?_⟩
  · unfold Generator.addTermInst
    rw [instList_tail _ _ _ h2 hlen pl hl t, hA, hN]
    have ht : (List.range' pl.1 (ids.length - pl.1)).map (fun j => (j, t)) = (pl.1, t) :: B := by
      rw [show ids.length - pl.1 = (ids.length - (pl.1 + 1)) + 1 by omega, List.range'_succ]; rfl
    have hsort : (A ++ pl :: (pl.1, t) :: B).Pairwise (fun a b => a.1 ≤ b.1) := by
      have hr : (A ++ [pl] ++ B).Pairwise (fun a b => a.1 ≤ b.1) := by
        have := (List.pairwise_map (f := fun x : Nat × T => x.1) (R := (· ≤ ·)) (l := A ++ [pl] ++ B)).1 (by
          rw [hsites]; exact (List.pairwise_lt_range' (s := p0.1) (n := ids.length - p0.1)).imp (fun h => Nat.le_of_lt h))
        exact this
      rw [List.append_assoc, List.singleton_append] at hr
      have h1 := List.pairwise_append.1 hr
      have h3 := List.pairwise_cons.1 h1.2.1
      refine List.pairwise_append.2 ⟨h1.1, List.pairwise_cons.2 ⟨?_, List.pairwise_cons.2 ⟨fun b hb' => h3.1 b hb', h3.2⟩⟩, ?_⟩
      · intro b hb'
        rcases List.mem_cons.1 hb' with rfl | hb'
        · exact Nat.le_refl _
        · exact h3.1 b hb'
      · intro a ha b hb'
        rcases List.mem_cons.1 hb' with rfl | hb'
        · exact h1.2.2 a ha _ (by simp)
        · rcases List.mem_cons.1 hb' with rfl | hb'
          · exact h1.2.2 a ha pl (by simp)
          · exact h1.2.2 a ha b (by simp [hb'])
    have hdup := addTerm_dup g coef A B pl.1 pl.2 t hsort
      ⟨fun h => absurd h hflip.1, fun h => absurd h hn⟩ (by rw [hflip.2, hn'])
    rw [ht]
    show (g.addTerm coef _ _) = _
    rw [List.append_assoc, List.singleton_append]
    rw [show (pl.1, pl.2) = pl from rfl] at hdup
    rw [hdup]
    have : A ++ pl :: B = A ++ [pl] ++ B := by simp
    rw [this]
    exact a2
  · have hcv : v.cval (flip1 coef t) = (if GenTypes.negFirst C t then -1 else 1) * v.cval coef := by
      unfold flip1; split
      · rw [v.cneg]; ring
      · rw [one_mul]
    rw [a4 v, termVal_of_fun v ids c hc f]
    · show _ + v.cval (flip1 coef t) * _ = _
      rw [hcv]; ring
    · intro a ha
      have hz : (c.idxs.zip c.ops) = A ++ [pl] ++ B := by
        simp only [c]; rw [List.zip_map', List.map_id'']; exact fun _ => rfl
      rw [hz] at ha
      rcases List.mem_append.1 ha with ha | ha
      · rcases e2 a ha with h | ⟨i, p, q, h1, h2, h3, h4, h5⟩
        · exact hf.at_phys a h
        · exact hf.gap i p q a.2 h1 h2 h3 a.1 h4 h5
      · obtain ⟨j, hj, rfl⟩ := List.mem_map.1 ha
        have hj := List.mem_range'_1.1 hj
        have := hf.right j (by omega) fun p hp => by have := hb p hp; omega
        simpa using this.symm
    · intro s hs' hns
      simp only [c, hsites] at hns
      rw [List.mem_range'_1] at hns
      exact hf.left s hs' fun p hp => by have := hb p hp; omega

/-- C08 fails with a tail operator whose leading element is negative: for `7·13` on sites 0, 1 and tail operator
`-3` on site 2 the code adds `+273` instead of `-273`. -/
theorem C08_tail_sign_violated :
    ∃ (phys : List (Nat × (Int × Int))) (insts : List (Int × Int)) (t : Int × Int) (f : Nat → Int × Int)
      (g' : Generator Int (Int × Int)) (ms' : List (SparMat OpRepr)),
      IsString demoIds phys insts (some t) f ∧ (Generator.new demoIds).addTermInst 1 phys (insts ++ [t]) none = .ok g' ∧
      g'.fsm.genMatRepr = .ok ms' ∧
      mpoVal demoVals g' ms' ≠ demoVals.cval 1 * ∏ s ∈ Finset.range demoIds.length, demoVals.tval s (f s) := by
  obtain ⟨g, g', ms', h1, h2, h3, h4⟩ := C08_string_tail_exact (R := Int) (C := Int) demoIds [] (by simp) 1 (by decide)
    (by decide) (by decide) (by decide) [(0, (7, 0)), (1, (13, 0))] [(1, 0)] (-3, 0) (by decide) (by decide) (by decide) (by decide)
  have hf : IsString demoIds [(0, (7, 0)), (1, (13, 0))] [(1, 0)] (some (-3, 0))
      (fun s => if s = 0 then (7, 0) else if s = 1 then (13, 0) else (-3, 0)) := by
    refine ⟨by decide, ?_, ?_, ?_⟩
    · intro i p q t hp hq ht s hs hs'
      rcases i with _ | _ | i <;> simp at hp hq ht
      subst hp; subst hq; simp at hs hs'; omega
    · intro s _ h; have := h (0, (7, 0)) (by simp); simp at this
    · intro s _ h; have := h (1, (13, 0)) (by simp); simp at this
      rw [if_neg (by omega), if_neg (by omega)]; rfl
  cases h1
  refine ⟨_, _, _, _, g', ms', hf, h2, h3, ?_⟩
  rw [h4 demoVals _ hf]
  simp only [effective, List.filter_nil, keptSum]
  decide

/-- C08, insertion operators on explicitly listed sites (with or without a last group behind the last physical
operator): if all listed sites are different, the operators are exactly where they are listed. -/
theorem C08_explicit_sites (ids : List T) (calls : List (Call C T)) (hv : ∀ c ∈ calls, c.Valid ids.length) (coef : C)
    (hn : coef ≠ GenTypes.czero T) (hn' : GenTypes.tooSmall T coef = false) (phys : List (Nat × T)) (insts : List T)
    (sets : List (List Nat)) (h2 : 2 ≤ phys.length)
    (hlen : insts.length + 1 = phys.length ∨ insts.length = phys.length) (hsl : sets.length = insts.length)
    (hnd : (phys.map (·.1) ++ sets.flatten).Nodup) (hlt : ∀ s ∈ phys.map (·.1) ++ sets.flatten, s < ids.length) :
    ∃ g g' ms', history ids calls = .ok g ∧ g.addTermInst coef phys insts (some sets) = .ok g' ∧
      g'.fsm.genMatRepr = .ok ms' ∧
      ∀ (v : Vals R C T) (f : Nat → T), (∀ p ∈ phys, f p.1 = p.2) →
        (∀ (i : Nat) (js : List Nat) (t : T), sets[i]? = some js → insts[i]? = some t → ∀ s ∈ js, f s = t) →
        (∀ s, s < ids.length → s ∉ phys.map (·.1) ++ sets.flatten → ids[s]? = some (f s)) → mpoVal v g' ms' =
        keptSum v ids [] (effective calls) + v.cval coef * ∏ s ∈ Finset.range ids.length, v.tval s (f s) := by
  have hLp := inter_perm phys ((List.range insts.length).map (setSeg insts sets)) (by simp; omega)
  generalize hL : inter phys ((List.range insts.length).map (setSeg insts sets)) = L at hLp
  have hfl : ((List.range insts.length).map (setSeg insts sets)).flatten.map (·.1) = sets.flatten := by
    rw [List.map_flatten, List.map_map]
    congr 1
    refine List.ext_getElem (by simp [hsl]) fun i h1 h2 => ?_
    have i1 : insts[i]? = some insts[i] := List.getElem?_eq_getElem (by omega)
    have i2 : sets[i]? = some sets[i] := List.getElem?_eq_getElem h2
    simp only [List.getElem_map, List.getElem_range, Function.comp, setSeg, i1, i2, List.map_map]
    rw [show ((fun x : Nat × T => x.1) ∘ fun j => (j, insts[i])) = id from rfl, List.map_id]
  have hLs : (L.map (·.1)).Perm (phys.map (·.1) ++ sets.flatten) := by
    have := hLp.map (·.1)
    rwa [List.map_append, hfl] at this
  have hLlen : 2 ≤ L.length := by rw [hLp.length_eq, List.length_append]; omega
  let c : Call C T := ⟨coef, L.map (·.2), L.map (·.1)⟩
  have hc : c.Valid ids.length := by
    refine ⟨by simp [c], ?_, hLs.nodup_iff.2 hnd, fun s hs => hlt s (hLs.mem_iff.1 hs)⟩
    intro h; have : (L.map (·.1)).length = 0 := by rw [show L.map (·.1) = [] from h]; rfl
    rw [List.length_map] at this; omega
  obtain ⟨g, g', ms', a1, a2, a3, a4⟩ := add_multi_site (R := R) ids calls c hv hc (by simp [Call.negligible, c, hn, hn']) (by simpa [c] using hLlen)
  refine ⟨g, g', ms', a1, ?_, a3, fun v f f1 f2 f3 => ?_⟩
  · unfold Generator.addTermInst
    rw [instList_sets _ _ _ _ h2 hlen hsl, hL]
    exact a2
  · rw [a4 v, termVal_of_fun v ids c hc f]
    · intro a ha
      have hz : (c.idxs.zip c.ops) = L := by simp only [c]; rw [List.zip_map', List.map_id'']; exact fun _ => rfl
      rw [hz] at ha
      rcases List.mem_append.1 (hLp.mem_iff.1 ha) with h | h
      · exact f1 a h
      · obtain ⟨seg, h1, h2⟩ := List.mem_flatten.1 h
        obtain ⟨i, _, rfl⟩ := List.mem_map.1 h1
        unfold setSeg at h2
        split at h2
        · rename_i t js ht hjs
          obtain ⟨j, hj, rfl⟩ := List.mem_map.1 h2
          exact f2 i js t hjs ht j hj
        · cases h2
    · intro s hs hns
      exact f3 s hs fun h => hns (hLs.mem_iff.2 h)

/-- A Jordan–Wigner-like string: physical operators on sites 0 and 2, insertion operator on site 1. -/
example : IsString demoIds [(0, (7, 1)), (2, (11, -1))] [(-1, 0)] none
    (fun s => if s = 0 then (7, 1) else if s = 2 then (11, -1) else if s = 1 then (-1, 0) else (1, 0)) := by
  refine ⟨by decide, ?_, ?_, ?_⟩
  · intro i p q t hp hq ht s hs hs'
    rcases i with _ | _ | i <;> simp at hp hq ht
    subst hp; subst hq; subst ht
    have : s = 1 := by simp at hs hs'; omega
    subst this; rfl
  · intro s _ h; have := h (0, (7, 1)) (by simp); simp at this
  · intro s hs h; have := h (2, (11, -1)) (by simp); simp [demoIds] at this hs; omega

/-! ### C47 -/

/-- C47: the overload for one or two operators adds: the one-site term if there is no second operator; the product
of the two operators (in either order of sites) if there is no insertion operator; otherwise the product with the insertion operator strictly
between the two sites. The second operator may not sit on site 0. -/
theorem C47_two_operator_overload (ids : List T) (calls : List (Call C T)) (hv : ∀ c ∈ calls, c.Valid ids.length) (coef : C)
    (hn : coef ≠ GenTypes.czero T) (hn' : GenTypes.tooSmall T coef = false) (op1 op2 : T) (i1 i2 : Nat) (inst : Option T)
    (h1 : i1 < ids.length) (h2 : i2 < ids.length) (hne : i1 ≠ i2) (h0 : i2 ≠ 0) (hord : inst ≠ none → i1 < i2) :
    ∃ g g' ms', history ids calls = .ok g ∧ g.addTerm2 coef op1 i1 (some op2) i2 inst [] = .ok g' ∧
      g'.fsm.genMatRepr = .ok ms' ∧
      ∀ (v : Vals R C T) (f : Nat → T), f i1 = op1 → f i2 = op2 →
        (∀ s, s < ids.length → s ≠ i1 → s ≠ i2 →
          (if i1 < s ∧ s < i2 then inst else none).or ids[s]? = some (f s)) → mpoVal v g' ms' =
        keptSum v ids [] (effective calls) + v.cval coef * ∏ s ∈ Finset.range ids.length, v.tval s (f s) := by
  cases inst with
  | none =>
    let c : Call C T := ⟨coef, [op1, op2], [i1, i2]⟩
    have hc : c.Valid ids.length := by
      refine ⟨rfl, by simp [c], by simp [c, hne], ?_⟩
      intro s hs; simp [c] at hs; rcases hs with rfl | rfl <;> assumption
    obtain ⟨g, g', ms', a1, a2, a3, a4⟩ := add_multi_site (R := R) ids calls c hv hc (by simp [Call.negligible, c, hn, hn']) (by simp [c])
    refine ⟨g, g', ms', a1, ?_, a3, fun v f f1 f2 f3 => ?_⟩
    · simp only [Generator.addTerm2]
      rw [if_neg h0]
      exact a2
    · rw [a4 v, termVal_of_fun v ids c hc f]
      · intro a ha
        simp [c] at ha
        rcases ha with rfl | rfl
        · exact f1
        · exact f2
      · intro s hs hns
        simp [c] at hns
        have := f3 s hs hns.1 hns.2
        simpa using this
  | some t =>
    have hlt := hord (by simp)
    obtain ⟨g, g', ms', a1, a2, a3, a4⟩ := C08_string_between (R := R) ids calls hv coef hn hn' [(i1, op1), (i2, op2)] [t]
      (by simp) (by simp) (by simp [hlt]) (by simp [h1, h2])
    refine ⟨g, g', ms', a1, ?_, a3, fun v f f1 f2 f3 => a4 v f ⟨by simp [f1, f2], ?_, ?_, ?_⟩⟩
    · simp only [Generator.addTerm2]
      rw [if_neg h0, if_pos trivial, if_neg (by omega)]
      exact a2
    · intro i p q t' hp hq ht s hs hs'
      rcases i with _ | _ | i <;> simp at hp hq ht
      subst hp; subst hq; subst ht
      simp at hs hs'
      have := f3 s (by omega) (by omega) (by omega)
      rw [if_pos ⟨hs, hs'⟩] at this
      simpa using this.symm
    · intro s hs h
      have e1 := h (i1, op1) (by simp); have e2 := h (i2, op2) (by simp)
      simp at e1 e2
      have := f3 s hs (by omega) (by omega)
      rw [if_neg (by omega)] at this
      simpa using this
    · intro s hs h
      have e1 := h (i1, op1) (by simp); have e2 := h (i2, op2) (by simp)
      simp at e1 e2
      have := f3 s hs (by omega) (by omega)
      rw [if_neg (by omega)] at this
      simpa using this

/-- C47, no second operator. -/
theorem C47_one_operator (ids : List T) (coef : C) (hn : coef ≠ GenTypes.czero T) (hn' : GenTypes.tooSmall T coef = false)
    (op1 : T) (i1 i2 : Nat) (inst : Option T) (js : List Nat) (h1 : i1 < ids.length) :
    ∃ g' ms', (Generator.new ids : Generator C T).addTerm2 coef op1 i1 none i2 inst js = .ok g' ∧
      g'.fsm.genMatRepr = .ok ms' ∧
      ∀ (v : Vals R C T) (f : Nat → T), f i1 = op1 → (∀ s, s < ids.length → s ≠ i1 → ids[s]? = some (f s)) →
        mpoVal v g' ms' = v.cval coef * ∏ s ∈ Finset.range ids.length, v.tval s (f s) := by
  let c : Call C T := ⟨coef, [op1], [i1]⟩
  have hc : c.Valid ids.length := ⟨rfl, by simp [c], by simp [c], by simp [c, h1]⟩
  obtain ⟨g, ms, a1, a2, a3⟩ := C07_single_term (R := R) ids c hc (by simp [Call.negligible, c, hn, hn'])
  refine ⟨g, ms, ?_, a2, fun v f f1 f2 => ?_⟩
  · have a1' : ((Generator.new ids : Generator C T).addTerm c.coef c.ops c.idxs >>= pure) = .ok g := a1
    simpa [Generator.addTerm2, c] using a1'
  · rw [a3 v, termVal_of_fun v ids c hc f]
    · intro a ha; simp [c] at ha; subst ha; exact f1
    · intro s hs hns; simp [c] at hns; exact f2 s hs hns

/-- C47: operators in descending site order with no insertion operator are accepted, with one they are rejected. -/
example : (∃ g', (Generator.new demoIds : Generator Int (Int × Int)).addTerm2 2 (7, 1) 2 (some (11, -1)) 1 none [] = .ok g') ∧
    (Generator.new demoIds : Generator Int (Int × Int)).addTerm2 2 (7, 1) 2 (some (11, -1)) 1 (some (-1, 0)) [] =
      .error .assertFail := by
  refine ⟨?_, rfl⟩
  obtain ⟨g, g', ms, h1, h2, _⟩ := C47_two_operator_overload (R := Int) (C := Int) demoIds [] (by simp) 2 (by decide)
    (by decide) (7, 1) (11, -1) 2 1 none (by decide) (by decide) (by decide) (by decide) (by simp)
  cases h1
  exact ⟨g', h2⟩

end
end Verif.Props
