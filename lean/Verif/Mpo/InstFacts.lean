import Verif.Mpo.PropFacts
/-
Facts about the insertion-operator overloads of `AddTerm`.
-/
namespace Verif.Mpo
open GenTypes

variable {C T : Type} [DecidableEq C] [DecidableEq T] [G : GenTypes C T]

/-- physical operators interleaved with segments -/
def inter {α : Type} : List α → List (List α) → List α
  | [], _ => []
  | p :: ps, [] => p :: ps
  | p :: ps, s :: ss => p :: s ++ inter ps ss

theorem inter_perm {α : Type} : ∀ (ps : List α) (ss : List (List α)), ss.length ≤ ps.length →
    (inter ps ss).Perm (ps ++ ss.flatten)
  | [], ss, h => by
    cases ss with
    | nil => simp [inter]
    | cons _ _ => simp at h
  | p :: ps, [], _ => by simp [inter]
  | p :: ps, s :: ss, h => by
    have ih := inter_perm ps ss (by simpa using h)
    simp only [inter, List.flatten_cons, List.cons_append]
    refine List.Perm.cons p ?_
    refine (List.Perm.append_left s ih).trans ?_
    rw [← List.append_assoc, ← List.append_assoc]
    exact List.Perm.append_right _ List.perm_append_comm

theorem mapM_ok' {α β : Type} (f : α → Except Err β) (g : α → β) (l : List α) (h : ∀ x ∈ l, f x = .ok (g x)) :
    l.mapM f = .ok (l.map g) := by
  induction l with
  | nil => rfl
  | cons a l ih =>
    rw [List.mapM_cons, h a (by simp), ih (fun x hx => h x (by simp [hx]))]
    rfl

/-- interleaving by position -/
theorem inter_range {α : Type} [Inhabited α] : ∀ (ps : List α) (ss : List (List α)), ss.length + 1 = ps.length →
    inter ps ss = ((List.range (ps.length - 1)).map (fun i => ps.getD i default :: ss.getD i [])).flatten ++
      [ps.getLastD default]
  | [], ss, h => by simp at h
  | [p], [], _ => by simp [inter]
  | [p], s :: ss, h => by simp at h
  | p :: q :: ps, [], h => by simp at h
  | p :: q :: ps, s :: ss, h => by
    have ih := inter_range (q :: ps) ss (by simpa using h)
    simp only [inter, ih, List.length_cons, Nat.add_sub_cancel]
    rw [List.range_succ_eq_map]
    simp [List.map_map, Function.comp_def]

theorem inter_snoc {α : Type} : ∀ (ps : List α) (ss : List (List α)) (s : List α), ss.length + 1 = ps.length →
    inter ps (ss ++ [s]) = inter ps ss ++ s
  | [], ss, s, h => by simp at h
  | [p], [], s, _ => by simp [inter]
  | [p], _ :: _, s, h => by simp at h
  | p :: q :: ps, [], s, h => by simp at h
  | p :: q :: ps, x :: ss, s, h => by
    have ih := inter_snoc (q :: ps) ss s (by simpa using h)
    simp only [List.cons_append, inter, ih, List.append_assoc]

/-- segment `i` of the uniform variant -/
def gapSeg (phys : List (Nat × T)) (insts : List T) (i : Nat) : List (Nat × T) :=
  match phys[i]?, phys[i + 1]?, insts[i]? with
  | some p, some q, some t => (List.range' (p.1 + 1) (q.1 - (p.1 + 1))).map (fun j => (j, t))
  | _, _, _ => []

/-- segment `i` of the explicit variant -/
def setSeg (insts : List T) (ss : List (List Nat)) (i : Nat) : List (Nat × T) :=
  match insts[i]?, ss[i]? with
  | some t, some js => js.map (fun j => (j, t))
  | _, _ => []

omit [DecidableEq T] in
theorem instList_none (N : Nat) (phys : List (Nat × T)) (insts : List T) (h2 : 2 ≤ phys.length)
    (hl : insts.length + 1 = phys.length) :
    instList N phys insts none = .ok (inter phys ((List.range (phys.length - 1)).map (gapSeg phys insts))) := by
  have : Inhabited (Nat × T) := ⟨phys.get ⟨0, by omega⟩⟩
  unfold instList
  rw [if_neg (by omega), if_neg (by omega), if_neg (by simp)]
  rw [mapM_ok' _ (fun i => phys.getD i default :: gapSeg phys insts i)]
  · simp only [bind, Except.bind]
    rw [inter_range _ _ (by simp; omega)]
    cases hlast : phys.getLast? with
    | none => rw [List.getLast?_eq_none_iff] at hlast; subst hlast; simp at h2
    | some last =>
      simp only [if_neg (show ¬ insts.length = phys.length by omega), pure, Except.pure]
      congr 2
      · congr 1
        refine List.map_congr_left fun i hi => ?_
        have hi := List.mem_range.1 hi
        simp [hi]
      · rw [List.getLastD_eq_getLast?, hlast]; rfl
  · intro i hi
    have hi := List.mem_range.1 hi
    have e1 : phys[i]? = some phys[i] := List.getElem?_eq_getElem (by omega)
    have e2 : phys[i + 1]? = some phys[i + 1] := List.getElem?_eq_getElem (by omega)
    have e3 : insts[i]? = some insts[i] := List.getElem?_eq_getElem (by omega)
    simp [gapSeg, e1, e2, e3]

omit [DecidableEq T] in
theorem instList_tail (N : Nat) (phys : List (Nat × T)) (insts : List T) (h2 : 2 ≤ phys.length)
    (hl : insts.length + 1 = phys.length) (p : Nat × T) (hp : phys.getLast? = some p) (t : T) :
    instList N phys (insts ++ [t]) none = .ok (inter phys ((List.range (phys.length - 1)).map (gapSeg phys insts)) ++
      (List.range' p.1 (N - p.1)).map (fun j => (j, t))) := by
  have : Inhabited (Nat × T) := ⟨phys.get ⟨0, by omega⟩⟩
  unfold instList
  rw [if_neg (by omega), if_neg (by simp; omega), if_neg (by simp)]
  rw [mapM_ok' _ (fun i => phys.getD i default :: gapSeg phys insts i)]
  · simp only [bind, Except.bind]
    rw [inter_range _ _ (by simp; omega), hp]
    simp only [if_pos (show (insts ++ [t]).length = phys.length by simp; omega), pure, Except.pure,
      List.getLast?_append, List.getLast?_singleton, Option.or_some, List.append_assoc, List.singleton_append]
    congr 2
    · congr 1
      refine List.map_congr_left fun i hi => ?_
      have hi := List.mem_range.1 hi
      simp [hi]
    · rw [List.getLastD_eq_getLast?, hp]; simp
  · intro i hi
    have hi := List.mem_range.1 hi
    have e1 : phys[i]? = some phys[i] := List.getElem?_eq_getElem (by omega)
    have e2 : phys[i + 1]? = some phys[i + 1] := List.getElem?_eq_getElem (by omega)
    have e3 : insts[i]? = some insts[i] := List.getElem?_eq_getElem (by omega)
    have e4 : (insts ++ [t])[i]? = some insts[i] := by rw [List.getElem?_append_left (by omega), e3]
    simp [gapSeg, e1, e2, e3, e4]

omit [DecidableEq T] in
theorem instList_sets (N : Nat) (phys : List (Nat × T)) (insts : List T) (ss : List (List Nat)) (h2 : 2 ≤ phys.length)
    (hl : insts.length + 1 = phys.length ∨ insts.length = phys.length) (hs : ss.length = insts.length) :
    instList N phys insts (some ss) = .ok (inter phys ((List.range insts.length).map (setSeg insts ss))) := by
  have : Inhabited (Nat × T) := ⟨phys.get ⟨0, by omega⟩⟩
  unfold instList
  rw [if_neg (by omega), if_neg (by omega), if_neg (by simpa using hs)]
  rw [mapM_ok' _ (fun i => phys.getD i default :: setSeg insts ss i)]
  · simp only [bind, Except.bind]
    cases hlast : phys.getLast? with
    | none => rw [List.getLast?_eq_none_iff] at hlast; subst hlast; simp at h2
    | some last =>
      have base := inter_range phys ((List.range (phys.length - 1)).map (setSeg insts ss)) (by simp; omega)
      have e1 : (List.range (phys.length - 1)).map (fun i => phys.getD i default ::
          ((List.range (phys.length - 1)).map (setSeg insts ss)).getD i []) =
          (List.range (phys.length - 1)).map (fun i => phys.getD i default :: setSeg insts ss i) := by
        refine List.map_congr_left fun i hi => ?_
        have hi := List.mem_range.1 hi
        simp [hi]
      have e2 : phys.getLastD default = last := by rw [List.getLastD_eq_getLast?, hlast]; rfl
      rw [e1, e2] at base
      rcases hl with hl | hl
      · rw [show insts.length = phys.length - 1 by omega, base]
        simp [show ¬ (phys.length - 1 = phys.length) by omega, pure, Except.pure]
      · rw [hl, show phys.length = phys.length - 1 + 1 by omega, List.range_succ, List.map_append, List.map_singleton,
          inter_snoc _ _ _ (by simp; omega), base]
        have h3 : phys.length - 1 + 1 = phys.length := by omega
        simp only [h3, if_true, pure, Except.pure]
        have g1 : insts.getLast? = some insts[phys.length - 1] := by
          rw [List.getLast?_eq_getElem?, show insts.length - 1 = phys.length - 1 by omega]; exact List.getElem?_eq_getElem (by omega)
        have g2 : ss.getLastD [] = ss[phys.length - 1] := by
          rw [List.getLastD_eq_getLast?, List.getLast?_eq_getElem?, show ss.length - 1 = phys.length - 1 by omega,
            List.getElem?_eq_getElem (by omega)]; rfl
        have g3 : setSeg insts ss (phys.length - 1) = ss[phys.length - 1].map (fun j => (j, insts[phys.length - 1])) := by
          have a1 : insts[phys.length - 1]? = some insts[phys.length - 1] := List.getElem?_eq_getElem (by omega)
          have a2 : ss[phys.length - 1]? = some ss[phys.length - 1] := List.getElem?_eq_getElem (by omega)
          simp [setSeg, a1, a2]
        rw [g1, g3]
        dsimp only
        rw [g2]
        simp
  · intro i hi
    have hi := List.mem_range.1 hi
    have e1 : phys[i]? = some phys[i] := List.getElem?_eq_getElem (by omega)
    have e2 : phys[i + 1]? = some phys[i + 1] := List.getElem?_eq_getElem (by omega)
    have e3 : insts[i]? = some insts[i] := List.getElem?_eq_getElem (by omega)
    have e4 : ss[i]? = some ss[i] := List.getElem?_eq_getElem (by omega)
    simp [setSeg, e1, e2, e3, e4]

/-- Meaning of a call in terms of one operator per site. -/
theorem termVal_of_fun {R : Type} [CommRing R] (v : Vals R C T) (ids : List T) (c : Call C T) (hc : c.Valid ids.length)
    (f : Nat → T) (h1 : ∀ a ∈ c.idxs.zip c.ops, f a.1 = a.2)
    (h2 : ∀ s, s < ids.length → s ∉ c.idxs → ids[s]? = some (f s)) :
    termVal v ids c = v.cval c.coef * ∏ s ∈ Finset.range ids.length, v.tval s (f s) := by
  unfold termVal
  rw [mul_assoc]
  congr 1
  have hsub : ∀ s ∈ c.idxs, s ∈ Finset.range ids.length := fun s hs => Finset.mem_range.2 (hc.lt s hs)
  rw [← Finset.prod_filter_mul_prod_filter_not (Finset.range ids.length) (fun s => s ∈ c.idxs)]
  congr 1
  · have e : (Finset.range ids.length).filter (fun s => s ∈ c.idxs) = c.idxs.toFinset := by
      ext s; simp only [Finset.mem_filter, List.mem_toFinset]
      exact ⟨fun h => h.2, fun h => ⟨hsub s h, h⟩⟩
    rw [e, List.prod_toFinset _ hc.nodup]
    have e2 : (c.idxs.zip c.ops).map (fun a => v.tval a.1 a.2) = (c.idxs.zip c.ops).map (fun a => v.tval a.1 (f a.1)) :=
      List.map_congr_left fun a ha => by rw [h1 a ha]
    have e3 : (c.idxs.zip c.ops).map (fun a => v.tval a.1 (f a.1)) =
        ((c.idxs.zip c.ops).map Prod.fst).map (fun s => v.tval s (f s)) := by simp
    rw [e2, e3, List.map_fst_zip (by have := hc.len; omega)]
  · refine Finset.prod_congr rfl fun s hs => ?_
    simp only [Finset.mem_filter, Finset.mem_range] at hs
    rw [h2 s hs.1 hs.2]; rfl

/-! ### A repeated site -/

omit [DecidableEq C] [DecidableEq T] in
theorem normalize_append (c : C) (xs ys : List T) : normalize c (xs ++ ys) =
    ((normalize (normalize c xs).1 ys).1, (normalize c xs).2 ++ (normalize (normalize c xs).1 ys).2) := by
  induction xs generalizing c with
  | nil => simp [normalize]
  | cons x xs ih => simp only [List.cons_append, normalize, ih]

omit [DecidableEq C] [DecidableEq T] in
theorem normalize_cneg (c : C) (xs : List T) :
    normalize (cneg T c) xs = (cneg T (normalize c xs).1, (normalize c xs).2) := by
  induction xs generalizing c with
  | nil => rfl
  | cons x xs ih =>
    simp only [normalize]
    split
    · simp [ih]
    · simp [ih]

/-- the sign which the ignored duplicate contributes -/
def flip1 (c : C) (t : T) : C := if negFirst C t then cneg T c else c

omit [DecidableEq C] [DecidableEq T] in
theorem normalize_dup (c : C) (xs ys : List T) (t : T) :
    (normalize c (xs ++ t :: ys)).1 = (normalize (flip1 c t) (xs ++ ys)).1 ∧
    (normalize c (xs ++ t :: ys)).2 = (normalize c xs).2 ++ (if negFirst C t then tneg C t else t) :: (normalize (normalize c xs).1 ys).2 ∧
    (normalize (flip1 c t) (xs ++ ys)).2 = (normalize c xs).2 ++ (normalize (normalize c xs).1 ys).2 := by
  rw [normalize_append, normalize_append]
  unfold flip1
  by_cases hn : negFirst C t = true
  · simp only [hn, if_true, normalize, normalize_cneg]
    refine ⟨trivial, trivial, trivial⟩
  · simp only [hn, normalize]
    exact ⟨rfl, rfl, rfl⟩

omit [DecidableEq C] G in
theorem siteRepr_dup (ids : List T) (cl : Nat) (A B : List (Nat × T)) (s : Nat) (p t : T) (hub : List T) (r : Nat) :
    siteRepr ids cl (A ++ (s, p) :: (s, t) :: B) hub r = siteRepr ids cl (A ++ (s, p) :: B) hub r := by
  have key : ∀ A : List (Nat × T),
      let i := (A ++ (s, p) :: (s, t) :: B).findIdx (fun a => a.1 == r)
      let j := (A ++ (s, p) :: B).findIdx (fun a => a.1 == r)
      (A ++ (s, p) :: (s, t) :: B)[i]? = (A ++ (s, p) :: B)[j]? ∧ (i = 0 ↔ j = 0) := by
    intro A
    induction A with
    | nil =>
      simp only [List.nil_append, List.findIdx_cons]
      cases h : (s == r) <;> simp [List.getElem?_cons_succ]
    | cons a A ih =>
      simp only [List.cons_append, List.findIdx_cons]
      cases h : (a.1 == r)
      · simp only [cond_false, List.getElem?_cons_succ]
        exact ⟨ih.1, by simp⟩
      · simp
  obtain ⟨k1, k2⟩ := key A
  unfold siteRepr
  rw [k1]
  simp only [k2]

omit [DecidableEq C] G in
theorem mkReprs_congr (ids : List T) (cl : Nat) {l l' : List (Nat × T)}
    (h : ∀ hub s, siteRepr ids cl l hub s = siteRepr ids cl l' hub s) (hub : List T) (ss : List Nat) :
    mkReprs ids cl l hub ss = mkReprs ids cl l' hub ss := by
  induction ss generalizing hub with
  | nil => rfl
  | cons s ss ih => simp only [mkReprs, h, ih]

/-- A second operator on the same site is ignored, except that its sign normalisation still acts on the
coefficient. -/
theorem addTerm_dup (g : Generator C T) (coef : C) (A B : List (Nat × T)) (s : Nat) (p t : T)
    (hs : (A ++ (s, p) :: (s, t) :: B).Pairwise (fun a b => a.1 ≤ b.1))
    (hz : flip1 coef t = czero T ↔ coef = czero T) (hsm : tooSmall T (flip1 coef t) = tooSmall T coef) :
    g.addTerm coef ((A ++ (s, p) :: (s, t) :: B).map (·.2)) ((A ++ (s, p) :: (s, t) :: B).map (·.1)) =
    g.addTerm (flip1 coef t) ((A ++ (s, p) :: B).map (·.2)) ((A ++ (s, p) :: B).map (·.1)) := by
  have hs' : (A ++ (s, p) :: B).Pairwise (fun a b => a.1 ≤ b.1) := by
    refine hs.sublist ?_
    exact List.Sublist.append_left (List.Sublist.cons_cons _ (List.sublist_cons_self _ _)) _
  have zipm : ∀ l : List (Nat × T), (l.map (·.1)).zip (l.map (·.2)) = l := by
    intro l; rw [List.zip_map', List.map_id'']; exact fun _ => rfl
  have sort1 : sortBySite (A ++ (s, p) :: (s, t) :: B) = A ++ (s, p) :: (s, t) :: B := by
    unfold sortBySite; rw [if_pos hs]
  have sort2 : sortBySite (A ++ (s, p) :: B) = A ++ (s, p) :: B := by unfold sortBySite; rw [if_pos hs']
  have hany : ((A ++ (s, p) :: (s, t) :: B).map (·.1)).any (fun s => decide (g.N ≤ s)) =
      ((A ++ (s, p) :: B).map (·.1)).any (fun s => decide (g.N ≤ s)) := by
    simp only [List.map_append, List.map_cons, List.any_append, List.any_cons]
    cases decide (g.N ≤ s) <;> simp
  have hhead : (A ++ (s, p) :: (s, t) :: B).head? = (A ++ (s, p) :: B).head? := by cases A <;> rfl
  obtain ⟨n1, n2, n3⟩ := normalize_dup coef ((A ++ [(s, p)]).map (·.2)) (B.map (·.2)) t
  have m1 : (A ++ (s, p) :: (s, t) :: B).map (·.2) = (A ++ [(s, p)]).map (·.2) ++ t :: B.map (·.2) := by simp
  have m2 : (A ++ (s, p) :: B).map (·.2) = (A ++ [(s, p)]).map (·.2) ++ B.map (·.2) := by simp
  unfold Generator.addTerm
  rw [if_neg (by simp), if_neg (show ¬ ((A ++ (s, p) :: B).map (·.2)).length ≠ ((A ++ (s, p) :: B).map (·.1)).length by simp)]
  by_cases hc : coef = czero T
  · rw [if_pos hc, if_pos (hz.2 hc)]
  rw [if_neg hc, if_neg (fun h => hc (hz.1 h)), hsm]
  by_cases hsm' : tooSmall T coef = true
  · simp [hsm']
  rw [if_neg hsm', if_neg hsm', hany, zipm, zipm, sort1, sort2]
  split
  · rfl
  · dsimp only
    rw [hhead]
    -- last elements
    have hlast : ((A ++ (s, p) :: (s, t) :: B).getLast?).map (·.1) = ((A ++ (s, p) :: B).getLast?).map (·.1) := by
      cases B with
      | nil => simp
      | cons b B => simp [List.getLast?_cons_cons]
    cases h1 : (A ++ (s, p) :: B).head? with
    | none => simp
    | some hd =>
      cases h2 : (A ++ (s, p) :: (s, t) :: B).getLast? with
      | none => simp at h2
      | some lt =>
        cases h3 : (A ++ (s, p) :: B).getLast? with
        | none => simp at h3
        | some lt' =>
          rw [h2, h3] at hlast
          have hlt : lt.1 = lt'.1 := by simpa using hlast
          simp only [hlt]
          split
          · rfl
          · rw [m1, m2, n1]
            have e1 : ((A ++ (s, p) :: (s, t) :: B).map (·.1)).zip (normalize coef ((A ++ [(s, p)]).map (·.2) ++ t :: B.map (·.2))).2 =
                ((A ++ [(s, p)]).map (·.1)).zip (normalize coef ((A ++ [(s, p)]).map (·.2))).2 ++
                  (s, if negFirst C t then tneg C t else t) :: (B.map (·.1)).zip (normalize (normalize coef ((A ++ [(s, p)]).map (·.2))).1 (B.map (·.2))).2 := by
              rw [n2, show (A ++ (s, p) :: (s, t) :: B).map (·.1) = (A ++ [(s, p)]).map (·.1) ++ s :: B.map (·.1) by simp,
                List.zip_append (by simp [normalize_length])]
              rfl
            have e2 : ((A ++ (s, p) :: B).map (·.1)).zip (normalize (flip1 coef t) ((A ++ [(s, p)]).map (·.2) ++ B.map (·.2))).2 =
                ((A ++ [(s, p)]).map (·.1)).zip (normalize coef ((A ++ [(s, p)]).map (·.2))).2 ++
                  (B.map (·.1)).zip (normalize (normalize coef ((A ++ [(s, p)]).map (·.2))).1 (B.map (·.2))).2 := by
              rw [n3, show (A ++ (s, p) :: B).map (·.1) = (A ++ [(s, p)]).map (·.1) ++ B.map (·.1) by simp,
                List.zip_append (by simp [normalize_length])]
            rw [e1, e2]
            -- the head part ends with an entry for site `s`
            obtain ⟨A', p', hA⟩ : ∃ A' p', ((A ++ [(s, p)]).map (·.1)).zip (normalize coef ((A ++ [(s, p)]).map (·.2))).2 = A' ++ [(s, p')] := by
              rw [List.map_append, List.map_append, normalize_append]
              simp only [List.map_cons, List.map_nil]
              rw [List.zip_append (by simp [normalize_length])]
              have : ∃ p', (normalize (normalize coef (A.map (·.2))).1 [p]).2 = [p'] := by
                unfold normalize; split <;> exact ⟨_, rfl⟩
              obtain ⟨p', hp'⟩ := this
              rw [hp']
              exact ⟨_, p', rfl⟩
            rw [hA, List.append_assoc, List.append_assoc, List.singleton_append, List.singleton_append,
              mkReprs_congr g.ids _ (fun hub r => siteRepr_dup g.ids _ A' _ s p' _ hub r)]

end Verif.Mpo
