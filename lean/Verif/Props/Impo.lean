import Verif.Mpo.Impo
import Mathlib.Data.List.Perm.Basic
import Mathlib.Data.List.Nodup
/-
Property theorems C85 (generator of infinite MPOs).
-/
namespace Verif.Props
open Verif.Mpo

section
variable {C T : Type} [DecidableEq C] [DecidableEq T]

/-- The calls of `AddTerm` a user can make. -/
inductive ImpoCall (C T : Type) where
  | list (coef : C) (ops : List T) (sites : List Nat)
  | inst (coef : C) (phys : List T) (sites : List Nat) (insts : List T) (sets : List (List Nat))
  | one (coef : C) (site : Nat) (op : T)
  | two (coef : C) (s1 : Nat) (op1 : T) (s2 : Nat) (op2 : T)
  | twoInst (coef : C) (s1 : Nat) (op1 : T) (s2 : Nat) (op2 : T) (js : List Nat) (t : T)

/-- One call: the generator afterwards and how the call ended. -/
def ImpoCall.run (g : ImpoGen C T) : ImpoCall C T → ImpoGen C T × IRes
  | .list c o s => g.addTerm c o s
  | .inst c p s i ss => g.addTermInst c p s i ss
  | .one c s o => g.addTerm1 c s o
  | .two c s o t p => g.addTerm2 c s o t p
  | .twoInst c s o t p js i => g.addTerm2Inst c s o t p js i

/-- The generator after any calls, whose exceptions the caller catches. -/
def impoHistory (one : C) (ids : List T) (cs : List (ImpoCall C T)) : ImpoGen C T :=
  cs.foldl (fun g c => (c.run g).1) (ImpoGen.new one ids)

/-- What is kept through a history. -/
structure ImpoKept (one : C) (ids : List T) (g : ImpoGen C T) : Prop where
  inv : g.fsm.Inv
  idsEq : g.ids = ids
  cell : g.n = ids.length
  oneLabel : [one] <+: g.coefHub

theorem kept_addTerm {one : C} {ids : List T} {g : ImpoGen C T} (h : ImpoKept one ids g) (c : C) (o : List T) (s : List Nat) :
    ImpoKept one ids (g.addTerm c o s).1 := by
  refine ⟨(ImpoGen.addTerm_inv h.inv c o s).2, ?_, ?_, ?_⟩ <;>
  · unfold ImpoGen.addTerm
    cases s.head? with
    | none => first | exact h.idsEq | exact h.cell | exact h.oneLabel
    | some hd =>
      simp only
      cases e : g.transfer c o s with
      | error e' => first | exact h.idsEq | exact h.cell | exact h.oneLabel
      | ok x =>
        obtain ⟨os, ch, oh⟩ := x
        have hch : g.coefHub <+: ch := by
          unfold ImpoGen.transfer at e
          split at e
          · cases e
          · split at e
            · cases e
            · split at e
              · split at e
                · cases e
                · cases e; exact (convert_spec g.coefHub c).2.1
              · cases e
        simp only [ImpoGen.addConsecutive]
        split <;> first | exact h.idsEq | exact h.cell | exact h.oneLabel.trans hch

theorem kept_run {one : C} {ids : List T} {g : ImpoGen C T} (h : ImpoKept one ids g) (c : ImpoCall C T) :
    (c.run g).2 ≠ .ok ∧ ImpoKept one ids (c.run g).1 := by
  have hi : ∀ (c : C) (p : List T) (s : List Nat) (i : List T) (ss : List (List Nat)),
      (g.addTermInst c p s i ss).2 ≠ .ok ∧ ImpoKept one ids (g.addTermInst c p s i ss).1 := by
    intro c p s i ss
    refine ⟨(ImpoGen.addTermInst_inv h.inv c p s i ss).1, ?_⟩
    unfold ImpoGen.addTermInst
    split
    · exact h
    · split
      · exact h
      · exact kept_addTerm h _ _ _
  cases c with
  | list c o s => exact ⟨(ImpoGen.addTerm_inv h.inv c o s).1, kept_addTerm h c o s⟩
  | inst c p s i ss => exact hi c p s i ss
  | one c s o => exact ⟨(ImpoGen.addTerm_inv h.inv c _ _).1, kept_addTerm h c _ _⟩
  | two c s o t p => exact ⟨(ImpoGen.addTerm_inv h.inv c _ _).1, kept_addTerm h c _ _⟩
  | twoInst c s o t p js i => exact hi c _ _ _ _

theorem kept_history (one : C) (ids : List T) (cs : List (ImpoCall C T)) : ImpoKept one ids (impoHistory one ids cs) := by
  have : ∀ (cs : List (ImpoCall C T)) (g : ImpoGen C T), ImpoKept one ids g →
      ImpoKept one ids (cs.foldl (fun g c => (c.run g).1) g) := by
    intro cs
    induction cs with
    | nil => intro g h; exact h
    | cons c cs ih => intro g h; exact ih _ (kept_run h c).2
  exact this cs _ ⟨IFsm.inv_new _, rfl, rfl, List.prefix_refl _⟩

/-- C85, what the code does to every term: after any history of calls no call of any overload of
`iMPOGenerator::AddTerm` succeeds, for every unit cell, coefficient, operators and sites. Each one ends in a failed
assertion, an exception, an access out of bounds or `exit(1)`. -/
theorem C85_no_term_accepted (one : C) (ids : List T) (cs : List (ImpoCall C T)) (c : ImpoCall C T) :
    (c.run (impoHistory one ids cs)).2 ≠ .ok :=
  (kept_run (kept_history one ids cs) c).1

/-- The operator a term puts on site `s` of the infinite chain, for sites of the first unit cell: the first one listed
for it, else the identity operator of the site. -/
def termOp (ids ops : List T) (sites : List Nat) (s : Nat) : Option T :=
  match (sites.zip ops).find? (fun a => a.1 == s) with
  | some a => some a.2
  | none => ids[s]?

/-- C85, the string: a term with ascending sites whose sites without operator all lie in the first unit cell reaches
the machine as one operator per site from the first to the last, each under a label that stands for the operator of that
site, with the coefficient on the last site and the coefficient one (label 0) on all others. -/
theorem C85_string (one : C) (ids : List T) (cs : List (ImpoCall C T)) (coef : C) (ops : List T) (sites : List Nat)
    {hd tl : Nat} (len : sites.length = ops.length) (asc : sites.Pairwise (· ≤ ·)) (first : sites.head? = some hd)
    (last : sites.getLast? = some tl) (inside : ∀ s, hd ≤ s → s ≤ tl → s ∉ sites → s < ids.length) :
    ∃ (os : List OpRepr) (labels : List T) (coefs : List C) (cl : Nat),
      ((impoHistory one ids cs).addTerm coef ops sites).2 = ((impoHistory one ids cs).fsm.addPath hd os).2 ∧
      ((impoHistory one ids cs).addTerm coef ops sites).1.fsm = ((impoHistory one ids cs).fsm.addPath hd os).1 ∧
      ((impoHistory one ids cs).addTerm coef ops sites).1.opHub = labels ∧
      ((impoHistory one ids cs).addTerm coef ops sites).1.coefHub = coefs ∧
      os.length = tl + 1 - hd ∧ coefs[cl]? = some coef ∧ coefs[0]? = some one ∧
      ∀ s, hd ≤ s → s ≤ tl → ∃ lb t, termOp ids ops sites s = some t ∧ labels[lb]? = some t ∧
        os[s - hd]? = some [(lb, if s = tl then [cl] else [0])] := by
  have K := kept_history one ids cs
  generalize impoHistory one ids cs = g at K
  have nf : ∀ s, (sites.zip ops).find? (fun a => a.1 == s) = none → s ∉ sites := by
    intro s h hs
    obtain ⟨i, hi, rfl⟩ := List.getElem_of_mem hs
    have hm : (sites[i], ops[i]'(by omega)) ∈ sites.zip ops := by
      rw [List.mem_iff_getElem]
      exact ⟨i, by simp; omega, by simp⟩
    simpa using List.find?_eq_none.1 h _ hm
  obtain ⟨os, hub', k1, k2, k3, k4⟩ := imkReprs_spec (ids := g.ids) (cl := (convert g.coefHub coef).1)
    (l := sites.zip ops) (tail := tl) (List.range' hd (tl + 1 - hd)) g.opHub (by
      intro s hs hn
      rw [List.mem_range'_1] at hs
      rw [K.idsEq]
      exact inside s hs.1 (by omega) (nf s hn))
  have tr : g.transfer coef ops sites = .ok (os, (convert g.coefHub coef).2, hub') := by
    unfold ImpoGen.transfer
    rw [if_neg (by simp [len]), if_neg (by simpa using asc)]
    simp only [first, last, k1]
  obtain ⟨c1, c2, -⟩ := convert_spec g.coefHub coef
  have ha : g.addTerm coef ops sites =
      ({ g with coefHub := (convert g.coefHub coef).2, opHub := hub' } : ImpoGen C T).addConsecutive hd os := by
    simp only [ImpoGen.addTerm, first, tr]
  refine ⟨os, hub', (convert g.coefHub coef).2, (convert g.coefHub coef).1, ?_, ?_, ?_, ?_, by simpa using k3, c1, ?_, ?_⟩
  · rw [ha]; simp only [ImpoGen.addConsecutive]; split <;> simp_all
  · rw [ha]; simp only [ImpoGen.addConsecutive]; split <;> simp_all
  · rw [ha]; simp only [ImpoGen.addConsecutive]; split <;> rfl
  · rw [ha]; simp only [ImpoGen.addConsecutive]; split <;> rfl
  · obtain ⟨z, hz⟩ := K.oneLabel.trans c2
    rw [← hz]; rfl
  · intro s h1 h2
    have hi : (List.range' hd (tl + 1 - hd))[s - hd]? = some s := by
      rw [List.getElem?_range' (by omega)]; simp; omega
    have hne : ∀ {s}, (sites.zip ops).find? (fun a => a.1 == s) = none → s ≠ tl := by
      rintro s hn rfl
      exact nf s hn (List.mem_of_getLast? last)
    rcases k4 (s - hd) s hi with ⟨a, lb, e1, e2, e3⟩ | ⟨t, lb, e1, e2, e3, e4⟩
    · exact ⟨lb, a.2, by simp [termOp, e1], e2, e3⟩
    · exact ⟨lb, t, by simp [termOp, e1, ← K.idsEq, e2], e3, by rw [if_neg (hne e1)]; exact e4⟩

/-- C85, refuted for terms that leave a site of a later unit cell without operator: the generator reads its table of
identity operators beyond the end. -/
theorem C85_gap_violation (one : C) (ids : List T) (cs : List (ImpoCall C T)) (coef : C) (ops : List T)
    (sites : List Nat) {hd tl s : Nat} (len : sites.length = ops.length) (asc : sites.Pairwise (· ≤ ·))
    (first : sites.head? = some hd) (last : sites.getLast? = some tl) (h1 : hd ≤ s) (h2 : s ≤ tl) (h3 : s ∉ sites)
    (h4 : ids.length ≤ s) : ((impoHistory one ids cs).addTerm coef ops sites).2 = .oob := by
  have K := kept_history one ids cs
  generalize impoHistory one ids cs = g at K
  have hf : (sites.zip ops).find? (fun a => a.1 == s) = none := by
    rw [List.find?_eq_none]
    intro x hx
    have := (List.of_mem_zip hx).1
    simp only [beq_iff_eq]
    rintro rfl; exact h3 this
  have := imkReprs_oob (ids := g.ids) (cl := (convert g.coefHub coef).1) (l := sites.zip ops) (tail := tl)
    (List.range' hd (tl + 1 - hd)) g.opHub ⟨s, by rw [List.mem_range'_1]; omega, hf, by rw [K.idsEq]; exact h4⟩
  have tr : g.transfer coef ops sites = .error .oob := by
    unfold ImpoGen.transfer
    rw [if_neg (by simp [len]), if_neg (by simpa using asc)]
    simp only [first, last, this]
  simp only [ImpoGen.addTerm, first, tr]

/-- C85: a one-site term fails the assertion of the machine. -/
theorem C85_one_site_violation (one : C) (ids : List T) (cs : List (ImpoCall C T)) (coef : C) (s : Nat) (op : T) :
    ((impoHistory one ids cs).addTerm1 coef s op).2 = .assertFail := by
  obtain ⟨os, labels, coefs, cl, h1, -, -, -, h5, -⟩ := C85_string one ids cs coef [op] [s] (hd := s) (tl := s) rfl
    (by simp) rfl rfl (by intro r a b c; exfalso; apply c; simp; omega)
  rw [ImpoGen.addTerm1, h1, IFsm.addPath, if_pos (by omega)]

/-- C85: leaving the sites of the insertion operators to the generator, as `MPOGenerator` allows, fails an assertion. -/
theorem C85_null_insertion_violation (g : ImpoGen C T) (coef : C) (phys : List T) (sites : List Nat) (insts : List T)
    (many : 2 ≤ phys.length) (len : phys.length = sites.length)
    (one : insts.length + 1 = phys.length ∨ insts.length = phys.length) :
    (g.addTermInst coef phys sites insts []).2 = .assertFail := by
  have : iInstList (sites.zip phys) insts [] = .error .assertFail := by
    unfold iInstList
    rw [if_neg (by simp; omega)]
    split
    · rfl
    · rw [if_pos (by simp only [List.length_nil]; omega)]
  simp only [ImpoGen.addTermInst, len, ne_eq, not_true_eq_false, if_false, this]

/-- C85, insertion operators: with explicit sites the call is that of the plain overload, with the operators of each
gap after the physical operator to its left, and those of the tail, if any, after the last one. -/
theorem C85_insertion (g : ImpoGen C T) (coef : C) (phys : List (Nat × T)) (insts : List (T × List Nat))
    (many : 2 ≤ phys.length) (one : insts.length + 1 = phys.length ∨ insts.length = phys.length) :
    ∃ l : List (Nat × T),
      g.addTermInst coef (phys.map (·.2)) (phys.map (·.1)) (insts.map (·.1)) (insts.map (·.2)) =
        g.addTerm coef (l.map (·.2)) (l.map (·.1)) ∧
      l = ((List.range phys.length).map fun i =>
        (phys[i]?.toList ++ match insts[i]? with | some x => x.2.map (fun j => (j, x.1)) | none => [])).flatten := by
  refine ⟨_, ?_, rfl⟩
  have hz : (phys.map (·.1)).zip (phys.map (·.2)) = phys := by
    rw [List.zip_map']; simp
  have hz' : (insts.map (·.1)).zip (insts.map (·.2)) = insts := by
    rw [List.zip_map']; simp
  simp only [ImpoGen.addTermInst, List.length_map, ne_eq, not_true_eq_false, if_false, iInstList, hz, hz']
  rw [if_neg (by omega), if_neg (by omega)]
  have : (phys.zipIdx.map fun x => x.1 :: (insts.map fun x => x.2.map fun j => (j, x.1)).getD x.2 []) =
      (List.range phys.length).map fun i =>
        (phys[i]?.toList ++ match insts[i]? with | some x => x.2.map (fun j => (j, x.1)) | none => []) := by
    apply List.ext_getElem?
    intro i
    rw [List.getElem?_map, List.getElem?_map, List.getElem?_zipIdx]
    by_cases hi : i < phys.length
    · rw [List.getElem?_range hi]
      simp only [List.getElem?_eq_getElem hi, Option.map_some, Option.toList_some, List.getD_eq_getElem?_getD,
        List.getElem?_map, Nat.zero_add]
      cases insts[i]? <;> simp
    · rw [List.getElem?_eq_none (by omega), List.getElem?_eq_none (l := List.range _) (by simp; omega)]
      rfl
  rw [this]

theorem blocks_together (f : T → Nat) : ∀ (keys : List T), keys.Nodup → ∀ (i j k : Nat), i ≤ j → j ≤ k →
    k < (keys.flatMap fun t => List.replicate (f t) t).length →
    (keys.flatMap fun t => List.replicate (f t) t)[i]? = (keys.flatMap fun t => List.replicate (f t) t)[k]? →
    (keys.flatMap fun t => List.replicate (f t) t)[j]? = (keys.flatMap fun t => List.replicate (f t) t)[i]?
  | [], _, i, j, k, _, _, h, _ => by simp at h
  | t :: keys, nd, i, j, k, h1, h2, h3, h4 => by
    rw [List.nodup_cons] at nd
    rw [List.flatMap_cons] at h3 h4 ⊢
    have low : ∀ {x}, x < f t → (List.replicate (f t) t ++ keys.flatMap fun t => List.replicate (f t) t)[x]? = some t := by
      intro x hx
      rw [List.getElem?_append_left (by simpa using hx), List.getElem?_replicate, if_pos hx]
    have high : ∀ {x}, f t ≤ x → (List.replicate (f t) t ++ keys.flatMap fun t => List.replicate (f t) t)[x]? =
        (keys.flatMap fun t => List.replicate (f t) t)[x - f t]? := by
      intro x hx
      rw [List.getElem?_append_right (by simpa using hx), List.length_replicate]
    by_cases hk : k < f t
    · rw [low (by omega), low (by omega)]
    · by_cases hi : i < f t
      · rw [low hi, high (by omega)] at h4
        have := List.mem_of_getElem? h4.symm
        rw [List.mem_flatMap] at this
        obtain ⟨u, hu, hm⟩ := this
        rw [List.eq_of_mem_replicate hm] at nd
        exact absurd hu nd.1
      · rw [high (by omega), high (by omega)] at h4 ⊢
        refine blocks_together f keys nd.2 _ _ _ (by omega) (by omega) ?_ h4
        rw [List.length_append, List.length_replicate] at h3
        omega

/-- C85, reordering: `ReorderVecToSameElemNearBy` returns a permutation of the positions and the data in that order,
in which equal elements stand together, whatever order the hash table lists its keys in. -/
theorem C85_reorder (data keys : List T) (nodup : keys.Nodup) (all : ∀ t, t ∈ keys ↔ t ∈ data) :
    (reorderSame keys data).2.Perm (List.range data.length) ∧
    (reorderSame keys data).1.map some = (reorderSame keys data).2.map (data[·]?) ∧
    ∀ (i j k : Nat), i ≤ j → j ≤ k → k < (reorderSame keys data).1.length →
      (reorderSame keys data).1[i]? = (reorderSame keys data).1[k]? →
      (reorderSame keys data).1[j]? = (reorderSame keys data).1[i]? := by
  have e1 : (reorderSame keys data).1 = keys.flatMap fun t =>
      List.replicate ((List.range data.length).filter fun i => data[i]? = some t).length t := by
    simp [reorderSame, List.flatMap_def]
  have e2 : (reorderSame keys data).2 = keys.flatMap fun t =>
      (List.range data.length).filter fun i => data[i]? = some t := by
    simp [reorderSame, List.flatMap_def]
  refine ⟨?_, ?_, ?_⟩
  · rw [e2]
    refine (List.perm_ext_iff_of_nodup ?_ List.nodup_range).2 ?_
    · rw [List.nodup_flatMap]
      refine ⟨fun t _ => List.nodup_range.filter _, ?_⟩
      refine nodup.imp ?_
      intro a b hab i h1 h2
      simp only [List.mem_filter, decide_eq_true_eq] at h1 h2
      exact hab (Option.some.inj (h1.2.symm.trans h2.2))
    · intro i
      simp only [List.mem_flatMap, List.mem_filter, decide_eq_true_eq]
      refine ⟨fun ⟨t, _, h, _⟩ => h, fun h => ?_⟩
      have hi := List.mem_range.1 h
      exact ⟨data[i], (all _).2 (List.getElem_mem hi), h, List.getElem?_eq_getElem hi⟩
  · rw [e1, e2, List.map_flatMap, List.map_flatMap]
    congr 1
    funext t
    rw [List.map_replicate, eq_comm, List.eq_replicate_iff]
    refine ⟨by simp, ?_⟩
    intro x hx
    obtain ⟨i, hi, rfl⟩ := List.mem_map.1 hx
    simpa using (List.mem_filter.1 hi).2
  · rw [e1]
    exact blocks_together _ keys nodup

end

/-- A cell of two sites with identity operators 0 and 0; the term 5 · (7 on site 0) (8 on site 3) with an operator 9
on site 2: site 1 is inside the cell, the string reaches the machine, the machine throws. -/
example : ([0, 2, 3] : List Nat).Pairwise (· ≤ ·) ∧ (∀ s, 0 ≤ s → s ≤ 3 → s ∉ [0, 2, 3] → s < [0, 0].length) ∧
    ((impoHistory 1 [0, 0] [.two 2 0 7 1 8]).addTerm (5 : Nat) [7, 9, 8] [0, 2, 3]).2 = .outOfRange := by
  refine ⟨by decide, ?_, by decide +kernel⟩
  intro s _ h1 h2
  simp at h2 ⊢
  omega

/-- The term 5 · (7 on site 0) (8 on site 3) leaves site 2 of the second cell free. -/
example : ((impoHistory 1 [0, 0] []).addTerm (5 : Nat) [7, 8] [0, 3]).2 = .oob := by decide +kernel

example : reorderSame [4, 3] [3, 4, 3] = ([4, 3, 3], [1, 0, 2]) := by decide

end Verif.Props
