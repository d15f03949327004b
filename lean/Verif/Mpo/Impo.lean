import Verif.Mpo.Gen
import Verif.Mpo.ApiFacts
import Verif.Mpo.Ifsm
/-
Model of `iMPOGenerator`, the generator of infinite MPOs.
Source: /repo/include/qlmps/one_dim_tn/mpo/mpogen/impo_gen.h, impo_gen_impl.h
-/
namespace Verif.Mpo

/-- `class iMPOGenerator` (impo_gen.h:114-121): size of the unit cell, identity operators, both label tables, the
largest winding number, the machine. `site_vec_` and `mat_rep_qns_` only enter `EvaluateMatReprQN_`, which nothing
calls, and are left out. -/
structure ImpoGen (C T : Type) where
  n : Nat
  ids : List T
  coefHub : List C
  opHub : List T
  wind : Nat
  fsm : IFsm

section
variable {C T : Type} [DecidableEq C] [DecidableEq T]

/-- `iMPOGenerator(site_vec)` (impo_gen_impl.h:17-25); `one` is `TenElemT(1)`. -/
def ImpoGen.new (one : C) (ids : List T) : ImpoGen C T :=
  { n := ids.length, ids := ids, coefHub := [one], opHub := (convertAll [] ids).2, wind := 0,
    fsm := IFsm.new ((convertAll [] ids).1.map OpRepr.ofLabel) }

/-- One iteration of the loop of `TransferHamiltonianTermToConsecutiveOpRepr_` (impo_gen_impl.h:169-182): the first
operator listed for site `s`, with the coefficient if `s` is the last site, or the identity operator `id_op_vector_[s]`. -/
def isiteRepr (ids : List T) (cl : Nat) (l : List (Nat × T)) (tail : Nat) (hub : List T) (s : Nat) :
    Except IRes (OpRepr × List T) :=
  match l.find? (fun a => a.1 == s) with
  | some a => .ok (if s = tail then OpRepr.single [cl] (convert hub a.2).1 else OpRepr.ofLabel (convert hub a.2).1,
      (convert hub a.2).2)
  | none => match ids[s]? with
    | some t => .ok (OpRepr.ofLabel (convert hub t).1, (convert hub t).2)
    | none => .error .oob

/-- The loop over the sites from the first to the last (impo_gen_impl.h:167-184); `ss` are the sites to visit. -/
def imkReprs (ids : List T) (cl : Nat) (l : List (Nat × T)) (tail : Nat) : List T → List Nat → Except IRes (List OpRepr × List T)
  | hub, [] => .ok ([], hub)
  | hub, s :: ss =>
    match isiteRepr ids cl l tail hub s with
    | .error e => .error e
    | .ok (o, hub) =>
      match imkReprs ids cl l tail hub ss with
      | .error e => .error e
      | .ok (os, hub) => .ok (o :: os, hub)

/-- `TransferHamiltonianTermToConsecutiveOpRepr_` (impo_gen_impl.h:156-185), debug build: the operator string and the
new label tables. `front()` of an empty list is undefined. -/
def ImpoGen.transfer (g : ImpoGen C T) (coef : C) (ops : List T) (sites : List Nat) :
    Except IRes (List OpRepr × List C × List T) :=
  if sites.length ≠ ops.length then .error .assertFail
  else if ¬ sites.Pairwise (· ≤ ·) then .error .assertFail
  else match sites.head?, sites.getLast? with
    | some hd, some tl =>
      match imkReprs g.ids (convert g.coefHub coef).1 (sites.zip ops) tl g.opHub (List.range' hd (tl + 1 - hd)) with
      | .error e => .error e
      | .ok (os, hub) => .ok (os, (convert g.coefHub coef).2, hub)
    | _, _ => .error .oob

/-- `AddConsecutiveOps_` (impo_gen.h:92-99). The winding number is only updated if `AddPath` returns; an empty cell
has no sites for which `AddPath` could return. -/
def ImpoGen.addConsecutive (g : ImpoGen C T) (head : Nat) (os : List OpRepr) : ImpoGen C T × IRes :=
  match g.fsm.addPath head os with
  | (f, .ok) => ({ g with fsm := f, wind := max (os.length / g.n) g.wind }, .ok)
  | (f, r) => ({ g with fsm := f }, r)

/-- `AddTerm(coef, local_ops, local_ops_sites)` (impo_gen.h:36-45). Returns the state, which a caller who catches an
exception goes on using, and how the call ended. -/
def ImpoGen.addTerm (g : ImpoGen C T) (coef : C) (ops : List T) (sites : List Nat) : ImpoGen C T × IRes :=
  match sites.head? with
  | none => (g, .oob)
  | some hd =>
    match g.transfer coef ops sites with
    | .error e => (g, e)
    | .ok (os, ch, oh) => { g with coefHub := ch, opHub := oh }.addConsecutive hd os

/-- The lists built by `AddTerm` with insertion operators (impo_gen_impl.h:33-75). `sets = []` is `kNullUintVecVec`;
the third assertion then fails, since there is at least one insertion operator, so that the branches for
`kNullUintVecVec` (46-50, 64-68) are never reached. -/
def iInstList (phys : List (Nat × T)) (insts : List T) (sets : List (List Nat)) : Except IRes (List (Nat × T)) :=
  if phys.length < 2 then .error .assertFail
  else if insts.length + 1 ≠ phys.length ∧ insts.length ≠ phys.length then .error .assertFail
  else if sets.length ≠ insts.length then .error .assertFail
  else
    let strings := (insts.zip sets).map fun x => x.2.map fun j => (j, x.1)
    .ok ((phys.zipIdx.map fun x => x.1 :: strings.getD x.2 []).flatten)

/-- `AddTerm` with insertion operators (impo_gen_impl.h:27-78). The assertion that there is one site per physical
operator comes first (34). -/
def ImpoGen.addTermInst (g : ImpoGen C T) (coef : C) (phys : List T) (sites : List Nat) (insts : List T)
    (sets : List (List Nat)) : ImpoGen C T × IRes :=
  if phys.length ≠ sites.length then (g, .assertFail)
  else match iInstList (sites.zip phys) insts sets with
    | .error e => (g, e)
    | .ok l => g.addTerm coef (l.map (·.2)) (l.map (·.1))

/-- The single-site overload (impo_gen.h:55-59). -/
def ImpoGen.addTerm1 (g : ImpoGen C T) (coef : C) (site : Nat) (op : T) : ImpoGen C T × IRes :=
  g.addTerm coef [op] [site]

/-- The two-site overload (impo_gen.h:62-68). -/
def ImpoGen.addTerm2 (g : ImpoGen C T) (coef : C) (s1 : Nat) (op1 : T) (s2 : Nat) (op2 : T) : ImpoGen C T × IRes :=
  g.addTerm coef [op1, op2] [s1, s2]

/-- The two-site overload with an insertion operator (impo_gen.h:71-83). -/
def ImpoGen.addTerm2Inst (g : ImpoGen C T) (coef : C) (s1 : Nat) (op1 : T) (s2 : Nat) (op2 : T) (js : List Nat) (t : T) :
    ImpoGen C T × IRes :=
  g.addTermInst coef [op1, op2] [s1, s2] [t] [js]

/-- `ReorderVecToSameElemNearBy` (impo_gen_impl.h:122-142): returns the reordered data and the indices. `keys` is the
order in which the `std::unordered_map` enumerates its keys, which the standard leaves open. -/
def reorderSame (keys data : List T) : List T × List Nat :=
  let at_ := fun k => (List.range data.length).filter fun i => data[i]? = some k
  ((keys.map fun k => List.replicate (at_ k).length k).flatten, (keys.map at_).flatten)

/-! ### Facts -/

theorem imkReprs_spec {ids : List T} {cl : Nat} {l : List (Nat × T)} {tail : Nat} : ∀ (ss : List Nat) (hub : List T),
    (∀ s ∈ ss, (l.find? (fun a => a.1 == s)) = none → s < ids.length) →
    ∃ os hub', imkReprs ids cl l tail hub ss = .ok (os, hub') ∧ hub <+: hub' ∧ os.length = ss.length ∧
      ∀ (i s : Nat), ss[i]? = some s →
        (∃ a lb, l.find? (fun a => a.1 == s) = some a ∧ hub'[lb]? = some a.2 ∧
          os[i]? = some [(lb, if s = tail then [cl] else [0])]) ∨
        (∃ t lb, l.find? (fun a => a.1 == s) = none ∧ ids[s]? = some t ∧ hub'[lb]? = some t ∧ os[i]? = some [(lb, [0])])
  | [], hub, _ => ⟨[], hub, rfl, List.prefix_refl _, rfl, by simp⟩
  | s :: ss, hub, h => by
    have keep : ∀ {x y : List T} {k : Nat} {t : T}, x <+: y → x[k]? = some t → y[k]? = some t := by
      rintro x _ k t ⟨z, rfl⟩ hk
      rw [List.getElem?_append_left (List.getElem?_eq_some_iff.1 hk).1]; exact hk
    cases e : l.find? (fun a => a.1 == s) with
    | some a =>
      obtain ⟨c1, c2, -⟩ := convert_spec hub a.2
      obtain ⟨os, hub', k1, k2, k3, k4⟩ := imkReprs_spec (ids := ids) (cl := cl) (l := l) (tail := tail) ss
        (convert hub a.2).2 (fun s' hs' => h s' (List.mem_cons_of_mem _ hs'))
      refine ⟨(if s = tail then OpRepr.single [cl] (convert hub a.2).1 else OpRepr.ofLabel (convert hub a.2).1) :: os,
        hub', ?_, c2.trans k2, ?_, ?_⟩
      · simp only [imkReprs, isiteRepr, e, k1]
      · simp [k3]
      · intro i s' hi
        cases i with
        | zero =>
          simp only [List.getElem?_cons_zero, Option.some.injEq] at hi
          subst hi
          refine Or.inl ⟨a, _, e, keep k2 c1, ?_⟩
          by_cases hs : s = tail
          · simp [hs, OpRepr.single]
          · simp [hs, OpRepr.ofLabel]
        | succ i => exact k4 i s' hi
    | none =>
      have hs := h s List.mem_cons_self e
      obtain ⟨c1, c2, -⟩ := convert_spec hub ids[s]
      obtain ⟨os, hub', k1, k2, k3, k4⟩ := imkReprs_spec (ids := ids) (cl := cl) (l := l) (tail := tail) ss
        (convert hub ids[s]).2 (fun s' hs' => h s' (List.mem_cons_of_mem _ hs'))
      refine ⟨OpRepr.ofLabel (convert hub ids[s]).1 :: os, hub', ?_, c2.trans k2, ?_, ?_⟩
      · simp only [imkReprs, isiteRepr, e, List.getElem?_eq_getElem hs, k1]
      · simp [k3]
      · intro i s' hi
        cases i with
        | zero =>
          simp only [List.getElem?_cons_zero, Option.some.injEq] at hi
          subst hi
          exact Or.inr ⟨ids[s], _, e, List.getElem?_eq_getElem hs, keep k2 c1, by simp [OpRepr.ofLabel]⟩
        | succ i => exact k4 i s' hi

theorem imkReprs_oob {ids : List T} {cl : Nat} {l : List (Nat × T)} {tail : Nat} : ∀ (ss : List Nat) (hub : List T),
    (∃ s ∈ ss, l.find? (fun a => a.1 == s) = none ∧ ids.length ≤ s) → imkReprs ids cl l tail hub ss = .error .oob
  | [], hub, h => by obtain ⟨s, hs, -⟩ := h; simp at hs
  | s :: ss, hub, h => by
    have rec_ : ∀ hub, ids.length ≤ s ∧ l.find? (fun a => a.1 == s) = none ∨ imkReprs ids cl l tail hub ss = .error .oob := by
      intro hub
      obtain ⟨s', hs', h1, h2⟩ := h
      rcases List.mem_cons.1 hs' with rfl | hs'
      · exact Or.inl ⟨h2, h1⟩
      · exact Or.inr (imkReprs_oob ss hub ⟨s', hs', h1, h2⟩)
    cases e : l.find? (fun a => a.1 == s) with
    | some a =>
      have := (rec_ (convert hub a.2).2).resolve_left (by rw [e]; simp)
      simp only [imkReprs, isiteRepr, e, this]
    | none =>
      cases e' : ids[s]? with
      | none => simp only [imkReprs, isiteRepr, e, e']
      | some t =>
        have hlt := (List.getElem?_eq_some_iff.1 e').1
        have := (rec_ (convert hub t).2).resolve_left (by omega)
        simp only [imkReprs, isiteRepr, e, e', this]

theorem ImpoGen.addConsecutive_inv {g : ImpoGen C T} (h : g.fsm.Inv) (head : Nat) (os : List OpRepr) :
    (g.addConsecutive head os).2 ≠ .ok ∧ (g.addConsecutive head os).1.fsm.Inv := by
  obtain ⟨h1, h2⟩ := IFsm.addPath_fails h head os
  unfold ImpoGen.addConsecutive
  cases e : g.fsm.addPath head os with
  | mk f r =>
    rw [e] at h1 h2
    cases r <;> simp_all

theorem ImpoGen.addTerm_inv {g : ImpoGen C T} (h : g.fsm.Inv) (coef : C) (ops : List T) (sites : List Nat) :
    (g.addTerm coef ops sites).2 ≠ .ok ∧ (g.addTerm coef ops sites).1.fsm.Inv := by
  have herr : ∀ e, g.transfer coef ops sites = .error e → e ≠ .ok := by
    have hs : ∀ (ss : List Nat) (cl : Nat) (l : List (Nat × T)) (tl : Nat) (hub : List T) (e : IRes),
        imkReprs g.ids cl l tl hub ss = .error e → e ≠ .ok := by
      intro ss
      induction ss with
      | nil => intro cl l tl hub e he; cases he
      | cons s ss ih =>
        intro cl l tl hub e he
        simp only [imkReprs, isiteRepr] at he
        cases e1 : l.find? (fun a => a.1 == s) with
        | some a =>
          simp only [e1] at he
          cases e2 : imkReprs g.ids cl l tl (convert hub a.2).2 ss with
          | error e3 => simp only [e2] at he; cases he; exact ih _ _ _ _ _ e2
          | ok x => simp only [e2] at he; cases he
        | none =>
          cases e4 : g.ids[s]? with
          | none => simp only [e1, e4] at he; cases he; decide
          | some t =>
            simp only [e1, e4] at he
            cases e2 : imkReprs g.ids cl l tl (convert hub t).2 ss with
            | error e3 => simp only [e2] at he; cases he; exact ih _ _ _ _ _ e2
            | ok x => simp only [e2] at he; cases he
    intro e he
    unfold ImpoGen.transfer at he
    split at he
    · cases he; decide
    · split at he
      · cases he; decide
      · split at he
        · split at he
          · rename_i e2
            cases he; exact hs _ _ _ _ _ _ e2
          · cases he
        · cases he; decide
  unfold ImpoGen.addTerm
  cases sites.head? with
  | none => exact ⟨by simp, h⟩
  | some hd =>
    simp only
    cases e : g.transfer coef ops sites with
    | error e' => exact ⟨herr _ e, h⟩
    | ok x =>
      obtain ⟨os, ch, oh⟩ := x
      exact ImpoGen.addConsecutive_inv (g := { g with coefHub := ch, opHub := oh }) h hd os

theorem ImpoGen.addTermInst_inv {g : ImpoGen C T} (h : g.fsm.Inv) (coef : C) (phys : List T) (sites : List Nat)
    (insts : List T) (sets : List (List Nat)) :
    (g.addTermInst coef phys sites insts sets).2 ≠ .ok ∧ (g.addTermInst coef phys sites insts sets).1.fsm.Inv := by
  unfold ImpoGen.addTermInst
  split
  · exact ⟨by simp, h⟩
  · split
    · rename_i e he
      refine ⟨?_, h⟩
      unfold iInstList at he
      split at he
      · cases he; simp
      · split at he
        · cases he; simp
        · split at he
          · cases he; simp
          · cases he
    · exact ImpoGen.addTerm_inv h _ _ _

end
end Verif.Mpo
