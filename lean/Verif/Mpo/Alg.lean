/-
Model of the symbolic coefficient/operator algebra of the MPO generator.
Source: /repo/include/qlmps/one_dim_tn/mpo/mpogen/symb_alg/coef_op_alg.h
-/
namespace Verif.Mpo

/-- Abnormal outcomes of the C++ code, kept distinct from results.
* `oob`        : index outside a `std::vector` (undefined behaviour);
* `assertFail` : a failing `assert` (abort in a debug build, undefined/lossy in a release build);
* `exitFail`   : `exit(1)` of `CoefReprOpReprIncompleteMulti` (coef_op_alg.h:658-659). -/
inductive Err where
  | oob
  | assertFail
  | exitFail
deriving DecidableEq, Repr

/-- `CNumberLabel`/`BasisOpLabel` (coef_op_alg.h:31,165). C++ type `long`; all labels come from
`LabelConvertor::Convert` and are non-negative, so `Nat`. -/
abbrev Label := Nat

/-- `class CoefRepr` (coef_op_alg.h:39-156): a sum of c-numbers, given by the list of their labels. -/
abbrev CoefRepr := List Label

/-- `kNullCoefRepr` (coef_op_alg.h:158). -/
abbrev kNullCoef : CoefRepr := []
/-- `kIdCoefRepr` = `CoefRepr(kIdCoefLabel)`, `kIdCoefLabel = 0` (coef_op_alg.h:33,159). -/
abbrev kIdCoef : CoefRepr := [0]

/-- `CoefRepr::operator==` (coef_op_alg.h:70-73): `std::is_permutation` of the label lists. -/
def CoefRepr.eqv (a b : CoefRepr) : Bool := a.isPerm b

/-- `CoefRepr::operator+=` (coef_op_alg.h:95-102): concatenation. -/
def CoefRepr.add (a b : CoefRepr) : CoefRepr := a ++ b

/-- `class OpRepr` (coef_op_alg.h:170-364): `std::map<BasisOpLabel, CoefRepr>`, modelled as the list of
its (key, value) pairs in iteration (ascending key) order. -/
abbrev OpRepr := List (Label × CoefRepr)

/-- `kNullOpRepr` (coef_op_alg.h:371). -/
abbrev kNullOp : OpRepr := []

/-- `OpRepr(const CoefRepr&, BasisOpLabel)` (coef_op_alg.h:188-190). -/
def OpRepr.single (c : CoefRepr) (l : Label) : OpRepr := [(l, c)]

/-- `OpRepr(BasisOpLabel)` (coef_op_alg.h:184-186): identity coefficient. -/
def OpRepr.ofLabel (l : Label) : OpRepr := [(l, kIdCoef)]

/-- `OpRepr::operator==` (coef_op_alg.h:243-245): `std::map` equality, i.e. same size and pairwise equal
(key, value) pairs in iteration order, values compared with `CoefRepr::operator==`. -/
def OpRepr.eqv : OpRepr → OpRepr → Bool
  | [], [] => true
  | (k, c) :: a, (k', c') :: b => k == k' && CoefRepr.eqv c c' && OpRepr.eqv a b
  | _, _ => false

/-- One step of `OpRepr::operator+=` (coef_op_alg.h:253-262): find the key; insert it in key order if
absent, otherwise append the coefficient labels. -/
def OpRepr.addTerm (k : Label) (c : CoefRepr) : OpRepr → OpRepr
  | [] => [(k, c)]
  | (k', c') :: a =>
    if k < k' then (k, c) :: (k', c') :: a
    else if k = k' then (k', CoefRepr.add c' c) :: a
    else (k', c') :: OpRepr.addTerm k c a

/-- `OpRepr::operator+=` (coef_op_alg.h:251-265). -/
def OpRepr.add (a b : OpRepr) : OpRepr := b.foldl (fun acc kc => OpRepr.addTerm kc.1 kc.2 acc) a

/-- `OpRepr(std::vector<CoefRepr>, std::vector<BasisOpLabel>)` (coef_op_alg.h:192-204), the two vectors
given zipped. -/
def OpRepr.ofList (l : List (Label × CoefRepr)) : OpRepr :=
  l.foldl (fun acc kc => OpRepr.addTerm kc.1 kc.2 acc) []

/-- `SeparateCoefAndBase` (coef_op_alg.h:375-400). -/
def separate (op : OpRepr) : CoefRepr × OpRepr :=
  match op with
  | [] => (kNullCoef, kNullOp)
  | [(l, c)] => (c, OpRepr.ofLabel l)
  | (l, c) :: rest =>
    if rest.all (fun kc => CoefRepr.eqv kc.2 c) then
      (c, ((l, c) :: rest).map (fun kc => (kc.1, kIdCoef)))
    else (kIdCoef, op)

/-- `CoefReprOpReprIncompleteMulti` (coef_op_alg.h:652-668), debug build: `exit(1)` if a coefficient
would have to be multiplied by a non-identity one. (In a release build the loop at 656-661 is compiled out
and the coefficient is silently overwritten; that branch coincides with `exitFail` here.) -/
def incompleteMulti (coef : CoefRepr) (op : OpRepr) : Except Err OpRepr :=
  if op.isEmpty then .ok kNullOp
  else if CoefRepr.eqv coef kIdCoef then .ok op
  else if op.all (fun kc => CoefRepr.eqv kc.2 kIdCoef) then
    .ok (op.map (fun kc => (kc.1, coef)))
  else .error .exitFail

/-! ### Elementary facts -/

theorem coefEqv_iff {a b : CoefRepr} : CoefRepr.eqv a b = true ↔ a.Perm b := by
  simp [CoefRepr.eqv, List.isPerm_iff]

@[simp] theorem coefEqv_refl (a : CoefRepr) : CoefRepr.eqv a a = true := by
  rw [coefEqv_iff]

theorem coefEqv_id_iff {a : CoefRepr} : CoefRepr.eqv a kIdCoef = true ↔ a = kIdCoef := by
  rw [coefEqv_iff]; exact List.perm_singleton

theorem coefEqv_null_iff {a : CoefRepr} : CoefRepr.eqv a kNullCoef = true ↔ a = kNullCoef := by
  rw [coefEqv_iff]; exact List.perm_nil

theorem coefEqv_symm {a b : CoefRepr} (h : CoefRepr.eqv a b = true) : CoefRepr.eqv b a = true := by
  rw [coefEqv_iff] at *; exact h.symm

theorem coefEqv_trans {a b c : CoefRepr} (h : CoefRepr.eqv a b = true) (h' : CoefRepr.eqv b c = true) :
    CoefRepr.eqv a c = true := by
  rw [coefEqv_iff] at *; exact h.trans h'

/-- All coefficients of the operator are the identity coefficient. -/
def AllId (op : OpRepr) : Prop := ∀ kc ∈ op, kc.2 = kIdCoef

@[simp] theorem allId_nil : AllId [] := by simp [AllId]

theorem opEqv_refl (a : OpRepr) : OpRepr.eqv a a = true := by
  induction a with
  | nil => rfl
  | cons kc a ih => simp [OpRepr.eqv, ih]

theorem opEqv_nil_left {b : OpRepr} : OpRepr.eqv [] b = true ↔ b = [] := by
  cases b <;> simp [OpRepr.eqv]

theorem opEqv_nil_right {b : OpRepr} : OpRepr.eqv b [] = true ↔ b = [] := by
  cases b <;> simp [OpRepr.eqv]

theorem opEqv_symm {a b : OpRepr} (h : OpRepr.eqv a b = true) : OpRepr.eqv b a = true := by
  induction a generalizing b with
  | nil => simpa [opEqv_nil_left, opEqv_nil_right] using h
  | cons kc a ih =>
    cases b with
    | nil => simp [OpRepr.eqv] at h
    | cons kc' b =>
      simp only [OpRepr.eqv, Bool.and_eq_true, beq_iff_eq] at h ⊢
      exact ⟨⟨h.1.1.symm, coefEqv_symm h.1.2⟩, ih h.2⟩

/-- Equality with an all-identity operator is literal equality. -/
theorem opEqv_allId {a b : OpRepr} (h : OpRepr.eqv a b = true) (ha : AllId a) : b = a := by
  induction a generalizing b with
  | nil => simpa [opEqv_nil_left] using h
  | cons kc a ih =>
    cases b with
    | nil => simp [OpRepr.eqv] at h
    | cons kc' b =>
      simp only [OpRepr.eqv, Bool.and_eq_true, beq_iff_eq] at h
      have h1 : kc.2 = kIdCoef := ha kc (by simp)
      have h2 : kc'.2 = kIdCoef := by
        have := coefEqv_symm h.1.2
        rw [h1] at this
        exact coefEqv_id_iff.1 this
      have h3 := ih h.2 (fun x hx => ha x (by simp [hx]))
      rw [h3]
      congr 1
      exact Prod.ext h.1.1.symm (by rw [h1, h2])

theorem separate_fst_of_allId {op : OpRepr} (h : AllId op) (hne : op ≠ []) :
    separate op = (kIdCoef, op) := by
  match op, hne with
  | [(l, c)], _ =>
    have := h (l, c) (by simp)
    simp at this; subst this; rfl
  | (l, c) :: kc :: rest, _ =>
    have hc : c = kIdCoef := h (l, c) (by simp)
    subst hc
    unfold separate
    have hall : (kc :: rest).all (fun kc => CoefRepr.eqv kc.2 kIdCoef) = true := by
      rw [List.all_eq_true]; intro x hx
      rw [h x (by simp; right; simpa using hx)]; simp
    simp only [hall, if_true]
    congr 1
    have : ∀ l : OpRepr, AllId l → l.map (fun kc => (kc.1, kIdCoef)) = l := by
      intro l hl
      induction l with
      | nil => rfl
      | cons a l ih =>
        simp only [List.map_cons]
        rw [ih (fun x hx => hl x (by simp [hx]))]
        congr 1
        exact Prod.ext rfl (hl a (by simp)).symm
    exact this _ h

/-- The base of a separated operator is all-identity, or nothing was separated. -/
theorem separate_snd (op : OpRepr) :
    AllId (separate op).2 ∨ ((separate op).1 = kIdCoef ∧ (separate op).2 = op) := by
  match op with
  | [] => left; simp [separate]
  | [(l, c)] => left; simp [separate, OpRepr.ofLabel, AllId]
  | (l, c) :: kc :: rest =>
    unfold separate
    by_cases hall : (kc :: rest).all (fun kc => CoefRepr.eqv kc.2 c) = true
    · left
      simp only [hall, if_true]
      intro x hx
      simp only [List.map_cons, List.mem_cons, List.mem_map] at hx
      rcases hx with rfl | rfl | ⟨y, _, rfl⟩ <;> rfl
    · right
      simp only [hall]; exact ⟨rfl, rfl⟩

theorem separate_snd_ne_nil {op : OpRepr} (h : op ≠ []) : (separate op).2 ≠ [] := by
  match op, h with
  | [(l, c)], _ => simp [separate, OpRepr.ofLabel]
  | (l, c) :: kc :: rest, _ =>
    unfold separate
    by_cases hall : (kc :: rest).all (fun kc => CoefRepr.eqv kc.2 c) = true
    · simp only [hall, if_true]; simp
    · simp only [hall]; simp

theorem separate_snd_allId_of_fst_ne {op : OpRepr} (h : (separate op).1 ≠ kIdCoef) :
    AllId (separate op).2 := by
  rcases separate_snd op with h1 | h1
  · exact h1
  · exact absurd h1.1 h

theorem addTerm_ne_nil (k c) (a : OpRepr) : OpRepr.addTerm k c a ≠ [] := by
  cases a with
  | nil => simp [OpRepr.addTerm]
  | cons kc a => unfold OpRepr.addTerm; split <;> (try split) <;> simp

theorem add_nil_right (a : OpRepr) : OpRepr.add a [] = a := rfl

theorem add_eq_nil {a b : OpRepr} : OpRepr.add a b = [] ↔ a = [] ∧ b = [] := by
  unfold OpRepr.add
  induction b generalizing a with
  | nil => simp
  | cons kc b ih => simp [ih, addTerm_ne_nil]

theorem add_nil_single (k c) : OpRepr.add [] [(k, c)] = [(k, c)] := rfl

theorem incompleteMulti_id (op : OpRepr) : incompleteMulti kIdCoef op = .ok op := by
  unfold incompleteMulti
  split
  · simp_all
  · simp

theorem incompleteMulti_allId (c : CoefRepr) (op : OpRepr) (h : AllId op) :
    ∃ r, incompleteMulti c op = .ok r ∧ (r = [] ↔ op = []) := by
  unfold incompleteMulti
  split
  · simp_all
  · split
    · exact ⟨op, rfl, Iff.rfl⟩
    · rw [if_pos]
      · exact ⟨_, rfl, by simp⟩
      · rw [List.all_eq_true]; intro x hx; rw [h x hx]; simp

theorem incompleteMulti_ne_nil {c : CoefRepr} {op r : OpRepr} (h : incompleteMulti c op = .ok r) :
    r = [] ↔ op = [] := by
  unfold incompleteMulti at h
  split at h
  · simp_all
  · split at h
    · simp_all
    · split at h
      · cases h; simp
      · cases h

end Verif.Mpo
