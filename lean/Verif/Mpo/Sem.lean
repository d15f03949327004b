import Verif.Mpo.Alg
import Mathlib.Algebra.BigOperators.Ring.Finset
import Mathlib.Algebra.BigOperators.Group.List.Basic
import Mathlib.Algebra.BigOperators.Ring.List
import Mathlib.Tactic.Ring
/-
Denotation of the symbolic coefficients and operators.

`R` is any commutative semiring; `cv` gives the value of each coefficient label, `ov` the value of each
operator label at one site. Operators acting on different sites commute, so taking the values in a
commutative semiring (for instance polynomials in one variable per (site, label) pair) loses nothing:
a formal tensor product over sites is the product of the one-site values.
-/
namespace Verif.Mpo
variable {R : Type} [CommSemiring R]

/-- Value of a symbolic coefficient: the sum of its c-numbers (doc comment coef_op_alg.h:36-38). -/
def CoefRepr.val (cv : Label → R) (c : CoefRepr) : R := (c.map cv).sum

/-- Value of a symbolic operator: sum of coefficient times basis operator (coef_op_alg.h:168-). -/
def OpRepr.val (cv ov : Label → R) (op : OpRepr) : R :=
  (op.map (fun kc => CoefRepr.val cv kc.2 * ov kc.1)).sum

section
variable (cv ov : Label → R)

@[simp] theorem cval_nil : CoefRepr.val cv [] = 0 := rfl
@[simp] theorem val_nil : OpRepr.val cv ov [] = 0 := rfl

theorem cval_id (h0 : cv 0 = 1) : CoefRepr.val cv kIdCoef = 1 := by
  simp [CoefRepr.val, h0]

theorem cval_eqv {a b : CoefRepr} (h : CoefRepr.eqv a b = true) : CoefRepr.val cv a = CoefRepr.val cv b := by
  rw [coefEqv_iff] at h
  exact (h.map cv).sum_eq

theorem cval_add (a b : CoefRepr) :
    CoefRepr.val cv (CoefRepr.add a b) = CoefRepr.val cv a + CoefRepr.val cv b := by
  simp [CoefRepr.val, CoefRepr.add]

theorem val_cons (kc : Label × CoefRepr) (a : OpRepr) :
    OpRepr.val cv ov (kc :: a) = CoefRepr.val cv kc.2 * ov kc.1 + OpRepr.val cv ov a := by
  simp [OpRepr.val]

theorem val_eqv {a b : OpRepr} (h : OpRepr.eqv a b = true) : OpRepr.val cv ov a = OpRepr.val cv ov b := by
  induction a generalizing b with
  | nil => rw [opEqv_nil_left.1 h]
  | cons kc a ih =>
    cases b with
    | nil => simp [OpRepr.eqv] at h
    | cons kc' b =>
      simp only [OpRepr.eqv, Bool.and_eq_true, beq_iff_eq] at h
      rw [val_cons, val_cons, ih h.2, cval_eqv cv h.1.2, h.1.1]

theorem val_addTerm (k : Label) (c : CoefRepr) (a : OpRepr) :
    OpRepr.val cv ov (OpRepr.addTerm k c a) = OpRepr.val cv ov a + CoefRepr.val cv c * ov k := by
  induction a with
  | nil => simp [OpRepr.addTerm, val_cons]
  | cons kc a ih =>
    unfold OpRepr.addTerm
    split
    · simp only [val_cons]; ring
    · split
      · rename_i h; subst h
        simp only [val_cons, cval_add]; ring
      · simp only [val_cons, ih]; ring

theorem val_add (a b : OpRepr) :
    OpRepr.val cv ov (OpRepr.add a b) = OpRepr.val cv ov a + OpRepr.val cv ov b := by
  unfold OpRepr.add
  induction b generalizing a with
  | nil => simp
  | cons kc b ih =>
    rw [List.foldl_cons, ih, val_addTerm, val_cons]; ring

theorem val_map_const (c : CoefRepr) (op : OpRepr) (h : AllId op) (h0 : cv 0 = 1) :
    OpRepr.val cv ov (op.map (fun kc => (kc.1, c))) = CoefRepr.val cv c * OpRepr.val cv ov op := by
  induction op with
  | nil => simp
  | cons kc op ih =>
    rw [List.map_cons, val_cons, val_cons, ih (fun x hx => h x (by simp [hx])), h kc (by simp),
      cval_id cv h0]
    ring

theorem allId_map_id (op : OpRepr) : AllId (op.map (fun kc => (kc.1, kIdCoef))) := by
  intro x hx
  simp only [List.mem_map] at hx
  obtain ⟨y, _, rfl⟩ := hx
  rfl

theorem val_map_eqv (c : CoefRepr) (op : OpRepr) (h : ∀ kc ∈ op, CoefRepr.eqv kc.2 c = true) (h0 : cv 0 = 1) :
    OpRepr.val cv ov op = CoefRepr.val cv c * OpRepr.val cv ov (op.map (fun kc => (kc.1, kIdCoef))) := by
  induction op with
  | nil => simp
  | cons kc op ih =>
    rw [List.map_cons, val_cons, val_cons, ih (fun x hx => h x (by simp [hx])),
      cval_eqv cv (h kc (by simp)), cval_id cv h0]
    ring

theorem val_separate (op : OpRepr) (h0 : cv 0 = 1) :
    OpRepr.val cv ov op = CoefRepr.val cv (separate op).1 * OpRepr.val cv ov (separate op).2 := by
  match op with
  | [] => simp [separate]
  | [(l, c)] => simp [separate, OpRepr.ofLabel, val_cons, CoefRepr.val, h0]
  | (l, c) :: kc :: rest =>
    unfold separate
    by_cases hall : (kc :: rest).all (fun kc => CoefRepr.eqv kc.2 c) = true
    · simp only [hall, if_true]
      refine val_map_eqv cv ov c _ ?_ h0
      intro x hx
      rcases List.mem_cons.1 hx with rfl | hx
      · simp
      · exact List.all_eq_true.1 hall x hx
    · simp only [hall]
      simp [CoefRepr.val, h0]

theorem val_incompleteMulti {c : CoefRepr} {op r : OpRepr} (h : incompleteMulti c op = .ok r) (h0 : cv 0 = 1) :
    OpRepr.val cv ov r = CoefRepr.val cv c * OpRepr.val cv ov op := by
  unfold incompleteMulti at h
  split at h
  · rename_i he
    have : op = [] := by simpa using he
    subst this; cases h; simp
  · split at h
    · rename_i he
      cases h
      rw [cval_eqv cv he, cval_id cv h0, one_mul]
    · split at h
      · rename_i hall
        cases h
        refine val_map_const cv ov c op ?_ h0
        intro x hx
        exact coefEqv_id_iff.1 (List.all_eq_true.1 hall x hx)
      · cases h

end
end Verif.Mpo
