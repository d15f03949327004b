import Verif.Mpo.CompressSpec
import Mathlib.Algebra.Group.Pi.Basic
import Mathlib.Algebra.Ring.Pi
import Mathlib.Algebra.BigOperators.Pi
import Mathlib.Algebra.Order.BigOperators.Group.Finset
/-
Quantum-number grading of the site matrices through compression.
-/
namespace Verif.Mpo
open SparMat NullElem Finset

/-- Counting valuation: the value of an operator at `l` is the number of coefficient labels attached to `l`. -/
def cntC : Label → (Label → ℕ) := fun _ => 1
def cntO : Label → (Label → ℕ) := fun l => Pi.single l 1

theorem cntC_val (c : CoefRepr) (l : Label) : CoefRepr.val cntC c l = c.length := by
  unfold CoefRepr.val
  induction c with
  | nil => simp
  | cons a c ih => simp [ih, cntC, add_comm]

/-- Label `l` occurs in the operator. -/
def HasLab (op : OpRepr) (l : Label) : Prop := ∃ kc ∈ op, kc.1 = l

theorem cnt_pos {op : OpRepr} (h : Canon op) (l : Label) :
    0 < OpRepr.val cntC cntO op l ↔ HasLab op l := by
  have hc := h.2
  clear h
  induction op with
  | nil => simp [HasLab]
  | cons kc op ih =>
    have ih' := ih (fun kc h => hc kc (List.mem_cons_of_mem _ h))
    rw [val_cons]
    have hlen : 0 < kc.2.length := List.length_pos_of_ne_nil (hc kc (by simp))
    constructor
    · intro h
      simp only [Pi.add_apply, Pi.mul_apply, cntC_val] at h
      by_cases hk : kc.1 = l
      · exact ⟨kc, by simp, hk⟩
      · have : cntO kc.1 l = 0 := by simp [cntO, Pi.single_apply, Ne.symm hk]
        rw [this] at h
        obtain ⟨kc', h1, h2⟩ := ih'.1 (by simpa using h)
        exact ⟨kc', by simp [h1], h2⟩
    · rintro ⟨kc', h1, h2⟩
      simp only [Pi.add_apply, Pi.mul_apply, cntC_val]
      rcases List.mem_cons.1 h1 with h | h
      · subst h
        have : cntO kc'.1 l = 1 := by simp [cntO, h2]
        rw [this]; omega
      · have := ih'.2 ⟨kc', h, h2⟩
        omega

theorem hasLab_of_ne_nil {op : OpRepr} (h : op ≠ []) : ∃ l, HasLab op l := by
  cases op with
  | nil => exact absurd rfl h
  | cons kc op => exact ⟨kc.1, kc, by simp, rfl⟩

theorem hasLab_separate {op : OpRepr} {l : Label} : HasLab (separate op).2 l ↔ HasLab op l := by
  unfold separate
  split
  · rfl
  · simp [HasLab, OpRepr.ofLabel, OpRepr.single]
  · split
    · simp [HasLab]
    · rfl

theorem hasLab_baseL {ax : Axis} {A : SparMat OpRepr} {p x : Nat} {l : Label} :
    HasLab (baseL ax A p x) l ↔ HasLab (atL ax A p x) l := by
  unfold baseL
  split
  · exact hasLab_separate
  · rfl

theorem hasLab_incompleteMulti {c : CoefRepr} {op r : OpRepr} {l : Label} (h : incompleteMulti c op = .ok r)
    (hl : HasLab r l) : HasLab op l := by
  unfold incompleteMulti at h
  split at h
  · simp only [Except.ok.injEq] at h; subst h; simp [HasLab] at hl
  · split at h
    · simp only [Except.ok.injEq] at h; subst h; exact hl
    · split at h
      · simp only [Except.ok.injEq] at h; subst h
        obtain ⟨kc, h1, h2⟩ := hl
        simp only [List.mem_map] at h1
        obtain ⟨a, ha, rfl⟩ := h1
        exact ⟨a, ha, h2⟩
      · simp at h

variable {Q : Type} [AddCommGroup Q]

/-- Every label of the entry on line `p` and cross index `x` has `d` equal to the charge difference. -/
def Graded (d : Label → Q) (ax : Axis) (m : SparMat OpRepr) (q qx : Nat → Q) : Prop :=
  ∀ p x, p < lines ax m → x < cross ax m → ∀ l, HasLab (atL ax m p x) l → d l = q p - qx x

/-- No line of the given axis is empty. -/
def Full (ax : Axis) (m : SparMat OpRepr) : Prop := ∀ p, p < lines ax m → ∃ x, x < cross ax m ∧ atL ax m p x ≠ []

theorem compress_graded {ax : Axis} {A F A' F' : SparMat OpRepr} {T : Nat → Nat → CoefRepr} {F2 : Nat → Nat → OpRepr}
    (C : CompRes cntC cntO cntO ax A F A' F' T F2) (hA : CanonM A) (hF : CanonM F)
    (hl : lines ax.other F = lines ax A) {dA dF : Label → Q} {q qx qz : Nat → Q}
    (gA : Graded dA ax A q qx) (gF : Graded dF ax.other F q qz) (fA : Full ax A) :
    ∃ q', Graded dA ax A' q' qx ∧ Graded dF ax.other F' q' qz := by
  classical
  have hex : ∀ j, ∃ p, j < lines ax A' → p < lines ax A ∧ (∀ x, x < cross ax A → atL ax A' j x = baseL ax A p x) ∧
    ∀ j', j' < lines ax A' → T p j' = if j' = j then kIdCoef else [] := by
    intro j
    by_cases hj : j < lines ax A'
    · obtain ⟨p, h⟩ := C.kept j hj; exact ⟨p, fun _ => h⟩
    · exact ⟨0, fun h => absurd h hj⟩
  choose κ hκ using hex
  refine ⟨fun j => q (κ j), ?_, ?_⟩
  · intro j x hj hx l hlab
    obtain ⟨hk1, hk2, _⟩ := hκ j hj
    rw [C.crA] at hx
    rw [hk2 x hx, hasLab_baseL] at hlab
    exact gA _ x hk1 hx l hlab
  · intro j z hj hz l hlab
    rw [C.ln] at hj
    rw [C.crF] at hz
    have cF : Canon (atL ax.other F' j z) := (canonM_iff ax.other F').1 C.cF j z (by rw [C.ln]; exact hj) (by rw [C.crF]; exact hz)
    have hpos := (cnt_pos cF l).2 hlab
    rw [C.val2 j z hj hz, Finset.sum_apply] at hpos
    obtain ⟨p, hp, hne⟩ := Finset.exists_ne_zero_of_sum_ne_zero (Nat.pos_iff_ne_zero.1 hpos)
    have hp := Finset.mem_range.1 hp
    simp only [Pi.mul_apply, cntC_val] at hne
    have hT : T p j ≠ [] := by
      intro h; rw [h] at hne; simp at hne
    have hv : OpRepr.val cntC cntO (F2 p z) l ≠ 0 := by
      intro h; rw [h] at hne; simp at hne
    have cFp : Canon (atL ax.other F p z) := (canonM_iff ax.other F).1 hF p z (by rw [hl]; exact hp) hz
    have hval : OpRepr.val cntC cntO (F2 p z) = CoefRepr.val cntC (diagC ax A p) * OpRepr.val cntC cntO (atL ax.other F p z) :=
      val_incompleteMulti cntC cntO (C.mul p z hp hz) rfl
    have hlF : HasLab (atL ax.other F p z) l := by
      rw [← cnt_pos cFp]
      rw [hval] at hv
      simp only [Pi.mul_apply] at hv
      exact Nat.pos_of_ne_zero (fun h => hv (by rw [h, Nat.mul_zero]))
    have h1 := gF p z (by rw [hl]; exact hp) hz l hlF
    obtain ⟨hk1, hk2, _⟩ := hκ j hj
    obtain ⟨x, hx, hnx⟩ := fA (κ j) hk1
    have hnb : atL ax A' j x ≠ [] := by rw [hk2 x hx]; exact fun h => hnx (baseL_nil.1 h)
    obtain ⟨l', hl'⟩ := hasLab_of_ne_nil hnb
    have cA' : Canon (atL ax A' j x) := (canonM_iff ax A').1 C.cA j x hj (by rw [C.crA]; exact hx)
    have hl1 : HasLab (atL ax A p x) l' := by
      rw [← hasLab_baseL]
      rw [← cnt_pos (canon_baseL hA hp hx), C.val1 p x hp hx, Finset.sum_apply]
      refine Finset.sum_pos' (fun _ _ => Nat.zero_le _) ⟨j, Finset.mem_range.2 hj, ?_⟩
      simp only [Pi.mul_apply, cntC_val]
      exact Nat.mul_pos (List.length_pos_of_ne_nil hT) ((cnt_pos cA' l').2 hl')
    have hl2 : HasLab (atL ax A (κ j) x) l' := by
      rw [hk2 x hx, hasLab_baseL] at hl'; exact hl'
    have e1 := gA p x hp hx l' hl1
    have e2 := gA (κ j) x hk1 hx l' hl2
    have : q p = q (κ j) := by
      have := e1.symm.trans e2
      exact sub_left_inj.1 this
    rw [h1, this]

theorem compress_full {R : Type} [CommSemiring R] {cv ov ov' : Label → R} {ax : Axis} {A F A' F' : SparMat OpRepr}
    {T : Nat → Nat → CoefRepr} {F2 : Nat → Nat → OpRepr}
    (C : CompRes cv ov ov' ax A F A' F' T F2) 
    (hl : lines ax.other F = lines ax A) (fA : Full ax A) (fA2 : Full ax.other A) (fF : Full ax.other F)
    (fF2 : Full ax F) :
    Full ax A' ∧ Full ax.other A' ∧ Full ax.other F' ∧ Full ax F' := by
  have hne1 : ∀ p, p < lines ax A → ∃ j, j < lines ax A' ∧ T p j ≠ [] := by
    intro p hp
    obtain ⟨x, hx, hn⟩ := fA p hp
    by_contra hcon
    apply hn
    rw [C.nul1 p x hp hx]
    intro j hj
    left
    by_contra h
    exact hcon ⟨j, hj, h⟩
  refine ⟨?_, ?_, ?_, ?_⟩
  · intro j hj
    obtain ⟨p, hp, h1, _⟩ := C.kept j hj
    obtain ⟨x, hx, hn⟩ := fA p hp
    exact ⟨x, by rw [C.crA]; exact hx, by rw [h1 x hx]; exact fun h => hn (baseL_nil.1 h)⟩
  · intro x hx
    rw [lines_other, C.crA] at hx
    obtain ⟨p, hp, hn⟩ := fA2 x (by rw [lines_other]; exact hx)
    rw [cross_other] at hp
    rw [atL_other] at hn
    by_contra hcon
    apply hn
    rw [C.nul1 p x hp hx]
    intro j hj
    right
    by_contra h
    exact hcon ⟨j, by rw [cross_other]; exact hj, by rw [atL_other]; exact h⟩
  · intro j hj
    rw [C.ln] at hj
    obtain ⟨p, hp, _, h1⟩ := C.kept j hj
    obtain ⟨z, hz, hn⟩ := fF p (by rw [hl]; exact hp)
    refine ⟨z, by rw [C.crF]; exact hz, ?_⟩
    intro h
    rw [C.nul2 j z hj hz] at h
    rcases h p hp with h | h
    · rw [h1 j hj, if_pos rfl] at h; simp at h
    · exact hn h
  · intro z hz
    have hz' : z < cross ax.other F := by rw [← C.crF, cross_other]; exact hz
    obtain ⟨p, hp, hn⟩ := fF2 z (by rw [cross_other] at hz'; exact hz')
    have hp' : p < lines ax A := by rw [← hl, lines_other]; exact hp
    obtain ⟨j, hj, hT⟩ := hne1 p hp'
    refine ⟨j, by rw [← lines_other, C.ln]; exact hj, ?_⟩
    intro h
    have h' : atL ax.other F' j z = [] := by rw [atL_other]; exact h
    rw [C.nul2 j z hj hz'] at h'
    rcases h' p hp' with h | h
    · exact hT h
    · exact hn (by rw [← atL_other]; exact h)

/-- A chain of site matrices without empty rows or columns whose bond indices carry charges: `q` those of the
left bond of the first matrix; the right end has charge zero. -/
def GChain (d : Label → Q) : (Nat → Q) → List (SparMat OpRepr) → Prop
  | q, [] => q 0 = 0
  | q, m :: rest => Full .col m ∧ Full .row m ∧ ∃ q', Graded d .row m q q' ∧ GChain d q' rest

theorem graded_flip {d : Label → Q} {m : SparMat OpRepr} {q q' : Nat → Q} :
    Graded d .row m q q' ↔ Graded (fun l => - d l) .col m q' q := by
  constructor
  · intro h p x hp hx l hl
    show - d l = _
    rw [h x p hx hp l hl, neg_sub]
  · intro h p x hp hx l hl
    have : - d l = q' x - q p := h x p hx hp l hl
    rw [← neg_neg (d l), this, neg_sub]

theorem gchain_col {d : Label → Q} {q : Nat → Q} {A W A' B : SparMat OpRepr} {rest : List (SparMat OpRepr)}
    {T : Nat → Nat → CoefRepr} {F2 : Nat → Nat → OpRepr}
    (C : CompRes cntC cntO cntO .col A W A' B T F2) (hA : CanonM A) (hF : CanonM W)
    (hl : W.rows = A.cols) (h : GChain d q (A :: W :: rest)) : GChain d q (A' :: B :: rest) := by
  obtain ⟨f1, f2, qb, g1, f3, f4, qc, g2, h⟩ := h
  obtain ⟨e1, e2, e3, e4⟩ := compress_full C hl f1 f2 f4 f3
  obtain ⟨q', r1, r2⟩ := compress_graded C hA hF hl (graded_flip.1 g1) g2 f1
  exact ⟨e1, e2, q', graded_flip.2 r1, e4, e3, qc, r2, h⟩

theorem gchain_row {d : Label → Q} {q : Nat → Q} {a b a' b' : SparMat OpRepr} {rest : List (SparMat OpRepr)}
    {T : Nat → Nat → CoefRepr} {F2 : Nat → Nat → OpRepr}
    (C : CompRes cntC cntO cntO .row b a b' a' T F2) (hb : CanonM b) (ha : CanonM a)
    (hl : a.cols = b.rows) (h : GChain d q (a :: b :: rest)) : GChain d q (a' :: b' :: rest) := by
  obtain ⟨f1, f2, qb, g1, f3, f4, qc, g2, h⟩ := h
  obtain ⟨e1, e2, e3, e4⟩ := compress_full C hl f4 f3 f1 f2
  obtain ⟨q', r1, r2⟩ := compress_graded C hb ha hl g2 (graded_flip.1 g1) f4
  exact ⟨e3, e4, q', graded_flip.2 r2, e2, e1, qc, r1, h⟩

end Verif.Mpo
