import Verif.Props.FockSpec
import Mathlib.Algebra.BigOperators.Ring.Finset
import Mathlib.Algebra.BigOperators.Pi
import Mathlib.Data.Fintype.BigOperators
import Mathlib.LinearAlgebra.Matrix.Notation
import Mathlib.Tactic.Ring
/-
Fermion operators as strings of one-site matrices (Jordan–Wigner).
-/
namespace Verif.Fock
open Finset Matrix
variable {K : Type} [CommRing K] {N : Nat}

/-- A product of one-site matrices, one per site. -/
def strOp (f : Fin N → Matrix Occ Occ K) : Matrix (Conf N) (Conf N) K := fun n' n => ∏ s, f s (n' s) (n s)

theorem strOp_mul (f g : Fin N → Matrix Occ Occ K) : strOp f * strOp g = strOp (fun s => f s * g s) := by
  ext n' n
  simp only [Matrix.mul_apply, strOp]
  rw [Finset.prod_univ_sum]
  rw [Fintype.piFinset_univ]
  refine Finset.sum_congr rfl fun k _ => ?_
  rw [← Finset.prod_mul_distrib]

theorem strOp_transpose (f : Fin N → Matrix Occ Occ K) : (strOp f).transpose = strOp (fun s => (f s).transpose) := rfl

theorem strOp_one : strOp (fun _ : Fin N => (1 : Matrix Occ Occ K)) = 1 := by
  ext n' n
  simp only [strOp, Matrix.one_apply]
  by_cases h : n' = n
  · subst h; simp
  · rw [if_neg h]
    obtain ⟨s, hs⟩ := Function.ne_iff.1 h
    exact Finset.prod_eq_zero (mem_univ s) (by rw [if_neg hs])

/-- One factor pulled out with a scalar. -/
theorem strOp_smul (f g : Fin N → Matrix Occ Occ K) (s : Fin N) (c : K) (hs : f s = c • g s) (h : ∀ k, k ≠ s → f k = g k) :
    strOp f = c • strOp g := by
  ext n' n
  simp only [strOp, Matrix.smul_apply, smul_eq_mul]
  rw [← Finset.mul_prod_erase _ _ (mem_univ s), ← Finset.mul_prod_erase (a := s) _ (fun s => g s (n' s) (n s)) (mem_univ s), hs]
  simp only [Matrix.smul_apply, smul_eq_mul, mul_assoc]
  congr 2
  exact Finset.prod_congr rfl fun k hk => by rw [h k (Finset.ne_of_mem_erase hk)]

/-- Parity of one site. -/
def par : Matrix Occ Occ K := fun a b => if a = b then (if b.1 = true then -1 else 1) * (if b.2 = true then -1 else 1) else 0

/-- Annihilation on one site. -/
def loc : Spin → Matrix Occ Occ K
  | .up => fun a b => if b.1 = true ∧ a = (false, b.2) then 1 else 0
  | .dn => fun a b => if b.2 = true ∧ a = (b.1, false) then (if b.1 = true then -1 else 1) else 0

theorem loc_up (a b : Occ) : (loc .up a b : K) = if b.1 = true ∧ a = (false, b.2) then 1 else 0 := rfl

theorem loc_dn (a b : Occ) : (loc .dn a b : K) = if b.2 = true ∧ a = (b.1, false) then (if b.1 = true then -1 else 1) else 0 := rfl

/-- The string of an annihilation operator: parity on the left, identity on the right. -/
def jw (m : Fin N × Spin) (s : Fin N) : Matrix Occ Occ K := if s < m.1 then par else if s = m.1 then loc m.2 else 1

/-- Particles before a mode, site by site. -/
theorem before_sign (n : Conf N) (m : Fin N × Spin) : ((-1) ^ before n m : K) =
    (∏ s : Fin N, if s < m.1 then par (n s) (n s) else 1) * (if m.2 = .dn ∧ (n m.1).1 = true then -1 else 1) := by
  have hcard : before n m = ∑ s : Fin N, ((if modeLt (s, .up) m ∧ (n s).1 = true then 1 else 0) + (if modeLt (s, .dn) m ∧ (n s).2 = true then 1 else 0)) := by
    unfold before
    rw [Finset.card_filter, Fintype.sum_prod_type]
    refine Finset.sum_congr rfl fun s _ => ?_
    rw [show (univ : Finset Spin) = {.up, .dn} from rfl, Finset.sum_pair (by decide)]
    rfl
  rw [hcard, ← Finset.prod_pow_eq_pow_sum]
  have hlast : (if m.2 = .dn ∧ (n m.1).1 = true then (-1 : K) else 1) =
      ∏ s : Fin N, if s = m.1 ∧ m.2 = .dn ∧ (n s).1 = true then -1 else 1 := by
    rw [Finset.prod_eq_single m.1]
    · simp
    · intro b _ hb; rw [if_neg (fun h => hb h.1)]
    · intro h; exact absurd (mem_univ _) h
  rw [hlast, ← Finset.prod_mul_distrib]
  refine Finset.prod_congr rfl fun s _ => ?_
  obtain ⟨m1, σ⟩ := m
  rcases lt_trichotomy s m1 with h | h | h
  · have : s ≠ m1 := ne_of_lt h
    simp only [modeLt, h, true_or, true_and, this, false_and, if_false, if_true, par, mul_one]
    rcases n s with ⟨a, b⟩
    cases a <;> cases b <;> simp
  · subst h
    cases σ <;> simp [modeLt] <;> split <;> simp
  · have h1 : ¬ s < m1 := not_lt.2 (le_of_lt h)
    have h2 : s ≠ m1 := ne_of_gt h
    simp [modeLt, h1, h2]

theorem ann_str (m : Fin N × Spin) : (ann m : Matrix (Conf N) (Conf N) K) = strOp (jw m) := by
  ext n' n
  have hprod : strOp (jw m) n' n = ∏ s : Fin N, (jw m s (n' s) (n s) : K) := rfl
  rw [hprod]
  by_cases hd : ∀ s, s ≠ m.1 → n' s = n s
  · rw [show (ann m : Matrix (Conf N) (Conf N) K) n' n =
      (if occ m.2 (n m.1) = true ∧ n' m.1 = clear m.2 (n m.1) then (-1) ^ before n m else 0) from by
      unfold ann
      congr 1
      apply propext
      constructor
      · rintro ⟨h1, h2⟩; exact ⟨h1, by rw [h2, Function.update_self]⟩
      · rintro ⟨h1, h2⟩
        refine ⟨h1, funext fun s => ?_⟩
        by_cases hs : s = m.1
        · subst hs; rw [Function.update_self]; exact h2
        · rw [Function.update_of_ne hs]; exact hd s hs]
    rw [before_sign, ← Finset.mul_prod_erase _ _ (mem_univ m.1), ← Finset.mul_prod_erase _ (fun s => jw m s (n' s) (n s)) (mem_univ m.1)]
    have e1 : ∏ s ∈ univ.erase m.1, (if s < m.1 then par (n s) (n s) else 1 : K) = ∏ s ∈ univ.erase m.1, jw m s (n' s) (n s) := by
      refine Finset.prod_congr rfl fun s hs => ?_
      have hs := Finset.ne_of_mem_erase hs
      unfold jw
      rw [hd s hs]
      by_cases h : s < m.1
      · rw [if_pos h, if_pos h]
      · rw [if_neg h, if_neg h, if_neg hs, Matrix.one_apply_eq]
    rw [e1, if_neg (lt_irrefl _), one_mul]
    have e2 : jw m m.1 (n' m.1) (n m.1) = (if occ m.2 (n m.1) = true ∧ n' m.1 = clear m.2 (n m.1) then
        (if m.2 = .dn ∧ (n m.1).1 = true then (-1 : K) else 1) else 0) := by
      unfold jw
      rw [if_neg (lt_irrefl _), if_pos rfl]
      cases m.2 <;> simp [loc, occ, clear]
    rw [e2]
    by_cases h : occ m.2 (n m.1) = true ∧ n' m.1 = clear m.2 (n m.1)
    · rw [if_pos h, if_pos h, mul_comm]
    · rw [if_neg h, if_neg h, zero_mul]
  · push Not at hd
    obtain ⟨s, hs, hne⟩ := hd
    rw [Finset.prod_eq_zero (mem_univ s)]
    · unfold ann
      rw [if_neg]
      rintro ⟨_, h⟩
      exact hne (by rw [h, Function.update_of_ne hs])
    · unfold jw
      by_cases h : s < m.1
      · rw [if_pos h]; simp [par, hne]
      · rw [if_neg h, if_neg hs, Matrix.one_apply_ne hne]

theorem cre_str (m : Fin N × Spin) : (cre m : Matrix (Conf N) (Conf N) K) = strOp (fun s => (jw m s).transpose) := by
  unfold cre; rw [ann_str, strOp_transpose]

end Verif.Fock
