import Verif.Props.FockFacts
/-
The canonical anticommutation relations of the specified operators: they are fermions.
-/
namespace Verif.Fock
open Finset Matrix
variable {K : Type} [CommRing K] {N : Nat}

theorem par_par : (par * par : Matrix Occ Occ K) = 1 := by
  ext ⟨a, b⟩ ⟨c, d⟩
  cases a <;> cases b <;> cases c <;> cases d <;> simp [Matrix.mul_apply, Fintype.sum_prod_type, par]

theorem par_transpose : (par : Matrix Occ Occ K).transpose = par := by
  ext ⟨a, b⟩ ⟨c, d⟩
  cases a <;> cases b <;> cases c <;> cases d <;> simp [par]

theorem loc_par (σ : Spin) : (loc σ * par : Matrix Occ Occ K) = (-1 : K) • (par * loc σ) := by
  ext ⟨a, b⟩ ⟨c, d⟩
  cases σ <;> cases a <;> cases b <;> cases c <;> cases d <;> simp [Matrix.mul_apply, Fintype.sum_prod_type, par, loc_up, loc_dn, Matrix.transpose_apply]

theorem locT_par (σ : Spin) : ((loc σ).transpose * par : Matrix Occ Occ K) = (-1 : K) • (par * (loc σ).transpose) := by
  ext ⟨a, b⟩ ⟨c, d⟩
  cases σ <;> cases a <;> cases b <;> cases c <;> cases d <;> simp [Matrix.mul_apply, Fintype.sum_prod_type, par, loc_up, loc_dn, Matrix.transpose_apply]

theorem loc_loc (σ τ : Spin) : (loc σ * loc τ + loc τ * loc σ : Matrix Occ Occ K) = 0 := by
  ext ⟨a, b⟩ ⟨c, d⟩
  cases σ <;> cases τ <;> cases a <;> cases b <;> cases c <;> cases d <;>
    simp [Matrix.mul_apply, Fintype.sum_prod_type, loc_up, loc_dn, Matrix.transpose_apply]

theorem loc_locT (σ τ : Spin) : (loc σ * (loc τ).transpose + (loc τ).transpose * loc σ : Matrix Occ Occ K) = if σ = τ then 1 else 0 := by
  ext ⟨a, b⟩ ⟨c, d⟩
  cases σ <;> cases τ <;> cases a <;> cases b <;> cases c <;> cases d <;>
    simp [Matrix.mul_apply, Fintype.sum_prod_type, loc_up, loc_dn, Matrix.transpose_apply]

/-- Two strings that differ on one site add up there. -/
theorem strOp_add (f g h : Fin N → Matrix Occ Occ K) (s : Fin N) (hs : f s + g s = h s) (hf : ∀ k, k ≠ s → f k = h k)
    (hg : ∀ k, k ≠ s → g k = h k) : strOp f + strOp g = strOp h := by
  ext n' n
  simp only [strOp, Matrix.add_apply]
  rw [← Finset.mul_prod_erase _ _ (mem_univ s), ← Finset.mul_prod_erase (a := s) _ (fun s => g s (n' s) (n s)) (mem_univ s),
    ← Finset.mul_prod_erase (a := s) _ (fun s => h s (n' s) (n s)) (mem_univ s), ← hs]
  rw [Finset.prod_congr rfl (fun k hk => by rw [hf k (Finset.ne_of_mem_erase hk)] : ∀ k ∈ univ.erase s, f k (n' k) (n k) = h k (n' k) (n k)),
    Finset.prod_congr rfl (fun k hk => by rw [hg k (Finset.ne_of_mem_erase hk)] : ∀ k ∈ univ.erase s, g k (n' k) (n k) = h k (n' k) (n k))]
  simp only [Matrix.add_apply, add_mul]

theorem strOp_zero (f : Fin N → Matrix Occ Occ K) (s : Fin N) (hs : f s = 0) : strOp f = 0 := by
  ext n' n
  exact Finset.prod_eq_zero (mem_univ s) (by rw [hs]; rfl)

/-- A string: parity left of `m`, `x` at `m`, identity right of it. -/
def strAt (m : Fin N) (x : Matrix Occ Occ K) (s : Fin N) : Matrix Occ Occ K := if s < m then par else if s = m then x else 1

theorem anti_sites {i j : Fin N} (h : i < j) {x y : Matrix Occ Occ K} (hx : x * par = (-1 : K) • (par * x)) :
    strOp (strAt i x) * strOp (strAt j y) = -(strOp (strAt j y) * strOp (strAt i x)) := by
  rw [strOp_mul, strOp_mul, ← neg_one_smul K]
  refine strOp_smul _ _ i _ ?_ fun k hk => ?_
  · simp [strAt, h, hx]
  · unfold strAt
    rcases lt_trichotomy k i with h1 | h1 | h1
    · rw [if_pos h1, if_pos (h1.trans h)]
    · exact absurd h1 hk
    · have : ¬ k < i := not_lt.2 (le_of_lt h1)
      rw [if_neg this, if_neg hk, one_mul, mul_one]

theorem anti_site (i : Fin N) {x y z : Matrix Occ Occ K} (h : x * y + y * x = z) :
    strOp (strAt i x) * strOp (strAt i y) + strOp (strAt i y) * strOp (strAt i x) =
      strOp (fun s => if s = i then z else (1 : Matrix Occ Occ K)) := by
  rw [strOp_mul, strOp_mul]
  refine strOp_add _ _ _ i ?_ ?_ ?_
  · simp [strAt, h]
  all_goals
    intro k hk
    unfold strAt
    rcases lt_trichotomy k i with h1 | h1 | h1
    · simp [h1, hk, par_par]
    · exact absurd h1 hk
    · have : ¬ k < i := not_lt.2 (le_of_lt h1)
      simp [this, hk]

theorem ann_strAt (m : Fin N × Spin) : (ann m : Matrix (Conf N) (Conf N) K) = strOp (strAt m.1 (loc m.2)) := ann_str m

theorem cre_strAt (m : Fin N × Spin) : (cre m : Matrix (Conf N) (Conf N) K) = strOp (strAt m.1 (loc m.2).transpose) := by
  rw [cre_str]
  congr 1
  funext s
  unfold jw strAt
  split
  · exact par_transpose
  · split
    · rfl
    · exact Matrix.transpose_one

/-- Two annihilation operators anticommute. -/
theorem car_ann (p q : Fin N × Spin) : (ann p * ann q + ann q * ann p : Matrix (Conf N) (Conf N) K) = 0 := by
  rw [ann_strAt, ann_strAt]
  rcases lt_trichotomy p.1 q.1 with h | h | h
  · rw [anti_sites h (loc_par _), neg_add_cancel]
  · rw [h, anti_site _ (loc_loc _ _)]
    exact strOp_zero _ q.1 (by simp)
  · rw [anti_sites h (loc_par _), add_neg_cancel]

/-- An annihilation and a creation operator anticommute, up to one for the same mode. -/
theorem car_mixed (p q : Fin N × Spin) : (ann p * cre q + cre q * ann p : Matrix (Conf N) (Conf N) K) = if p = q then 1 else 0 := by
  rw [ann_strAt, cre_strAt]
  rcases lt_trichotomy p.1 q.1 with h | h | h
  · rw [anti_sites h (loc_par _), neg_add_cancel, if_neg (by rintro rfl; exact lt_irrefl _ h)]
  · rw [h, anti_site _ (loc_locT _ _)]
    by_cases hs : p.2 = q.2
    · rw [if_pos hs, if_pos (Prod.ext h hs)]
      simpa using strOp_one
    · rw [if_neg hs, if_neg (by rintro rfl; exact hs rfl)]
      exact strOp_zero _ q.1 (by simp)
  · rw [anti_sites h (locT_par _), add_neg_cancel, if_neg (by rintro rfl; exact lt_irrefl _ h)]

end Verif.Fock
