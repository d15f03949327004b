import Verif.Algo.LanczosNumKry
/-
The loop of the exact-arithmetic Lanczos solver ends in a Ritz pair.
-/
namespace Verif.Algo
open Finset

variable {𝕜 V : Type} [RCLike 𝕜] [NormedAddCommGroup V] [InnerProductSpace 𝕜 V] {H : V →ₗ[𝕜] V} {v : V}

/-- The result is a Ritz pair of the first `iters` basis vectors. -/
def Ritz (H : V →ₗ[𝕜] V) (v : V) (r : GsRes V) (x : Nat → ℝ) : Prop :=
  1 ≤ r.iters ∧ KGood H v r.iters ∧ LowestTri (ka H v) (fun i => kβ H v (i + 1)) r.iters r.energy x ∧
    r.vec = combine 𝕜 r.iters x (kb H v)

/-- Why the loop has stopped: no further direction, `dim` or `max_iterations` reached, or the energy has improved by less
than the tolerance over the Ritz pair of the round before. -/
def StopReason (H : V →ₗ[𝕜] V) (v : V) (K dim : Nat) (err : ℝ) (r : GsRes V) : Prop :=
  kβ H v r.iters = 0 ∨ r.iters = dim + 1 ∨ r.iters = K ∨
    ∃ r' x', Ritz H v r' x' ∧ r'.iters + 1 = r.iters ∧ r'.energy - r.energy < err

theorem lowest_one (a b : Nat → ℝ) : LowestTri a b 1 (a 0) (fun _ => 1) where
  eig i hi := by
    obtain rfl : i = 0 := by omega
    simp
  unit := by simp
  low y := by simp

theorem gsLoop_ritz (tri : TriSolver) (htri : ∀ a b n, 1 ≤ n → LowestTri a b n (tri a b n).1 (tri a b n).2) (K dim : Nat) (err : ℝ) :
    ∀ fuel m e, m + 1 < K → K ≤ m + 1 + fuel → KGood H v (m + 1) →
      e = (if m = 0 then ka H v 0 else (tri (ka H v) (fun i => kβ H v (i + 1)) (m + 1)).1) →
      ∃ r x, gsLoop H v tri K dim err fuel m e = some r ∧ Ritz H v r x ∧ r.iters ≤ K ∧ StopReason H v K dim err r
  | 0, m, e, h1, h2, _, _ => by omega
  | fuel + 1, m, e, h1, h2, hg, he => by
    by_cases hz : kβ H v (m + 1) = 0
    · have hz' : (krylov H v (m + 1)).β = 0 := hz
      by_cases hm : m = 0
      · subst hm
        refine ⟨⟨1, e, kb H v 0⟩, fun _ => 1, ?_, ⟨Nat.le_refl _, hg, ?_, ?_⟩, by show 1 ≤ K; omega, Or.inl hz⟩
        · unfold gsLoop
          simp only [hz', if_true, Nat.zero_add, kb]
        · rw [he, if_pos rfl]
          exact lowest_one _ _
        · simp [combine]
      · refine ⟨⟨m + 1, e, combine 𝕜 (m + 1) (tri (ka H v) (fun i => kβ H v (i + 1)) (m + 1)).2 (kb H v)⟩,
          (tri (ka H v) (fun i => kβ H v (i + 1)) (m + 1)).2, ?_, ⟨by show 1 ≤ m + 1; omega, hg, ?_, rfl⟩, by show m + 1 ≤ K; omega, Or.inl hz⟩
        · unfold gsLoop
          simp only [hz', if_true, if_neg (show ¬ m + 1 = 1 by omega)]
          rfl
        · rw [he, if_neg hm]
          exact htri _ _ (m + 1) (by omega)
    · have hz' : ¬ (krylov H v (m + 1)).β = 0 := hz
      have hg' : KGood H v (m + 2) := fun j a b => if hj : j = m + 1 then hj ▸ hz else hg j a (by omega)
      unfold gsLoop
      simp only [if_neg hz']
      split
      · rename_i hc
        refine ⟨_, (tri (ka H v) (fun i => kβ H v (i + 1)) (m + 2)).2, rfl, ⟨by show 1 ≤ m + 2; omega, hg', htri _ _ (m + 2) (by omega), rfl⟩,
          by show m + 2 ≤ K; omega, ?_⟩
        rcases hc with hc | hc | hc
        · refine Or.inr (Or.inr (Or.inr ?_))
          by_cases hm : m = 0
          · subst hm
            exact ⟨⟨1, e, kb H v 0⟩, fun _ => 1, ⟨Nat.le_refl _, hg, by rw [he, if_pos rfl]; exact lowest_one _ _, by simp [combine]⟩, rfl, hc⟩
          · exact ⟨⟨m + 1, e, combine 𝕜 (m + 1) (tri (ka H v) (fun i => kβ H v (i + 1)) (m + 1)).2 (kb H v)⟩,
              (tri (ka H v) (fun i => kβ H v (i + 1)) (m + 1)).2,
              ⟨by show 1 ≤ m + 1; omega, hg, by rw [he, if_neg hm]; exact htri _ _ (m + 1) (by omega), rfl⟩, rfl, hc⟩
        · exact Or.inr (Or.inl (congrArg (· + 1) hc))
        · exact Or.inr (Or.inr (Or.inl (show m + 2 = K by omega)))
      · rename_i hc
        refine gsLoop_ritz tri htri K dim err fuel (m + 1) _ ?_ (by omega) hg' ?_
        · have : ¬ m + 1 = K - 1 := fun h => hc (Or.inr (Or.inr h))
          omega
        · rw [if_neg (by omega)]
          rfl

theorem gsSolve_ritz (tri : TriSolver) (htri : ∀ a b n, 1 ≤ n → LowestTri a b n (tri a b n).1 (tri a b n).2) {K : Nat} (hK : 2 ≤ K)
    (dim : Nat) (err : ℝ) : ∃ r x, gsSolve H v tri K dim err = some r ∧ Ritz H v r x ∧ r.iters ≤ K ∧
      StopReason H v K dim err r :=
  gsLoop_ritz tri htri K dim err K 0 _ (by omega) (by omega) (fun j a b => by omega) (by rw [if_pos rfl]; rfl)

/-- The map on a combination whose coefficients satisfy the eigenvalue equation: the eigenvalue and a remainder along the
next basis vector. -/
theorem H_comb {n : Nat} {E : ℝ} {x : Nat → ℝ}
    (heig : ∀ i, i < n + 1 → (if i = 0 then 0 else kβ H v (i - 1 + 1) * x (i - 1)) + ka H v i * x i +
      (if i + 1 < n + 1 then kβ H v (i + 1) * x (i + 1) else 0) = E * x i) :
    H (∑ i ∈ range (n + 1), (x i : 𝕜) • kb H v i) = (E : 𝕜) • (∑ i ∈ range (n + 1), (x i : 𝕜) • kb H v i) +
      ((x n : 𝕜) * (kβ H v (n + 1) : 𝕜)) • kb H v (n + 1) := by
  have hx : ∑ i ∈ range (n + 1), (x i : 𝕜) • kb H v i = ∑ i ∈ range (n + 1), ((if i < n + 1 then x i else 0 : ℝ) : 𝕜) • kb H v i :=
    sum_congr rfl fun i hi => by rw [if_pos (mem_range.mp hi)]
  rw [hx, H_sum_kb (fun i => ((if i < n + 1 then x i else 0 : ℝ) : 𝕜)) n, smul_sum]
  simp only [if_pos (show n < n + 1 by omega), if_neg (show ¬ n + 1 < n + 1 by omega), RCLike.ofReal_zero, zero_mul,
    zero_smul, sub_zero]
  congr 1
  refine sum_congr rfl fun i hi => ?_
  have hi := mem_range.mp hi
  rw [smul_smul]
  congr 1
  have he := heig i (by omega)
  simp only [if_pos hi]
  rw [show (E : 𝕜) * (x i : 𝕜) = ((E * x i : ℝ) : 𝕜) by push_cast; rfl, ← he]
  push_cast
  by_cases h0 : i = 0
  · subst h0
    simp
    split <;> simp
  · rw [if_neg h0, if_neg h0, if_pos (show i - 1 < n + 1 by omega), show i - 1 + 1 = i by omega]
    by_cases h1 : i + 1 < n + 1
    · rw [if_pos h1, if_pos h1]; simp
    · rw [if_neg h1, if_neg h1]; simp

/-- If the residual vanishes the Krylov space does not grow any more. -/
theorem stop_kry (hv : v ≠ 0) {n : Nat} (hz : kβ H v (n + 1) = 0) : (H ^ (n + 1)) v ∈ krySpace H v (n + 1) := by
  have h1 : (H ^ n) v ∈ kspan H v (n + 1) := by
    rw [kspan_eq_kry hv]
    exact Submodule.subset_span ⟨n, Nat.lt_succ_self n, rfl⟩
  obtain ⟨y, hy⟩ := mem_kspan h1
  rw [pow_succ', ← kspan_eq_kry hv]
  show H ((H ^ n) v) ∈ _
  rw [hy, map_sum]
  refine Submodule.sum_mem _ fun i hi => ?_
  have hi := mem_range.mp hi
  rw [map_smul]
  refine Submodule.smul_mem _ _ ?_
  rw [krec]
  refine Submodule.add_mem _ (Submodule.add_mem _ ?_ (Submodule.smul_mem _ _ (kb_mem hi))) ?_
  · by_cases e : i = n
    · subst e; rw [hz]; simp
    · exact Submodule.smul_mem _ _ (kb_mem (by omega))
  · first
    | (split
       · exact Submodule.zero_mem _
       · exact Submodule.smul_mem _ _ (kb_mem (by omega)))
    | exact Submodule.smul_mem _ _ (kb_mem (by omega))

/-- If the Krylov space does not grow any more, the residual vanishes. -/
theorem kb_stop (hH : H.IsSymmetric) (hv : v ≠ 0) {n : Nat} (hg : KGood H v (n + 1)) (hi : (H ^ (n + 1)) v ∈ krySpace H v (n + 1)) :
    (kβ H v (n + 1) : 𝕜) • kb H v (n + 1) = 0 := by
  have hinv : krySpace H v (n + 2) ≤ krySpace H v (n + 1) := by
    unfold krySpace at hi ⊢
    rw [Submodule.span_le]
    rintro _ ⟨j, hj, rfl⟩
    have hj : j < n + 2 := hj
    by_cases hjn : j = n + 1
    · exact hjn ▸ hi
    · exact Submodule.subset_span ⟨j, show j < n + 1 by omega, rfl⟩
  have hmem : kb H v (n + 1) ∈ kspan H v (n + 1) := by
    rw [kspan_eq_kry hv]
    exact hinv (kb_mem_kry _)
  obtain ⟨y, hy⟩ := mem_kspan hmem
  rw [← inner_self_eq_zero (𝕜 := 𝕜)]
  nth_rewrite 1 [hy]
  rw [inner_smul_left, inner_smul_right, sum_inner, mul_sum]
  rw [mul_sum]
  refine sum_eq_zero fun i hi => ?_
  rw [inner_smul_left, mul_left_comm (kβ H v (n + 1) : 𝕜), hg.next hH hv (mem_range.mp hi), mul_zero, mul_zero]

namespace Ritz
variable {r : GsRes V} {x : Nat → ℝ}

theorem vec_eq (h : Ritz H v r x) : r.vec = ∑ i ∈ range r.iters, (x i : 𝕜) • kb H v i := by rw [h.2.2.2, combine_eq]

theorem norm_vec (hH : H.IsSymmetric) (hv : v ≠ 0) (h : Ritz H v r x) : ‖r.vec‖ = 1 := by
  have := norm_sum_kb hH hv h.2.1 (fun i => (x i : 𝕜))
  rw [← h.vec_eq] at this
  simp only [RCLike.norm_ofReal, sq_abs] at this
  rw [h.2.2.1.unit] at this
  exact (pow_eq_one_iff_of_nonneg (norm_nonneg _) (by norm_num)).mp this

/-- The map on the Ritz vector. -/
theorem H_vec (h : Ritz H v r x) : H r.vec = (r.energy : 𝕜) • r.vec + ((x (r.iters - 1) : 𝕜) * (kβ H v r.iters : 𝕜)) • kb H v r.iters := by
  obtain ⟨n, hn⟩ : ∃ n, r.iters = n + 1 := ⟨r.iters - 1, by have := h.1; omega⟩
  have he := h.2.2.1.eig
  rw [hn] at he
  rw [h.vec_eq, hn]
  exact H_comb he

theorem energy_eq (hH : H.IsSymmetric) (hv : v ≠ 0) (h : Ritz H v r x) : inner 𝕜 r.vec (H r.vec) = (r.energy : 𝕜) := by
  rw [h.H_vec, inner_add_right, inner_smul_right, inner_smul_right, inner_self_eq_norm_sq_to_K, h.norm_vec hH hv]
  have : (kβ H v r.iters : 𝕜) * inner 𝕜 r.vec (kb H v r.iters) = 0 := by
    rw [h.vec_eq, sum_inner, mul_sum]
    refine sum_eq_zero fun i hi => ?_
    rw [inner_smul_left, mul_left_comm, h.2.1.next hH hv (mem_range.mp hi), mul_zero]
  rw [mul_assoc, this]
  simp

theorem vec_mem (h : Ritz H v r x) : r.vec ∈ kspan H v r.iters := by
  rw [h.vec_eq]
  exact Submodule.sum_mem _ fun i hi => Submodule.smul_mem _ _ (kb_mem (mem_range.mp hi))

theorem lowest (hH : H.IsSymmetric) (hv : v ≠ 0) (h : Ritz H v r x) {w : V} (hw : w ∈ kspan H v r.iters) :
    r.energy * ‖w‖ ^ 2 ≤ RCLike.re (inner 𝕜 w (H w)) := by
  obtain ⟨y, rfl⟩ := mem_kspan hw
  rw [norm_sum_kb hH hv h.2.1, quad_sum_kb hH hv y _ h.2.1]
  have h1 := h.2.2.1.low (fun i => RCLike.re (y i))
  have h2 := h.2.2.1.low (fun i => RCLike.im (y i))
  have e1 : ∀ i, ‖y i‖ ^ 2 = RCLike.re (y i) ^ 2 + RCLike.im (y i) ^ 2 := fun i => by
    rw [RCLike.norm_sq_eq_def]; ring
  have e2 : ∀ i, RCLike.re ((starRingEnd 𝕜) (y i) * y (i + 1)) = RCLike.re (y i) * RCLike.re (y (i + 1)) + RCLike.im (y i) * RCLike.im (y (i + 1)) :=
    fun i => by rw [RCLike.mul_re, RCLike.conj_re, RCLike.conj_im]; ring
  simp only [e1, e2, mul_add, sum_add_distrib] at h1 h2 ⊢
  linarith

/-- If the Krylov space does not grow any more the Ritz pair is an eigenpair. -/
theorem eigen (hH : H.IsSymmetric) (hv : v ≠ 0) (h : Ritz H v r x) (hi : (H ^ r.iters) v ∈ krySpace H v r.iters) :
    H r.vec = (r.energy : 𝕜) • r.vec := by
  obtain ⟨n, hn⟩ : ∃ n, r.iters = n + 1 := ⟨r.iters - 1, by have := h.1; omega⟩
  have hg := h.2.1
  rw [hn] at hi hg
  have hzero := kb_stop hH hv hg hi
  rw [h.H_vec, hn, mul_smul, hzero, smul_zero, add_zero]

end Ritz

end Verif.Algo
