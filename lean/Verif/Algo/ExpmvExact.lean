import Verif.Props.Expmv
import Mathlib.Analysis.InnerProductSpace.Projection.Basic
import Mathlib.LinearAlgebra.Dimension.Constructions
import Mathlib.Analysis.InnerProductSpace.PiL2
/-
The solver for `exp(-i δ H) v` when its tolerance never applies and its iteration limit exceeds the dimension: it stops at an invariant Krylov space. And a
restricted operator as a projected one.
-/
namespace Verif.Algo
open Finset Verif.Props

section
variable {V : Type} [NormedAddCommGroup V] [InnerProductSpace ℂ V] {H : V →ₗ[ℂ] V} {v : V}

theorem kGood_le [FiniteDimensional ℂ V] (hH : H.IsSymmetric) (hv : v ≠ 0) {n : Nat} (hg : KGood H v n) : n ≤ Module.finrank ℂ V := by
  have ho : Orthonormal ℂ (fun i : Fin n => kb H v i) := by
    rw [orthonormal_iff_ite]
    intro i j
    rw [KGood.ortho hH hv hg i.2 j.2]
    simp only [Fin.ext_iff]
  simpa using ho.linearIndependent.fintype_card_le_finrank

/-- The loop ends with a vanishing residual. -/
theorem expLoop_inv [FiniteDimensional ℂ V] (hH : H.IsSymmetric) (hv : v ≠ 0) (eig : EigSolver) (he : ∀ a b n, 1 ≤ n → TriEig a b n (eig a b n).1 (eig a b n).2)
    (δ scale : ℝ) {K dim : Nat} {err : ℝ} (herr : err ≤ 0) (hd : Module.finrank ℂ V ≤ dim) (hK : dim < K) :
    ∀ fuel m comb last, m + 1 < K → K ≤ m + 1 + fuel → KGood H v (m + 1) →
      ∃ r, expLoop H v eig δ scale K dim err fuel m comb last = some r ∧ kβ H v r.iters = 0
  | 0, m, _, _, h1, h2, _ => by omega
  | fuel + 1, m, comb, last, h1, h2, hg => by
    by_cases hz : kβ H v (m + 1) = 0
    · have hz' : (krylov H v (m + 1)).β = 0 := hz
      unfold expLoop
      simp only [hz', if_true]
      split
      · exact ⟨_, rfl, hz⟩
      · exact ⟨_, rfl, hz⟩
    · have hz' : ¬ (krylov H v (m + 1)).β = 0 := hz
      have hg' : KGood H v (m + 2) := fun j a b => if hj : j = m + 1 then hj ▸ hz else hg j a (by omega)
      have hle := kGood_le hH hv hg'
      unfold expLoop
      simp only [if_neg hz']
      rw [if_neg]
      · exact expLoop_inv hH hv eig he δ scale herr hd hK fuel (m + 1) _ _ (by omega) (by omega) hg'
      · rintro (h | h | h)
        · exact absurd (lt_of_lt_of_le h herr) (not_lt.mpr (Real.sqrt_nonneg _))
        · omega
        · omega

theorem pow_mem_of_stop (hv : v ≠ 0) {n : Nat} (hn : 1 ≤ n) (h : kβ H v n = 0) : (H ^ n) v ∈ krySpace H v n := by
  obtain ⟨m, rfl⟩ : ∃ m, n = m + 1 := ⟨n - 1, by omega⟩
  rw [← kspan_eq_kry hv]
  have hk : ∀ w ∈ kspan H v (m + 1), H w ∈ kspan H v (m + 1) := by
    intro w hw
    induction hw using Submodule.span_induction with
    | mem x hx =>
      obtain ⟨i, hi, rfl⟩ := hx
      have hi : i < m + 1 := hi
      show H (kb H v i) ∈ _
      rw [krec]
      refine Submodule.add_mem _ (Submodule.add_mem _ ?_ (Submodule.smul_mem _ _ (kb_mem hi))) ?_
      · by_cases him : i = m
        · subst him; rw [h]; simp
        · exact Submodule.smul_mem _ _ (kb_mem (by omega))
      · split
        · exact Submodule.zero_mem _
        · exact Submodule.smul_mem _ _ (kb_mem (by omega))
    | zero => rw [map_zero]; exact Submodule.zero_mem _
    | add x y _ _ hx hy => rw [map_add]; exact Submodule.add_mem _ hx hy
    | smul a x _ hx => rw [map_smul]; exact Submodule.smul_mem _ _ hx
  have : ∀ i, (H ^ i) v ∈ kspan H v (m + 1) := by
    intro i
    induction i with
    | zero => exact kspan_mono (by omega) (pow_mem_kspan hv 0)
    | succ i ih => rw [pow_succ', Module.End.mul_apply]; exact hk _ ih
  exact this _

end

/-! ### An operator on a subspace -/

section
variable {V W : Type} [NormedAddCommGroup V] [InnerProductSpace ℂ V] [NormedAddCommGroup W] [InnerProductSpace ℂ W]

/-- `h` is the operator `H` on the subspace that `ι` embeds. -/
structure Restr (H : V →ₗ[ℂ] V) (h : W →ₗ[ℂ] W) (ι : W →ₗ[ℂ] V) : Prop where
  iso : ∀ x y, inner ℂ (ι x) (ι y) = inner ℂ x y
  elem : ∀ x y, inner ℂ (ι x) (H (ι y)) = inner ℂ x (h y)

variable {H : V →ₗ[ℂ] V} {h : W →ₗ[ℂ] W} {ι : W →ₗ[ℂ] V}

theorem Restr.norm (R : Restr H h ι) (x : W) : ‖ι x‖ = ‖x‖ := by
  have e := R.iso x x
  rw [inner_self_eq_norm_sq_to_K, inner_self_eq_norm_sq_to_K] at e
  have e' : ‖ι x‖ ^ 2 = ‖x‖ ^ 2 := by exact_mod_cast e
  exact (pow_left_inj₀ (norm_nonneg _) (norm_nonneg _) (by norm_num)).mp e'

theorem Restr.symm (R : Restr H h ι) (hH : H.IsSymmetric) : h.IsSymmetric := by
  intro x y
  rw [← R.elem x y, ← hH, ← inner_conj_symm, ← R.elem y x, inner_conj_symm]

/-- The projected operator on an eigenvector of `h`. -/
theorem Restr.eigen [FiniteDimensional ℂ V] (R : Restr H h ι) {u : W} {d : ℂ} (hu : h u = d • u) :
    ((LinearMap.range ι).starProjection ∘L LinearMap.toContinuousLinearMap H ∘L (LinearMap.range ι).starProjection) (ι u) = d • ι u := by
  have hm : ι u ∈ LinearMap.range ι := ⟨u, rfl⟩
  show (LinearMap.range ι).starProjection (H ((LinearMap.range ι).starProjection (ι u))) = _
  rw [Submodule.starProjection_eq_self_iff.mpr hm]
  refine Submodule.eq_starProjection_of_mem_of_inner_eq_zero (Submodule.smul_mem _ _ hm) ?_
  rintro _ ⟨x, rfl⟩
  rw [← inner_conj_symm, inner_sub_right, R.elem, hu, inner_smul_right, inner_smul_right, R.iso, sub_self, map_zero]

end
end Verif.Algo
