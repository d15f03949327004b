import Verif.Algo.Expmv
import Verif.Algo.LanczosNumLoop
import Verif.Algo.TriExists
/-
Facts about the exponential solver.
-/
namespace Verif.Algo
open Finset

variable {V : Type} [NormedAddCommGroup V] [InnerProductSpace ℂ V] {H : V →ₗ[ℂ] V} {v : V}

theorem combineC_eq (n : Nat) (x : Nat → ℂ) (bs : Nat → V) : combineC n x bs = ∑ i ∈ range n, x i • bs i := by
  induction n with
  | zero => simp [combineC]
  | succ n ih =>
    rw [sum_range_succ, ← ih]
    simp [combineC, List.range_succ]

/-- The phase of an eigenvalue. -/
noncomputable def phase (δ E : ℝ) : ℂ := Complex.exp ((-δ * E : ℝ) * Complex.I)

theorem norm_phase (δ E : ℝ) : ‖phase δ E‖ = 1 := Complex.norm_exp_ofReal_mul_I _

/-- The Ritz vectors. -/
noncomputable def ritz (H : V →ₗ[ℂ] V) (v : V) (n : Nat) (z : Nat → Nat → ℝ) (j : Nat) : V :=
  ∑ i ∈ range n, ((z i j : ℝ) : ℂ) • kb H v i

/-- The result is the evolved initial vector, expressed by a spectral decomposition of the tridiagonal matrix. -/
def ExpOk (H : V →ₗ[ℂ] V) (v : V) (δ scale : ℝ) (r : ExpRes V) : Prop :=
  1 ≤ r.iters ∧ KGood H v r.iters ∧ ∃ d z, TriEig (ka H v) (fun i => kβ H v (i + 1)) r.iters d z ∧
    r.vec = (scale : ℂ) • ∑ j ∈ range r.iters, (phase δ (d j) * (z 0 j : ℂ)) • ritz H v r.iters z j

theorem triEig_one (a b : Nat → ℝ) : TriEig a b 1 (fun _ => a 0) (fun _ _ => 1) where
  eig i j hi hj := by
    obtain rfl : i = 0 := by omega
    simp
  cols j k hj hk := by
    rw [if_pos (by omega)]; simp
  rows j k hj hk := by
    rw [if_pos (by omega)]; simp

theorem comb_vec (eig : EigSolver) (a b : Nat → ℝ) (n : Nat) (δ scale : ℝ) (res : Nat → ℂ) :
    combineC n (fun i => (scale : ℂ) * expme1 eig a b n δ res i) (kb H v) =
      (scale : ℂ) • ∑ j ∈ range n, (phase δ ((eig a b n).1 j) * ((eig a b n).2 0 j : ℂ)) • ritz H v n (eig a b n).2 j := by
  rw [combineC_eq]
  simp only [mul_smul, ← smul_sum]
  congr 1
  simp only [ritz, smul_sum]
  rw [sum_comm]
  refine sum_congr rfl fun i hi => ?_
  simp only [expme1, if_pos (mem_range.mp hi)]
  rw [sum_smul]
  refine sum_congr rfl fun j _ => ?_
  simp only [smul_smul, phase]
  congr 1
  ring

theorem expLoop_ok (eig : EigSolver) (he : ∀ a b n, 1 ≤ n → TriEig a b n (eig a b n).1 (eig a b n).2) (δ scale : ℝ) (K dim : Nat) (err : ℝ) :
    ∀ fuel m comb last, m + 1 < K → K ≤ m + 1 + fuel → KGood H v (m + 1) →
      ∃ r, expLoop H v eig δ scale K dim err fuel m comb last = some r ∧ ExpOk H v δ scale r ∧ r.iters ≤ K
  | 0, m, _, _, h1, h2, _ => by omega
  | fuel + 1, m, comb, last, h1, h2, hg => by
    by_cases hz : kβ H v (m + 1) = 0
    · have hz' : (krylov H v (m + 1)).β = 0 := hz
      by_cases hm : m = 0
      · subst hm
        refine ⟨⟨1, ((scale : ℂ) * phase δ (ka H v 0)) • kb H v 0⟩, ?_, ⟨Nat.le_refl _, hg, _, _, triEig_one _ _, ?_⟩, by show 1 ≤ K; omega⟩
        · unfold expLoop
          simp only [hz', if_true, Nat.zero_add, kb, phase, ka]
        · simp [ritz, smul_smul]
      · refine ⟨⟨m + 1, combineC (m + 1) (fun i => (scale : ℂ) * expme1 eig (ka H v) (fun i => kβ H v (i + 1)) (m + 1) δ comb i) (kb H v)⟩,
          ?_, ⟨?_, ?_, _, _, he _ _ (m + 1) (by omega), comb_vec eig _ _ (m + 1) δ scale comb⟩, ?_⟩
        · unfold expLoop
          simp only [hz', if_true, if_neg (show ¬ m + 1 = 1 by omega)]
          rfl
        · show 1 ≤ m + 1; omega
        · exact hg
        · show m + 1 ≤ K; omega
    · have hz' : ¬ (krylov H v (m + 1)).β = 0 := hz
      have hg' : KGood H v (m + 2) := fun j a b => if hj : j = m + 1 then hj ▸ hz else hg j a (by omega)
      unfold expLoop
      simp only [if_neg hz']
      split
      · exact ⟨_, rfl, ⟨by show 1 ≤ m + 2; omega, hg', _, _, he _ _ (m + 2) (by omega), comb_vec eig _ _ (m + 2) δ scale comb⟩,
          by show m + 2 ≤ K; omega⟩
      · rename_i hc
        refine expLoop_ok eig he δ scale K dim err fuel (m + 1) _ _ ?_ (by omega) hg'
        have : ¬ m + 1 = K - 1 := fun h => hc (Or.inr (Or.inr h))
        omega

section Ritz
variable {n : Nat} {d : Nat → ℝ} {z : Nat → Nat → ℝ}

theorem ritz_ortho (hH : H.IsSymmetric) (hv : v ≠ 0) (hg : KGood H v n) (hz : TriEig (ka H v) (fun i => kβ H v (i + 1)) n d z) {j k : Nat}
    (hj : j < n) (hk : k < n) : inner ℂ (ritz H v n z j) (ritz H v n z k) = if j = k then (1 : ℂ) else 0 := by
  rw [ritz, ritz, inner_sum_kb hH hv hg]
  simp only [Complex.conj_ofReal, ← Complex.ofReal_mul, ← Complex.ofReal_sum]
  rw [hz.cols j k hj hk]
  split <;> simp

theorem ritz_H (hz : TriEig (ka H v) (fun i => kβ H v (i + 1)) n d z) (hn : 1 ≤ n) {j : Nat} (hj : j < n) :
    H (ritz H v n z j) = (d j : ℂ) • ritz H v n z j + ((z (n - 1) j : ℂ) * (kβ H v n : ℂ)) • kb H v n := by
  obtain ⟨m, rfl⟩ : ∃ m, n = m + 1 := ⟨n - 1, by omega⟩
  exact H_comb (𝕜 := ℂ) (fun i hi => hz.eig i j hi hj)

/-- The initial vector in terms of the Ritz vectors. -/
theorem kb_zero_ritz (hz : TriEig (ka H v) (fun i => kβ H v (i + 1)) n d z) (hn : 1 ≤ n) :
    kb H v 0 = ∑ j ∈ range n, ((z 0 j : ℝ) : ℂ) • ritz H v n z j := by
  simp only [ritz, smul_sum, smul_smul]
  rw [sum_comm]
  simp only [← sum_smul, ← Complex.ofReal_mul, ← Complex.ofReal_sum]
  rw [sum_eq_single 0]
  · rw [hz.rows 0 0 hn hn]; simp
  · intro i hi hne
    rw [hz.rows 0 i hn (mem_range.mp hi), if_neg (Ne.symm hne)]; simp
  · intro h; exact absurd (mem_range.mpr hn) h

theorem inner_comb (hH : H.IsSymmetric) (hv : v ≠ 0) (hg : KGood H v n) (hz : TriEig (ka H v) (fun i => kβ H v (i + 1)) n d z) (c e : Nat → ℂ) :
    inner ℂ (∑ j ∈ range n, c j • ritz H v n z j) (∑ j ∈ range n, e j • ritz H v n z j) = ∑ j ∈ range n, (starRingEnd ℂ) (c j) * e j := by
  rw [sum_inner]
  refine sum_congr rfl fun i hi => ?_
  rw [inner_sum, sum_eq_single i]
  · rw [inner_smul_left, inner_smul_right, ritz_ortho hH hv hg hz (mem_range.mp hi) (mem_range.mp hi), if_pos rfl, mul_one]
  · intro j hj hne
    rw [inner_smul_left, inner_smul_right, ritz_ortho hH hv hg hz (mem_range.mp hi) (mem_range.mp hj), if_neg (Ne.symm hne), mul_zero, mul_zero]
  · intro h; exact absurd hi h

theorem ritz_mem (j : Nat) : ritz H v n z j ∈ kspan H v n :=
  Submodule.sum_mem _ fun i hi => Submodule.smul_mem _ _ (kb_mem (mem_range.mp hi))

theorem quad_comb (hH : H.IsSymmetric) (hv : v ≠ 0) (hg : KGood H v n) (hz : TriEig (ka H v) (fun i => kβ H v (i + 1)) n d z) (hn : 1 ≤ n) (c : Nat → ℂ) :
    inner ℂ (∑ j ∈ range n, c j • ritz H v n z j) (H (∑ j ∈ range n, c j • ritz H v n z j)) =
      ((∑ j ∈ range n, d j * ‖c j‖ ^ 2 : ℝ) : ℂ) := by
  set w := ∑ j ∈ range n, c j • ritz H v n z j with hw
  have h1 : H w = ∑ j ∈ range n, (d j * c j) • ritz H v n z j + (∑ j ∈ range n, c j * (z (n - 1) j : ℂ)) • ((kβ H v n : ℂ) • kb H v n) := by
    rw [hw, map_sum, sum_smul, ← sum_add_distrib]
    refine sum_congr rfl fun j hj => ?_
    rw [map_smul, ritz_H hz hn (mem_range.mp hj), smul_add, smul_smul, smul_smul, smul_smul, mul_comm (c j), mul_assoc]
  have h2 : inner ℂ w ((kβ H v n : ℂ) • kb H v n) = 0 := by
    have hm : w ∈ kspan H v n := Submodule.sum_mem _ fun j _ => Submodule.smul_mem _ _ (ritz_mem j)
    obtain ⟨y, hy⟩ := mem_kspan hm
    rw [hy, sum_inner]
    refine sum_eq_zero fun i hi => ?_
    have := hg.next hH hv (mem_range.mp hi)
    rw [inner_smul_left, inner_smul_right]
    rw [show (kβ H v n : ℂ) * inner ℂ (kb H v i) (kb H v n) = 0 from this, mul_zero]
  rw [h1, inner_add_right, inner_smul_right, h2, mul_zero, add_zero, hw, inner_comb hH hv hg hz, Complex.ofReal_sum]
  refine sum_congr rfl fun j _ => ?_
  rw [mul_left_comm, ← Complex.normSq_eq_conj_mul_self, Complex.normSq_eq_norm_sq]
  push_cast; rfl

end Ritz

theorem v_eq_kb : v = (‖v‖ : ℂ) • kb H v 0 := (norm_smul_normalize (𝕜 := ℂ) v).symm

/-- The exponential of a bounded operator on an eigenvector. -/
theorem exp_eigen [CompleteSpace V] (A : V →L[ℂ] V) {u : V} {c : ℂ} (h : A u = c • u) : NormedSpace.exp A u = Complex.exp c • u := by
  have hs := NormedSpace.exp_series_hasSum_exp' (𝕂 := ℂ) A
  have h1 := (ContinuousLinearMap.apply ℂ V u).hasSum hs
  have hp : ∀ n : Nat, (A ^ n) u = c ^ n • u := by
    intro n
    induction n with
    | zero => simp
    | succ n ih =>
      rw [pow_succ', mul_apply_eq_comp, ih, map_smul, h, smul_smul, pow_succ]
  have h2 := (NormedSpace.exp_series_hasSum_exp' (𝕂 := ℂ) c).smul_const u
  rw [Complex.exp_eq_exp_ℂ]
  refine h1.unique ?_
  convert h2 using 2 with n
  simp [hp n, smul_smul]

/-- A spectral decomposition exists. -/
theorem exists_triEig (a b : Nat → ℝ) (n : Nat) : ∃ p : (Nat → ℝ) × (Nat → Nat → ℝ), TriEig a b n p.1 p.2 := by
  have hT := triMap_symm a b n
  have hd : Module.finrank ℝ (EuclideanSpace ℝ (Fin n)) = n := finrank_euclideanSpace_fin
  let u := hT.eigenvectorBasis hd
  let U : Nat → EuclideanSpace ℝ (Fin n) := fun j => if h : j < n then u ⟨j, h⟩ else 0
  let D : Nat → ℝ := fun j => if h : j < n then hT.eigenvalues hd ⟨j, h⟩ else 0
  have hU : ∀ j (h : j < n), U j = u ⟨j, h⟩ := fun j h => dif_pos h
  have hD : ∀ j (h : j < n), D j = hT.eigenvalues hd ⟨j, h⟩ := fun j h => dif_pos h
  refine ⟨(D, fun i j => Verif.Algo.ext (U j) i), ?_, ?_, ?_⟩
  · intro i j hi hj
    simp only [hU j hj, hD j hj]
    have h := hT.apply_eigenvectorBasis hd ⟨j, hj⟩
    have h2 : Verif.Algo.ext (triMap a b n (u ⟨j, hj⟩)) i = Verif.Algo.ext ((hT.eigenvalues hd ⟨j, hj⟩ : ℝ) • u ⟨j, hj⟩) i := by
      rw [show triMap a b n (u ⟨j, hj⟩) = _ from h]; rfl
    rw [ext_triMap _ _ _ _ hi] at h2
    have h3 : Verif.Algo.ext ((hT.eigenvalues hd ⟨j, hj⟩ : ℝ) • u ⟨j, hj⟩) i = hT.eigenvalues hd ⟨j, hj⟩ * Verif.Algo.ext (u ⟨j, hj⟩) i := by
      simp [Verif.Algo.ext, hi]
    rw [h3] at h2
    exact h2
  · intro j k hj hk
    simp only [hU j hj, hU k hk]
    rw [← inner_ext, real_inner_comm, orthonormal_iff_ite.mp u.orthonormal]
    simp [Fin.ext_iff]
  · intro i k hi hk
    let ei : EuclideanSpace ℝ (Fin n) := EuclideanSpace.single ⟨i, hi⟩ 1
    let ek : EuclideanSpace ℝ (Fin n) := EuclideanSpace.single ⟨k, hk⟩ 1
    have h := u.sum_inner_mul_inner ei ek
    have h1 : inner ℝ ei ek = if i = k then (1 : ℝ) else 0 := by
      simp only [ei, ek, EuclideanSpace.inner_single_left, map_one, one_mul]
      simp [Fin.ext_iff]
    rw [h1] at h
    rw [← h, ← Fin.sum_univ_eq_sum_range (fun j => Verif.Algo.ext (U j) i * Verif.Algo.ext (U j) k) n]
    refine sum_congr rfl fun j _ => ?_
    rw [hU j.1 j.2]
    simp [Verif.Algo.ext, hi, hk, ei, ek, EuclideanSpace.inner_single_left, EuclideanSpace.inner_single_right]

end Verif.Algo
