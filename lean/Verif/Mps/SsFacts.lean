import Verif.Mps.SsNum
import Verif.Mps.VmpsUpd
/-
One-site tensors inside the chain, over `ℝ` or `ℂ`: together with an isometric neighbour a one-site tensor is a two-site block, inner products are kept
and the effective Hamiltonian of the pair becomes that of the site.
-/
namespace Verif.Mps
open Finset Verif.Algo Verif.Props

section
variable {σ 𝕜 : Type} [RCLike 𝕜] [Fintype σ] [DecidableEq σ] {l m : Nat}

/-- The block of a one-site vector and the tensor to its right. -/
noncomputable def sAddR (u : Ten σ 𝕜) (X : SiteV σ 𝕜 l m) : TwoV σ 𝕜 l u.r := WithLp.toLp 2 fun q => ∑ k : Fin m, X (q.1, q.2.1, k) * u.v q.2.2.1 k q.2.2.2

/-- Its adjoint. -/
noncomputable def sDropR (u : Ten σ 𝕜) (W : TwoV σ 𝕜 l u.r) : SiteV σ 𝕜 l m := WithLp.toLp 2 fun q => ∑ y, ∑ b : Fin u.r, star (u.v y q.2.2 b) * W (q.1, q.2.1, y, b)

omit [DecidableEq σ] in
theorem inner_sAddR (u : Ten σ 𝕜) (X : SiteV σ 𝕜 l m) (W : TwoV σ 𝕜 l u.r) : inner 𝕜 (sAddR u X) W = inner 𝕜 X (sDropR u W) := by
  rw [inner_sum, inner_sum]
  show ∑ q : Fin l × σ × σ × Fin u.r, star (∑ k : Fin m, X (q.1, q.2.1, k) * u.v q.2.2.1 k q.2.2.2) * W q =
    ∑ q : Fin l × σ × Fin m, star (X q) * ∑ y, ∑ b : Fin u.r, star (u.v y q.2.2 b) * W (q.1, q.2.1, y, b)
  simp only [star_sum, star_mul', Finset.sum_mul, Finset.mul_sum, ← Fintype.sum_prod_type']
  exact Fintype.sum_equiv (ι := (Fin l × σ × σ × Fin u.r) × Fin m) (κ := (Fin l × σ × Fin m) × σ × Fin u.r)
    ⟨fun p => ((p.1.1, p.1.2.1, p.2), p.1.2.2.1, p.1.2.2.2), fun p => ((p.1.1, p.1.2.1, p.2.1, p.2.2), p.1.2.2), fun _ => rfl, fun _ => rfl⟩ _ _
    fun p => by simp only [Equiv.coe_fn_mk]; ring

omit [DecidableEq σ] in
theorem sDropR_sAddR {u : Ten σ 𝕜} (hu : RightIso u) (hm : u.l = m) (Y : SiteV σ 𝕜 l m) : sDropR u (sAddR u Y) = Y := by
  subst hm
  ext q
  show ∑ y, ∑ b : Fin u.r, star (u.v y q.2.2 b) * ∑ k : Fin u.l, Y (q.1, q.2.1, k) * u.v y k b = Y q
  have e : ∑ y, ∑ b : Fin u.r, star (u.v y q.2.2 b) * ∑ k : Fin u.l, Y (q.1, q.2.1, k) * u.v y k b =
      ∑ k : Fin u.l, Y (q.1, q.2.1, k) * ∑ y, ∑ b : Fin u.r, u.v y k b * star (u.v y q.2.2 b) := by
    simp only [Finset.mul_sum, ← Fintype.sum_prod_type']
    exact Fintype.sum_equiv (ι := σ × Fin u.r × Fin u.l) (κ := Fin u.l × σ × Fin u.r)
      ⟨fun p => (p.2.2, p.1, p.2.1), fun p => (p.2.1, p.2.2, p.1), fun _ => rfl, fun _ => rfl⟩ _ _
      fun p => by simp only [Equiv.coe_fn_mk]; ring
  rw [e, Finset.sum_eq_single q.2.2]
  · have := hu q.2.2 q.2.2.2 q.2.2 q.2.2.2
    rw [if_pos rfl] at this
    rw [Fintype.sum_congr _ _ fun y => (Finset.sum_range fun b => u.v y q.2.2 b * star (u.v y q.2.2 b)).symm, this, mul_one]
  · intro k _ hk
    have := hu k k.2 q.2.2 q.2.2.2
    rw [if_neg (fun h => hk (Fin.ext h))] at this
    rw [Fintype.sum_congr _ _ fun y => (Finset.sum_range fun b => u.v y k b * star (u.v y q.2.2 b)).symm, this, mul_zero]
  · intro h; exact absurd (mem_univ _) h

omit [DecidableEq σ] in
theorem inner_sAddR_sAddR {u : Ten σ 𝕜} (hu : RightIso u) (hm : u.l = m) (X Y : SiteV σ 𝕜 l m) : inner 𝕜 (sAddR u X) (sAddR u Y) = inner 𝕜 X Y := by
  rw [inner_sAddR, sDropR_sAddR hu hm]

omit [DecidableEq σ] in
theorem coef_sAddR (e f : Env3 𝕜) (w1 w2 : Ten (σ × σ) 𝕜) (u : Ten σ 𝕜) (h0 : f.d0 = u.r) (h2 : f.d2 = u.r) (hw : w1.r = w2.l) (a : Nat) (x : σ) (k a' : Nat) (x' : σ) (k' : Nat) :
    effCoef1 e (siteRenv w2 f u) w1 a x k a' x' k' =
      ∑ y, ∑ b : Fin u.r, ∑ y', ∑ b' : Fin u.r, star (u.v y k b) * effCoef e f w1 w2 a x y b a' x' y' b' * u.v y' k' b' := by
  unfold effCoef1 effCoef siteRenv
  simp only [h0, h2, hw, Finset.sum_range, Finset.sum_mul, Finset.mul_sum, ← Fintype.sum_prod_type']
  exact Fintype.sum_equiv (ι := Fin e.d1 × Fin w2.l × σ × σ × Fin u.r × Fin f.d1 × Fin u.r) (κ := σ × Fin u.r × σ × Fin u.r × Fin e.d1 × Fin w2.l × Fin f.d1)
    ⟨fun (c1, c2, y, y', b, c3, b') => (y, b, y', b', c1, c2, c3), fun (y, b, y', b', c1, c2, c3) => (c1, c2, y, y', b, c3, b'), fun _ => rfl, fun _ => rfl⟩ _ _
    fun p => by simp only [Equiv.coe_fn_mk]; ring

theorem effHam_sAddR (e f : Env3 𝕜) (w1 w2 : Ten (σ × σ) 𝕜) (u : Ten σ 𝕜) (h0 : f.d0 = u.r) (h2 : f.d2 = u.r) (hw : w1.r = w2.l) (Y : SiteV σ 𝕜 l m) :
    sDropR u (effHam e f w1 w2 l u.r (sAddR u Y)) = siteHam e (siteRenv w2 f u) w1 l m Y := by
  ext q
  have e1 : ∀ p, effHam e f w1 w2 l u.r (sAddR u Y) p = ∑ p' : Fin l × σ × σ × Fin u.r, effCoef e f w1 w2 p.1 p.2.1 p.2.2.1 p.2.2.2 p'.1 p'.2.1 p'.2.2.1 p'.2.2.2 *
      ∑ k : Fin m, Y (p'.1, p'.2.1, k) * u.v p'.2.2.1 k p'.2.2.2 := fun p => by
    unfold effHam; rw [Matrix.ofLp_toLpLin]; rfl
  have e2 : siteHam e (siteRenv w2 f u) w1 l m Y q = ∑ q' : Fin l × σ × Fin m, effCoef1 e (siteRenv w2 f u) w1 q.1 q.2.1 q.2.2 q'.1 q'.2.1 q'.2.2 * Y q' := by
    unfold siteHam; rw [Matrix.ofLp_toLpLin]; rfl
  rw [e2]
  show ∑ y, ∑ b : Fin u.r, star (u.v y q.2.2 b) * effHam e f w1 w2 l u.r (sAddR u Y) (q.1, q.2.1, y, b) = _
  simp only [e1, coef_sAddR e f w1 w2 u h0 h2 hw, Finset.sum_mul, Finset.mul_sum, ← Fintype.sum_prod_type']
  exact Fintype.sum_equiv (ι := σ × Fin u.r × (Fin l × σ × σ × Fin u.r) × Fin m) (κ := (Fin l × σ × Fin m) × σ × Fin u.r × σ × Fin u.r)
    ⟨fun (y, b, (a', x', y', b'), k) => ((a', x', k), y, b, y', b'), fun ((a', x', k), y, b, y', b') => (y, b, (a', x', y', b'), k), fun _ => rfl, fun _ => rfl⟩ _ _
    fun p => by simp only [Equiv.coe_fn_mk]; ring

theorem inner_siteHamR (e f : Env3 𝕜) (w1 w2 : Ten (σ × σ) 𝕜) (u : Ten σ 𝕜) (h0 : f.d0 = u.r) (h2 : f.d2 = u.r) (hw : w1.r = w2.l) (X Y : SiteV σ 𝕜 l m) :
    inner 𝕜 (sAddR u X) (effHam e f w1 w2 l u.r (sAddR u Y)) = inner 𝕜 X (siteHam e (siteRenv w2 f u) w1 l m Y) := by
  rw [inner_sAddR, effHam_sAddR e f w1 w2 u h0 h2 hw]

/-! ### The neighbour on the left -/

/-- The block of a one-site vector and the tensor to its left. -/
noncomputable def sAddL (t : Ten σ 𝕜) (X : SiteV σ 𝕜 m l) : TwoV σ 𝕜 t.l l := WithLp.toLp 2 fun q => ∑ k : Fin m, t.v q.2.1 q.1 k * X (k, q.2.2.1, q.2.2.2)

/-- Its adjoint. -/
noncomputable def sDropL (t : Ten σ 𝕜) (W : TwoV σ 𝕜 t.l l) : SiteV σ 𝕜 m l := WithLp.toLp 2 fun q => ∑ x, ∑ a : Fin t.l, star (t.v x a q.1) * W (a, x, q.2.1, q.2.2)

omit [DecidableEq σ] in
theorem inner_sAddL (t : Ten σ 𝕜) (X : SiteV σ 𝕜 m l) (W : TwoV σ 𝕜 t.l l) : inner 𝕜 (sAddL t X) W = inner 𝕜 X (sDropL t W) := by
  rw [inner_sum, inner_sum]
  show ∑ q : Fin t.l × σ × σ × Fin l, star (∑ k : Fin m, t.v q.2.1 q.1 k * X (k, q.2.2.1, q.2.2.2)) * W q =
    ∑ q : Fin m × σ × Fin l, star (X q) * ∑ x, ∑ a : Fin t.l, star (t.v x a q.1) * W (a, x, q.2.1, q.2.2)
  simp only [star_sum, star_mul', Finset.sum_mul, Finset.mul_sum, ← Fintype.sum_prod_type']
  exact Fintype.sum_equiv (ι := (Fin t.l × σ × σ × Fin l) × Fin m) (κ := (Fin m × σ × Fin l) × σ × Fin t.l)
    ⟨fun p => ((p.2, p.1.2.2.1, p.1.2.2.2), p.1.2.1, p.1.1), fun p => ((p.2.2, p.2.1, p.1.2.1, p.1.2.2), p.1.1), fun _ => rfl, fun _ => rfl⟩ _ _
    fun p => by simp only [Equiv.coe_fn_mk]; ring

omit [DecidableEq σ] in
theorem sDropL_sAddL {t : Ten σ 𝕜} (ht : LeftIso t) (hm : t.r = m) (Y : SiteV σ 𝕜 m l) : sDropL t (sAddL t Y) = Y := by
  subst hm
  ext q
  show ∑ x, ∑ a : Fin t.l, star (t.v x a q.1) * ∑ k : Fin t.r, t.v x a k * Y (k, q.2.1, q.2.2) = Y q
  have e : ∑ x, ∑ a : Fin t.l, star (t.v x a q.1) * ∑ k : Fin t.r, t.v x a k * Y (k, q.2.1, q.2.2) =
      ∑ k : Fin t.r, Y (k, q.2.1, q.2.2) * ∑ x, ∑ a : Fin t.l, star (t.v x a q.1) * t.v x a k := by
    simp only [Finset.mul_sum, ← Fintype.sum_prod_type']
    exact Fintype.sum_equiv (ι := σ × Fin t.l × Fin t.r) (κ := Fin t.r × σ × Fin t.l)
      ⟨fun p => (p.2.2, p.1, p.2.1), fun p => (p.2.1, p.2.2, p.1), fun _ => rfl, fun _ => rfl⟩ _ _
      fun p => by simp only [Equiv.coe_fn_mk]; ring
  rw [e, Finset.sum_eq_single q.1]
  · have := ht q.1 q.1.2 q.1 q.1.2
    rw [if_pos rfl] at this
    rw [Fintype.sum_congr _ _ fun x => (Finset.sum_range fun a => star (t.v x a q.1) * t.v x a q.1).symm, this, mul_one]
  · intro k _ hk
    have := ht q.1 q.1.2 k k.2
    rw [if_neg (fun h => hk (Fin.ext h.symm))] at this
    rw [Fintype.sum_congr _ _ fun x => (Finset.sum_range fun a => star (t.v x a q.1) * t.v x a k).symm, this, mul_zero]
  · intro h; exact absurd (mem_univ _) h

omit [DecidableEq σ] in
theorem inner_sAddL_sAddL {t : Ten σ 𝕜} (ht : LeftIso t) (hm : t.r = m) (X Y : SiteV σ 𝕜 m l) : inner 𝕜 (sAddL t X) (sAddL t Y) = inner 𝕜 X Y := by
  rw [inner_sAddL, sDropL_sAddL ht hm]

omit [DecidableEq σ] in
theorem coef_sAddL (e f : Env3 𝕜) (w1 w2 : Ten (σ × σ) 𝕜) (t : Ten σ 𝕜) (h0 : e.d0 = t.l) (h2 : e.d2 = t.l) (k : Nat) (y : σ) (b k' : Nat) (y' : σ) (b' : Nat) :
    effCoef1 (siteLenv w1 e t) f w2 k y b k' y' b' =
      ∑ x, ∑ a : Fin t.l, ∑ x', ∑ a' : Fin t.l, star (t.v x a k) * effCoef e f w1 w2 a x y b a' x' y' b' * t.v x' a' k' := by
  unfold effCoef1 effCoef siteLenv
  simp only [h0, h2, Finset.sum_range, Finset.sum_mul, Finset.mul_sum, ← Fintype.sum_prod_type']
  exact Fintype.sum_equiv (ι := Fin w1.r × Fin f.d1 × σ × σ × Fin t.l × Fin e.d1 × Fin t.l) (κ := σ × Fin t.l × σ × Fin t.l × Fin e.d1 × Fin w1.r × Fin f.d1)
    ⟨fun (c2, c3, x, x', a, c1, a') => (x, a, x', a', c1, c2, c3), fun (x, a, x', a', c1, c2, c3) => (c2, c3, x, x', a, c1, a'), fun _ => rfl, fun _ => rfl⟩ _ _
    fun p => by simp only [Equiv.coe_fn_mk]; ring

theorem effHam_sAddL (e f : Env3 𝕜) (w1 w2 : Ten (σ × σ) 𝕜) (t : Ten σ 𝕜) (h0 : e.d0 = t.l) (h2 : e.d2 = t.l) (Y : SiteV σ 𝕜 m l) :
    sDropL t (effHam e f w1 w2 t.l l (sAddL t Y)) = siteHam (siteLenv w1 e t) f w2 m l Y := by
  ext q
  have e1 : ∀ p, effHam e f w1 w2 t.l l (sAddL t Y) p = ∑ p' : Fin t.l × σ × σ × Fin l, effCoef e f w1 w2 p.1 p.2.1 p.2.2.1 p.2.2.2 p'.1 p'.2.1 p'.2.2.1 p'.2.2.2 *
      ∑ k : Fin m, t.v p'.2.1 p'.1 k * Y (k, p'.2.2.1, p'.2.2.2) := fun p => by
    unfold effHam; rw [Matrix.ofLp_toLpLin]; rfl
  have e2 : siteHam (siteLenv w1 e t) f w2 m l Y q = ∑ q' : Fin m × σ × Fin l, effCoef1 (siteLenv w1 e t) f w2 q.1 q.2.1 q.2.2 q'.1 q'.2.1 q'.2.2 * Y q' := by
    unfold siteHam; rw [Matrix.ofLp_toLpLin]; rfl
  rw [e2]
  show ∑ x, ∑ a : Fin t.l, star (t.v x a q.1) * effHam e f w1 w2 t.l l (sAddL t Y) (a, x, q.2.1, q.2.2) = _
  simp only [e1, coef_sAddL e f w1 w2 t h0 h2, Finset.sum_mul, Finset.mul_sum, ← Fintype.sum_prod_type']
  exact Fintype.sum_equiv (ι := σ × Fin t.l × (Fin t.l × σ × σ × Fin l) × Fin m) (κ := (Fin m × σ × Fin l) × σ × Fin t.l × σ × Fin t.l)
    ⟨fun (x, a, (a', x', y', b'), k) => ((k, y', b'), x, a, x', a'), fun ((k, y', b'), x, a, x', a') => (x, a, (a', x', y', b'), k), fun _ => rfl, fun _ => rfl⟩ _ _
    fun p => by simp only [Equiv.coe_fn_mk]; ring

theorem inner_siteHamL (e f : Env3 𝕜) (w1 w2 : Ten (σ × σ) 𝕜) (t : Ten σ 𝕜) (h0 : e.d0 = t.l) (h2 : e.d2 = t.l) (X Y : SiteV σ 𝕜 m l) :
    inner 𝕜 (sAddL t X) (effHam e f w1 w2 t.l l (sAddL t Y)) = inner 𝕜 X (siteHam (siteLenv w1 e t) f w2 m l Y) := by
  rw [inner_sAddL, effHam_sAddL e f w1 w2 t h0 h2]

end

/-! ### A site of the chain -/

section
variable {σ 𝕜 : Type} [RCLike 𝕜] [Fintype σ] [DecidableEq σ] {N i : Nat} {t : Nat → Ten σ 𝕜}

theorem embed_sAddR (ht : Closed N t) (hi : i + 1 < N) : embed N i t (ofV (sAddR (t (i + 1)) (toS (t i)))) = stateV N t := by
  rw [← embed_merge ht hi]
  refine embed_congr rfl rfl fun x y a b ha hb => ?_
  have ha' : a < (t i).l := ha
  have hb' : b < (t (i + 1)).r := hb
  show (if h : a < (t i).l ∧ b < (t (i + 1)).r then ∑ k : Fin (t i).r, (t i).v x a k * (t (i + 1)).v y k b else 0) = ∑ k ∈ range (t i).r, (t i).v x a k * (t (i + 1)).v y k b
  rw [dif_pos (show a < (t i).l ∧ b < (t (i + 1)).r from ⟨ha', hb'⟩), Finset.sum_range]

theorem embed_sAddL (ht : Closed N t) (hi : i + 1 < N) : embed N i t (ofV (sAddL (t i) (toS (t (i + 1))))) = stateV N t := by
  rw [← embed_merge ht hi]
  refine embed_congr rfl rfl fun x y a b ha hb => ?_
  have ha' : a < (t i).l := ha
  have hb' : b < (t (i + 1)).r := hb
  show (if h : a < (t i).l ∧ b < (t (i + 1)).r then ∑ k : Fin (t (i + 1)).l, (t i).v x a k * (t (i + 1)).v y k b else 0) = ∑ k ∈ range (t i).r, (t i).v x a k * (t (i + 1)).v y k b
  rw [dif_pos (show a < (t i).l ∧ b < (t (i + 1)).r from ⟨ha', hb'⟩), ht.2.2 i hi, Finset.sum_range]

/-- What the Lanczos solver does to a space that is embedded isometrically in the states of the chain, with a local operator that has the matrix elements of `H`. -/
theorem lanczos_emb {ι : Type} [Fintype ι] (H : Matrix (Fin N → σ) (Fin N → σ) 𝕜) (hH : H.IsHermitian) (ε : EuclideanSpace 𝕜 ι → ChainV σ 𝕜 N)
    (h : EuclideanSpace 𝕜 ι →ₗ[𝕜] EuclideanSpace 𝕜 ι) (hi : ∀ X Y, inner 𝕜 (ε X) (ε Y) = inner 𝕜 X Y)
    (he : ∀ X Y, inner 𝕜 (ε X) (Matrix.toEuclideanLin H (ε Y)) = inner 𝕜 X (h Y)) {v : EuclideanSpace 𝕜 ι} (hv : ε v ≠ 0) {tri : TriSolver} (ht : Solves tri)
    {K : Nat} (hK : 2 ≤ K) (dim : Nat) (tol : ℝ) :
    ∃ r, gsSolve h v tri K dim tol = some r ∧ ‖r.vec‖ = 1 ∧ ‖ε r.vec‖ = 1 ∧ inner 𝕜 (ε r.vec) (Matrix.toEuclideanLin H (ε r.vec)) = (r.energy : 𝕜) ∧
      r.energy * ‖ε v‖ ^ 2 ≤ expect H (ε v) := by
  have hn : ∀ X, ‖ε X‖ = ‖X‖ := fun X => by
    have h1 := inner_self_eq_norm_sq_to_K (𝕜 := 𝕜) (ε X)
    rw [hi, inner_self_eq_norm_sq_to_K] at h1
    have h2 : ‖X‖ ^ 2 = ‖ε X‖ ^ 2 := by exact_mod_cast h1
    exact ((sq_eq_sq₀ (norm_nonneg _) (norm_nonneg _)).mp h2).symm
  have hs : h.IsSymmetric := fun X Y => by
    have hS : (Matrix.toEuclideanLin H).IsSymmetric := Matrix.isSymmetric_toEuclideanLin_iff.mpr hH
    rw [← he X Y, ← hS, ← inner_conj_symm, ← he Y X, inner_conj_symm]
  have hv0 : v ≠ 0 := by
    intro h0
    apply hv
    have := hn v
    rw [h0, norm_zero] at this
    rw [h0]; exact norm_eq_zero.mp this
  obtain ⟨r, h1, h2, -, h3, -, h4, h5, -⟩ := C57_lanczos hs hv0 ht hK dim tol
  refine ⟨r, h1, h3, (hn _).trans h3, (he _ _).trans h4, ?_⟩
  have h6 := h5 v (Submodule.subset_span ⟨0, h2, rfl⟩)
  rw [Mps.expect, he v v, hn v]
  exact h6

end
end Verif.Mps
