import Verif.Mps.TdvpNum
import Verif.Mps.VmpsUpd
/-
One-site tensors inside the chain: with a right isometry next to it, a one-site tensor is a two-site block, inner products are kept and the effective Hamiltonian of
the pair becomes that of the site.
-/
namespace Verif.Mps
open Finset

section
variable {σ : Type} [Fintype σ] [DecidableEq σ] {l m : Nat}

/-- The block of a one-site vector and the tensor to its right. -/
noncomputable def addR (u : Ten σ ℂ) (X : OneV σ l m) : TwoV σ ℂ l u.r := WithLp.toLp 2 fun q => ∑ k : Fin m, X (q.1, q.2.1, k) * u.v q.2.2.1 k q.2.2.2

/-- Its adjoint. -/
noncomputable def dropR (u : Ten σ ℂ) (W : TwoV σ ℂ l u.r) : OneV σ l m := WithLp.toLp 2 fun q => ∑ y, ∑ b : Fin u.r, star (u.v y q.2.2 b) * W (q.1, q.2.1, y, b)

omit [DecidableEq σ] in
theorem inner_addR (u : Ten σ ℂ) (X : OneV σ l m) (W : TwoV σ ℂ l u.r) : inner ℂ (addR u X) W = inner ℂ X (dropR u W) := by
  rw [inner_sum, inner_sum]
  show ∑ q : Fin l × σ × σ × Fin u.r, star (∑ k : Fin m, X (q.1, q.2.1, k) * u.v q.2.2.1 k q.2.2.2) * W q =
    ∑ q : Fin l × σ × Fin m, star (X q) * ∑ y, ∑ b : Fin u.r, star (u.v y q.2.2 b) * W (q.1, q.2.1, y, b)
  simp only [star_sum, star_mul', Finset.sum_mul, Finset.mul_sum, ← Fintype.sum_prod_type']
  exact Fintype.sum_equiv (ι := (Fin l × σ × σ × Fin u.r) × Fin m) (κ := (Fin l × σ × Fin m) × σ × Fin u.r)
    ⟨fun p => ((p.1.1, p.1.2.1, p.2), p.1.2.2.1, p.1.2.2.2), fun p => ((p.1.1, p.1.2.1, p.2.1, p.2.2), p.1.2.2), fun _ => rfl, fun _ => rfl⟩ _ _
    fun p => by simp only [Equiv.coe_fn_mk]; ring

omit [DecidableEq σ] in
theorem dropR_addR {u : Ten σ ℂ} (hu : RightIso u) (hm : u.l = m) (Y : OneV σ l m) : dropR u (addR u Y) = Y := by
  subst hm
  ext q
  show ∑ y, ∑ b : Fin u.r, star (u.v y q.2.2 b) * ∑ k : Fin u.l, Y (q.1, q.2.1, k) * u.v y k b = Y q
  have e : ∑ y, ∑ b : Fin u.r, star (u.v y q.2.2 b) * ∑ k : Fin u.l, Y (q.1, q.2.1, k) * u.v y k b =
      ∑ k : Fin u.l, Y (q.1, q.2.1, k) * ∑ y, ∑ b : Fin u.r, u.v y k b * star (u.v y q.2.2 b) := by
    simp only [Finset.mul_sum, ← Fintype.sum_prod_type']
    exact Fintype.sum_equiv (ι := σ × Fin u.r × Fin u.l) (κ := Fin u.l × σ × Fin u.r)
      ⟨fun p => (p.2.2, p.1, p.2.1), fun p => (p.2.1, p.2.2, p.1), fun _ => rfl, fun _ => rfl⟩ _ _
      fun p => by simp only [Equiv.coe_fn_mk]; ring
  rw [e, Finset.sum_eq_single q.2.2]
  · have := hu q.2.2 q.2.2.2 q.2.2 q.2.2.2
    rw [if_pos rfl] at this
    rw [Fintype.sum_congr _ _ fun y => (Finset.sum_range fun b => u.v y q.2.2 b * star (u.v y q.2.2 b)).symm, this, mul_one]
  · intro k _ hk
    have := hu k k.2 q.2.2 q.2.2.2
    rw [if_neg (fun h => hk (Fin.ext h))] at this
    rw [Fintype.sum_congr _ _ fun y => (Finset.sum_range fun b => u.v y k b * star (u.v y q.2.2 b)).symm, this, mul_zero]
  · intro h; exact absurd (mem_univ _) h

omit [DecidableEq σ] in
theorem inner_addR_addR {u : Ten σ ℂ} (hu : RightIso u) (hm : u.l = m) (X Y : OneV σ l m) : inner ℂ (addR u X) (addR u Y) = inner ℂ X Y := by
  rw [inner_addR, dropR_addR hu hm]

omit [DecidableEq σ] in
theorem coef_addR (e f : Env3 ℂ) (w1 w2 : Ten (σ × σ) ℂ) (u : Ten σ ℂ) (h0 : f.d0 = u.r) (h2 : f.d2 = u.r) (hw : w1.r = w2.l) (a : Nat) (x : σ) (k a' : Nat) (x' : σ) (k' : Nat) :
    effCoef1 e (siteRenv w2 f u) w1 a x k a' x' k' =
      ∑ y, ∑ b : Fin u.r, ∑ y', ∑ b' : Fin u.r, star (u.v y k b) * effCoef e f w1 w2 a x y b a' x' y' b' * u.v y' k' b' := by
  unfold effCoef1 effCoef siteRenv
  simp only [h0, h2, hw, Finset.sum_range, Finset.sum_mul, Finset.mul_sum, ← Fintype.sum_prod_type']
  exact Fintype.sum_equiv (ι := Fin e.d1 × Fin w2.l × σ × σ × Fin u.r × Fin f.d1 × Fin u.r) (κ := σ × Fin u.r × σ × Fin u.r × Fin e.d1 × Fin w2.l × Fin f.d1)
    ⟨fun (c1, c2, y, y', b, c3, b') => (y, b, y', b', c1, c2, c3), fun (y, b, y', b', c1, c2, c3) => (c1, c2, y, y', b, c3, b'), fun _ => rfl, fun _ => rfl⟩ _ _
    fun p => by simp only [Equiv.coe_fn_mk]; ring

theorem effHam_addR (e f : Env3 ℂ) (w1 w2 : Ten (σ × σ) ℂ) (u : Ten σ ℂ) (h0 : f.d0 = u.r) (h2 : f.d2 = u.r) (hw : w1.r = w2.l) (Y : OneV σ l m) :
    dropR u (effHam e f w1 w2 l u.r (addR u Y)) = effHam1 e (siteRenv w2 f u) w1 l m Y := by
  ext q
  have e1 : ∀ p, effHam e f w1 w2 l u.r (addR u Y) p = ∑ p' : Fin l × σ × σ × Fin u.r, effCoef e f w1 w2 p.1 p.2.1 p.2.2.1 p.2.2.2 p'.1 p'.2.1 p'.2.2.1 p'.2.2.2 *
      ∑ k : Fin m, Y (p'.1, p'.2.1, k) * u.v p'.2.2.1 k p'.2.2.2 := fun p => by
    unfold effHam; rw [Matrix.ofLp_toLpLin]; rfl
  have e2 : effHam1 e (siteRenv w2 f u) w1 l m Y q = ∑ q' : Fin l × σ × Fin m, effCoef1 e (siteRenv w2 f u) w1 q.1 q.2.1 q.2.2 q'.1 q'.2.1 q'.2.2 * Y q' := by
    unfold effHam1; rw [Matrix.ofLp_toLpLin]; rfl
  rw [e2]
  show ∑ y, ∑ b : Fin u.r, star (u.v y q.2.2 b) * effHam e f w1 w2 l u.r (addR u Y) (q.1, q.2.1, y, b) = _
  simp only [e1, coef_addR e f w1 w2 u h0 h2 hw, Finset.sum_mul, Finset.mul_sum, ← Fintype.sum_prod_type']
  exact Fintype.sum_equiv (ι := σ × Fin u.r × (Fin l × σ × σ × Fin u.r) × Fin m) (κ := (Fin l × σ × Fin m) × σ × Fin u.r × σ × Fin u.r)
    ⟨fun (y, b, (a', x', y', b'), k) => ((a', x', k), y, b, y', b'), fun ((a', x', k), y, b, y', b') => (y, b, (a', x', y', b'), k), fun _ => rfl, fun _ => rfl⟩ _ _
    fun p => by simp only [Equiv.coe_fn_mk]; ring

theorem inner_effHam1 (e f : Env3 ℂ) (w1 w2 : Ten (σ × σ) ℂ) (u : Ten σ ℂ) (h0 : f.d0 = u.r) (h2 : f.d2 = u.r) (hw : w1.r = w2.l) (X Y : OneV σ l m) :
    inner ℂ (addR u X) (effHam e f w1 w2 l u.r (addR u Y)) = inner ℂ X (effHam1 e (siteRenv w2 f u) w1 l m Y) := by
  rw [inner_addR, effHam_addR e f w1 w2 u h0 h2 hw]

end

/-! ### A site of the chain -/

section
variable {σ : Type} [Fintype σ] [DecidableEq σ] {N i : Nat} {t : Nat → Ten σ ℂ}

omit [Fintype σ] [DecidableEq σ] in
theorem closed_update (ht : Closed N t) (i : Nat) {X : Ten σ ℂ} (hl : X.l = (t i).l) (hr : X.r = (t i).r) : Closed N (Function.update t i X) := by
  have el : ∀ j, (Function.update t i X j).l = (t j).l := fun j => by
    by_cases h : j = i
    · subst h; rw [Function.update_self, hl]
    · rw [Function.update_of_ne h]
  have er : ∀ j, (Function.update t i X j).r = (t j).r := fun j => by
    by_cases h : j = i
    · subst h; rw [Function.update_self, hr]
    · rw [Function.update_of_ne h]
  exact ⟨by rw [el]; exact ht.1, by rw [er]; exact ht.2.1, fun j hj => by rw [el, er]; exact ht.2.2 j hj⟩

/-- Replacing the tensor of a site is embedding a block. -/
theorem embed_site (ht : Closed N t) (hi : i + 1 < N) (X : OneV σ (t i).l (t i).r) :
    embed N i t (ofV (addR (t (i + 1)) X)) = stateV N (Function.update t i (ofV1 X)) := by
  have hc : Closed N (Function.update t i (ofV1 X)) := closed_update ht i rfl rfl
  rw [← embed_merge hc hi, Function.update_self, Function.update_of_ne (by omega)]
  rw [embed_upd (t := t) (t' := Function.update t i (ofV1 X)) (fun j h1 _ => Function.update_of_ne h1 _ _)]
  refine embed_congr rfl rfl fun x y a b ha hb => ?_
  have ha' : a < (t i).l := ha
  have hb' : b < (t (i + 1)).r := hb
  show (if h : a < (t i).l ∧ b < (t (i + 1)).r then addR (t (i + 1)) X (⟨a, h.1⟩, x, y, ⟨b, h.2⟩) else 0) =
    ∑ k ∈ range (t i).r, (if h : a < (t i).l ∧ k < (t i).r then X (⟨a, h.1⟩, x, ⟨k, h.2⟩) else (0 : ℂ)) * (t (i + 1)).v y k b
  rw [dif_pos (show a < (t i).l ∧ b < (t (i + 1)).r from ⟨ha', hb'⟩), Finset.sum_range]
  show ∑ k : Fin (t i).r, X (⟨a, ha'⟩, x, k) * (t (i + 1)).v y k b = _
  refine Fintype.sum_congr _ _ fun k => ?_
  rw [dif_pos (show a < (t i).l ∧ (k : Nat) < (t i).r from ⟨ha', k.2⟩)]

end
end Verif.Mps
