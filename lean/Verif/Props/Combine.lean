import Verif.Mps.Combine
/-
C93: both forms of the super-block Hamiltonian give the same product.
-/
namespace Verif.Props
open Verif.Mps Verif.Disk Verif.Algo

/-- Accumulation commutes with what respects sums. -/
theorem accum_map {M M' : Type} [Add M] [Add M'] (f : M → M') (hf : ∀ a b, f (a + b) = f a + f b) (xs : List (Option M)) :
    (accum (fun a b => some (a + b)) xs).map f = accum (fun a b => some (a + b)) (xs.map (Option.map f)) := by
  cases xs with
  | nil => rfl
  | cons x xs =>
    show (xs.foldl _ x).map f = (xs.map (Option.map f)).foldl _ (x.map f)
    induction xs generalizing x with
    | nil => rfl
    | cons y ys ih =>
      rw [List.map_cons, List.foldl_cons, List.foldl_cons, ih]
      congr 1
      cases x <;> cases y <;> simp [hf]

section
variable {σ 𝕜 : Type} [RCLike 𝕜] [Fintype σ] [DecidableEq σ] {l r : Nat}

/-- The left operator as the code of the other form applies it. -/
def actB (r : Nat) (b : Fin l → σ → Fin l → σ → 𝕜) : (Fin l × σ × σ × Fin r → 𝕜) →ₗ[𝕜] (σ × Fin r × Fin l × σ → 𝕜) where
  toFun x p := ∑ l0, ∑ s0, b p.2.2.1 p.2.2.2 l0 s0 * x (l0, s0, p.1, p.2.1)
  map_add' x y := by funext p; simp [mul_add, Finset.sum_add_distrib]
  map_smul' c x := by funext p; simp [Finset.mul_sum, mul_left_comm]

def actC (l : Nat) (c : σ → Fin r → σ → Fin r → 𝕜) : (σ × Fin r × Fin l × σ → 𝕜) →ₗ[𝕜] (Fin l × σ × σ × Fin r → 𝕜) where
  toFun x p := ∑ s0, ∑ r0, x (s0, r0, p.1, p.2.1) * c s0 r0 p.2.2.1 p.2.2.2
  map_add' x y := by funext p; simp [add_mul, Finset.sum_add_distrib]
  map_smul' k x := by funext p; simp [Finset.mul_sum, mul_assoc]

theorem actB_terms (terms : List (Option (BOp 𝕜) × (σ → σ → 𝕜))) : (combineBlockSite l terms).map (actB r) = blockSiteMul l r terms := by
  unfold combineBlockSite blockSiteMul
  rw [accum_map, List.map_map]
  · congr 1
    apply List.map_congr_left
    intro x _
    simp only [Function.comp, Option.map_map]
    congr 1
    funext o
    refine LinearMap.ext fun y => funext fun p => ?_
    show ∑ l0, ∑ s0, o l0 p.2.2.1 * x.2 s0 p.2.2.2 * y (l0, s0, p.1, p.2.1) = ∑ s0, (∑ l0, y (l0, s0, p.1, p.2.1) * o l0 p.2.2.1) * x.2 s0 p.2.2.2
    rw [Finset.sum_comm]
    refine Finset.sum_congr rfl fun s0 _ => ?_
    rw [Finset.sum_mul]
    exact Finset.sum_congr rfl fun l0 _ => by ring
  · intro a b
    refine LinearMap.ext fun x => funext fun p => ?_
    simp [actB, add_mul, Finset.sum_add_distrib]

theorem actC_terms (terms : List ((σ → σ → 𝕜) × Option (BOp 𝕜))) : (combineSiteBlock r terms).map (actC l) = siteBlockMul l r terms := by
  unfold combineSiteBlock siteBlockMul
  rw [accum_map, List.map_map]
  · congr 1
    apply List.map_congr_left
    intro x _
    simp only [Function.comp, Option.map_map]
    congr 1
    funext o
    refine LinearMap.ext fun y => funext fun p => ?_
    show ∑ s0, ∑ r0, y (s0, r0, p.1, p.2.1) * (x.1 s0 p.2.2.1 * o r0 p.2.2.2) = ∑ r0, (∑ s0, y (s0, r0, p.1, p.2.1) * x.1 s0 p.2.2.1) * o r0 p.2.2.2
    rw [Finset.sum_comm]
    refine Finset.sum_congr rfl fun r0 _ => ?_
    rw [Finset.sum_mul]
    exact Finset.sum_congr rfl fun s0 _ => by ring
  · intro a b
    refine LinearMap.ext fun x => funext fun p => ?_
    simp [actC, mul_add, Finset.sum_add_distrib]

/-- **C93**: `combine_operators_in_super_blk_hamiltonian` and the product with its result return what the product with the list of terms returns, whatever the terms: undefined exactly if the other is. -/
theorem C93_combined (l r : Nat) (terms : List (List (Option (BOp 𝕜) × (σ → σ → 𝕜)) × List ((σ → σ → 𝕜) × Option (BOp 𝕜)))) (x : Fin l × σ × σ × Fin r → 𝕜) :
    combinedMul (Mps.combine l r terms) x = (superMul l r terms).map fun f => f x := by
  unfold combinedMul Mps.combine superMul
  rw [accum_map (fun f : (Fin l × σ × σ × Fin r → 𝕜) →ₗ[𝕜] (Fin l × σ × σ × Fin r → 𝕜) => f x) (fun _ _ => rfl), List.map_map, List.zip_map', List.map_map]
  congr 1
  apply List.map_congr_left
  intro t _
  simp only [Function.comp]
  rw [← actB_terms, ← actC_terms]
  cases combineBlockSite l t.1 <;> cases combineSiteBlock r t.2 <;> rfl

/-- So the operator of the Lanczos solver can be had in both ways. -/
theorem C93_hamiltonian (m1 m2 : OpMat σ 𝕜) (es fs : List (Option (BOp 𝕜))) (l r : Nat) (v : TwoV σ 𝕜 l r) :
    (combinedMul (Mps.combine l r (hamTerms m1 m2 es fs)) v.ofLp).map (WithLp.toLp 2) = (superHam m1 m2 es fs l r).map fun H => H v := by
  rw [C93_combined, superHam, Option.map_map, Option.map_map]
  rfl

end

/-- Two terms, one with two block-site products: `2 ⊗ 1 + 1 ⊗ 3` on the left and `5 ⊗ 1` on the right, and `1 ⊗ 1` twice. -/
example : ∃ y, combinedMul (Mps.combine 1 1 ([([(some ⟨1, fun _ _ => 2⟩, fun _ _ => 1), (some ⟨1, fun _ _ => 1⟩, fun _ _ => 3)], [(fun _ _ => 5, some ⟨1, fun _ _ => 1⟩)]),
    ([(some ⟨1, fun _ _ => 1⟩, fun _ _ => 1)], [(fun _ _ => 1, some ⟨1, fun _ _ => 1⟩)])] :
      List (List (Option (BOp ℝ) × (Unit → Unit → ℝ)) × List ((Unit → Unit → ℝ) × Option (BOp ℝ))))) (fun _ => 1) = some y ∧ y (0, (), (), 0) = 26 := by
  refine ⟨_, rfl, ?_⟩
  show pairMul _ _ _ _ + pairMul _ _ _ _ = (26 : ℝ)
  simp [pairMul]
  norm_num

end Verif.Props
