import Verif.Mps.FmpoHist
import Mathlib.Data.Rat.Star
import Mathlib.Algebra.Order.Field.Basic
import Mathlib.Algebra.Order.BigOperators.Ring.Finset
import Mathlib.Tactic.Linarith
/-
Concrete decompositions for every finite physical space, used to show that the hypotheses of the theorems can be met.
-/
namespace Verif.Mps
open Finset
variable {τ K : Type} [CommRing K] [StarRing K] [Fintype τ] {d : Nat}

/-- `A = 1·A`: the new bond enumerates the pairs (physical state, left index). -/
def qrE (e : τ ≃ Fin d) (t : Ten τ K) : Ten τ K × Mat K :=
  (⟨t.l, d * t.l, fun s a j => if j = (e s).val * t.l + a then 1 else 0⟩,
   fun j b => if h : j / t.l < d then t.v (e.symm ⟨j / t.l, h⟩) (j % t.l) b else 0)

theorem enum_div {l i a : Nat} (h : a < l) : (i * l + a) / l = i ∧ (i * l + a) % l = a := by
  constructor
  · rw [Nat.add_comm, Nat.add_mul_div_right _ _ (by omega), Nat.div_eq_of_lt h, Nat.zero_add]
  · rw [Nat.add_comm, Nat.add_mul_mod_self_right, Nat.mod_eq_of_lt h]

theorem enum_lt {l d i a : Nat} (h : a < l) (hi : i < d) : i * l + a < d * l := by
  have : (i + 1) * l ≤ d * l := Nat.mul_le_mul_right _ hi
  rw [Nat.succ_mul] at this
  omega

theorem qrE_spec (e : τ ≃ Fin d) : QRSpec (qrE (K := K) e) where
  dim := fun t => rfl
  fac := by
    intro t s a b ha hb
    simp only [qrE]
    rw [Finset.sum_eq_single ((e s).val * t.l + a)]
    · rw [if_pos rfl, dif_pos (by rw [(enum_div ha).1]; exact (e s).isLt), one_mul]
      congr 1
      · rw [show (⟨((e s).val * t.l + a) / t.l, _⟩ : Fin d) = e s from Fin.ext (enum_div ha).1, e.symm_apply_apply]
      · rw [(enum_div ha).2]
    · intro j _ hj; rw [if_neg hj, zero_mul]
    · intro h; exact absurd (mem_range.mpr (enum_lt ha (e s).isLt)) h
  iso := by
    intro t x hx y hy
    simp only [qrE] at hx hy ⊢
    have hl : 0 < t.l := by
      rcases Nat.eq_zero_or_pos t.l with h | h
      · rw [h] at hx; simp at hx
      · exact h
    have hx' : x / t.l < d := by rw [Nat.div_lt_iff_lt_mul hl]; exact hx
    have dec : ∀ z, z / t.l * t.l + z % t.l = z := fun z => by rw [Nat.mul_comm]; exact Nat.div_add_mod z t.l
    rw [Finset.sum_eq_single (e.symm ⟨x / t.l, hx'⟩), Finset.sum_eq_single (x % t.l)]
    · simp only [Equiv.apply_symm_apply, dec, if_true, star_one, one_mul]
      by_cases h : x = y
      · rw [if_pos h, if_pos h.symm]
      · rw [if_neg h, if_neg (Ne.symm h)]
    · intro a ha h
      rw [if_neg, star_zero, zero_mul]
      intro h'
      simp only [Equiv.apply_symm_apply] at h'
      have := dec x
      omega
    · intro h; exact absurd (mem_range.mpr (Nat.mod_lt _ hl)) h
    · intro s _ hs
      refine Finset.sum_eq_zero fun a ha => ?_
      rw [if_neg, star_zero, zero_mul]
      intro h'
      refine hs ?_
      rw [Equiv.eq_symm_apply]
      refine Fin.ext ?_
      show (e s).val = x / t.l
      rw [h', (enum_div (mem_range.mp ha)).1]
    · intro h; exact absurd (mem_univ _) h

/-- The mirror image of `qrE`. -/
def svdE (e : τ ≃ Fin d) (t : Ten τ K) : Ten τ K × Mat K := ((qrE e t.tr).1.tr, fun a j => (qrE e t.tr).2 j a)

theorem svdE_spec (e : τ ≃ Fin d) : SVDSpec (svdE (K := K) e) where
  dim := fun t => rfl
  fac := by
    intro t s a b ha hb
    have := (qrE_spec (K := K) e).fac t.tr s b a hb ha
    simp only [svdE]
    rw [show t.v s a b = t.tr.v s b a from rfl, this]
    exact Finset.sum_congr rfl fun j _ => by simp [Ten.tr]; ring
  iso := fun t => rightIso_tr ((qrE_spec (K := K) e).iso t.tr)

/-- A truncation: only the first `D` directions of `svdE` are kept. -/
def tsvdE (e : τ ≃ Fin d) (D : Nat) (t : Ten τ K) : Ten τ K × Mat K :=
  (⟨min D (svdE e t).1.l, t.r, (svdE e t).1.v⟩, (svdE e t).2)

/-- The discarded fraction of the squared norm. -/
def terrE (e : τ ≃ Fin d) (D : Nat) (t : Ten τ ℚ) : ℚ :=
  1 - (∑ a ∈ range t.l, ∑ j ∈ range (min D (svdE e t).1.l), (svdE e t).2 a j * star ((svdE e t).2 a j)) / normSq t

theorem svd_proj {svd : Ten τ K → Ten τ K × Mat K} (H : SVDSpec svd) (t : Ten τ K) (a j : Nat) (ha : a < t.l)
    (hj : j < (svd t).1.l) : (svd t).2 a j = ∑ s, ∑ b ∈ range t.r, t.v s a b * star ((svd t).1.v s j b) := by
  have : ∀ s, ∀ b ∈ range t.r, t.v s a b * star ((svd t).1.v s j b) =
      ∑ i ∈ range (svd t).1.l, (svd t).2 a i * ((svd t).1.v s i b * star ((svd t).1.v s j b)) := by
    intro s b hb
    rw [H.fac t s a b ha (mem_range.mp hb), Finset.sum_mul]
    exact sum_congr rfl fun i _ => by ring
  rw [sum_congr rfl fun s _ => sum_congr rfl (this s)]
  have sw : ∑ s, ∑ b ∈ range t.r, ∑ i ∈ range (svd t).1.l, (svd t).2 a i * ((svd t).1.v s i b * star ((svd t).1.v s j b)) =
      ∑ i ∈ range (svd t).1.l, (svd t).2 a i * ∑ s, ∑ b ∈ range (svd t).1.r, (svd t).1.v s i b * star ((svd t).1.v s j b) := by
    rw [H.dim]
    simp only [Finset.mul_sum]
    rw [sum_comm (s := range (svd t).1.l)]
    refine sum_congr rfl fun s _ => ?_
    rw [sum_comm]
  rw [sw, Finset.sum_eq_single j]
  · rw [H.iso t j hj j hj, if_pos rfl, mul_one]
  · intro i hi h
    rw [H.iso t i (mem_range.mp hi) j hj, if_neg h, mul_zero]
  · intro h; exact absurd (mem_range.mpr hj) h

theorem normSq_svd {svd : Ten τ K → Ten τ K × Mat K} (H : SVDSpec svd) (t : Ten τ K) :
    normSq t = ∑ a ∈ range t.l, ∑ j ∈ range (svd t).1.l, (svd t).2 a j * star ((svd t).2 a j) := by
  unfold normSq
  rw [sum_comm]
  refine sum_congr rfl fun a ha => ?_
  have ha := mem_range.mp ha
  have : ∀ j ∈ range (svd t).1.l, (svd t).2 a j * star ((svd t).2 a j) =
      ∑ s, ∑ b ∈ range t.r, (svd t).2 a j * (svd t).1.v s j b * star (t.v s a b) := by
    intro j hj
    nth_rewrite 2 [svd_proj H t a j ha (mem_range.mp hj)]
    rw [star_sum, Finset.mul_sum]
    refine sum_congr rfl fun s _ => ?_
    rw [star_sum, Finset.mul_sum]
    refine sum_congr rfl fun b _ => ?_
    rw [star_mul, star_star]; ring
  rw [sum_congr rfl this, sum_comm (s := range (svd t).1.l)]
  refine sum_congr rfl fun s _ => ?_
  rw [sum_comm (s := range (svd t).1.l)]
  refine sum_congr rfl fun b hb => ?_
  rw [← Finset.sum_mul, ← H.fac t s a b ha (mem_range.mp hb)]

theorem tsvdE_spec (e : τ ≃ Fin d) (D : Nat) : TruncSpec (tsvdE (K := ℚ) e D) (terrE e D) where
  dim := fun t => rfl
  iso := fun t x hx y hy => (svdE_spec (K := ℚ) e).iso t x (Nat.lt_of_lt_of_le hx (Nat.min_le_right _ _)) y
    (Nat.lt_of_lt_of_le hy (Nat.min_le_right _ _))
  proj := fun t a j ha hj => svd_proj (svdE_spec e) t a j ha (Nat.lt_of_lt_of_le hj (Nat.min_le_right _ _))
  err := by
    intro t
    show (∑ a ∈ range t.l, ∑ j ∈ range (min D (svdE e t).1.l), (svdE e t).2 a j * star ((svdE e t).2 a j)) = _
    unfold terrE
    rw [sub_sub_cancel]
    by_cases h : normSq t = 0
    · rw [h, mul_zero]
      rw [normSq_svd (svdE_spec e)] at h
      refine sum_eq_zero fun a ha => sum_eq_zero fun j hj => ?_
      have nn : ∀ x : ℚ, 0 ≤ x * star x := fun x => by rw [star_trivial]; exact mul_self_nonneg x
      have h1 := (sum_eq_zero_iff_of_nonneg (fun a _ => sum_nonneg fun j _ => nn _)).mp h a ha
      exact (sum_eq_zero_iff_of_nonneg (fun j _ => nn _)).mp h1 j
        (mem_range.mpr (Nat.lt_of_lt_of_le (mem_range.mp hj) (Nat.min_le_right _ _)))
    · rw [div_mul_cancel₀ _ h]

end Verif.Mps
