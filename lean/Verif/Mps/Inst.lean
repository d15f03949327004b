import Verif.Mps.RevFacts
import Mathlib.Algebra.BigOperators.Fin
import Mathlib.Algebra.Star.Basic
import Mathlib.Data.Fintype.BigOperators
/-
A concrete decomposition meeting `QRSpec` and `SVDSpec`, used to show that the hypotheses of the theorems
can be met: the trivial `A = 1·A` on a two-state physical space.
-/
namespace Verif.Mps
open Finset
variable {K : Type} [CommRing K] [StarRing K]

/-- `A = 1·A`: the new bond enumerates the pairs (left index, physical state). -/
def qr0 (t : Ten Bool K) : Ten Bool K × Mat K :=
  (⟨t.l, 2 * t.l, fun s a j => if j = (if s then t.l else 0) + a then 1 else 0⟩,
   fun j b => if t.l ≤ j then t.v true (j - t.l) b else t.v false j b)

theorem qr0_spec : QRSpec (qr0 (K := K)) where
  dim := fun t => rfl
  fac := by
    intro t s a b ha hb
    simp only [qr0]
    cases s with
    | false =>
      rw [Finset.sum_eq_single a]
      · simp; intro h; omega
      · intro j _ hj; simp [hj]
      · intro h; simp at h; omega
    | true =>
      rw [Finset.sum_eq_single (t.l + a)]
      · simp
      · intro j _ hj; simp [hj]
      · intro h; simp at h; omega
  iso := by
    intro t x hx y hy
    simp only [qr0] at hx hy ⊢
    rw [Fintype.sum_bool]
    simp only [if_true, Bool.false_eq_true, if_false, Nat.zero_add]
    by_cases c : x < t.l
    · rw [Finset.sum_eq_zero, Finset.sum_eq_single x, zero_add]
      · simp [eq_comm]
      · intro a _ ha; simp [Ne.symm ha]
      · intro h; simp at h; omega
      · intro a _
        rw [if_neg (show ¬ x = t.l + a by omega)]; simp
    · obtain ⟨z, rfl⟩ : ∃ z, x = t.l + z := ⟨x - t.l, by omega⟩
      rw [Finset.sum_eq_single z, Finset.sum_eq_zero, add_zero]
      · simp [eq_comm]
      · intro a ha; simp at ha
        rw [if_neg (show ¬ t.l + z = a by omega)]; simp
      · intro a _ ha
        rw [if_neg (show ¬ t.l + z = t.l + a by omega)]; simp
      · intro h; simp at h; omega

/-- The mirror image of `qr0`. -/
def svd0 (t : Ten Bool K) : Ten Bool K × Mat K := ((qr0 t.tr).1.tr, fun a j => (qr0 t.tr).2 j a)

theorem svd0_spec : SVDSpec (svd0 (K := K)) where
  dim := fun t => rfl
  fac := by
    intro t s a b ha hb
    have := (qr0_spec (K := K)).fac t.tr s b a hb ha
    simp only [svd0]
    rw [show t.v s a b = t.tr.v s b a from rfl, this]
    exact Finset.sum_congr rfl fun j _ => by simp [Ten.tr]; ring
  iso := fun t => rightIso_tr ((qr0_spec (K := K)).iso t.tr)

end Verif.Mps
