import Verif.Mps.VmpsSpec
import Verif.Mps.InstE
import Mathlib.LinearAlgebra.Matrix.Hermitian
/-
Concrete splits of a block for every finite physical space, used to show that the hypotheses of the theorems can be met: a full one, and one
that keeps at most `D` directions unless nothing would be left.
-/
namespace Verif.Mps
open Finset
variable {σ K : Type} [CommRing K] [StarRing K] [Fintype σ] {d : Nat}

theorem qr_projE {qr : Ten σ K → Ten σ K × Mat K} (H : QRSpec qr) (t : Ten σ K) (j b : Nat) (hj : j < (qr t).1.r) (hb : b < t.r) :
    (qr t).2 j b = ∑ s, ∑ a ∈ range t.l, star ((qr t).1.v s a j) * t.v s a b := by
  have : ∀ s, ∀ a ∈ range t.l, star ((qr t).1.v s a j) * t.v s a b =
      ∑ i ∈ range (qr t).1.r, (star ((qr t).1.v s a j) * (qr t).1.v s a i) * (qr t).2 i b := by
    intro s a ha
    rw [H.fac t s a b (mem_range.mp ha) hb, Finset.mul_sum]
    exact sum_congr rfl fun i _ => by ring
  rw [sum_congr rfl fun s _ => sum_congr rfl (this s)]
  have sw : ∑ s, ∑ a ∈ range t.l, ∑ i ∈ range (qr t).1.r, (star ((qr t).1.v s a j) * (qr t).1.v s a i) * (qr t).2 i b =
      ∑ i ∈ range (qr t).1.r, (∑ s, ∑ a ∈ range (qr t).1.l, star ((qr t).1.v s a j) * (qr t).1.v s a i) * (qr t).2 i b := by
    rw [H.dim]
    simp only [Finset.sum_mul]
    rw [sum_comm (s := range (qr t).1.r)]
    refine sum_congr rfl fun s _ => ?_
    rw [sum_comm]
  rw [sw, Finset.sum_eq_single j]
  · rw [H.iso t j hj j hj, if_pos rfl, one_mul]
  · intro i hi h
    rw [H.iso t j hj i (mem_range.mp hi), if_neg (Ne.symm h), zero_mul]
  · intro h; exact absurd (mem_range.mpr hj) h

/-- `T = 1·T`. -/
def fullR (e : σ ≃ Fin d) (T : Blk2 σ K) : Ten σ K × Ten σ K :=
  ((qrE e ⟨T.l, T.r, fun _ _ _ => (0 : K)⟩).1,
   ⟨d * T.l, T.r, fun y j b => (qrE e ⟨T.l, T.r, fun x a b => T.v x y a b⟩).2 j b⟩)

/-- `T = T·1`. -/
def fullL (e : σ ≃ Fin d) (T : Blk2 σ K) : Ten σ K × Ten σ K :=
  (⟨T.l, d * T.r, fun x a j => (svdE e ⟨T.l, T.r, fun y a b => T.v x y a b⟩).2 a j⟩,
   (svdE e ⟨T.l, T.r, fun _ _ _ => (0 : K)⟩).1)

theorem fullR_is (e : σ ≃ Fin d) (T : Blk2 σ K) : T.Is (fullR e T) := fun x y a b ha hb =>
  ((qrE_spec (K := K) e).fac ⟨T.l, T.r, fun x a b => T.v x y a b⟩ x a b ha hb).symm

theorem fullL_is (e : σ ≃ Fin d) (T : Blk2 σ K) : T.Is (fullL e T) := fun x y a b ha hb =>
  ((svdE_spec (K := K) e).fac ⟨T.l, T.r, fun y a b => T.v x y a b⟩ y a b ha hb).symm

/-- Only the first `D` directions. -/
def cutD (D : Nat) (p : Ten σ K × Ten σ K) : Ten σ K × Ten σ K :=
  (⟨p.1.l, min D p.1.r, p.1.v⟩, ⟨min D p.2.l, p.2.r, p.2.v⟩)

open Classical in
/-- At most `D` directions are kept, unless nothing would be left. -/
noncomputable def cutNZ (D : Nat) (T : Blk2 σ K) (p : Ten σ K × Ten σ K) : Ten σ K × Ten σ K :=
  if ∃ x y a b, a < T.l ∧ b < T.r ∧ ∑ k ∈ range (cutD D p).1.r, (cutD D p).1.v x a k * (cutD D p).2.v y k b ≠ 0 then cutD D p else p

theorem cutNZ_cases (D : Nat) (T : Blk2 σ K) (p : Ten σ K × Ten σ K) : cutNZ D T p = p ∨ cutNZ D T p = cutD D p := by
  unfold cutNZ
  split
  · exact Or.inr rfl
  · exact Or.inl rfl

theorem cutNZ_nz (D : Nat) {T : Blk2 σ K} {p : Ten σ K × Ten σ K} (hp : T.Is p) (hT : T.NZ) :
    ∃ x y a b, a < T.l ∧ b < T.r ∧ ∑ k ∈ range (cutNZ D T p).1.r, (cutNZ D T p).1.v x a k * (cutNZ D T p).2.v y k b ≠ 0 := by
  by_cases h : ∃ x y a b, a < T.l ∧ b < T.r ∧ ∑ k ∈ range (cutD D p).1.r, (cutD D p).1.v x a k * (cutD D p).2.v y k b ≠ 0
  · unfold cutNZ; rw [if_pos h]; exact h
  · unfold cutNZ; rw [if_neg h]
    obtain ⟨x, y, a, b, ha, hb, hne⟩ := hT
    exact ⟨x, y, a, b, ha, hb, by rw [hp x y a b ha hb]; exact hne⟩

theorem cutR_spec (e : σ ≃ Fin d) (D : Nat) : BlkSplitR (fun T : Blk2 σ K => cutNZ D T (fullR e T)) where
  dimL := fun T => by rcases cutNZ_cases D T (fullR e T) with h | h <;> simp only [h] <;> rfl
  dimR := fun T => by rcases cutNZ_cases D T (fullR e T) with h | h <;> simp only [h] <;> rfl
  mid := fun T => by rcases cutNZ_cases D T (fullR e T) with h | h <;> simp only [h] <;> rfl
  iso := fun T => by
    have hi := (qrE_spec (K := K) e).iso ⟨T.l, T.r, fun _ _ _ => (0 : K)⟩
    rcases cutNZ_cases D T (fullR e T) with h | h <;> simp only [h]
    · exact hi
    · exact fun x hx y hy => hi x (Nat.lt_of_lt_of_le hx (Nat.min_le_right _ _)) y (Nat.lt_of_lt_of_le hy (Nat.min_le_right _ _))
  proj := fun T y j b hj hb => by
    have hp := fun (hj : j < d * T.l) => qr_projE (qrE_spec (K := K) e) ⟨T.l, T.r, fun x a b => T.v x y a b⟩ j b hj hb
    rcases cutNZ_cases D T (fullR e T) with h | h <;> simp only [h] at hj ⊢
    · exact hp hj
    · exact hp (Nat.lt_of_lt_of_le hj (Nat.min_le_right _ _))
  nz := fun T hT => cutNZ_nz D (fullR_is e T) hT

theorem cutL_spec (e : σ ≃ Fin d) (D : Nat) : BlkSplitL (fun T : Blk2 σ K => cutNZ D T (fullL e T)) where
  dimL := fun T => by rcases cutNZ_cases D T (fullL e T) with h | h <;> simp only [h] <;> rfl
  dimR := fun T => by rcases cutNZ_cases D T (fullL e T) with h | h <;> simp only [h] <;> rfl
  mid := fun T => by rcases cutNZ_cases D T (fullL e T) with h | h <;> simp only [h] <;> rfl
  iso := fun T => by
    have hi := (svdE_spec (K := K) e).iso ⟨T.l, T.r, fun _ _ _ => (0 : K)⟩
    rcases cutNZ_cases D T (fullL e T) with h | h <;> simp only [h]
    · exact hi
    · exact fun x hx y hy => hi x (Nat.lt_of_lt_of_le hx (Nat.min_le_right _ _)) y (Nat.lt_of_lt_of_le hy (Nat.min_le_right _ _))
  proj := fun T x a j ha hj => by
    have hp := fun (hj : j < d * T.r) => svd_proj (svdE_spec (K := K) e) ⟨T.l, T.r, fun y a b => T.v x y a b⟩ a j ha hj
    rcases cutNZ_cases D T (fullL e T) with h | h <;> simp only [h] at hj ⊢
    · exact hp hj
    · exact hp (Nat.lt_of_lt_of_le hj (Nat.min_le_right _ _))
  nz := fun T hT => cutNZ_nz D (fullL_is e T) hT

theorem fullR_spec (e : σ ≃ Fin d) : BlkSplitR (fullR (K := K) e) where
  dimL := fun _ => rfl
  dimR := fun _ => rfl
  mid := fun _ => rfl
  iso := fun T => (qrE_spec (K := K) e).iso ⟨T.l, T.r, fun _ _ _ => (0 : K)⟩
  proj := fun T y j b hj hb => qr_projE (qrE_spec (K := K) e) ⟨T.l, T.r, fun x a b => T.v x y a b⟩ j b hj hb
  nz := fun T ⟨x, y, a, b, ha, hb, h⟩ => ⟨x, y, a, b, ha, hb, by rw [fullR_is e T x y a b ha hb]; exact h⟩

theorem fullL_spec (e : σ ≃ Fin d) : BlkSplitL (fullL (K := K) e) where
  dimL := fun _ => rfl
  dimR := fun _ => rfl
  mid := fun _ => rfl
  iso := fun T => (svdE_spec (K := K) e).iso ⟨T.l, T.r, fun _ _ _ => (0 : K)⟩
  proj := fun T x a j ha hj => svd_proj (svdE_spec (K := K) e) ⟨T.l, T.r, fun y a b => T.v x y a b⟩ a j ha hj
  nz := fun T ⟨x, y, a, b, ha, hb, h⟩ => ⟨x, y, a, b, ha, hb, by rw [fullL_is e T x y a b ha hb]; exact h⟩

/-- An operator whose tensors are Hermitian in their physical legs is Hermitian. -/
theorem herm_of_sym {σ 𝕜 : Type} [RCLike 𝕜] {N : Nat} {w : Nat → Ten (σ × σ) 𝕜}
    (h : ∀ i x y a b, star ((w i).v (x, y) a b) = (w i).v (y, x) a b) : (opM N w).IsHermitian := by
  have key : ∀ (W : List (Ten (σ × σ) 𝕜)), (∀ t ∈ W, ∀ x y a b, star (t.v (x, y) a b) = t.v (y, x) a b) →
      ∀ (ss : List (σ × σ)) a b, star (amp W ss a b) = amp W (ss.map fun p => (p.2, p.1)) a b := by
    intro W
    induction W with
    | nil => intro _ ss a b; simp only [amp]; split <;> simp
    | cons t W ih =>
      intro hW ss a b
      cases ss with
      | nil => simp [amp]
      | cons s ss =>
        obtain ⟨x, y⟩ := s
        rw [List.map_cons, amp_cons, amp_cons, star_sum]
        refine sum_congr rfl fun k _ => ?_
        rw [star_mul', hW t (List.mem_cons_self ..) x y a k, ih (fun u hu => hW u (List.mem_cons_of_mem _ hu)) ss k b]
  ext s s'
  rw [Matrix.conjTranspose_apply]
  show star (amp _ (List.ofFn fun i => (s' i, s i)) 0 0) = amp _ (List.ofFn fun i => (s i, s' i)) 0 0
  rw [key _ (fun t ht => by obtain ⟨i, -, rfl⟩ := List.mem_map.mp ht; exact h i), List.map_ofFn]
  rfl

end Verif.Mps
