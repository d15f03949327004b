import Verif.Mps.Entropy
import Verif.Mps.VarProdFacts
import Mathlib.LinearAlgebra.Matrix.Hermitian
import Mathlib.Analysis.Matrix.Spectrum
import Mathlib.LinearAlgebra.Lagrange
/-
Facts for the entanglement entropy: the decomposition of the state at a bond, and functions of a matrix `C diag(p) C†`.
-/
namespace Verif.Mps
open Finset

section
variable {σ 𝕜 : Type} [RCLike 𝕜] [Fintype σ]

theorem svdR_pair {svd3 : Ten σ 𝕜 → SvdR σ 𝕜} (H : SvdRSpec svd3) : SVDSpec fun t => (svd3 t).pair where
  dim := H.dim
  fac := H.fac
  iso := H.iso

/-- Left isometries in a row: the states of the block are orthonormal. -/
theorem orthL : ∀ (L : List (Ten σ 𝕜)) (n : Nat), L.length = n → Linked L → headL L = 1 → (∀ u ∈ L, LeftIso u) → ∀ a, a < lastR L → ∀ b, b < lastR L →
    ∑ l : Fin n → σ, star (amp L (List.ofFn l) 0 a) * amp L (List.ofFn l) 0 b = if a = b then 1 else 0 := by
  intro L
  induction L using List.reverseRecOn with
  | nil => intro n hn _ h1; simp [headL] at h1
  | append_singleton L t ih =>
    intro n hn hl h1 hL a ha b hb
    rw [lastR_append] at ha hb
    have hn' : n = L.length + 1 := by simp at hn; omega
    subst hn'
    have inh : InHead (L ++ [t]) 0 := by
      intro w hw
      cases L with
      | nil => simp at hw; subst hw; simp [headL] at h1; omega
      | cons p L => simp at hw; subst hw; simp [headL] at h1; omega
    rw [sum_snoc]
    have e : ∀ (x : σ) (l : Fin L.length → σ) c, c < t.r → amp (L ++ [t]) (List.ofFn (Fin.snoc l x : Fin (L.length + 1) → σ)) 0 c =
        ∑ k ∈ range t.l, amp L (List.ofFn l) 0 k * t.v x k c := by
      intro x l c hc
      rw [ofFn_snoc', amp_snoc t x c hc L (List.ofFn l) 0 (by simp) hl inh]
    rw [← hL t (by simp) a ha b hb]
    refine sum_congr rfl fun x _ => ?_
    simp only [e x _ a ha, e x _ b hb, star_sum, star_mul', Finset.sum_mul_sum]
    have inner : ∀ k ∈ range t.l, ∀ k' ∈ range t.l, ∑ l : Fin L.length → σ, star (amp L (List.ofFn l) 0 k) * amp L (List.ofFn l) 0 k' = if k = k' then 1 else 0 := by
      intro k hk k' hk'
      rw [mem_range] at hk hk'
      cases hL0 : L with
      | nil =>
        subst hL0
        have : t.l = 1 := by simpa [headL] using h1
        have : k = 0 := by omega
        have : k' = 0 := by omega
        subst k k'
        simp [amp]
      | cons p L2 =>
        rw [← hL0]
        have hne : L ≠ [] := by rw [hL0]; simp
        have hlr : lastR L = t.l := by
          have := linked_mid hl hne (by simp)
          simpa [headL] using this
        exact ih _ rfl (linked_append_left hl) (by rw [← h1, headL_append hne]) (fun u hu => hL u (by simp [hu])) k (by omega) k' (by omega)
    rw [sum_comm]
    refine sum_congr rfl fun k hk => ?_
    rw [sum_comm]
    have : ∀ k' ∈ range t.l, ∑ l : Fin L.length → σ, star (amp L (List.ofFn l) 0 k) * star (t.v x k a) * (amp L (List.ofFn l) 0 k' * t.v x k' b) =
        (if k = k' then 1 else 0) * (star (t.v x k a) * t.v x k' b) := by
      intro k' hk'
      rw [← inner k hk k' hk', Finset.sum_mul]
      refine sum_congr rfl fun l _ => by ring
    rw [sum_congr rfl this]
    simp [hk]

/-- Right isometries in a row: the states of the block are orthonormal. -/
theorem orthR : ∀ (R : List (Ten σ 𝕜)) (n : Nat), R.length = n → Linked R → lastR R = 1 → (∀ u ∈ R, RightIso u) → ∀ a, a < headL R → ∀ b, b < headL R →
    ∑ l : Fin n → σ, amp R (List.ofFn l) a 0 * star (amp R (List.ofFn l) b 0) = if a = b then 1 else 0 := by
  intro R
  induction R with
  | nil => intro n hn _ h1; simp [lastR] at h1
  | cons t R ih =>
    intro n hn hl h1 hR a ha b hb
    have hn' : n = R.length + 1 := by simp at hn; omega
    subst hn'
    rw [sum_cons, ← hR t (by simp) a ha b hb]
    refine sum_congr rfl fun x _ => ?_
    have e : ∀ (l : Fin R.length → σ) c, amp (t :: R) (List.ofFn (Fin.cons x l : Fin (R.length + 1) → σ)) c 0 = ∑ k ∈ range t.r, t.v x c k * amp R (List.ofFn l) k 0 := by
      intro l c
      rw [List.ofFn_cons, amp_cons]
    simp only [e, star_sum, star_mul', Finset.sum_mul_sum]
    have inner : ∀ k ∈ range t.r, ∀ k' ∈ range t.r, ∑ l : Fin R.length → σ, amp R (List.ofFn l) k 0 * star (amp R (List.ofFn l) k' 0) = if k = k' then 1 else 0 := by
      intro k hk k' hk'
      rw [mem_range] at hk hk'
      cases hR0 : R with
      | nil =>
        subst hR0
        have : t.r = 1 := by simpa [lastR] using h1
        have : k = 0 := by omega
        have : k' = 0 := by omega
        subst k k'
        simp [amp]
      | cons p R2 =>
        rw [← hR0]
        have hlr : headL R = t.r := by
          rw [hR0] at hl ⊢
          exact (linked_head hl).symm
        exact ih _ rfl (linked_cons hl) (by rw [← h1, hR0, lastR_cons_cons]) (fun u hu => hR u (by simp [hu])) k (by omega) k' (by omega)
    rw [sum_comm]
    refine sum_congr rfl fun k hk => ?_
    rw [sum_comm]
    have : ∀ k' ∈ range t.r, ∑ l : Fin R.length → σ, t.v x a k * amp R (List.ofFn l) k 0 * (star (t.v x b k') * star (amp R (List.ofFn l) k' 0)) =
        (if k = k' then 1 else 0) * (t.v x a k * star (t.v x b k')) := by
      intro k' hk'
      rw [← inner k hk k' hk', Finset.sum_mul]
      refine sum_congr rfl fun l _ => by ring
    rw [sum_congr rfl this]
    simp [hk]

/-- The matrix of the left Schmidt vectors. -/
def leftVecs (svd3 : Ten σ 𝕜 → SvdR σ 𝕜) (n : Nat) (L : List (Ten σ 𝕜)) (t : Ten σ 𝕜) : Matrix (Fin n → σ) (Fin (svd3 t).vt.l) 𝕜 :=
  fun x j => ∑ a ∈ range t.l, amp L (List.ofFn x) 0 a * (svd3 t).u a j

theorem leftVecs_orth {svd3 : Ten σ 𝕜 → SvdR σ 𝕜} (H : SvdRSpec svd3) {n : Nat} {L R : List (Ten σ 𝕜)} {t : Ten σ 𝕜} (hn : L.length = n) (hL0 : L ≠ []) (hl : Linked (L ++ t :: R))
    (h1 : headL L = 1) (hL : ∀ u ∈ L, LeftIso u) : (leftVecs svd3 n L t).conjTranspose * leftVecs svd3 n L t = 1 := by
  have hlr : lastR L = t.l := by
    have := linked_mid hl hL0 (by simp)
    simpa [headL] using this
  ext x y
  rw [Matrix.mul_apply, Matrix.one_apply]
  simp only [Matrix.conjTranspose_apply, leftVecs, star_sum, star_mul', Finset.sum_mul_sum]
  rw [sum_comm]
  have : ∀ k ∈ range t.l, ∑ l : Fin n → σ, ∑ k' ∈ range t.l, star (amp L (List.ofFn l) 0 k) * star ((svd3 t).u k x) * (amp L (List.ofFn l) 0 k' * (svd3 t).u k' y) =
      star ((svd3 t).u k x) * (svd3 t).u k y := by
    intro k hk
    rw [sum_comm]
    have : ∀ k' ∈ range t.l, ∑ l : Fin n → σ, star (amp L (List.ofFn l) 0 k) * star ((svd3 t).u k x) * (amp L (List.ofFn l) 0 k' * (svd3 t).u k' y) =
        (if k = k' then 1 else 0) * (star ((svd3 t).u k x) * (svd3 t).u k' y) := by
      intro k' hk'
      rw [mem_range] at hk hk'
      rw [← orthL L n hn (linked_append_left hl) h1 hL k (by omega) k' (by omega), Finset.sum_mul]
      exact sum_congr rfl fun l _ => by ring
    rw [sum_congr rfl this]
    simp [hk]
  rw [sum_congr rfl this, H.cols t x x.2 y y.2]
  simp [Fin.ext_iff]

theorem state_schmidt {svd3 : Ten σ 𝕜 → SvdR σ 𝕜} (H : SvdRSpec svd3) {n m : Nat} {L R : List (Ten σ 𝕜)} {t : Ten σ 𝕜} (hn : L.length = n) (hm : m = R.length + 1) (hL0 : L ≠ [])
    (hl : Linked (L ++ t :: R)) (h1 : headL L = 1) (x : Fin n → σ) (z : Fin m → σ) :
    amp (L ++ t :: R) (List.ofFn x ++ List.ofFn z) 0 0 =
      ∑ j : Fin (svd3 t).vt.l, leftVecs svd3 n L t x j * ((svd3 t).s j : 𝕜) * amp ((svd3 t).vt :: R) (List.ofFn z) j 0 := by
  have inh : InHead (L ++ t :: R) 0 := by
    intro w hw
    cases L with
    | nil => exact absurd rfl hL0
    | cons p L => simp at hw; subst hw; simp [headL] at h1; omega
  subst hm
  rw [amp_append L _ _ 0 0 (by simp [hn]) hl inh]
  have e : ∀ a ∈ range t.l, amp (t :: R) (List.ofFn z) a 0 = ∑ j ∈ range (svd3 t).vt.l, (svd3 t).u a j * ((svd3 t).s j : 𝕜) * amp ((svd3 t).vt :: R) (List.ofFn z) j 0 := by
    intro a ha
    rw [List.ofFn_succ, amp_cons]
    simp only [amp_cons, H.dim t, Finset.mul_sum]
    rw [sum_comm]
    refine sum_congr rfl fun k hk => ?_
    rw [H.fac t _ a k (mem_range.mp ha) (mem_range.mp hk), Finset.sum_mul]
    exact sum_congr rfl fun j _ => by ring
  rw [sum_congr rfl fun a ha => by rw [e a ha]]
  simp only [Finset.mul_sum]
  rw [sum_comm, Finset.sum_range]
  refine sum_congr rfl fun j _ => ?_
  simp only [leftVecs, Finset.sum_mul]
  exact sum_congr rfl fun a _ => by ring

/-- The density matrix of the left block in terms of the decomposition. -/
theorem density_schmidt {svd3 : Ten σ 𝕜 → SvdR σ 𝕜} (H : SvdRSpec svd3) {n m : Nat} {L R : List (Ten σ 𝕜)} {t : Ten σ 𝕜} (hn : L.length = n) (hm : m = R.length + 1) (hL0 : L ≠ [])
    (hl : Linked (L ++ t :: R)) (h1 : headL L = 1) (h2 : lastR (L ++ t :: R) = 1) (hR : ∀ u ∈ R, RightIso u) :
    (Matrix.of fun x y : Fin n → σ => ∑ z : Fin m → σ, amp (L ++ t :: R) (List.ofFn x ++ List.ofFn z) 0 0 * star (amp (L ++ t :: R) (List.ofFn y ++ List.ofFn z) 0 0)) =
      leftVecs svd3 n L t * Matrix.diagonal (fun j : Fin (svd3 t).vt.l => (((svd3 t).s j * (svd3 t).s j : ℝ) : 𝕜)) * (leftVecs svd3 n L t).conjTranspose := by
  have lk : Linked ((svd3 t).vt :: R) := by
    have := linked_append_right hl
    cases R with
    | nil => simp [Linked]
    | cons w R => exact linked_mk ((H.dim t).trans (linked_head this)) (linked_cons this)
  have lr : lastR ((svd3 t).vt :: R) = 1 := by
    cases R with
    | nil => rw [lastR_append] at h2; simpa [lastR, H.dim t] using h2
    | cons w R =>
      rw [← h2]
      simp [lastR, List.getLast?_cons]
  have ri : ∀ u ∈ (svd3 t).vt :: R, RightIso u := by
    intro u hu
    rcases List.mem_cons.mp hu with rfl | hu
    · exact H.iso t
    · exact hR u hu
  have orth := orthR ((svd3 t).vt :: R) m (by simp [hm]) lk lr ri
  ext x y
  rw [Matrix.mul_apply]
  simp only [Matrix.of_apply, Matrix.mul_diagonal, Matrix.conjTranspose_apply]
  simp only [state_schmidt H hn hm hL0 hl h1, star_sum, star_mul', Finset.sum_mul_sum]
  rw [sum_comm]
  refine sum_congr rfl fun j _ => ?_
  rw [sum_comm]
  have : ∀ k : Fin (svd3 t).vt.l, ∑ z : Fin m → σ, leftVecs svd3 n L t x j * ((svd3 t).s j : 𝕜) * amp ((svd3 t).vt :: R) (List.ofFn z) j 0 *
      (star (leftVecs svd3 n L t y k) * star ((svd3 t).s k : 𝕜) * star (amp ((svd3 t).vt :: R) (List.ofFn z) k 0)) =
      if j = k then leftVecs svd3 n L t x j * (((svd3 t).s j * (svd3 t).s k : ℝ) : 𝕜) * star (leftVecs svd3 n L t y k) else 0 := by
    intro k
    have o := orth j j.2 k k.2
    have e : (if j = k then (1 : 𝕜) else 0) = if (j : Nat) = k then 1 else 0 := by simp [Fin.ext_iff]
    rw [← mul_boole, e, ← o, Finset.mul_sum]
    refine sum_congr rfl fun z _ => ?_
    rw [RCLike.star_def, RCLike.conj_ofReal, RCLike.ofReal_mul]
    ring
  simp only [this]
  simp

end

/-! ### Functions of `C diag(p) C†` -/

section
variable {𝕜 ι κ : Type} [RCLike 𝕜] [Fintype ι] [DecidableEq ι] [Fintype κ] [DecidableEq κ]

theorem pow_sandwich (C : Matrix ι κ 𝕜) (hC : C.conjTranspose * C = 1) (D : Matrix κ κ 𝕜) (n : Nat) : (C * D * C.conjTranspose) ^ (n + 1) = C * D ^ (n + 1) * C.conjTranspose := by
  induction n with
  | zero => simp
  | succ n ih =>
    rw [pow_succ, ih, pow_succ D (n + 1)]
    calc C * D ^ (n + 1) * C.conjTranspose * (C * D * C.conjTranspose) = C * D ^ (n + 1) * (C.conjTranspose * C) * D * C.conjTranspose := by simp only [Matrix.mul_assoc]
      _ = _ := by rw [hC, Matrix.mul_one]; simp only [Matrix.mul_assoc]

theorem trace_pow_sandwich (C : Matrix ι κ 𝕜) (hC : C.conjTranspose * C = 1) (p : κ → ℝ) (n : Nat) :
    ((C * Matrix.diagonal (fun j => (p j : 𝕜)) * C.conjTranspose) ^ (n + 1)).trace = ((∑ j, p j ^ (n + 1) : ℝ) : 𝕜) := by
  rw [pow_sandwich C hC, Matrix.trace_mul_comm, ← Matrix.mul_assoc, hC, Matrix.one_mul, Matrix.diagonal_pow, Matrix.trace_diagonal]
  simp

omit [DecidableEq ι] [DecidableEq κ] in
/-- Two lists of numbers with the same power sums give the same sums of any function that vanishes at zero. -/
theorem sum_of_powers {p : ι → ℝ} {q : κ → ℝ} (h : ∀ n : Nat, ∑ i, p i ^ (n + 1) = ∑ j, q j ^ (n + 1)) (f : ℝ → ℝ) (f0 : f 0 = 0) : ∑ i, f (p i) = ∑ j, f (q j) := by
  classical
  let S : Finset ℝ := insert 0 (univ.image p ∪ univ.image q)
  let P : Polynomial ℝ := Lagrange.interpolate S id f
  have hP : ∀ x ∈ S, P.eval x = f x := fun x hx => Lagrange.eval_interpolate_at_node f (fun _ _ _ _ h => h) hx
  have c0 : P.coeff 0 = 0 := by
    rw [Polynomial.coeff_zero_eq_eval_zero, hP 0 (by simp [S]), f0]
  have key : ∀ x : ℝ, P.eval x = ∑ k ∈ range P.natDegree, P.coeff (k + 1) * x ^ (k + 1) := by
    intro x
    rw [Polynomial.eval_eq_sum_range, sum_range_succ', c0]
    simp
  have e1 : ∑ i, f (p i) = ∑ k ∈ range P.natDegree, P.coeff (k + 1) * ∑ i, p i ^ (k + 1) := by
    rw [sum_congr rfl fun i _ => ((hP (p i) (by simp [S])).symm.trans (key _)), sum_comm]
    exact sum_congr rfl fun k _ => (Finset.mul_sum _ _ _).symm
  have e2 : ∑ i, f (q i) = ∑ k ∈ range P.natDegree, P.coeff (k + 1) * ∑ i, q i ^ (k + 1) := by
    rw [sum_congr rfl fun i _ => ((hP (q i) (by simp [S])).symm.trans (key _)), sum_comm]
    exact sum_congr rfl fun k _ => (Finset.mul_sum _ _ _).symm
  rw [e1, e2]
  exact sum_congr rfl fun k _ => by rw [h]

theorem sum_eigenvalues {A : Matrix ι ι 𝕜} (hA : A.IsHermitian) (C : Matrix ι κ 𝕜) (hC : C.conjTranspose * C = 1) (p : κ → ℝ)
    (h : A = C * Matrix.diagonal (fun j => (p j : 𝕜)) * C.conjTranspose) (f : ℝ → ℝ) (f0 : f 0 = 0) : ∑ i, f (hA.eigenvalues i) = ∑ j, f (p j) := by
  refine sum_of_powers (fun n => ?_) f f0
  have e1 := trace_pow_sandwich C hC p n
  have e2 := trace_pow_sandwich (hA.eigenvectorUnitary : Matrix ι ι 𝕜) (Matrix.UnitaryGroup.star_mul_self hA.eigenvectorUnitary) hA.eigenvalues n
  rw [← h] at e1
  have s : A = (hA.eigenvectorUnitary : Matrix ι ι 𝕜) * Matrix.diagonal (fun j => (hA.eigenvalues j : 𝕜)) * (hA.eigenvectorUnitary : Matrix ι ι 𝕜).conjTranspose := hA.spectral_theorem
  rw [← s, e1] at e2
  exact (RCLike.ofReal_injective e2).symm

end
end Verif.Mps
