import Verif.Mps.VmpsStep
import Verif.Props.LanczosNum
import Mathlib.LinearAlgebra.Matrix.Hermitian
import Mathlib.Analysis.Matrix.Hermitian
/-
One local update of the two-site optimisation, in terms of the states of the whole chain.
-/
namespace Verif.Mps
open Finset Verif.Disk Verif.Algo Verif.Props

variable {σ 𝕜 : Type} [RCLike 𝕜] [Fintype σ] [DecidableEq σ]

theorem inner_sum {ι : Type} [Fintype ι] (x y : EuclideanSpace 𝕜 ι) : inner 𝕜 x y = ∑ i, star (x i) * y i := by
  rw [PiLp.inner_apply]
  exact sum_congr rfl fun i _ => by rw [RCLike.inner_apply, mul_comm]; rfl

/-- The state of the chain in which the pair `(i, i+1)` is replaced by a block. -/
def embed (N i : Nat) (t : Nat → Ten σ 𝕜) (X : Blk2 σ 𝕜) : ChainV σ 𝕜 N :=
  WithLp.toLp 2 fun s => bamp i ((List.range i).map t) ((List.range' (i + 2) (N - (i + 2))).map t) X (List.ofFn s)

omit [DecidableEq σ] in
theorem ofV_v {l r : Nat} (v : TwoV σ 𝕜 l r) (q : Fin l × σ × σ × Fin r) : (ofV v).v q.2.1 q.2.2.1 q.1 q.2.2.2 = v q := by
  show (if h : (q.1 : Nat) < l ∧ (q.2.2.2 : Nat) < r then v (⟨q.1, h.1⟩, q.2.1, q.2.2.1, ⟨q.2.2.2, h.2⟩) else 0) = _
  rw [dif_pos ⟨q.1.2, q.2.2.2.2⟩]

omit [Fintype σ] [DecidableEq σ] in
theorem embed_congr {N i : Nat} {t : Nat → Ten σ 𝕜} {X Y : Blk2 σ 𝕜} (hl : X.l = Y.l) (hr : X.r = Y.r)
    (h : ∀ x y a b, a < X.l → b < X.r → X.v x y a b = Y.v x y a b) : embed N i t X = embed N i t Y := by
  unfold embed
  congr 1
  funext s
  unfold bamp
  rw [← hl, ← hr]
  split
  · refine sum_congr rfl fun a ha => sum_congr rfl fun b hb => ?_
    rw [h _ _ a b (mem_range.mp ha) (mem_range.mp hb)]
  · rfl

omit [Fintype σ] [DecidableEq σ] in
theorem embed_upd {N i : Nat} {t t' : Nat → Ten σ 𝕜} (h : ∀ j, j ≠ i → j ≠ i + 1 → t' j = t j) (X : Blk2 σ 𝕜) : embed N i t' X = embed N i t X := by
  have h1 : (List.range i).map t' = (List.range i).map t := List.map_congr_left fun j hj => by
    have := List.mem_range.mp hj; exact h j (by omega) (by omega)
  have h2 : (List.range' (i + 2) (N - (i + 2))).map t' = (List.range' (i + 2) (N - (i + 2))).map t := List.map_congr_left fun j hj => by
    have := List.mem_range'_1.mp hj; exact h j (by omega) (by omega)
  unfold embed
  congr 1
  funext s
  exact congrArg₂ (fun L R => bamp i L R X (List.ofFn s)) h1 h2

omit [Fintype σ] [DecidableEq σ] in
theorem embed_merge {N i : Nat} {t : Nat → Ten σ 𝕜} (ht : Closed N t) (hi : i + 1 < N) : embed N i t (mergeTen (t i) (t (i + 1))) = stateV N t := by
  unfold embed stateV
  congr 1
  funext s
  have hl := closed_linked ht
  have hh := closed_head ht
  rw [map_cut t hi] at hl hh ⊢
  exact bamp_merge hl hh (by simp) (by simp; omega)

section
variable {N i : Nat} {t : Nat → Ten σ 𝕜} (ht : Closed N t) (hi : i + 1 < N) (hL : ∀ j, j < i → LeftIso (t j))
  (hR : ∀ j, i + 1 < j → j < N → RightIso (t j))
include ht hi hL hR

theorem embed_inner {X Y : Blk2 σ 𝕜} (xl : X.l = (t i).l) (xr : X.r = (t (i + 1)).r) (yl : Y.l = X.l) (yr : Y.r = X.r) :
    inner 𝕜 (embed N i t X) (embed N i t Y) = ∑ q : Fin X.l × σ × σ × Fin X.r, star (X.v q.2.1 q.2.2.1 q.1 q.2.2.2) * Y.v q.2.1 q.2.2.1 q.1 q.2.2.2 := by
  rw [inner_sum]
  exact bamp_overlap ht hi hL hR xl xr yl yr

theorem embed_inner_v (v w : TwoV σ 𝕜 (t i).l (t (i + 1)).r) : inner 𝕜 (embed N i t (ofV v)) (embed N i t (ofV w)) = inner 𝕜 v w := by
  rw [embed_inner ht hi hL hR (X := ofV v) (Y := ofV w) rfl rfl rfl rfl, inner_sum]
  exact sum_congr rfl fun q _ => by rw [ofV_v v q, ofV_v w q]

theorem embed_norm (v : TwoV σ 𝕜 (t i).l (t (i + 1)).r) : ‖embed N i t (ofV v)‖ = ‖v‖ := by
  have h := embed_inner_v ht hi hL hR v v
  rw [inner_self_eq_norm_sq_to_K, inner_self_eq_norm_sq_to_K] at h
  have h' : ‖embed N i t (ofV v)‖ ^ 2 = ‖v‖ ^ 2 := by exact_mod_cast h
  exact (pow_left_inj₀ (norm_nonneg _) (norm_nonneg _) (by norm_num)).mp h'

end

section
variable {N i : Nat} {t : Nat → Ten σ 𝕜} {w : Nat → Ten (σ × σ) 𝕜} {e f : Env3 𝕜} (hw : Closed N w) (hi : i + 1 < N)
  (he : BlkL i e ((List.range i).map w) ((List.range i).map t) (t i).l (w i).l)
  (hf : BlkR (N - (i + 2)) f ((List.range' (i + 2) (N - (i + 2))).map w) ((List.range' (i + 2) (N - (i + 2))).map t) (t (i + 1)).r (w (i + 1)).r)
include hw hi he hf

theorem embed_elem (v u : TwoV σ 𝕜 (t i).l (t (i + 1)).r) :
    inner 𝕜 (embed N i t (ofV v)) (Matrix.toEuclideanLin (opM N w) (embed N i t (ofV u))) =
      inner 𝕜 v (effHam e f (w i) (w (i + 1)) (t i).l (t (i + 1)).r u) := by
  have lw := closed_linked hw
  have iw := closed_head hw
  rw [map_cut w hi] at lw iw
  have := bamp_elem (N := N) (X := ofV v) (Y := ofV u) (by omega) he hf rfl rfl lw iw
  rw [inner_sum, inner_sum]
  refine Eq.trans ?_ (this.trans ?_)
  · refine sum_congr rfl fun s _ => ?_
    rw [Matrix.ofLp_toLpLin]
    simp only [Matrix.toLin'_apply, Matrix.mulVec, dotProduct]
    rw [Finset.mul_sum]
    refine sum_congr rfl fun s' _ => ?_
    rw [mul_assoc]
    congr 1
    show amp ((List.range N).map w) (List.ofFn fun i => (s i, s' i)) 0 0 * _ = _
    rw [zip_ofFn, map_cut w hi]
    rfl
  · refine sum_congr rfl fun q _ => ?_
    rw [show effHam e f (w i) (w (i + 1)) (t i).l (t (i + 1)).r u q = ∑ j : Fin (t i).l × σ × σ × Fin (t (i + 1)).r,
      effCoef e f (w i) (w (i + 1)) q.1 q.2.1 q.2.2.1 q.2.2.2 j.1 j.2.1 j.2.2.1 j.2.2.2 * u j from ?_, Finset.mul_sum]
    · refine sum_congr rfl fun j _ => ?_
      rw [ofV_v v q, ofV_v u j, mul_assoc]
    · unfold effHam
      rw [Matrix.ofLp_toLpLin]
      simp only [Matrix.toLin'_apply, Matrix.mulVec, dotProduct]
      rfl

theorem effHam_symm (hH : (opM N w).IsHermitian) : (effHam e f (w i) (w (i + 1)) (t i).l (t (i + 1)).r).IsSymmetric := by
  have hs : (Matrix.toEuclideanLin (opM N w)).IsSymmetric := Matrix.isSymmetric_toEuclideanLin_iff.mpr hH
  intro v u
  rw [← embed_elem hw hi he hf v u, ← hs, ← inner_conj_symm, ← embed_elem hw hi he hf u v, inner_conj_symm]

/-- What the Lanczos solver returns in an update, seen from the whole chain. -/
theorem lanczos_core {P : VmpsPar σ 𝕜} (ht : Closed N t) (hL : ∀ j, j < i → LeftIso (t j)) (hR : ∀ j, i + 1 < j → j < N → RightIso (t j)) (hP : P.w = w)
    (hH : (opM N w).IsHermitian) (hnz : stateV N t ≠ 0) (ht3 : Solves P.tri) (hK : 2 ≤ P.maxIter) :
    ∃ r, lanczosAt P i e f (t i) (t (i + 1)) = some r ∧ ‖r.vec‖ = 1 ∧ ‖embed N i t (ofV r.vec)‖ = 1 ∧
      inner 𝕜 (embed N i t (ofV r.vec)) (Matrix.toEuclideanLin (opM N w) (embed N i t (ofV r.vec))) = (r.energy : 𝕜) ∧
      r.energy * ‖stateV N t‖ ^ 2 ≤ expect (opM N w) (stateV N t) := by
  subst hP
  have key : ∀ v : TwoV σ 𝕜 (t i).l (t (i + 1)).r, embed N i t (ofV v) = stateV N t →
      ∃ r, gsSolve (effHam e f (P.w i) (P.w (i + 1)) (t i).l (t (i + 1)).r) v P.tri P.maxIter
        ((t i).l * (Fintype.card σ * Fintype.card σ) * (t (i + 1)).r) P.tol = some r ∧ ‖r.vec‖ = 1 ∧ ‖embed N i t (ofV r.vec)‖ = 1 ∧
      inner 𝕜 (embed N i t (ofV r.vec)) (Matrix.toEuclideanLin (opM N P.w) (embed N i t (ofV r.vec))) = (r.energy : 𝕜) ∧
      r.energy * ‖stateV N t‖ ^ 2 ≤ expect (opM N P.w) (stateV N t) := by
    intro v hm
    have hv : v ≠ 0 := by
      intro h0
      apply hnz
      have := embed_norm ht hi hL hR v
      rw [hm, h0, norm_zero] at this
      exact norm_eq_zero.mp this
    have hs := effHam_symm hw hi he hf hH
    obtain ⟨r, h1, h2, -, h3, -, h4, h5, -⟩ := C57_lanczos hs hv ht3 hK ((t i).l * (Fintype.card σ * Fintype.card σ) * (t (i + 1)).r) P.tol
    refine ⟨r, h1, h3, (embed_norm ht hi hL hR r.vec).trans h3, (embed_elem hw hi he hf r.vec r.vec).trans h4, ?_⟩
    have h6 := h5 v (Submodule.subset_span ⟨0, h2, rfl⟩)
    have e1 := embed_elem hw hi he hf v v
    have e2 := embed_norm ht hi hL hR v
    rw [hm] at e1 e2
    rw [expect, e1, e2]
    exact h6
  refine key (toV (mergeTen (t i) (t (i + 1)))) ?_
  rw [← embed_merge ht hi]
  exact embed_congr rfl rfl fun x y a b ha hb => dif_pos ⟨ha, hb⟩

end

/-! ### The new tensors -/

/-- The pair `(i, i+1)` replaced. -/
def setPair (t : Nat → Ten σ 𝕜) (i : Nat) (p : Ten σ 𝕜 × Ten σ 𝕜) : Nat → Ten σ 𝕜 := Function.update (Function.update t i p.1) (i + 1) p.2

omit [RCLike 𝕜] [Fintype σ] [DecidableEq σ] in
theorem setPair_l (t : Nat → Ten σ 𝕜) (i : Nat) (p : Ten σ 𝕜 × Ten σ 𝕜) : setPair t i p i = p.1 := by
  unfold setPair
  rw [Function.update_of_ne (by omega), Function.update_self]

omit [RCLike 𝕜] [Fintype σ] [DecidableEq σ] in
theorem setPair_r (t : Nat → Ten σ 𝕜) (i : Nat) (p : Ten σ 𝕜 × Ten σ 𝕜) : setPair t i p (i + 1) = p.2 := by
  unfold setPair
  rw [Function.update_self]

omit [RCLike 𝕜] [Fintype σ] [DecidableEq σ] in
theorem setPair_o (t : Nat → Ten σ 𝕜) (i : Nat) (p : Ten σ 𝕜 × Ten σ 𝕜) {j : Nat} (h1 : j ≠ i) (h2 : j ≠ i + 1) : setPair t i p j = t j := by
  unfold setPair
  rw [Function.update_of_ne h2, Function.update_of_ne h1]

omit [RCLike 𝕜] [Fintype σ] [DecidableEq σ] in
theorem setPair_closed {N i : Nat} {t : Nat → Ten σ 𝕜} {p : Ten σ 𝕜 × Ten σ 𝕜} (ht : Closed N t) (hi : i + 1 < N) (hl : p.1.l = (t i).l) (hm : p.1.r = p.2.l)
    (hr : p.2.r = (t (i + 1)).r) : Closed N (setPair t i p) := by
  have hl' : ∀ j, (setPair t i p j).l = if j = i + 1 then p.2.l else (t j).l := by
    intro j
    by_cases h1 : j = i
    · subst h1; rw [setPair_l, hl, if_neg (by omega)]
    · by_cases h2 : j = i + 1
      · subst h2; rw [setPair_r, if_pos rfl]
      · rw [setPair_o t i p h1 h2, if_neg h2]
  have hr' : ∀ j, (setPair t i p j).r = if j = i then p.1.r else (t j).r := by
    intro j
    by_cases h1 : j = i
    · subst h1; rw [setPair_l, if_pos rfl]
    · by_cases h2 : j = i + 1
      · subst h2; rw [setPair_r, hr, if_neg (by omega)]
      · rw [setPair_o t i p h1 h2, if_neg h1]
  refine ⟨?_, ?_, fun j hj => ?_⟩
  · rw [hl', if_neg (by omega)]; exact ht.1
  · rw [hr', if_neg (by omega)]; exact ht.2.1
  · rw [hr', hl']
    by_cases h : j = i
    · rw [if_pos h, if_pos (by omega), hm]
    · rw [if_neg h, if_neg (by omega)]; exact ht.2.2 j hj

/-- What an update leaves: the state after a split whose product is `u u† T` or `T v† v`. -/
theorem split_core0 {N i : Nat} {t : Nat → Ten σ 𝕜} (ht : Closed N t) (hi : i + 1 < N) (hL : ∀ j, j < i → LeftIso (t j))
    (hR : ∀ j, i + 1 < j → j < N → RightIso (t j)) (v : TwoV σ 𝕜 (t i).l (t (i + 1)).r) {p : Ten σ 𝕜 × Ten σ 𝕜} (hl : p.1.l = (t i).l) (hm : p.1.r = p.2.l)
    (hr : p.2.r = (t (i + 1)).r)
    (hp : ∑ q : Fin (t i).l × σ × σ × Fin (t (i + 1)).r, star ((mergeTen p.1 p.2).v q.2.1 q.2.2.1 q.1 q.2.2.2) * (ofV v).v q.2.1 q.2.2.1 q.1 q.2.2.2 =
      ∑ q : Fin (t i).l × σ × σ × Fin (t (i + 1)).r, star ((mergeTen p.1 p.2).v q.2.1 q.2.2.1 q.1 q.2.2.2) * (mergeTen p.1 p.2).v q.2.1 q.2.2.1 q.1 q.2.2.2) :
    Closed N (setPair t i p) ∧
      ((∃ x y a b, a < (t i).l ∧ b < (t (i + 1)).r ∧ ∑ k ∈ range p.1.r, p.1.v x a k * p.2.v y k b ≠ 0) → stateV N (setPair t i p) ≠ 0) ∧
      inner 𝕜 (stateV N (setPair t i p)) (embed N i t (ofV v)) = ((‖stateV N (setPair t i p)‖ ^ 2 : ℝ) : 𝕜) ∧
      ((ofV v).Is p → stateV N (setPair t i p) = embed N i t (ofV v)) := by
  have hc := setPair_closed ht hi hl hm hr
  have hs : stateV N (setPair t i p) = embed N i t (mergeTen p.1 p.2) := by
    rw [← embed_merge hc hi, setPair_l, setPair_r]
    exact embed_upd (fun j h1 h2 => setPair_o t i p h1 h2) _
  have hv : ∃ u : TwoV σ 𝕜 (t i).l (t (i + 1)).r,
      ((∃ x y a b, a < (t i).l ∧ b < (t (i + 1)).r ∧ ∑ k ∈ range p.1.r, p.1.v x a k * p.2.v y k b ≠ 0) → u ≠ 0) ∧ (∀ q, u q = (mergeTen p.1 p.2).v q.2.1 q.2.2.1 q.1 q.2.2.2) ∧ embed N i t (ofV u) = embed N i t (mergeTen p.1 p.2) := by
    refine ⟨WithLp.toLp 2 fun q => (mergeTen p.1 p.2).v q.2.1 q.2.2.1 q.1 q.2.2.2, ?_, fun q => rfl, ?_⟩
    · intro hz h0
      obtain ⟨x, y, a, b, ha, hb, h⟩ := hz
      have : (WithLp.toLp 2 fun q => (mergeTen p.1 p.2).v q.2.1 q.2.2.1 q.1 q.2.2.2 : TwoV σ 𝕜 (t i).l (t (i + 1)).r) (⟨a, ha⟩, x, y, ⟨b, hb⟩) = 0 := by rw [h0]; rfl
      exact h this
    · refine embed_congr hl.symm hr.symm fun x y a b ha hb => ?_
      exact dif_pos ⟨ha, hb⟩
  obtain ⟨u, u0, hu, heq⟩ := hv
  rw [hs, ← heq]
  have hn := embed_norm ht hi hL hR u
  refine ⟨hc, ?_, ?_, ?_⟩
  · intro hz h0
    rw [h0, norm_zero] at hn
    exact u0 hz (norm_eq_zero.mp hn.symm)
  · rw [embed_inner_v ht hi hL hR, hn, show ((‖u‖ ^ 2 : ℝ) : 𝕜) = (‖u‖ : 𝕜) ^ 2 by push_cast; rfl, ← inner_self_eq_norm_sq_to_K (𝕜 := 𝕜) u, inner_sum, inner_sum]
    refine Eq.trans (sum_congr rfl fun q _ => ?_) (hp.trans (sum_congr rfl fun q _ => ?_))
    · rw [hu, ofV_v]
    · rw [hu]
  · intro hI
    rw [heq]
    refine embed_congr hl hr fun x y a b ha hb => ?_
    exact hI x y a b (show a < (t i).l by rw [← hl]; exact ha) (show b < (t (i + 1)).r by rw [← hr]; exact hb)

/-- The same if something is left. -/
theorem split_core {N i : Nat} {t : Nat → Ten σ 𝕜} (ht : Closed N t) (hi : i + 1 < N) (hL : ∀ j, j < i → LeftIso (t j))
    (hR : ∀ j, i + 1 < j → j < N → RightIso (t j)) (v : TwoV σ 𝕜 (t i).l (t (i + 1)).r) {p : Ten σ 𝕜 × Ten σ 𝕜} (hl : p.1.l = (t i).l) (hm : p.1.r = p.2.l)
    (hr : p.2.r = (t (i + 1)).r)
    (hp : ∑ q : Fin (t i).l × σ × σ × Fin (t (i + 1)).r, star ((mergeTen p.1 p.2).v q.2.1 q.2.2.1 q.1 q.2.2.2) * (ofV v).v q.2.1 q.2.2.1 q.1 q.2.2.2 =
      ∑ q : Fin (t i).l × σ × σ × Fin (t (i + 1)).r, star ((mergeTen p.1 p.2).v q.2.1 q.2.2.1 q.1 q.2.2.2) * (mergeTen p.1 p.2).v q.2.1 q.2.2.1 q.1 q.2.2.2)
    (hz : ∃ x y a b, a < (t i).l ∧ b < (t (i + 1)).r ∧ ∑ k ∈ range p.1.r, p.1.v x a k * p.2.v y k b ≠ 0) :
    Closed N (setPair t i p) ∧ stateV N (setPair t i p) ≠ 0 ∧
      inner 𝕜 (stateV N (setPair t i p)) (embed N i t (ofV v)) = ((‖stateV N (setPair t i p)‖ ^ 2 : ℝ) : 𝕜) ∧
      ((ofV v).Is p → stateV N (setPair t i p) = embed N i t (ofV v)) := by
  obtain ⟨a, b, c⟩ := split_core0 ht hi hL hR v hl hm hr hp
  exact ⟨a, b hz, c⟩

end Verif.Mps
