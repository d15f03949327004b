import Verif.Mps.SsFacts
import Verif.Mps.SsSpec
import Verif.Mps.VmpsRun
/-
One update of the single-site optimisation.
-/
namespace Verif.Mps
open Finset Verif.Disk Verif.Algo Verif.Props

section cut
variable {σ K : Type} [CommRing K]

/-- The block is the product of the two tensors. -/
structure Agree (T : Blk2 σ K) (q : Ten σ K × Ten σ K) : Prop where
  l : q.1.l = T.l
  r : q.2.r = T.r
  m : q.1.r = q.2.l
  v : ∀ x y a b, a < T.l → b < T.r → T.v x y a b = ∑ k ∈ range q.1.r, q.1.v x a k * q.2.v y k b

/-- The expansion cannot be seen in the block. -/
theorem agree_expandR [Fintype σ] {T : Blk2 σ K} {t u : Ten σ K} (h : Agree T (t, u)) (ν : K) (e : Env3 K) (w : Ten (σ × σ) K) : Agree T (expandR ν e w t u) := by
  refine ⟨h.l, h.r, rfl, fun x y a b ha hb => ?_⟩
  rw [h.v x y a b ha hb]
  show ∑ k ∈ range t.r, t.v x a k * u.v y k b = ∑ k ∈ range (t.r + t.r * w.r), _
  rw [Finset.sum_range_add]
  have h1 : ∑ k ∈ range t.r, (expandR ν e w t u).1.v x a k * (expandR ν e w t u).2.v y k b = ∑ k ∈ range t.r, t.v x a k * u.v y k b :=
    sum_congr rfl fun k hk => by
      show (if k < t.r then t.v x a k else _) * (if k < t.r then u.v y k b else 0) = _
      rw [if_pos (mem_range.mp hk), if_pos (mem_range.mp hk)]
  have h2 : ∑ k ∈ range (t.r * w.r), (expandR ν e w t u).1.v x a (t.r + k) * (expandR ν e w t u).2.v y (t.r + k) b = 0 :=
    sum_eq_zero fun k _ => by
      show _ * (if t.r + k < t.r then u.v y (t.r + k) b else 0) = _
      rw [if_neg (by omega), mul_zero]
  rw [h1, h2, add_zero]

theorem agree_expandL [Fintype σ] {T : Blk2 σ K} {t u : Ten σ K} (h : Agree T (t, u)) (ν : K) (f : Env3 K) (w : Ten (σ × σ) K) : Agree T (expandL ν f w t u) := by
  refine ⟨h.l, h.r, rfl, fun x y a b ha hb => ?_⟩
  rw [h.v x y a b ha hb]
  have hm : t.r = u.l := h.m
  show ∑ k ∈ range t.r, t.v x a k * u.v y k b = ∑ k ∈ range (u.l + u.l * w.l), _
  rw [Finset.sum_range_add]
  have h1 : ∑ k ∈ range u.l, (expandL ν f w t u).1.v x a k * (expandL ν f w t u).2.v y k b = ∑ k ∈ range u.l, t.v x a k * u.v y k b :=
    sum_congr rfl fun k hk => by
      show (if k < u.l then t.v x a k else 0) * (if k < u.l then u.v y k b else _) = _
      rw [if_pos (mem_range.mp hk), if_pos (mem_range.mp hk)]
  have h2 : ∑ k ∈ range (u.l * w.l), (expandL ν f w t u).1.v x a (u.l + k) * (expandL ν f w t u).2.v y (u.l + k) b = 0 :=
    sum_eq_zero fun k _ => by
      show (if u.l + k < u.l then t.v x a (u.l + k) else 0) * _ = _
      rw [if_neg (by omega), zero_mul]
  rw [h1, h2, add_zero, hm]

variable [StarRing K] [Fintype σ]

/-- Moving right, the second tensor is `u†` times the block. -/
theorem cutR_hp {svd : Ten σ K → Ten σ K × Mat K} (H : SiteSvdR svd) {T : Blk2 σ K} {q : Ten σ K × Ten σ K} (h : Agree T q) (y : σ) (j b : Nat) (hj : j < (svd q.1).1.r)
    (hb : b < T.r) : (mulL (svd q.1).2 (svd q.1).1.r q.2).v y j b = ∑ x, ∑ a ∈ range T.l, star ((svd q.1).1.v x a j) * T.v x y a b := by
  show ∑ k ∈ range q.2.l, (svd q.1).2 j k * q.2.v y k b = _
  have e : ∀ x, ∀ a ∈ range T.l, star ((svd q.1).1.v x a j) * T.v x y a b = ∑ k ∈ range q.1.r, star ((svd q.1).1.v x a j) * q.1.v x a k * q.2.v y k b := fun x a ha => by
    rw [h.v x y a b (mem_range.mp ha) hb, Finset.mul_sum]
    exact sum_congr rfl fun k _ => by ring
  rw [sum_congr rfl fun x _ => sum_congr rfl (e x), sum_congr rfl fun x _ => sum_comm, sum_comm, ← h.m]
  refine sum_congr rfl fun k hk => ?_
  rw [H.proj q.1 j k hj (mem_range.mp hk), h.l, Finset.sum_mul]
  exact sum_congr rfl fun x _ => Finset.sum_mul _ _ _

/-- Moving left, the first tensor is the block times `v†`. -/
theorem cutL_hp {svd : Ten σ K → Ten σ K × Mat K} (H : SiteSvdL svd) {T : Blk2 σ K} {q : Ten σ K × Ten σ K} (h : Agree T q) (x : σ) (a j : Nat) (ha : a < T.l)
    (hj : j < (svd q.2).1.l) : (mulR q.1 (svd q.2).2 (svd q.2).1.l).v x a j = ∑ y, ∑ b ∈ range T.r, T.v x y a b * star ((svd q.2).1.v y j b) := by
  show ∑ k ∈ range q.1.r, q.1.v x a k * (svd q.2).2 k j = _
  have e : ∀ y, ∀ b ∈ range T.r, T.v x y a b * star ((svd q.2).1.v y j b) = ∑ k ∈ range q.1.r, q.1.v x a k * (q.2.v y k b * star ((svd q.2).1.v y j b)) := fun y b hb => by
    rw [h.v x y a b ha (mem_range.mp hb), Finset.sum_mul]
    exact sum_congr rfl fun k _ => by ring
  rw [sum_congr rfl fun y _ => sum_congr rfl (e y), sum_congr rfl fun y _ => sum_comm, sum_comm]
  refine sum_congr rfl fun k hk => ?_
  rw [H.proj q.2 k j (by rw [← h.m]; exact mem_range.mp hk) hj, h.r, Finset.mul_sum]
  exact sum_congr rfl fun y _ => Finset.mul_sum _ _ _

omit [StarRing K] [Fintype σ] in
/-- The product of the two new tensors, in terms of the decomposition of the target. -/
theorem cutR_prod (svd : Ten σ K → Ten σ K × Mat K) (q : Ten σ K × Ten σ K) (x y : σ) (a b : Nat) :
    ∑ j ∈ range (svd q.1).1.r, (svd q.1).1.v x a j * (mulL (svd q.1).2 (svd q.1).1.r q.2).v y j b =
      ∑ k ∈ range q.2.l, (∑ j ∈ range (svd q.1).1.r, (svd q.1).1.v x a j * (svd q.1).2 j k) * q.2.v y k b := by
  simp only [mulL, Finset.mul_sum, Finset.sum_mul]
  rw [sum_comm]
  exact sum_congr rfl fun k _ => sum_congr rfl fun j _ => by ring

omit [StarRing K] [Fintype σ] in
theorem cutL_prod (svd : Ten σ K → Ten σ K × Mat K) (q : Ten σ K × Ten σ K) (x y : σ) (a b : Nat) :
    ∑ j ∈ range (svd q.2).1.l, (mulR q.1 (svd q.2).2 (svd q.2).1.l).v x a j * (svd q.2).1.v y j b =
      ∑ k ∈ range q.1.r, q.1.v x a k * ∑ j ∈ range (svd q.2).1.l, (svd q.2).2 k j * (svd q.2).1.v y j b := by
  simp only [mulR, Finset.mul_sum, Finset.sum_mul]
  rw [sum_comm]
  exact sum_congr rfl fun k _ => sum_congr rfl fun j _ => by ring

/-- If nothing was appended and the next tensor is an isometry, something is left. -/
theorem cutR_nz {svd : Ten σ K → Ten σ K × Mat K} (H : SiteSvdR svd) {q : Ten σ K × Ten σ K} (hm : q.1.r = q.2.l) (hu : RightIso q.2) (h : q.1.NZ) :
    ∃ x y a b, a < q.1.l ∧ b < q.2.r ∧ ∑ j ∈ range (svd q.1).1.r, (svd q.1).1.v x a j * (mulL (svd q.1).2 (svd q.1).1.r q.2).v y j b ≠ 0 := by
  by_contra hn
  obtain ⟨x, a, c, ha, hc, hne⟩ := H.nz q.1 h
  apply hne
  have hz : ∀ y b, b < q.2.r → ∑ k ∈ range q.2.l, (∑ j ∈ range (svd q.1).1.r, (svd q.1).1.v x a j * (svd q.1).2 j k) * q.2.v y k b = 0 := fun y b hb => by
    by_contra h0
    exact hn ⟨x, y, a, b, ha, hb, by rw [cutR_prod]; exact h0⟩
  set g : Nat → K := fun k => ∑ j ∈ range (svd q.1).1.r, (svd q.1).1.v x a j * (svd q.1).2 j k with hg
  have e : ∑ y, ∑ b ∈ range q.2.r, (∑ k ∈ range q.2.l, g k * q.2.v y k b) * star (q.2.v y c b) =
      ∑ k ∈ range q.2.l, g k * ∑ y, ∑ b ∈ range q.2.r, q.2.v y k b * star (q.2.v y c b) := by
    simp only [Finset.sum_mul, Finset.mul_sum]
    rw [sum_congr rfl fun y _ => sum_comm, sum_comm]
    exact sum_congr rfl fun k _ => sum_congr rfl fun y _ => sum_congr rfl fun b _ => by ring
  have hc' : c < q.2.l := by rw [← hm]; exact hc
  rw [sum_eq_zero fun y _ => sum_eq_zero fun b hb => by rw [hz y b (mem_range.mp hb), zero_mul], sum_eq_single c] at e
  · rw [hu c hc' c hc', if_pos rfl, mul_one] at e
    exact e.symm
  · intro k hk hkc
    rw [hu k (mem_range.mp hk) c hc', if_neg hkc, mul_zero]
  · intro h; exact absurd (mem_range.mpr hc') h

theorem cutL_nz {svd : Ten σ K → Ten σ K × Mat K} (H : SiteSvdL svd) {q : Ten σ K × Ten σ K} (hm : q.1.r = q.2.l) (hu : LeftIso q.1) (h : q.2.NZ) :
    ∃ x y a b, a < q.1.l ∧ b < q.2.r ∧ ∑ j ∈ range (svd q.2).1.l, (mulR q.1 (svd q.2).2 (svd q.2).1.l).v x a j * (svd q.2).1.v y j b ≠ 0 := by
  by_contra hn
  obtain ⟨y, c, b, hc, hb, hne⟩ := H.nz q.2 h
  apply hne
  have hz : ∀ x a, a < q.1.l → ∑ k ∈ range q.1.r, q.1.v x a k * ∑ j ∈ range (svd q.2).1.l, (svd q.2).2 k j * (svd q.2).1.v y j b = 0 := fun x a ha => by
    by_contra h0
    exact hn ⟨x, y, a, b, ha, hb, by rw [cutL_prod]; exact h0⟩
  set g : Nat → K := fun k => ∑ j ∈ range (svd q.2).1.l, (svd q.2).2 k j * (svd q.2).1.v y j b with hg
  have e : ∑ x, ∑ a ∈ range q.1.l, star (q.1.v x a c) * (∑ k ∈ range q.1.r, q.1.v x a k * g k) =
      ∑ k ∈ range q.1.r, (∑ x, ∑ a ∈ range q.1.l, star (q.1.v x a c) * q.1.v x a k) * g k := by
    simp only [Finset.sum_mul, Finset.mul_sum]
    rw [sum_congr rfl fun y _ => sum_comm, sum_comm]
    exact sum_congr rfl fun k _ => sum_congr rfl fun y _ => sum_congr rfl fun b _ => by ring
  have hc' : c < q.1.r := by rw [hm]; exact hc
  rw [sum_eq_zero fun y _ => sum_eq_zero fun b hb => by rw [hz y b (mem_range.mp hb), mul_zero], sum_eq_single c] at e
  · rw [hu c hc' c hc', if_pos rfl, one_mul] at e
    exact e.symm
  · intro k hk hkc
    rw [hu c hc' k (mem_range.mp hk), if_neg (Ne.symm hkc), zero_mul]
  · intro h; exact absurd (mem_range.mpr hc') h

end cut

section upd
variable {σ 𝕜 : Type} [RCLike 𝕜] [Fintype σ] [DecidableEq σ] {N : Nat} {P : SsPar σ 𝕜}

omit [DecidableEq σ] in
theorem agree_sAddR (u : Ten σ 𝕜) {l m : Nat} (hm : m = u.l) (X : SiteV σ 𝕜 l m) : Agree (ofV (sAddR u X)) (ofS X, u) := by
  refine ⟨rfl, rfl, hm, fun x y a b ha hb => ?_⟩
  have ha' : a < l := ha
  have hb' : b < u.r := hb
  show (if h : a < l ∧ b < u.r then ∑ k : Fin m, X (⟨a, h.1⟩, x, k) * u.v y k b else 0) =
    ∑ k ∈ range m, (if h : a < l ∧ k < m then X (⟨a, h.1⟩, x, ⟨k, h.2⟩) else 0) * u.v y k b
  rw [dif_pos ⟨ha', hb'⟩, Finset.sum_range]
  exact Fintype.sum_congr _ _ fun k => by rw [dif_pos ⟨ha', k.2⟩]

omit [DecidableEq σ] in
theorem agree_sAddL (t : Ten σ 𝕜) {l m : Nat} (hm : t.r = m) (X : SiteV σ 𝕜 m l) : Agree (ofV (sAddL t X)) (t, ofS X) := by
  refine ⟨rfl, rfl, hm, fun x y a b ha hb => ?_⟩
  have ha' : a < t.l := ha
  have hb' : b < l := hb
  show (if h : a < t.l ∧ b < l then ∑ k : Fin m, t.v x a k * X (k, y, ⟨b, h.2⟩) else 0) =
    ∑ k ∈ range t.r, t.v x a k * (if h : k < m ∧ b < l then X (⟨k, h.1⟩, y, ⟨b, h.2⟩) else 0)
  rw [dif_pos ⟨ha', hb'⟩, hm, Finset.sum_range]
  exact Fintype.sum_congr _ _ fun k => by rw [dif_pos ⟨k.2, hb'⟩]

omit [DecidableEq σ] in
theorem ofS_nz {l r : Nat} {v : SiteV σ 𝕜 l r} (h : ‖v‖ = 1) : (ofS v).NZ := by
  by_contra hn
  have : v = 0 := by
    ext q
    by_contra hq
    refine hn ⟨q.2.1, q.1, q.2.2, q.1.2, q.2.2.2, ?_⟩
    show (if h : (q.1 : Nat) < l ∧ (q.2.2 : Nat) < r then v (⟨q.1, h.1⟩, q.2.1, ⟨q.2.2, h.2⟩) else 0) ≠ 0
    rw [dif_pos ⟨q.1.2, q.2.2.2⟩]
    exact hq
  rw [this, norm_zero] at h
  exact zero_ne_one h

omit [DecidableEq σ] in
theorem silent_noExp {ν : ℝ} (h : |ν| < 1e-15) (N i l d r : Nat) : needExpand N i ν l d r = false := by
  unfold needExpand
  simp [h]

omit [DecidableEq σ] in
theorem ssExpR_agree {T : Blk2 σ 𝕜} {g u : Ten σ 𝕜} (h : Agree T (g, u)) (ν : ℝ) (i : Nat) (e : Env3 𝕜) : Agree T (ssExpR N P ν i e g u) := by
  unfold ssExpR
  split
  · exact agree_expandR h _ _ _
  · exact h

omit [DecidableEq σ] in
theorem ssExpL_agree {T : Blk2 σ 𝕜} {t g : Ten σ 𝕜} (h : Agree T (t, g)) (ν : ℝ) (i : Nat) (f : Env3 𝕜) : Agree T (ssExpL N P ν i f t g) := by
  unfold ssExpL
  split
  · exact agree_expandL h _ _ _
  · exact h

theorem ss_lenv (hP : SsOK N P) {ψ : Nat → LTen σ 𝕜} (ht : Closed N (tens ψ)) {i : Nat} (hi : i < N) :
    BlkL i ((ssAlg N P).lenv ψ i) ((List.range i).map P.w) ((List.range i).map (tens ψ)) (tens ψ i).l (P.w i).l :=
  blkL_chain hP.closed ht ((ssAlg N P).lenv ψ) rfl i hi fun _ _ => rfl

theorem ss_renv (hP : SsOK N P) {ψ : Nat → LTen σ 𝕜} (ht : Closed N (tens ψ)) {i : Nat} (hi : i + 1 < N) :
    BlkR (N - (i + 2)) ((ssAlg N P).renv N ψ (N - (i + 2))) ((List.range' (i + 2) (N - (i + 2))).map P.w)
      ((List.range' (i + 2) (N - (i + 2))).map (tens ψ)) (tens ψ (i + 1)).r (P.w (i + 1)).r := by
  have := blkR_chain hP.closed ht ((ssAlg N P).renv N ψ) rfl (N - (i + 2)) (by omega) fun _ _ => rfl
  rw [show N - (N - (i + 2)) = i + 2 by omega, show N - 1 - (N - (i + 2)) = i + 1 by omega] at this
  exact this

theorem ss_renv_succ {ψ : Nat → LTen σ 𝕜} {i : Nat} (hi : i + 1 < N) :
    (ssAlg N P).renv N ψ (N - (i + 1)) = siteRenv (P.w (i + 1)) ((ssAlg N P).renv N ψ (N - (i + 2))) (tens ψ (i + 1)) := by
  obtain ⟨m, hm⟩ : ∃ m, N - (i + 2) = m := ⟨_, rfl⟩
  rw [hm, show N - (i + 1) = m + 1 by omega]
  show siteRenv (P.w (N - 1 - m)) ((ssAlg N P).renv N ψ m) (ψ (N - 1 - m)).ten = _
  rw [show N - 1 - m = i + 1 by omega]
  rfl

/-- The matrix elements of the one-site Hamiltonian of site `i` are those of `H`, in the chain with the tensor of the site replaced; the right neighbour is an isometry. -/
theorem ss_embR (hP : SsOK N P) {ψ : Nat → LTen σ 𝕜} {i : Nat} (hi : i + 1 < N) (h : Canon N i (tens ψ)) :
    (∀ X Y : SiteV σ 𝕜 (tens ψ i).l (tens ψ i).r, inner 𝕜 (embed N i (tens ψ) (ofV (sAddR (tens ψ (i + 1)) X))) (embed N i (tens ψ) (ofV (sAddR (tens ψ (i + 1)) Y))) = inner 𝕜 X Y) ∧
    ∀ X Y : SiteV σ 𝕜 (tens ψ i).l (tens ψ i).r, inner 𝕜 (embed N i (tens ψ) (ofV (sAddR (tens ψ (i + 1)) X)))
      (Matrix.toEuclideanLin (opM N P.w) (embed N i (tens ψ) (ofV (sAddR (tens ψ (i + 1)) Y)))) =
      inner 𝕜 X (siteHam ((ssAlg N P).lenv ψ i) ((ssAlg N P).renv N ψ (N - (i + 1))) (P.w i) (tens ψ i).l (tens ψ i).r Y) := by
  have hL : ∀ j, j < i → LeftIso (tens ψ j) := h.2.1
  have hR : ∀ j, i + 1 < j → j < N → RightIso (tens ψ j) := fun j h1 h2 => h.2.2 j (by omega) h2
  have hu : RightIso (tens ψ (i + 1)) := h.2.2 _ (by omega) hi
  have he := ss_lenv hP h.1 (show i < N by omega)
  have hf := ss_renv hP h.1 hi
  refine ⟨fun X Y => ?_, fun X Y => ?_⟩
  · rw [embed_inner_v h.1 hi hL hR, inner_sAddR_sAddR hu (h.1.2.2 i hi).symm]
  · rw [embed_elem hP.closed hi he hf, inner_siteHamR _ _ _ _ _ hf.2.2.1 hf.2.2.2.2.1 (hP.closed.2.2 i hi), ss_renv_succ hi]

/-- The same for the pair `(i, i+1)` with target `i+1`; the left neighbour is an isometry. -/
theorem ss_embL (hP : SsOK N P) {ψ : Nat → LTen σ 𝕜} {i : Nat} (hi : i + 1 < N) (h : Canon N (i + 1) (tens ψ)) :
    (∀ X Y : SiteV σ 𝕜 (tens ψ (i + 1)).l (tens ψ (i + 1)).r, inner 𝕜 (embed N i (tens ψ) (ofV (sAddL (tens ψ i) X))) (embed N i (tens ψ) (ofV (sAddL (tens ψ i) Y))) = inner 𝕜 X Y) ∧
    ∀ X Y : SiteV σ 𝕜 (tens ψ (i + 1)).l (tens ψ (i + 1)).r, inner 𝕜 (embed N i (tens ψ) (ofV (sAddL (tens ψ i) X)))
      (Matrix.toEuclideanLin (opM N P.w) (embed N i (tens ψ) (ofV (sAddL (tens ψ i) Y)))) =
      inner 𝕜 X (siteHam ((ssAlg N P).lenv ψ (i + 1)) ((ssAlg N P).renv N ψ (N - (i + 2))) (P.w (i + 1)) (tens ψ (i + 1)).l (tens ψ (i + 1)).r Y) := by
  have hL : ∀ j, j < i → LeftIso (tens ψ j) := fun j hj => h.2.1 j (by omega)
  have hR : ∀ j, i + 1 < j → j < N → RightIso (tens ψ j) := h.2.2
  have hu : LeftIso (tens ψ i) := h.2.1 _ (by omega)
  have he := ss_lenv hP h.1 (show i < N by omega)
  have hf := ss_renv hP h.1 hi
  refine ⟨fun X Y => ?_, fun X Y => ?_⟩
  · rw [embed_inner_v h.1 hi hL hR, inner_sAddL_sAddL hu (h.1.2.2 i hi)]
  · rw [embed_elem hP.closed hi he hf, inner_siteHamL _ _ _ _ _ he.2.2.1 he.2.2.2.2.1]
    rfl

/-- The update of site `i`, moving right. -/
theorem ssUpdR_ok (hP : SsOK N P) (ν : ℝ) {ψ : Nat → LTen σ 𝕜} {i : Nat} (hi : i + 1 < N) (h : Canon N i (tens ψ)) (hz : stateV N (tens ψ) ≠ 0) :
    ∃ p e, ssUpd N P ν .r i ((ssAlg N P).lenv ψ i) ((ssAlg N P).renv N ψ (N - (i + 1))) (ψ i).ten (ψ (i + 1)).ten = p ∧ p.1.e0 = some e ∧ p.2.e0 = some e ∧
      HStep N (opM N P.w) P.NoCut (stateV N (tens ψ)) e (stateV N (tens (put ψ i p))) ∧ Canon N (i + 1) (tens (put ψ i p)) ∧
      (|ν| < 1e-15 → stateV N (tens (put ψ i p)) ≠ 0) := by
  obtain ⟨em, el⟩ := ss_embR hP hi h
  have hL : ∀ j, j < i → LeftIso (tens ψ j) := h.2.1
  have hR : ∀ j, i + 1 < j → j < N → RightIso (tens ψ j) := fun j h1 h2 => h.2.2 j (by omega) h2
  have hu : RightIso (tens ψ (i + 1)) := h.2.2 _ (by omega) hi
  have hs := embed_sAddR h.1 hi
  obtain ⟨g, hg, gu, gn, gE, gB⟩ := lanczos_emb (opM N P.w) hP.herm _ _ em el (v := toS (tens ψ i)) (by rw [hs]; exact hz) hP.tri hP.iter
    ((tens ψ i).l * Fintype.card σ * (tens ψ i).r) P.tol
  rw [hs] at gB
  refine ⟨_, g.energy, rfl, ?_⟩
  unfold ssUpd
  have hg' : ssLanczos P i ((ssAlg N P).lenv ψ i) ((ssAlg N P).renv N ψ (N - (i + 1))) (ψ i).ten = some g := hg
  rw [hg']
  have ag := agree_sAddR (tens ψ (i + 1)) (h.1.2.2 i hi) g.vec
  have ag' := ssExpR_agree (N := N) (P := P) ag ν i ((ssAlg N P).lenv ψ i)
  set q := ssExpR N P ν i ((ssAlg N P).lenv ψ i) (ofS g.vec) (tens ψ (i + 1)) with hq
  have pl : (ssCutR P q).1.l = (tens ψ i).l := (hP.svR.dim q.1).trans ag'.l
  have pr : (ssCutR P q).2.r = (tens ψ (i + 1)).r := ag'.r
  obtain ⟨c, z, ip, ex⟩ := split_core0 h.1 hi hL hR (sAddR (tens ψ (i + 1)) g.vec) (p := ssCutR P q) pl rfl pr
    (projR_at (T := ofV (sAddR (tens ψ (i + 1)) g.vec)) pl (hP.svR.iso _) fun y j b hj hb => cutR_hp hP.svR ag' y j b hj hb)
  have hput : tens (put ψ i (⟨(ssCutR P q).1, some g.energy⟩, ⟨(ssCutR P q).2, some g.energy⟩)) = setPair (tens ψ) i (ssCutR P q) := tens_put _ _ _
  refine ⟨rfl, rfl, ⟨gB, embed N i (tens ψ) (ofV (sAddR (tens ψ (i + 1)) g.vec)), gn, gE, ?_, fun hx => ?_⟩, ⟨?_, ?_, ?_⟩, fun hν => ?_⟩
  · show inner 𝕜 (stateV N (tens (put ψ i (⟨(ssCutR P q).1, some g.energy⟩, ⟨(ssCutR P q).2, some g.energy⟩)))) _ =
      ((‖stateV N (tens (put ψ i (⟨(ssCutR P q).1, some g.energy⟩, ⟨(ssCutR P q).2, some g.energy⟩)))‖ ^ 2 : ℝ) : 𝕜)
    rw [hput]; exact ip
  · show stateV N (tens (put ψ i (⟨(ssCutR P q).1, some g.energy⟩, ⟨(ssCutR P q).2, some g.energy⟩))) = _
    rw [hput]
    refine ex fun x y a b ha hb => ?_
    rw [ag'.v x y a b ha hb]
    refine (cutR_prod P.svdR q x y a b).trans ?_
    rw [ag'.m]
    exact sum_congr rfl fun k hk => by rw [hx.1 q.1 x a k (by rw [ag'.l]; exact ha) (by rw [ag'.m]; exact mem_range.mp hk)]
  · show Closed N (tens (put ψ i (⟨(ssCutR P q).1, some g.energy⟩, ⟨(ssCutR P q).2, some g.energy⟩)))
    rw [hput]; exact c
  · intro j hj
    show LeftIso (tens (put ψ i (⟨(ssCutR P q).1, some g.energy⟩, ⟨(ssCutR P q).2, some g.energy⟩)) j)
    rw [hput]
    by_cases h1 : j = i
    · subst h1; rw [setPair_l]; exact hP.svR.iso _
    · rw [setPair_o _ _ _ h1 (by omega)]; exact hL j (by omega)
  · intro j hj hj'
    show RightIso (tens (put ψ i (⟨(ssCutR P q).1, some g.energy⟩, ⟨(ssCutR P q).2, some g.energy⟩)) j)
    rw [hput, setPair_o _ _ _ (by omega) (by omega)]
    exact hR j hj hj'
  · show stateV N (tens (put ψ i (⟨(ssCutR P q).1, some g.energy⟩, ⟨(ssCutR P q).2, some g.energy⟩))) ≠ 0
    rw [hput]
    have hq0 : q = (ofS g.vec, tens ψ (i + 1)) := by
      rw [hq]; unfold ssExpR; rw [silent_noExp hν]; rfl
    refine z ?_
    rw [hq0]
    exact cutR_nz hP.svR (q := (ofS g.vec, tens ψ (i + 1))) (h.1.2.2 i hi) hu (ofS_nz gu)

/-- The update of site `i+1`, moving left. -/
theorem ssUpdL_ok (hP : SsOK N P) (ν : ℝ) {ψ : Nat → LTen σ 𝕜} {i : Nat} (hi : i + 1 < N) (h : Canon N (i + 1) (tens ψ)) (hz : stateV N (tens ψ) ≠ 0) :
    ∃ p e, ssUpd N P ν .l (i + 1) ((ssAlg N P).lenv ψ (i + 1)) ((ssAlg N P).renv N ψ (N - (i + 2))) (ψ i).ten (ψ (i + 1)).ten = p ∧ p.1.e0 = some e ∧ p.2.e0 = some e ∧
      HStep N (opM N P.w) P.NoCut (stateV N (tens ψ)) e (stateV N (tens (put ψ i p))) ∧ Canon N i (tens (put ψ i p)) ∧
      (|ν| < 1e-15 → stateV N (tens (put ψ i p)) ≠ 0) := by
  obtain ⟨em, el⟩ := ss_embL hP hi h
  have hL : ∀ j, j < i → LeftIso (tens ψ j) := fun j hj => h.2.1 j (by omega)
  have hR : ∀ j, i + 1 < j → j < N → RightIso (tens ψ j) := h.2.2
  have hu : LeftIso (tens ψ i) := h.2.1 _ (by omega)
  have hs := embed_sAddL h.1 hi
  obtain ⟨g, hg, gu, gn, gE, gB⟩ := lanczos_emb (opM N P.w) hP.herm _ _ em el (v := toS (tens ψ (i + 1))) (by rw [hs]; exact hz) hP.tri hP.iter
    ((tens ψ (i + 1)).l * Fintype.card σ * (tens ψ (i + 1)).r) P.tol
  rw [hs] at gB
  refine ⟨_, g.energy, rfl, ?_⟩
  unfold ssUpd
  have hg' : ssLanczos P (i + 1) ((ssAlg N P).lenv ψ (i + 1)) ((ssAlg N P).renv N ψ (N - (i + 2))) (ψ (i + 1)).ten = some g := hg
  rw [hg']
  have ag := agree_sAddL (tens ψ i) (h.1.2.2 i hi) g.vec
  have ag' := ssExpL_agree (N := N) (P := P) ag ν (i + 1) ((ssAlg N P).renv N ψ (N - (i + 2)))
  set q := ssExpL N P ν (i + 1) ((ssAlg N P).renv N ψ (N - (i + 2))) (tens ψ i) (ofS g.vec) with hq
  have pl : (ssCutL P q).1.l = (tens ψ i).l := ag'.l
  have pr : (ssCutL P q).2.r = (tens ψ (i + 1)).r := (hP.svL.dim q.2).trans ag'.r
  obtain ⟨c, z, ip, ex⟩ := split_core0 h.1 hi hL hR (sAddL (tens ψ i) g.vec) (p := ssCutL P q) pl rfl pr
    (projL_at (T := ofV (sAddL (tens ψ i) g.vec)) pr rfl (hP.svL.iso _) fun x a j ha hj => cutL_hp hP.svL ag' x a j ha hj)
  have hput : tens (put ψ i (⟨(ssCutL P q).1, some g.energy⟩, ⟨(ssCutL P q).2, some g.energy⟩)) = setPair (tens ψ) i (ssCutL P q) := tens_put _ _ _
  refine ⟨rfl, rfl, ⟨gB, embed N i (tens ψ) (ofV (sAddL (tens ψ i) g.vec)), gn, gE, ?_, fun hx => ?_⟩, ⟨?_, ?_, ?_⟩, fun hν => ?_⟩
  · show inner 𝕜 (stateV N (tens (put ψ i (⟨(ssCutL P q).1, some g.energy⟩, ⟨(ssCutL P q).2, some g.energy⟩)))) _ =
      ((‖stateV N (tens (put ψ i (⟨(ssCutL P q).1, some g.energy⟩, ⟨(ssCutL P q).2, some g.energy⟩)))‖ ^ 2 : ℝ) : 𝕜)
    rw [hput]; exact ip
  · show stateV N (tens (put ψ i (⟨(ssCutL P q).1, some g.energy⟩, ⟨(ssCutL P q).2, some g.energy⟩))) = _
    rw [hput]
    refine ex fun x y a b ha hb => ?_
    rw [ag'.v x y a b ha hb]
    refine (cutL_prod P.svdL q x y a b).trans ?_
    exact sum_congr rfl fun k hk => by rw [hx.2 q.2 y k b (by rw [← ag'.m]; exact mem_range.mp hk) (by rw [ag'.r]; exact hb)]
  · show Closed N (tens (put ψ i (⟨(ssCutL P q).1, some g.energy⟩, ⟨(ssCutL P q).2, some g.energy⟩)))
    rw [hput]; exact c
  · intro j hj
    show LeftIso (tens (put ψ i (⟨(ssCutL P q).1, some g.energy⟩, ⟨(ssCutL P q).2, some g.energy⟩)) j)
    rw [hput, setPair_o _ _ _ (by omega) (by omega)]
    exact hL j hj
  · intro j hj hj'
    show RightIso (tens (put ψ i (⟨(ssCutL P q).1, some g.energy⟩, ⟨(ssCutL P q).2, some g.energy⟩)) j)
    rw [hput]
    by_cases h1 : j = i + 1
    · subst h1; rw [setPair_r]; exact hP.svL.iso _
    · rw [setPair_o _ _ _ (by omega) h1]; exact hR j (by omega) hj'
  · show stateV N (tens (put ψ i (⟨(ssCutL P q).1, some g.energy⟩, ⟨(ssCutL P q).2, some g.energy⟩))) ≠ 0
    rw [hput]
    have hq0 : q = (tens ψ i, ofS g.vec) := by
      rw [hq]; unfold ssExpL; rw [silent_noExp hν]; rfl
    refine z ?_
    rw [hq0]
    exact cutL_nz hP.svL (q := (tens ψ i, ofS g.vec)) (h.1.2.2 i hi) hu (ofS_nz gu)

end upd
end Verif.Mps
