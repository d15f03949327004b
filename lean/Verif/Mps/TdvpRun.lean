import Verif.Mps.OneSite
import Verif.Mps.TdvpNumSpec
import Verif.Mps.VmpsRun
import Verif.Mps.VmpsInst
import Verif.Algo.ExpmvExact
/-
The evolutions of two-site TDVP, in terms of the states of the whole chain.
-/
namespace Verif.Mps
open Finset Verif.Disk Verif.Algo Verif.Props

section solve
variable {σ V W : Type} [NormedAddCommGroup V] [InnerProductSpace ℂ V] [FiniteDimensional ℂ V] [NormedAddCommGroup W] [InnerProductSpace ℂ W]
  [FiniteDimensional ℂ W]

theorem exp_sum [Fintype σ] {H : V →ₗ[ℂ] V} {h : W →ₗ[ℂ] W} {ι : W →ₗ[ℂ] V} (R : Restr H h ι) {n : Nat} {u : Nat → W} {d : Nat → ℝ}
    (hu : ∀ j < n, h (u j) = (d j : ℂ) • u j) (δ : ℝ) :
    NormedSpace.exp ((-(δ : ℂ) * Complex.I) • ((LinearMap.range ι).starProjection ∘L LinearMap.toContinuousLinearMap H ∘L (LinearMap.range ι).starProjection))
      (ι (∑ j ∈ range n, u j)) = ι (∑ j ∈ range n, Complex.exp ((-δ * d j : ℝ) * Complex.I) • u j) := by
  haveI : CompleteSpace V := FiniteDimensional.complete ℂ V
  rw [map_sum, map_sum, map_sum]
  refine sum_congr rfl fun j hj => ?_
  rw [exp_eigen (c := ((-δ * d j : ℝ) : ℂ) * Complex.I), map_smul]
  rw [_root_.smul_apply, R.eigen (hu j (mem_range.mp hj)), smul_smul]
  congr 1
  push_cast
  ring

/-- What the solver returns, seen from the whole chain. -/
theorem solve_ok {σ : Type} [Fintype σ] {P : TdvpPar σ} (he : Diagonalises P.eig) (hK : 2 ≤ P.maxIter) {H : V →ₗ[ℂ] V} {h : W →ₗ[ℂ] W} {ι : W →ₗ[ℂ] V}
    (R : Restr H h ι) (hH : H.IsSymmetric) {v : W} (hv : v ≠ 0) (δ : ℝ) (dim : Nat) :
    ∃ r, P.solve h v δ dim = some r ∧ ‖ι r.vec‖ = P.norm ‖ι v‖ ∧
      inner ℂ (ι r.vec) (H (ι r.vec)) = ((P.norm ‖ι v‖ / ‖ι v‖) ^ 2 : ℝ) * inner ℂ (ι v) (H (ι v)) ∧
      (P.err ≤ 0 → dim < P.maxIter → Module.finrank ℂ W ≤ dim → ι r.vec = ((P.norm ‖ι v‖ / ‖ι v‖ : ℝ) : ℂ) •
        NormedSpace.exp ((-(δ : ℂ) * Complex.I) • ((LinearMap.range ι).starProjection ∘L LinearMap.toContinuousLinearMap H ∘L (LinearMap.range ι).starProjection)) (ι v)) := by
  have hs := R.symm hH
  have e : P.solve h v δ dim = expLoop h v P.eig δ (P.norm ‖v‖) P.maxIter dim P.err P.maxIter 0 (fun _ => 0) (fun _ => 0) := by
    unfold TdvpPar.solve TdvpPar.norm expSolve expSolveMpi
    split <;> rfl
  obtain ⟨r, h1, ho, -⟩ := expLoop_ok (H := h) (v := v) P.eig he δ (P.norm ‖v‖) P.maxIter dim P.err P.maxIter 0 (fun _ => 0) (fun _ => 0) (by omega) (by omega)
    (fun j a b => by omega)
  have hpos : 0 ≤ P.norm ‖v‖ := by
    unfold TdvpPar.norm; split
    · exact zero_le_one
    · exact norm_nonneg _
  obtain ⟨a1, -, a3, a4⟩ := exp_ok hs hv ho
  refine ⟨r, e.trans h1, ?_, ?_, ?_⟩
  · rw [R.norm, R.norm, a1, abs_of_nonneg hpos]
  · rw [R.elem, R.elem, R.norm, a3]
  · intro herr hd hf
    obtain ⟨r', h1', hz⟩ := expLoop_inv hs hv P.eig he δ (P.norm ‖v‖) herr hf hd P.maxIter 0 (fun _ => 0) (fun _ => 0) (by omega) (by omega)
      (fun j a b => by omega)
    rw [h1] at h1'
    obtain rfl := Option.some.inj h1'
    obtain ⟨u, d, hu, hsum, hr⟩ := a4 (pow_mem_of_stop hv ho.1 hz)
    have := exp_sum (σ := Unit) R hu δ
    rw [← hsum] at this
    rw [this, hr, map_smul, R.norm]

end solve

section embed
variable {σ : Type} [Fintype σ] [DecidableEq σ]

/-- The embedding of blocks as a linear map. -/
noncomputable def embL (N i : Nat) (t : Nat → Ten σ ℂ) : TwoV σ ℂ (t i).l (t (i + 1)).r →ₗ[ℂ] ChainV σ ℂ N where
  toFun v := embed N i t (ofV v)
  map_add' v w := by
    ext s
    show bamp (K := ℂ) _ _ _ (ofV (v + w)) _ = bamp (K := ℂ) _ _ _ (ofV v) _ + bamp (K := ℂ) _ _ _ (ofV w) _
    unfold bamp
    split
    · show ∑ a ∈ range (t i).l, ∑ b ∈ range (t (i + 1)).r, _ = ∑ a ∈ range (t i).l, ∑ b ∈ range (t (i + 1)).r, _ + ∑ a ∈ range (t i).l, ∑ b ∈ range (t (i + 1)).r, _
      rw [← sum_add_distrib]
      refine sum_congr rfl fun a ha => ?_
      rw [← sum_add_distrib]
      refine sum_congr rfl fun b hb => ?_
      simp only [ofV, dif_pos (And.intro (mem_range.mp ha) (mem_range.mp hb)), PiLp.add_apply]
      ring
    · simp
  map_smul' c v := by
    ext s
    show bamp (K := ℂ) _ _ _ (ofV (c • v)) _ = c * bamp (K := ℂ) _ _ _ (ofV v) _
    unfold bamp
    split
    · show ∑ a ∈ range (t i).l, ∑ b ∈ range (t (i + 1)).r, _ = c * ∑ a ∈ range (t i).l, ∑ b ∈ range (t (i + 1)).r, _
      rw [Finset.mul_sum]
      refine sum_congr rfl fun a ha => ?_
      rw [Finset.mul_sum]
      refine sum_congr rfl fun b hb => ?_
      simp only [ofV, dif_pos (And.intro (mem_range.mp ha) (mem_range.mp hb)), PiLp.smul_apply, smul_eq_mul]
      ring
    · simp

theorem embL_apply {N i : Nat} {t : Nat → Ten σ ℂ} (v : TwoV σ ℂ (t i).l (t (i + 1)).r) : embL N i t v = embed N i t (ofV v) := rfl

/-- The block of a one-site tensor and its right neighbour as a linear map. -/
noncomputable def addL (l m : Nat) (u : Ten σ ℂ) : OneV σ l m →ₗ[ℂ] TwoV σ ℂ l u.r where
  toFun X := addR u X
  map_add' X Y := by
    ext q
    show ∑ k : Fin m, (X + Y) (q.1, q.2.1, k) * _ = ∑ k : Fin m, X (q.1, q.2.1, k) * _ + ∑ k : Fin m, Y (q.1, q.2.1, k) * _
    rw [← sum_add_distrib]
    exact sum_congr rfl fun k _ => by rw [PiLp.add_apply]; ring
  map_smul' c X := by
    ext q
    show ∑ k : Fin m, (c • X) (q.1, q.2.1, k) * _ = c * ∑ k : Fin m, X (q.1, q.2.1, k) * _
    rw [Finset.mul_sum]
    exact sum_congr rfl fun k _ => by rw [PiLp.smul_apply, smul_eq_mul]; ring

/-- The embedding of one-site tensors. -/
noncomputable def embL1 (N i : Nat) (t : Nat → Ten σ ℂ) : OneV σ (t i).l (t i).r →ₗ[ℂ] ChainV σ ℂ N := embL N i t ∘ₗ addL (t i).l (t i).r (t (i + 1))

theorem embL1_apply {N i : Nat} {t : Nat → Ten σ ℂ} (ht : Closed N t) (hi : i + 1 < N) (X : OneV σ (t i).l (t i).r) :
    embL1 N i t X = stateV N (Function.update t i (ofV1 X)) := embed_site ht hi X

omit [Fintype σ] [DecidableEq σ] in
theorem closed_l {N i : Nat} {t t' : Nat → Ten σ ℂ} (ht : Closed N t) (ht' : Closed N t') (hi : i < N) (h : ∀ j, j + 1 = i → t' j = t j) : (t' i).l = (t i).l := by
  rcases Nat.eq_zero_or_pos i with rfl | hp
  · rw [ht.1, ht'.1]
  · obtain ⟨j, rfl⟩ : ∃ j, i = j + 1 := ⟨i - 1, by omega⟩
    rw [← ht.2.2 j hi, ← ht'.2.2 j hi, h j rfl]

omit [Fintype σ] [DecidableEq σ] in
theorem closed_r {N i : Nat} {t t' : Nat → Ten σ ℂ} (ht : Closed N t) (ht' : Closed N t') (hi : i < N) (h : ∀ j, j = i + 1 → t' j = t j) : (t' i).r = (t i).r := by
  rcases Nat.lt_or_ge (i + 1) N with hp | hp
  · rw [ht.2.2 i hp, ht'.2.2 i hp, h _ rfl]
  · obtain rfl : i = N - 1 := by omega
    rw [ht.2.1, ht'.2.1]

theorem range_embL {N i : Nat} {t : Nat → Ten σ ℂ} (ht : Closed N t) (hi : i + 1 < N) :
    LinearMap.range (embL N i t) = varSpace N t (fun j => j = i ∨ j = i + 1) := by
  refine le_antisymm ?_ (Submodule.span_le.mpr ?_)
  · rintro _ ⟨v, rfl⟩
    let e := Fintype.equivFin σ
    refine Submodule.subset_span ⟨setPair t i (fullR e (ofV v)), setPair_closed ht hi rfl rfl rfl, fun j hj => ?_, ?_⟩
    · exact setPair_o _ _ _ (fun h => hj (Or.inl h)) (fun h => hj (Or.inr h))
    · have hc : Closed N (setPair t i (fullR e (ofV v))) := setPair_closed ht hi rfl rfl rfl
      rw [← embed_merge hc hi, setPair_l, setPair_r, embed_upd (fun j h1 h2 => setPair_o t i _ h1 h2), embL_apply]
      exact embed_congr rfl rfl fun x y a b ha hb => fullR_is e (ofV v) x y a b ha hb
  · rintro _ ⟨t', hc, ho, rfl⟩
    have hl : (t' i).l = (t i).l := closed_l ht hc (by omega) fun j hj => ho j (by omega)
    have hr : (t' (i + 1)).r = (t (i + 1)).r := closed_r ht hc (by omega) fun j hj => ho j (by omega)
    refine ⟨WithLp.toLp 2 fun q => (mergeTen (t' i) (t' (i + 1))).v q.2.1 q.2.2.1 q.1 q.2.2.2, ?_⟩
    rw [embL_apply, ← embed_merge hc hi, embed_upd (t := t) (t' := t') (fun j h1 h2 => ho j (fun h => h.elim h1 h2))]
    exact embed_congr hl.symm hr.symm fun x y a b ha hb => dif_pos ⟨ha, hb⟩

theorem range_embL1 {N i : Nat} {t : Nat → Ten σ ℂ} (ht : Closed N t) (hi : i + 1 < N) :
    LinearMap.range (embL1 N i t) = varSpace N t (fun j => j = i) := by
  refine le_antisymm ?_ (Submodule.span_le.mpr ?_)
  · rintro _ ⟨v, rfl⟩
    exact Submodule.subset_span ⟨Function.update t i (ofV1 v), closed_update ht i rfl rfl, fun j hj => Function.update_of_ne hj _ _, (embL1_apply ht hi v).symm⟩
  · rintro _ ⟨t', hc, ho, rfl⟩
    have hl : (t' i).l = (t i).l := closed_l ht hc (by omega) fun j hj => ho j (by omega)
    have hr : (t' i).r = (t i).r := closed_r ht hc (by omega) fun j hj => ho j (by omega)
    have hcX : Closed N (Function.update t i (ofV1 (WithLp.toLp 2 fun q => (t' i).v q.2.1 q.1 q.2.2 : OneV σ (t i).l (t i).r))) := closed_update ht i rfl rfl
    refine ⟨WithLp.toLp 2 fun q => (t' i).v q.2.1 q.1 q.2.2, ?_⟩
    rw [embL1_apply ht hi, ← embed_merge hc hi, ← embed_merge hcX hi, Function.update_self, Function.update_of_ne (by omega),
      embed_upd (t := t) (t' := t') (fun j h1 _ => ho j h1), embed_upd (t := t) (fun j h1 _ => Function.update_of_ne h1 _ _), ho (i + 1) (by omega)]
    refine embed_congr hl.symm rfl fun x y a b ha hb => ?_
    have ha' : a < (t i).l := ha
    show ∑ k ∈ range (t i).r, (if h : a < (t i).l ∧ k < (t i).r then (t' i).v x a k else (0 : ℂ)) * (t (i + 1)).v y k b = ∑ k ∈ range (t' i).r, _
    rw [hr]
    refine sum_congr rfl fun k hk => ?_
    rw [dif_pos ⟨ha', mem_range.mp hk⟩]

end embed

/-! ### One evolution -/

section act
variable {σ : Type} [Fintype σ] [DecidableEq σ] {N : Nat} {P : TdvpPar σ} {t : Nat → Ten σ ℂ}

theorem tlenv_at (hP : TdvpOK N P) (ht : Closed N t) {i : Nat} (hi : i < N) :
    BlkL i ((tdvpAlg N P).lenv t i) ((List.range i).map P.w) ((List.range i).map t) (t i).l (P.w i).l :=
  blkL_chain hP.closed ht ((tdvpAlg N P).lenv t) rfl i hi fun _ _ => rfl

theorem trenv_at (hP : TdvpOK N P) (ht : Closed N t) {i : Nat} (hi : i + 1 < N) :
    BlkR (N - (i + 2)) ((tdvpAlg N P).renv N t (N - (i + 2))) ((List.range' (i + 2) (N - (i + 2))).map P.w)
      ((List.range' (i + 2) (N - (i + 2))).map t) (t (i + 1)).r (P.w (i + 1)).r := by
  have := blkR_chain hP.closed ht ((tdvpAlg N P).renv N t) rfl (N - (i + 2)) (by omega) fun _ _ => rfl
  rw [show N - (N - (i + 2)) = i + 2 by omega, show N - 1 - (N - (i + 2)) = i + 1 by omega] at this
  exact this

theorem trenv_succ {i : Nat} (hi : i + 1 < N) :
    (tdvpAlg N P).renv N t (N - (i + 1)) = siteRenv (P.w (i + 1)) ((tdvpAlg N P).renv N t (N - (i + 2))) (t (i + 1)) := by
  have e : N - (i + 1) = N - (i + 2) + 1 := by omega
  rw [e, Alg.renv, show N - 1 - (N - (i + 2)) = i + 1 by omega]
  rfl

theorem restr2 (hP : TdvpOK N P) {i : Nat} (hi : i + 1 < N) (ht : Closed N t) (hL : ∀ j, j < i → LeftIso (t j)) (hR : ∀ j, i + 1 < j → j < N → RightIso (t j)) :
    Restr (Matrix.toEuclideanLin (opM N P.w)) (effHam ((tdvpAlg N P).lenv t i) ((tdvpAlg N P).renv N t (N - (i + 2))) (P.w i) (P.w (i + 1)) (t i).l (t (i + 1)).r)
      (embL N i t) where
  iso x y := embed_inner_v ht hi hL hR x y
  elem x y := embed_elem hP.closed hi (tlenv_at hP ht (by omega)) (trenv_at hP ht hi) x y

theorem restr1 (hP : TdvpOK N P) {i : Nat} (hi : i + 1 < N) (ht : Closed N t) (hL : ∀ j, j < i → LeftIso (t j)) (hR : ∀ j, i < j → j < N → RightIso (t j)) :
    Restr (Matrix.toEuclideanLin (opM N P.w)) (effHam1 ((tdvpAlg N P).lenv t i) ((tdvpAlg N P).renv N t (N - (i + 1))) (P.w i) (t i).l (t i).r) (embL1 N i t) where
  iso x y := (embed_inner_v ht hi hL (fun j h1 h2 => hR j (by omega) h2) _ _).trans (inner_addR_addR (hR (i + 1) (by omega) hi) (ht.2.2 i hi).symm x y)
  elem x y := by
    have hf := trenv_at hP ht hi
    rw [trenv_succ hi, ← inner_effHam1 _ _ (P.w i) (P.w (i + 1)) (t (i + 1)) hf.2.2.1 hf.2.2.2.2.1 (hP.closed.2.2 i hi)]
    exact embed_elem hP.closed hi (tlenv_at hP ht (by omega)) hf _ _

theorem herm_sym (hP : TdvpOK N P) : (Matrix.toEuclideanLin (opM N P.w)).IsSymmetric := Matrix.isSymmetric_toEuclideanLin_iff.mpr hP.herm

theorem ofV_nz0 {l r : Nat} {v : TwoV σ ℂ l r} (h : v ≠ 0) : (ofV v).NZ := by
  by_contra hn
  refine h ?_
  ext q
  by_contra hq
  exact hn ⟨q.2.1, q.2.2.1, q.1, q.2.2.2, q.1.2, q.2.2.2.2, by rw [ofV_v v q]; exact hq⟩

theorem pnorm_ne (P : TdvpPar σ) {x : ℝ} (h : x ≠ 0) : P.norm x ≠ 0 := by
  unfold TdvpPar.norm; split
  · exact one_ne_zero
  · exact h

/-- The evolution of a pair. -/
theorem pair_ok (hP : TdvpOK N P) {i : Nat} (hi : i + 1 < N) (h : PairAt N i t) (δ : ℝ) :
    ∃ r : ExpRes (TwoV σ ℂ (t i).l (t (i + 1)).r), (∀ d, tdvpPair P d δ i ((tdvpAlg N P).lenv t i) ((tdvpAlg N P).renv N t (N - (i + 2))) (t i) (t (i + 1)) =
        match d with
        | .r => P.splitR (ofV r.vec)
        | .l => P.splitL (ofV r.vec)) ∧ r.vec ≠ 0 ∧
      Evolved N P (varSpace N t (fun j => j = i ∨ j = i + 1)) ((t i).l * (Fintype.card σ * Fintype.card σ) * (t (i + 1)).r) δ (stateV N t) (embed N i t (ofV r.vec)) := by
  have key : ∀ v : TwoV σ ℂ (t i).l (t (i + 1)).r, embed N i t (ofV v) = stateV N t →
      ∃ r, P.solve (effHam ((tdvpAlg N P).lenv t i) ((tdvpAlg N P).renv N t (N - (i + 2))) (P.w i) (P.w (i + 1)) (t i).l (t (i + 1)).r) v δ
          ((t i).l * (Fintype.card σ * Fintype.card σ) * (t (i + 1)).r) = some r ∧ r.vec ≠ 0 ∧
        Evolved N P (varSpace N t (fun j => j = i ∨ j = i + 1)) ((t i).l * (Fintype.card σ * Fintype.card σ) * (t (i + 1)).r) δ (stateV N t) (embed N i t (ofV r.vec)) := by
    intro v hm
    have R := restr2 hP hi h.closed h.left h.right
    have hv : v ≠ 0 := by
      intro h0
      apply h.nz
      rw [← hm, ← embL_apply, h0, map_zero]
    obtain ⟨r, h1, h2, h3, h4⟩ := solve_ok hP.eig hP.iter R (herm_sym hP) hv δ ((t i).l * (Fintype.card σ * Fintype.card σ) * (t (i + 1)).r)
    rw [embL_apply v, hm] at h2 h3 h4
    refine ⟨r, h1, ?_, ?_, h2, h3, ?_⟩
    · intro h0
      rw [h0, map_zero, norm_zero] at h2
      exact pnorm_ne P (norm_ne_zero_iff.mpr h.nz) h2.symm
    · rw [← range_embL h.closed hi]; exact ⟨r.vec, rfl⟩
    · intro he hd
      have : embL N i t r.vec = ((P.norm ‖stateV N t‖ / ‖stateV N t‖ : ℝ) : ℂ) • NormedSpace.exp ((-(δ : ℂ) * Complex.I) • projH (LinearMap.range (embL N i t)) (opM N P.w)) (stateV N t) :=
        h4 he hd (by rw [finrank_euclideanSpace]; simp only [Fintype.card_prod, Fintype.card_fin]; rw [mul_assoc, mul_assoc])
      rw [range_embL h.closed hi] at this
      exact this
  obtain ⟨r, h1, h2, h3⟩ := key (toV (mergeTen (t i) (t (i + 1)))) (by
    rw [← embed_merge h.closed hi]
    exact embed_congr rfl rfl fun x y a b ha hb => dif_pos ⟨ha, hb⟩)
  refine ⟨r, fun d => ?_, h2, h3⟩
  unfold tdvpPair
  have h1' : P.solve (effHam ((tdvpAlg N P).lenv t i) ((tdvpAlg N P).renv N t (N - (i + 2))) (P.w i) (P.w (i + 1)) (mergeTen (t i) (t (i + 1))).l (mergeTen (t i) (t (i + 1))).r)
    (toV (mergeTen (t i) (t (i + 1)))) δ ((mergeTen (t i) (t (i + 1))).l * (Fintype.card σ * Fintype.card σ) * (mergeTen (t i) (t (i + 1))).r) = some r := h1
  rw [h1']
  cases d <;> rfl

/-- The evolution of a site. -/
theorem site_ok (hP : TdvpOK N P) {i : Nat} (hi : i + 1 < N) (h : Canon N i t) (hz : stateV N t ≠ 0) (δ : ℝ) :
    ∃ r : ExpRes (OneV σ (t i).l (t i).r), tdvpSite P δ i ((tdvpAlg N P).lenv t i) ((tdvpAlg N P).renv N t (N - (i + 1))) (t i) = ofV1 r.vec ∧
      Evolved N P (varSpace N t (fun j => j = i)) ((t i).l * Fintype.card σ * (t i).r) δ (stateV N t) (stateV N (Function.update t i (ofV1 r.vec))) := by
  have R := restr1 hP hi h.1 h.2.1 h.2.2
  have hm : embL1 N i t (toV1 (t i)) = stateV N t := by
    rw [embL1_apply h.1 hi, ← embed_merge h.1 hi]
    have hc : Closed N (Function.update t i (ofV1 (toV1 (t i)))) := closed_update h.1 i rfl rfl
    rw [← embed_merge hc hi, Function.update_self, Function.update_of_ne (by omega), embed_upd (t := t) (fun j h1 _ => Function.update_of_ne h1 _ _)]
    refine embed_congr rfl rfl fun x y a b ha hb => ?_
    have ha' : a < (t i).l := ha
    show ∑ k ∈ range (t i).r, (if h : a < (t i).l ∧ k < (t i).r then (t i).v x a k else (0 : ℂ)) * (t (i + 1)).v y k b = ∑ k ∈ range (t i).r, _
    refine sum_congr rfl fun k hk => ?_
    rw [dif_pos ⟨ha', mem_range.mp hk⟩]
  have hv : toV1 (t i) ≠ 0 := by
    intro h0
    apply hz
    rw [← hm, h0, map_zero]
  obtain ⟨r, h1, h2, h3, h4⟩ := solve_ok hP.eig hP.iter R (herm_sym hP) hv δ ((t i).l * Fintype.card σ * (t i).r)
  rw [hm, embL1_apply h.1 hi] at h2 h3 h4
  refine ⟨r, ?_, ?_, h2, h3, ?_⟩
  · unfold tdvpSite; rw [h1]
  · rw [← range_embL1 h.1 hi, ← embL1_apply h.1 hi]; exact ⟨r.vec, rfl⟩
  · intro he hd
    have : stateV N (Function.update t i (ofV1 r.vec)) = ((P.norm ‖stateV N t‖ / ‖stateV N t‖ : ℝ) : ℂ) •
        NormedSpace.exp ((-(δ : ℂ) * Complex.I) • projH (LinearMap.range (embL1 N i t)) (opM N P.w)) (stateV N t) :=
      h4 he hd (by rw [finrank_euclideanSpace]; simp only [Fintype.card_prod, Fintype.card_fin]; rw [mul_assoc])
    rw [range_embL1 h.1 hi] at this
    exact this

/-- The evolution finds the centre where it works. -/
def actIn (N c : Nat) : Act → Prop
  | .bond _ b _ => b + 1 < N ∧ (c = b ∨ c = b + 1)
  | .site s _ => s + 1 < N ∧ c = s

theorem TdvpOK.serial (hP : TdvpOK N P) : TdvpOK N P.serial := ⟨hP.closed, hP.herm, hP.spR, hP.spL, hP.eig, hP.iter⟩

theorem act_ok (hP : TdvpOK N P) {c : Nat} {a : Act} (ha : actIn N c a) (h : Canon N c t) (hz : stateV N t ≠ 0) :
    ∃ Φ, Evolved N (actPar P a) (varSpace N t (actSites a)) (actDim t a) (actTime a) (stateV N t) Φ ∧ Canon N (actAfter a) (evolve N P t [a]) ∧
      stateV N (evolve N P t [a]) ≠ 0 ∧ inner ℂ (stateV N (evolve N P t [a])) Φ = ((‖stateV N (evolve N P t [a])‖ ^ 2 : ℝ) : ℂ) ∧
      (P.NoCut → stateV N (evolve N P t [a]) = Φ) := by
  cases a with
  | bond d b dt =>
    have hp := at_of_canon h hz ha.2
    obtain ⟨r, h1, h2, h3⟩ := pair_ok hP ha.1 hp (dt : ℝ)
    have he : evolve N P t [.bond d b dt] = setPair t b (tdvpPair P d dt b ((tdvpAlg N P).lenv t b) ((tdvpAlg N P).renv N t (N - (b + 2))) (t b) (t (b + 1))) := rfl
    refine ⟨_, h3, ?_⟩
    rw [he, h1 d]
    cases d with
    | r =>
      obtain ⟨c, z, ip, ex⟩ := split_core hp.closed ha.1 hp.left hp.right r.vec (p := P.splitR (ofV r.vec)) (hP.spR.dimL _) (hP.spR.mid _) (hP.spR.dimR _)
        (projR hP.spR (ofV r.vec)) (hP.spR.nz _ (ofV_nz0 h2))
      refine ⟨⟨c, fun j hj => ?_, fun j hj hj' => ?_⟩, z, ip, fun hx => ex (hx.1 _)⟩
      · have hj : j < b + 1 := hj
        by_cases h1 : j = b
        · subst h1; rw [setPair_l]; exact hP.spR.iso _
        · rw [setPair_o _ _ _ h1 (by omega)]; exact hp.left j (by omega)
      · have hj : b + 1 < j := hj
        rw [setPair_o _ _ _ (by omega) (by omega)]
        exact hp.right j hj hj'
    | l =>
      obtain ⟨c, z, ip, ex⟩ := split_core hp.closed ha.1 hp.left hp.right r.vec (p := P.splitL (ofV r.vec)) (hP.spL.dimL _) (hP.spL.mid _) (hP.spL.dimR _)
        (projL hP.spL (ofV r.vec)) (hP.spL.nz _ (ofV_nz0 h2))
      refine ⟨⟨c, fun j hj => ?_, fun j hj hj' => ?_⟩, z, ip, fun hx => ex (hx.2 _)⟩
      · have hj : j < b := hj
        rw [setPair_o _ _ _ (by omega) (by omega)]
        exact hp.left j hj
      · have hj : b < j := hj
        by_cases h1 : j = b + 1
        · subst h1; rw [setPair_r]; exact hP.spL.iso _
        · rw [setPair_o _ _ _ (by omega) h1]; exact hp.right j (by omega) hj'
  | site s dt =>
    obtain ⟨hs, rfl⟩ := ha
    obtain ⟨r, h1, h3⟩ := site_ok hP.serial hs h hz (dt : ℝ)
    have he : evolve N P t [.site c dt] = Function.update t c (tdvpSite P.serial dt c ((tdvpAlg N P.serial).lenv t c) ((tdvpAlg N P.serial).renv N t (N - (c + 1))) (t c)) := rfl
    refine ⟨_, h3, ?_⟩
    rw [he, h1]
    refine ⟨⟨closed_update h.1 c rfl rfl, fun j hj => ?_, fun j hj hj' => ?_⟩, ?_, ?_, fun _ => rfl⟩
    · have hj : j < c := hj
      rw [Function.update_of_ne (by omega)]; exact h.2.1 j hj
    · have hj : c < j := hj
      rw [Function.update_of_ne (by omega)]; exact h.2.2 j hj hj'
    · intro h0
      have := h3.norm
      rw [h0, norm_zero] at this
      exact pnorm_ne P.serial (norm_ne_zero_iff.mpr hz) this.symm
    · rw [inner_self_eq_norm_sq_to_K]; push_cast; rfl

end act
end Verif.Mps
