import Verif.Mps.VmpsUpd
import Verif.Mps.VmpsRunSpec
/-
The sweeps of the two-site optimisation: the canonical form is kept and every update does what one update does.
-/
namespace Verif.Mps
open Finset Verif.Disk Verif.Algo Verif.Props

section proj
variable {σ K : Type} [CommRing K] [StarRing K] [Fintype σ]

omit [StarRing K] in
theorem sum_blk (l r : Nat) (g : σ → σ → Nat → Nat → K) : ∑ q : Fin l × σ × σ × Fin r, g q.2.1 q.2.2.1 q.1 q.2.2.2 =
    ∑ y, ∑ b ∈ range r, ∑ x, ∑ a ∈ range l, g x y a b := by
  rw [Fintype.sum_congr (fun y => ∑ b ∈ range r, ∑ x, ∑ a ∈ range l, g x y a b) (fun y => ∑ b : Fin r, ∑ x, ∑ a : Fin l, g x y a b)
    (fun y => by rw [Finset.sum_range]; exact sum_congr rfl fun b _ => sum_congr rfl fun x _ => Finset.sum_range _)]
  simp only [← Fintype.sum_prod_type']
  exact Fintype.sum_equiv (ι := Fin l × σ × σ × Fin r) (κ := σ × Fin r × σ × Fin l)
    ⟨fun q => (q.2.2.1, q.2.2.2, q.2.1, q.1), fun q => (q.2.2.2, q.2.2.1, q.1, q.2.1), fun _ => rfl, fun _ => rfl⟩ _ _ fun _ => rfl

/-- `u u† T` is the orthogonal projection of `T`. -/
theorem projR_at {T : Blk2 σ K} {p : Ten σ K × Ten σ K} (hl : p.1.l = T.l) (hI : LeftIso p.1)
    (hp : ∀ y j b, j < p.1.r → b < T.r → p.2.v y j b = ∑ x, ∑ a ∈ range T.l, star (p.1.v x a j) * T.v x y a b) :
    ∑ q : Fin T.l × σ × σ × Fin T.r, star ((mergeTen p.1 p.2).v q.2.1 q.2.2.1 q.1 q.2.2.2) * T.v q.2.1 q.2.2.1 q.1 q.2.2.2 =
      ∑ q : Fin T.l × σ × σ × Fin T.r, star ((mergeTen p.1 p.2).v q.2.1 q.2.2.1 q.1 q.2.2.2) *
        (mergeTen p.1 p.2).v q.2.1 q.2.2.1 q.1 q.2.2.2 := by
  rw [sum_blk T.l T.r (fun x y a b => star ((mergeTen p.1 p.2).v x y a b) * T.v x y a b),
    sum_blk T.l T.r (fun x y a b => star ((mergeTen p.1 p.2).v x y a b) * (mergeTen p.1 p.2).v x y a b)]
  refine sum_congr rfl fun y _ => sum_congr rfl fun b hb => ?_
  have hb' := mem_range.mp hb
  have e1 : ∀ g : σ → Nat → K, ∑ x, ∑ a ∈ range T.l, star ((mergeTen p.1 p.2).v x y a b) * g x a =
      ∑ k ∈ range p.1.r, star (p.2.v y k b) * ∑ x, ∑ a ∈ range T.l, star (p.1.v x a k) * g x a := by
    intro g
    have : ∀ x, ∀ a ∈ range T.l, star ((mergeTen p.1 p.2).v x y a b) * g x a =
        ∑ k ∈ range p.1.r, star (p.2.v y k b) * (star (p.1.v x a k) * g x a) := by
      intro x a _
      show star (∑ k ∈ range p.1.r, p.1.v x a k * p.2.v y k b) * g x a = _
      rw [star_sum, Finset.sum_mul]
      exact sum_congr rfl fun k _ => by rw [star_mul']; ring
    rw [sum_congr rfl fun x _ => sum_congr rfl (this x)]
    rw [sum_congr rfl fun x _ => sum_comm, sum_comm]
    refine sum_congr rfl fun k _ => ?_
    rw [Finset.mul_sum]
    exact sum_congr rfl fun x _ => by rw [Finset.mul_sum]
  rw [e1, e1]
  refine sum_congr rfl fun k hk => ?_
  rw [← hp y k b (mem_range.mp hk) hb']
  congr 1
  have e2 : ∀ x, ∀ a ∈ range T.l, star (p.1.v x a k) * (mergeTen p.1 p.2).v x y a b =
      ∑ k' ∈ range p.1.r, (star (p.1.v x a k) * p.1.v x a k') * p.2.v y k' b := by
    intro x a _
    show _ * (∑ k' ∈ range p.1.r, p.1.v x a k' * p.2.v y k' b) = _
    rw [Finset.mul_sum]
    exact sum_congr rfl fun k' _ => by ring
  rw [sum_congr rfl fun x _ => sum_congr rfl (e2 x)]
  rw [sum_congr rfl fun x _ => sum_comm, sum_comm]
  rw [sum_eq_single k]
  · have := hI k (mem_range.mp hk) k (mem_range.mp hk)
    rw [if_pos rfl, hl] at this
    rw [← one_mul (p.2.v y k b)]
    conv_lhs => rw [← this, Finset.sum_mul]
    exact sum_congr rfl fun x _ => by rw [Finset.sum_mul, one_mul]
  · intro k' hk' hne
    have := hI k (mem_range.mp hk) k' (mem_range.mp hk')
    rw [if_neg (Ne.symm hne), hl] at this
    rw [← zero_mul (p.2.v y k' b), ← this, Finset.sum_mul]
    exact sum_congr rfl fun x _ => by rw [Finset.sum_mul]
  · intro h; exact absurd hk h

theorem projR {split : Blk2 σ K → Ten σ K × Ten σ K} (H : BlkSplitR split) (T : Blk2 σ K) :
    ∑ q : Fin T.l × σ × σ × Fin T.r, star ((mergeTen (split T).1 (split T).2).v q.2.1 q.2.2.1 q.1 q.2.2.2) * T.v q.2.1 q.2.2.1 q.1 q.2.2.2 =
      ∑ q : Fin T.l × σ × σ × Fin T.r, star ((mergeTen (split T).1 (split T).2).v q.2.1 q.2.2.1 q.1 q.2.2.2) *
        (mergeTen (split T).1 (split T).2).v q.2.1 q.2.2.1 q.1 q.2.2.2 :=
  projR_at (H.dimL T) (H.iso T) (H.proj T)

omit [StarRing K] in
theorem sum_blk' (l r : Nat) (g : σ → σ → Nat → Nat → K) : ∑ q : Fin l × σ × σ × Fin r, g q.2.1 q.2.2.1 q.1 q.2.2.2 =
    ∑ x, ∑ a ∈ range l, ∑ y, ∑ b ∈ range r, g x y a b := by
  rw [Fintype.sum_congr (fun x => ∑ a ∈ range l, ∑ y, ∑ b ∈ range r, g x y a b) (fun x => ∑ a : Fin l, ∑ y, ∑ b : Fin r, g x y a b)
    (fun y => by rw [Finset.sum_range]; exact sum_congr rfl fun b _ => sum_congr rfl fun x _ => Finset.sum_range _)]
  simp only [← Fintype.sum_prod_type']
  exact Fintype.sum_equiv (ι := Fin l × σ × σ × Fin r) (κ := σ × Fin l × σ × Fin r)
    ⟨fun q => (q.2.1, q.1, q.2.2.1, q.2.2.2), fun q => (q.2.1, q.1, q.2.2.1, q.2.2.2), fun _ => rfl, fun _ => rfl⟩ _ _ fun _ => rfl

/-- `T v† v` is the orthogonal projection of `T`. -/
theorem projL_at {T : Blk2 σ K} {p : Ten σ K × Ten σ K} (hr : p.2.r = T.r) (hm : p.1.r = p.2.l) (hI : RightIso p.2)
    (hp : ∀ x a j, a < T.l → j < p.2.l → p.1.v x a j = ∑ y, ∑ b ∈ range T.r, T.v x y a b * star (p.2.v y j b)) :
    ∑ q : Fin T.l × σ × σ × Fin T.r, star ((mergeTen p.1 p.2).v q.2.1 q.2.2.1 q.1 q.2.2.2) * T.v q.2.1 q.2.2.1 q.1 q.2.2.2 =
      ∑ q : Fin T.l × σ × σ × Fin T.r, star ((mergeTen p.1 p.2).v q.2.1 q.2.2.1 q.1 q.2.2.2) *
        (mergeTen p.1 p.2).v q.2.1 q.2.2.1 q.1 q.2.2.2 := by
  rw [sum_blk' T.l T.r (fun x y a b => star ((mergeTen p.1 p.2).v x y a b) * T.v x y a b),
    sum_blk' T.l T.r (fun x y a b => star ((mergeTen p.1 p.2).v x y a b) * (mergeTen p.1 p.2).v x y a b)]
  refine sum_congr rfl fun x _ => sum_congr rfl fun a ha => ?_
  have ha' := mem_range.mp ha
  have e1 : ∀ g : σ → Nat → K, ∑ y, ∑ b ∈ range T.r, star ((mergeTen p.1 p.2).v x y a b) * g y b =
      ∑ k ∈ range p.1.r, star (p.1.v x a k) * ∑ y, ∑ b ∈ range T.r, g y b * star (p.2.v y k b) := by
    intro g
    have : ∀ y, ∀ b ∈ range T.r, star ((mergeTen p.1 p.2).v x y a b) * g y b =
        ∑ k ∈ range p.1.r, star (p.1.v x a k) * (g y b * star (p.2.v y k b)) := by
      intro y b _
      show star (∑ k ∈ range p.1.r, p.1.v x a k * p.2.v y k b) * g y b = _
      rw [star_sum, Finset.sum_mul]
      exact sum_congr rfl fun k _ => by rw [star_mul']; ring
    rw [sum_congr rfl fun y _ => sum_congr rfl (this y)]
    rw [sum_congr rfl fun y _ => sum_comm, sum_comm]
    refine sum_congr rfl fun k _ => ?_
    rw [Finset.mul_sum]
    exact sum_congr rfl fun x _ => by rw [Finset.mul_sum]
  rw [e1, e1]
  refine sum_congr rfl fun k hk => ?_
  have hk' : k < p.2.l := by rw [← hm]; exact mem_range.mp hk
  rw [← hp x a k ha' hk']
  congr 1
  have e2 : ∀ y, ∀ b ∈ range T.r, (mergeTen p.1 p.2).v x y a b * star (p.2.v y k b) =
      ∑ k' ∈ range p.1.r, p.1.v x a k' * (p.2.v y k' b * star (p.2.v y k b)) := by
    intro y b _
    show (∑ k' ∈ range p.1.r, p.1.v x a k' * p.2.v y k' b) * _ = _
    rw [Finset.sum_mul]
    exact sum_congr rfl fun k' _ => by ring
  rw [sum_congr rfl fun y _ => sum_congr rfl (e2 y)]
  rw [sum_congr rfl fun y _ => sum_comm, sum_comm]
  rw [sum_eq_single k]
  · have := hI k hk' k hk'
    rw [if_pos rfl, hr] at this
    rw [← mul_one (p.1.v x a k)]
    conv_lhs => rw [← this, Finset.mul_sum]
    exact sum_congr rfl fun y _ => by rw [Finset.mul_sum, mul_one]
  · intro k' hk2 hne
    have := hI k' (by rw [← hm]; exact mem_range.mp hk2) k hk'
    rw [if_neg hne, hr] at this
    rw [← mul_zero (p.1.v x a k'), ← this, Finset.mul_sum]
    exact sum_congr rfl fun y _ => by rw [Finset.mul_sum]
  · intro h; exact absurd hk h

theorem projL {split : Blk2 σ K → Ten σ K × Ten σ K} (H : BlkSplitL split) (T : Blk2 σ K) :
    ∑ q : Fin T.l × σ × σ × Fin T.r, star ((mergeTen (split T).1 (split T).2).v q.2.1 q.2.2.1 q.1 q.2.2.2) * T.v q.2.1 q.2.2.1 q.1 q.2.2.2 =
      ∑ q : Fin T.l × σ × σ × Fin T.r, star ((mergeTen (split T).1 (split T).2).v q.2.1 q.2.2.1 q.1 q.2.2.2) *
        (mergeTen (split T).1 (split T).2).v q.2.1 q.2.2.1 q.1 q.2.2.2 :=
  projL_at (H.dimR T) (H.mid T) (H.iso T) (H.proj T)

end proj

/-! ### One update -/

section upd
variable {σ 𝕜 : Type} [RCLike 𝕜] [Fintype σ] [DecidableEq σ]

/-- The chain is canonical up to the pair `(i, i+1)` and its state is not zero. -/
structure PairAt (N i : Nat) (t : Nat → Ten σ 𝕜) : Prop where
  closed : Closed N t
  left : ∀ j, j < i → LeftIso (t j)
  right : ∀ j, i + 1 < j → j < N → RightIso (t j)
  nz : stateV N t ≠ 0

/-- The state `Ψ` of before is replaced by `Ψ'` and the energy `e` is reported. -/
structure VStep (N : Nat) (P : VmpsPar σ 𝕜) (ex : Prop) (Ψ : ChainV σ 𝕜 N) (e : ℝ) (Ψ' : ChainV σ 𝕜 N) : Prop where
  better : e * ‖Ψ‖ ^ 2 ≤ expect (opM N P.w) Ψ
  unit : ∃ Φ : ChainV σ 𝕜 N, ‖Φ‖ = 1 ∧ inner 𝕜 Φ (Matrix.toEuclideanLin (opM N P.w) Φ) = (e : 𝕜) ∧
    inner 𝕜 Ψ' Φ = ((‖Ψ'‖ ^ 2 : ℝ) : 𝕜) ∧ (ex → Ψ' = Φ)

variable {N : Nat} {P : VmpsPar σ 𝕜}

theorem ofV_nz {l r : Nat} {v : TwoV σ 𝕜 l r} (h : ‖v‖ = 1) : (ofV v).NZ := by
  by_contra hn
  have : v = 0 := by
    ext q
    by_contra hq
    exact hn ⟨q.2.1, q.2.2.1, q.1, q.2.2.2, q.1.2, q.2.2.2.2, by rw [ofV_v v q]; exact hq⟩
  rw [this, norm_zero] at h
  exact zero_ne_one h

theorem lenv_at (hP : ParOK N P) {ψ : Nat → LTen σ 𝕜} (ht : Closed N (tens ψ)) {i : Nat} (hi : i < N) :
    BlkL i ((vmpsAlg N P).lenv ψ i) ((List.range i).map P.w) ((List.range i).map (tens ψ)) (tens ψ i).l (P.w i).l :=
  blkL_chain hP.closed ht ((vmpsAlg N P).lenv ψ) rfl i hi fun _ _ => rfl

theorem renv_at (hP : ParOK N P) {ψ : Nat → LTen σ 𝕜} (ht : Closed N (tens ψ)) {i : Nat} (hi : i + 1 < N) :
    BlkR (N - (i + 2)) ((vmpsAlg N P).renv N ψ (N - (i + 2))) ((List.range' (i + 2) (N - (i + 2))).map P.w)
      ((List.range' (i + 2) (N - (i + 2))).map (tens ψ)) (tens ψ (i + 1)).r (P.w (i + 1)).r := by
  have := blkR_chain hP.closed ht ((vmpsAlg N P).renv N ψ) rfl (N - (i + 2)) (by omega) fun _ _ => rfl
  rw [show N - (N - (i + 2)) = i + 2 by omega, show N - 1 - (N - (i + 2)) = i + 1 by omega] at this
  exact this

/-- The new MPS after the update of a pair. -/
def put (ψ : Nat → LTen σ 𝕜) (i : Nat) (p : LTen σ 𝕜 × LTen σ 𝕜) : Nat → LTen σ 𝕜 := Function.update (Function.update ψ i p.1) (i + 1) p.2

omit [RCLike 𝕜] [Fintype σ] [DecidableEq σ] in
theorem tens_put (ψ : Nat → LTen σ 𝕜) (i : Nat) (p : LTen σ 𝕜 × LTen σ 𝕜) : tens (put ψ i p) = setPair (tens ψ) i (p.1.ten, p.2.ten) := by
  funext j
  unfold tens put setPair
  by_cases h2 : j = i + 1
  · subst h2; rw [Function.update_self, Function.update_self]
  · rw [Function.update_of_ne h2, Function.update_of_ne h2]
    by_cases h1 : j = i
    · subst h1; rw [Function.update_self, Function.update_self]
    · rw [Function.update_of_ne h1, Function.update_of_ne h1]

/-- The update of the pair `(i, i+1)`, moving right. -/
theorem updR_ok (hP : ParOK N P) {ψ : Nat → LTen σ 𝕜} {i : Nat} (hi : i + 1 < N) (h : PairAt N i (tens ψ)) :
    ∃ p e, updTwo P .r i ((vmpsAlg N P).lenv ψ i) ((vmpsAlg N P).renv N ψ (N - (i + 2))) (ψ i).ten (ψ (i + 1)).ten = p ∧
      p.1.e0 = some e ∧ p.2.e0 = some e ∧
      VStep N P (∀ T : Blk2 σ 𝕜, T.Is (P.splitR T)) (stateV N (tens ψ)) e (stateV N (tens (put ψ i p))) ∧
      Closed N (tens (put ψ i p)) ∧ stateV N (tens (put ψ i p)) ≠ 0 ∧ (∀ j, j < i + 1 → LeftIso (tens (put ψ i p) j)) ∧
      ∀ j, i + 1 < j → j < N → RightIso (tens (put ψ i p) j) := by
  obtain ⟨r, hr, hu, hn, hE, hB⟩ := lanczos_core hP.closed hi (lenv_at hP h.closed (by omega)) (renv_at hP h.closed hi) (P := P) h.closed h.left h.right rfl
    hP.herm h.nz hP.tri hP.iter
  refine ⟨_, r.energy, rfl, ?_⟩
  unfold updTwo
  have hr' : lanczosAt P i ((vmpsAlg N P).lenv ψ i) ((vmpsAlg N P).renv N ψ (N - (i + 2))) (ψ i).ten (ψ (i + 1)).ten = some r := hr
  rw [hr']
  obtain ⟨c, z, ip, ex⟩ := split_core h.closed hi h.left h.right r.vec (p := P.splitR (ofV r.vec)) (hP.spR.dimL _) (hP.spR.mid _) (hP.spR.dimR _)
    (projR hP.spR (ofV r.vec)) (hP.spR.nz _ (ofV_nz hu))
  refine ⟨rfl, rfl, ⟨hB, ?_⟩, ?_, ?_, ?_, ?_⟩
  · refine ⟨embed N i (tens ψ) (ofV r.vec), hn, hE, ?_, fun hx => ?_⟩
    · rw [tens_put]; exact ip
    · rw [tens_put]; exact ex (hx _)
  · rw [tens_put]; exact c
  · rw [tens_put]; exact z
  · intro j hj
    rw [tens_put]
    by_cases h1 : j = i
    · subst h1; rw [setPair_l]; exact hP.spR.iso _
    · rw [setPair_o _ _ _ h1 (by omega)]; exact h.left j (by omega)
  · intro j hj hj'
    rw [tens_put, setPair_o _ _ _ (by omega) (by omega)]
    exact h.right j hj hj'

/-- The update of the pair `(i, i+1)`, moving left. -/
theorem updL_ok (hP : ParOK N P) {ψ : Nat → LTen σ 𝕜} {i : Nat} (hi : i + 1 < N) (h : PairAt N i (tens ψ)) :
    ∃ p e, updTwo P .l i ((vmpsAlg N P).lenv ψ i) ((vmpsAlg N P).renv N ψ (N - (i + 2))) (ψ i).ten (ψ (i + 1)).ten = p ∧
      p.1.e0 = some e ∧ p.2.e0 = some e ∧
      VStep N P (∀ T : Blk2 σ 𝕜, T.Is (P.splitL T)) (stateV N (tens ψ)) e (stateV N (tens (put ψ i p))) ∧
      Closed N (tens (put ψ i p)) ∧ stateV N (tens (put ψ i p)) ≠ 0 ∧ (∀ j, j < i → LeftIso (tens (put ψ i p) j)) ∧
      ∀ j, i < j → j < N → RightIso (tens (put ψ i p) j) := by
  obtain ⟨r, hr, hu, hn, hE, hB⟩ := lanczos_core hP.closed hi (lenv_at hP h.closed (by omega)) (renv_at hP h.closed hi) (P := P) h.closed h.left h.right rfl
    hP.herm h.nz hP.tri hP.iter
  refine ⟨_, r.energy, rfl, ?_⟩
  unfold updTwo
  have hr' : lanczosAt P i ((vmpsAlg N P).lenv ψ i) ((vmpsAlg N P).renv N ψ (N - (i + 2))) (ψ i).ten (ψ (i + 1)).ten = some r := hr
  rw [hr']
  obtain ⟨c, z, ip, ex⟩ := split_core h.closed hi h.left h.right r.vec (p := P.splitL (ofV r.vec)) (hP.spL.dimL _) (hP.spL.mid _) (hP.spL.dimR _)
    (projL hP.spL (ofV r.vec)) (hP.spL.nz _ (ofV_nz hu))
  refine ⟨rfl, rfl, ⟨hB, ?_⟩, ?_, ?_, ?_, ?_⟩
  · refine ⟨embed N i (tens ψ) (ofV r.vec), hn, hE, ?_, fun hx => ?_⟩
    · rw [tens_put]; exact ip
    · rw [tens_put]; exact ex (hx _)
  · rw [tens_put]; exact c
  · rw [tens_put]; exact z
  · intro j hj
    rw [tens_put, setPair_o _ _ _ (by omega) (by omega)]
    exact h.left j hj
  · intro j hj hj'
    rw [tens_put]
    by_cases h1 : j = i + 1
    · subst h1; rw [setPair_r]; exact hP.spL.iso _
    · rw [setPair_o _ _ _ (by omega) h1]; exact h.right j (by omega) hj'

end upd

/-! ### The order of the updates -/

section order
variable {T E : Type} (A : Alg T E) (N : Nat)

theorem optSweep_fold (lb rb : Nat) (ψ : (Nat → T) × Nat) : optSweep A N lb rb ψ = (sweepUpds lb rb).foldl (opt1 A N) ψ := by
  unfold optSweep sweepUpds
  rw [List.foldl_append, List.foldl_map, List.foldl_map]
  have : (List.range' (lb + 2) (rb - 1 - lb)).reverse = ((List.range' (lb + 1) (rb - 1 - lb)).reverse).map (· + 1) := by
    rw [List.map_reverse, show ((· + 1) : Nat → Nat) = (1 + ·) from funext fun _ => Nat.add_comm _ _, List.map_add_range', show 1 + (lb + 1) = lb + 2 by omega]
  rw [this, List.foldl_map]
  rfl

theorem optSweeps_fold (lb rb : Nat) : ∀ k (ψ : (Nat → T) × Nat), optSweeps A N lb rb k ψ = (upds lb rb k).foldl (opt1 A N) ψ
  | 0, _ => rfl
  | k + 1, ψ => by
    rw [optSweeps, optSweeps_fold lb rb k, optSweep_fold]
    unfold upds
    rw [List.replicate_succ, List.flatten_cons, List.foldl_append]

end order

/-- Where the centre is after an update. -/
def after : Dir × Nat → Nat
  | (.r, i) => i + 1
  | (.l, i) => i

/-- Every update of the list finds the centre in its pair. -/
def Path (N : Nat) : Nat → List (Dir × Nat) → Prop
  | _, [] => True
  | c, u :: us => (c = u.2 ∨ c = u.2 + 1) ∧ u.2 + 1 < N ∧ Path N (after u) us

/-- The centre at the end. -/
def ends (c : Nat) (us : List (Dir × Nat)) : Nat := us.foldl (fun _ u => after u) c

theorem path_append {N : Nat} : ∀ {c : Nat} {us vs : List (Dir × Nat)}, Path N c (us ++ vs) ↔ Path N c us ∧ Path N (ends c us) vs
  | _, [], _ => by simp [Path, ends]
  | c, u :: us, vs => by
    rw [List.cons_append, Path, path_append (us := us), Path]
    show _ ↔ _ ∧ Path N (ends (after u) us) vs
    tauto

theorem ends_append (c : Nat) (us vs : List (Dir × Nat)) : ends c (us ++ vs) = ends (ends c us) vs := by
  unfold ends; rw [List.foldl_append]

theorem path_r {N : Nat} (m lb : Nat) (h : lb + m < N) {c : Nat} (hc : c = lb ∨ c = lb + 1) :
    Path N c ((List.range' lb m).map fun i => (.r, i)) ∧ (m ≠ 0 → ends c ((List.range' lb m).map fun i => (.r, i)) = lb + m) := by
  induction m generalizing lb c with
  | zero => exact ⟨trivial, fun h => absurd rfl h⟩
  | succ m ih =>
    rw [List.range'_succ, List.map_cons]
    obtain ⟨h1, h2⟩ := ih (lb + 1) (by omega) (c := lb + 1) (Or.inl rfl)
    refine ⟨⟨hc, by show lb + 1 < N; omega, h1⟩, fun _ => ?_⟩
    show ends (lb + 1) _ = _
    by_cases hm : m = 0
    · subst hm; rfl
    · rw [h2 hm]; omega

theorem path_l {N : Nat} (m lb : Nat) (h : lb + m < N) {c : Nat} (hc : c = lb + m ∨ c + 1 = lb + m) (hm : m ≠ 0) :
    Path N c ((List.range' lb m).reverse.map fun i => (.l, i)) ∧ ends c ((List.range' lb m).reverse.map fun i => (.l, i)) = lb := by
  induction m generalizing c with
  | zero => exact absurd rfl hm
  | succ m ih =>
    rw [List.range'_concat, List.reverse_append, List.reverse_singleton, List.singleton_append, List.map_cons, Nat.one_mul]
    by_cases h0 : m = 0
    · subst h0
      exact ⟨⟨by show c = lb + 0 ∨ c = lb + 0 + 1; omega, by show lb + 0 + 1 < N; omega, trivial⟩, rfl⟩
    · obtain ⟨h1, h2⟩ := ih (by omega) (c := lb + m) (Or.inl rfl) h0
      exact ⟨⟨by show c = lb + m ∨ c = lb + m + 1; omega, by show lb + m + 1 < N; omega, h1⟩, h2⟩

theorem path_sweep {N lb rb : Nat} (h1 : lb + 2 ≤ rb) (h2 : rb < N) {c : Nat} (hc : c = lb ∨ c = lb + 1) :
    Path N c (sweepUpds lb rb) ∧ ends c (sweepUpds lb rb) = lb + 1 := by
  obtain ⟨a1, a2⟩ := path_r (N := N) (rb - 1 - lb) lb (by omega) hc
  obtain ⟨b1, b2⟩ := path_l (N := N) (rb - 1 - lb) (lb + 1) (by omega) (c := lb + (rb - 1 - lb)) (Or.inr (by omega)) (by omega)
  have a3 := a2 (by omega)
  unfold sweepUpds
  rw [path_append, ends_append, a3]
  exact ⟨⟨a1, b1⟩, b2⟩

theorem path_sweeps {N lb rb : Nat} (h1 : lb + 2 ≤ rb) (h2 : rb < N) (k : Nat) {c : Nat} (hc : c = lb ∨ c = lb + 1) :
    Path N c (upds lb rb k) ∧ (k ≠ 0 → ends c (upds lb rb k) = lb + 1) := by
  induction k generalizing c with
  | zero => exact ⟨trivial, fun h => absurd rfl h⟩
  | succ k ih =>
    have e : upds lb rb (k + 1) = sweepUpds lb rb ++ upds lb rb k := by
      unfold upds; rw [List.replicate_succ, List.flatten_cons]
    obtain ⟨a, b⟩ := path_sweep h1 h2 hc
    obtain ⟨i1, i2⟩ := ih (c := lb + 1) (Or.inr rfl)
    rw [e, path_append, ends_append, b]
    refine ⟨⟨a, i1⟩, fun _ => ?_⟩
    by_cases hk : k = 0
    · subst hk; rfl
    · exact i2 hk

section run
variable {σ 𝕜 : Type} [RCLike 𝕜] [Fintype σ] [DecidableEq σ] {N : Nat} {P : VmpsPar σ 𝕜}

theorem at_of_canon {c i : Nat} {t : Nat → Ten σ 𝕜} (h : Canon N c t) (hz : stateV N t ≠ 0) (hc : c = i ∨ c = i + 1) : PairAt N i t :=
  ⟨h.1, fun j hj => h.2.1 j (by omega), fun j hj hj' => h.2.2 j (by omega) hj', hz⟩

/-- One update of the sweep. -/
theorem opt1_ok (hP : ParOK N P) {ψ : (Nat → LTen σ 𝕜) × Nat} {u : Dir × Nat} {c : Nat} (hc : c = u.2 ∨ c = u.2 + 1) (hu : u.2 + 1 < N)
    (h : Canon N c (tens ψ.1)) (hz : stateV N (tens ψ.1) ≠ 0) :
    Canon N (after u) (tens (opt1 (vmpsAlg N P) N ψ u).1) ∧ stateV N (tens (opt1 (vmpsAlg N P) N ψ u).1) ≠ 0 ∧
      ∃ e, ((opt1 (vmpsAlg N P) N ψ u).1 u.2).e0 = some e ∧ ((opt1 (vmpsAlg N P) N ψ u).1 (u.2 + 1)).e0 = some e ∧
        VStep N P ((∀ T : Blk2 σ 𝕜, T.Is (P.splitR T)) ∧ ∀ T : Blk2 σ 𝕜, T.Is (P.splitL T)) (stateV N (tens ψ.1)) e
          (stateV N (tens (opt1 (vmpsAlg N P) N ψ u).1)) := by
  obtain ⟨d, i⟩ := u
  have ha := at_of_canon h hz hc
  cases d with
  | r =>
    obtain ⟨p, e, hp, e1, e2, vs, cl, nz, li, ri⟩ := updR_ok hP hu ha
    have hs : (opt1 (vmpsAlg N P) N ψ (.r, i)).1 = put ψ.1 i p := by rw [← hp]; rfl
    rw [hs]
    refine ⟨⟨cl, li, ri⟩, nz, e, ?_, ?_, vs.better, ?_⟩
    · unfold put; rw [Function.update_of_ne (by omega), Function.update_self]; exact e1
    · unfold put; rw [Function.update_self]; exact e2
    · obtain ⟨Φ, a, b, c, d⟩ := vs.unit
      exact ⟨Φ, a, b, c, fun hx => d hx.1⟩
  | l =>
    obtain ⟨p, e, hp, e1, e2, vs, cl, nz, li, ri⟩ := updL_ok hP hu ha
    have hs : (opt1 (vmpsAlg N P) N ψ (.l, i)).1 = put ψ.1 i p := by rw [← hp]; rfl
    rw [hs]
    refine ⟨⟨cl, li, ri⟩, nz, e, ?_, ?_, vs.better, ?_⟩
    · unfold put; rw [Function.update_of_ne (by omega), Function.update_self]; exact e1
    · unfold put; rw [Function.update_self]; exact e2
    · obtain ⟨Φ, a, b, c, d⟩ := vs.unit
      exact ⟨Φ, a, b, c, fun hx => d hx.2⟩

theorem fold_ok (hP : ParOK N P) (us : List (Dir × Nat)) {ψ : (Nat → LTen σ 𝕜) × Nat} {c : Nat} (hp : Path N c us) (h : Canon N c (tens ψ.1))
    (hz : stateV N (tens ψ.1) ≠ 0) : Canon N (ends c us) (tens (us.foldl (opt1 (vmpsAlg N P) N) ψ).1) ∧
      stateV N (tens (us.foldl (opt1 (vmpsAlg N P) N) ψ).1) ≠ 0 := by
  induction us generalizing ψ c with
  | nil => exact ⟨h, hz⟩
  | cons u us ih =>
    obtain ⟨a, b, -⟩ := opt1_ok hP hp.1 hp.2.1 h hz
    exact ih hp.2.2 a b

theorem runAt_ok (hP : ParOK N P) {us : List (Dir × Nat)} {ψ : (Nat → LTen σ 𝕜) × Nat} {c : Nat} (hp : Path N c us) (h : Canon N c (tens ψ.1))
    (hz : stateV N (tens ψ.1) ≠ 0) {n : Nat} (hn : n < us.length) :
    (∃ c', Canon N c' (tens (runAt N P us ψ n).1)) ∧ stateV N (tens (runAt N P us ψ n).1) ≠ 0 ∧
      ∃ e, ((runAt N P us ψ (n + 1)).1 us[n].2).e0 = some e ∧ ((runAt N P us ψ (n + 1)).1 (us[n].2 + 1)).e0 = some e ∧
        VStep N P ((∀ T : Blk2 σ 𝕜, T.Is (P.splitR T)) ∧ ∀ T : Blk2 σ 𝕜, T.Is (P.splitL T)) (stateV N (tens (runAt N P us ψ n).1)) e
          (stateV N (tens (runAt N P us ψ (n + 1)).1)) := by
  have hs : us = us.take n ++ us[n] :: us.drop (n + 1) := by
    rw [← List.drop_eq_getElem_cons hn, List.take_append_drop]
  have hp' := hp
  rw [hs, path_append] at hp'
  obtain ⟨p1, p2, p3, -⟩ := hp'
  obtain ⟨a, b⟩ := fold_ok hP (us.take n) p1 h hz
  have e : runAt N P us ψ (n + 1) = opt1 (vmpsAlg N P) N (runAt N P us ψ n) us[n] := by
    unfold runAt
    rw [← List.take_append_getElem hn, List.foldl_append]
    rfl
  rw [e]
  obtain ⟨-, -, g⟩ := opt1_ok hP p2 p3 a b
  exact ⟨⟨_, a⟩, b, g⟩

end run
end Verif.Mps
