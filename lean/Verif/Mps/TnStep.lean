import Verif.Mps.TnSpec
import Verif.Mps.DmrgGauge
import Verif.Mps.VmpsRun
/-
One update of the two-site optimisation with noise.
-/
namespace Verif.Mps
open Finset Verif.Disk Verif.Algo Verif.Props

section pad
variable {σ K : Type} [CommRing K]

/-- The block has more columns, which meet only zeros of the tensor behind it. -/
structure PadR (T : Blk2 σ K) (x : Ten σ K) (q : Blk2 σ K × Ten σ K) : Prop where
  l : q.1.l = T.l
  m : q.2.l = q.1.r
  le : T.r ≤ q.1.r
  r : q.2.r = x.r
  v : ∀ s s' a b, b < T.r → q.1.v s s' a b = T.v s s' a b
  x : ∀ s k b, k < T.r → q.2.v s k b = x.v s k b
  z : ∀ s k b, T.r ≤ k → k < q.1.r → q.2.v s k b = 0

/-- The block has more rows, which meet only zeros of the tensor before it. -/
structure PadL (x : Ten σ K) (T : Blk2 σ K) (q : Ten σ K × Blk2 σ K) : Prop where
  r : q.2.r = T.r
  m : q.1.r = q.2.l
  le : T.l ≤ q.2.l
  l : q.1.l = x.l
  v : ∀ s s' a b, a < T.l → q.2.v s s' a b = T.v s s' a b
  x : ∀ s a k, k < T.l → q.1.v s a k = x.v s a k
  z : ∀ s a k, T.l ≤ k → k < q.2.l → q.1.v s a k = 0

theorem padR_expand [Fintype σ] {T : Blk2 σ K} {x : Ten σ K} (ν : K) (e : Env3 K) (w0 w1 : Ten (σ × σ) K) (pick : List Nat) : PadR T x (expand2R ν e w0 w1 pick T x) :=
  ⟨rfl, rfl, Nat.le_add_right _ _, rfl, fun _ _ _ _ h => if_pos h, fun _ _ _ h => if_pos h, fun _ _ _ h _ => if_neg (by omega)⟩

theorem padL_expand [Fintype σ] {T : Blk2 σ K} {x : Ten σ K} (ν : K) (f : Env3 K) (w0 w1 : Ten (σ × σ) K) (pick : List Nat) : PadL x T (expand2L ν f w0 w1 pick x T) :=
  ⟨rfl, rfl, Nat.le_add_right _ _, rfl, fun _ _ _ _ h => if_pos h, fun _ _ _ h => if_pos h, fun _ _ _ h _ => if_neg (by omega)⟩

theorem padR_refl {T : Blk2 σ K} {x : Ten σ K} (h : T.r = x.l) : PadR T x (T, x) :=
  ⟨rfl, h.symm, Nat.le_refl _, rfl, fun _ _ _ _ _ => rfl, fun _ _ _ _ => rfl, fun _ k _ h1 h2 => absurd h2 (by simp only; omega)⟩

theorem padL_refl {T : Blk2 σ K} {x : Ten σ K} (h : x.r = T.l) : PadL x T (x, T) :=
  ⟨rfl, h, Nat.le_refl _, rfl, fun _ _ _ _ _ => rfl, fun _ _ _ _ => rfl, fun _ _ k h1 h2 => absurd h2 (by simp only; omega)⟩

/-- The tensor with the first `r` columns. -/
def cutCols (t : Ten σ K) (r : Nat) : Ten σ K := ⟨t.l, r, t.v⟩

/-- The tensor with the first `l` rows. -/
def cutRows (t : Ten σ K) (l : Nat) : Ten σ K := ⟨l, t.r, t.v⟩

theorem padR_same {T : Blk2 σ K} {x : Ten σ K} {q : Blk2 σ K × Ten σ K} (h : PadR T x q) {u : Ten σ K} (hu : u.r = q.1.r) :
    ∀ s s' a b, ∑ k ∈ range u.r, u.v s a k * q.2.v s' k b = ∑ k ∈ range T.r, u.v s a k * x.v s' k b := by
  intro s s' a b
  have hle := h.le
  rw [hu]
  obtain ⟨d, hd⟩ : ∃ d, q.1.r = T.r + d := ⟨q.1.r - T.r, by omega⟩
  rw [hd, Finset.sum_range_add, sum_congr rfl fun k hk => by rw [h.x s' k b (mem_range.mp hk)],
    sum_eq_zero (s := range d) fun k hk => by rw [h.z s' _ b (by omega) (by have := mem_range.mp hk; omega), mul_zero], add_zero]

theorem padL_same {T : Blk2 σ K} {x : Ten σ K} {q : Ten σ K × Blk2 σ K} (h : PadL x T q) (u : Ten σ K) :
    ∀ s s' a b, ∑ k ∈ range q.1.r, q.1.v s a k * u.v s' k b = ∑ k ∈ range T.l, x.v s a k * u.v s' k b := by
  intro s s' a b
  have hle := h.le
  rw [h.m]
  obtain ⟨d, hd⟩ : ∃ d, q.2.l = T.l + d := ⟨q.2.l - T.l, by omega⟩
  rw [hd, Finset.sum_range_add, sum_congr rfl fun k hk => by rw [h.x s a k (mem_range.mp hk)],
    sum_eq_zero (s := range d) fun k hk => by rw [h.z s a _ (by omega) (by have := mem_range.mp hk; omega), zero_mul], add_zero]

end pad

section upd
variable {σ 𝕜 : Type} [RCLike 𝕜] [Fintype σ] [DecidableEq σ] {N : Nat} {P : TnPar σ 𝕜}

omit [DecidableEq σ] in
theorem tnExpR_pad {T : Blk2 σ 𝕜} {x : Ten σ 𝕜} (h : T.r = x.l) (ν : ℝ) (i : Nat) (e : Env3 𝕜) (t u : Ten σ 𝕜) : PadR T x (tnExpR P ν i e t u T x) := by
  unfold tnExpR
  split
  · exact padR_expand _ _ _ _ _
  · exact padR_refl h

omit [DecidableEq σ] in
theorem tnExpL_pad {T : Blk2 σ 𝕜} {x : Ten σ 𝕜} (h : x.r = T.l) (ν : ℝ) (i : Nat) (f : Env3 𝕜) (t u : Ten σ 𝕜) : PadL x T (tnExpL P ν i f t u x T) := by
  unfold tnExpL
  split
  · exact padL_expand _ _ _ _ _
  · exact padL_refl h

omit [DecidableEq σ] in
theorem tn_silent {ν : ℝ} (h : |ν| < 1e-10) (d : Dir) (i : Nat) (t u : Ten σ 𝕜) : tnNeed P ν d i t u = false := by
  unfold tnNeed
  simp [h]

/-- The new MPS after an update of three sites. -/
def put3 (ψ : Nat → LTen σ 𝕜) (i : Nat) (p : LTen σ 𝕜 × LTen σ 𝕜 × LTen σ 𝕜) : Nat → LTen σ 𝕜 :=
  Function.update (Function.update (Function.update ψ i p.1) (i + 1) p.2.1) (i + 2) p.2.2

omit [RCLike 𝕜] [Fintype σ] [DecidableEq σ] in
theorem tens_put3 (ψ : Nat → LTen σ 𝕜) (i : Nat) (p : LTen σ 𝕜 × LTen σ 𝕜 × LTen σ 𝕜) (j : Nat) :
    tens (put3 ψ i p) j = if j = i then p.1.ten else if j = i + 1 then p.2.1.ten else if j = i + 2 then p.2.2.ten else tens ψ j := by
  unfold tens put3
  by_cases h2 : j = i + 2
  · subst h2; rw [Function.update_self, if_neg (by omega), if_neg (by omega), if_pos rfl]
  · rw [Function.update_of_ne h2]
    by_cases h1 : j = i + 1
    · subst h1; rw [Function.update_self, if_neg (by omega), if_pos rfl]
    · rw [Function.update_of_ne h1]
      by_cases h0 : j = i
      · subst h0; rw [Function.update_self, if_pos rfl]
      · rw [Function.update_of_ne h0, if_neg h0, if_neg h1, if_neg h2]

omit [RCLike 𝕜] [Fintype σ] [DecidableEq σ] in
theorem put3_r (ψ : Nat → LTen σ 𝕜) (i : Nat) (p : LTen σ 𝕜 × LTen σ 𝕜 × LTen σ 𝕜) (c : Ten σ 𝕜) :
    tens (put3 ψ i p) = setPair (setPair (tens ψ) i (p.1.ten, c)) (i + 1) (p.2.1.ten, p.2.2.ten) := by
  funext j
  rw [tens_put3]
  by_cases h0 : j = i
  · subst h0; rw [if_pos rfl, setPair_o _ _ _ (by omega) (by omega), setPair_l]
  by_cases h1 : j = i + 1
  · subst h1; rw [if_neg h0, if_pos rfl, setPair_l]
  by_cases h2 : j = i + 2
  · subst h2; rw [if_neg h0, if_neg h1, if_pos rfl]; exact (setPair_r (setPair (tens ψ) i (p.1.ten, c)) (i + 1) (p.2.1.ten, p.2.2.ten)).symm
  rw [if_neg h0, if_neg h1, if_neg h2, setPair_o _ _ _ h1 h2, setPair_o _ _ _ h0 h1]

omit [RCLike 𝕜] [Fintype σ] [DecidableEq σ] in
theorem put3_l (ψ : Nat → LTen σ 𝕜) (i : Nat) (p : LTen σ 𝕜 × LTen σ 𝕜 × LTen σ 𝕜) (c : Ten σ 𝕜) :
    tens (put3 ψ i p) = setPair (setPair (tens ψ) (i + 1) (c, p.2.2.ten)) i (p.1.ten, p.2.1.ten) := by
  funext j
  rw [tens_put3]
  by_cases h0 : j = i
  · subst h0; rw [if_pos rfl, setPair_l]
  by_cases h1 : j = i + 1
  · subst h1; rw [if_neg h0, if_pos rfl, setPair_r]
  by_cases h2 : j = i + 2
  · subst h2; rw [if_neg h0, if_neg h1, if_pos rfl, setPair_o _ _ _ h0 h1]; exact (setPair_r (tens ψ) (i + 1) (c, p.2.2.ten)).symm
  rw [if_neg h0, if_neg h1, if_neg h2, setPair_o _ _ _ h0 h1, setPair_o _ _ _ h1 h2]

/-- The update of the pair `(i, i+1)`, moving right. -/
theorem tnUpdR_ok (hP : TnOK N P) (ν : ℝ) {ψ : Nat → LTen σ 𝕜} {i : Nat} (hi : i + 2 < N) (h : PairAt N i (tens ψ)) :
    ∃ p e, tnUpd P ν .r i ((vmpsAlg N P.toVmpsPar).lenv ψ i) ((vmpsAlg N P.toVmpsPar).renv N ψ (N - (i + 2))) (ψ i).ten (ψ (i + 1)).ten (ψ (i + 2)).ten = p ∧
      p.1.e0 = some e ∧ p.2.1.e0 = some e ∧ p.2.2.e0 = some e ∧ HStep N (opM N P.w) P.NoCut (stateV N (tens ψ)) e (stateV N (tens (put3 ψ i p))) ∧
      Closed N (tens (put3 ψ i p)) ∧ (∀ j, j < i + 1 → LeftIso (tens (put3 ψ i p) j)) ∧ (∀ j, i + 2 < j → j < N → RightIso (tens (put3 ψ i p) j)) ∧
      (|ν| < 1e-10 → stateV N (tens (put3 ψ i p)) ≠ 0) := by
  have hi' : i + 1 < N := by omega
  have hV := hP.toParOK
  obtain ⟨g, hg, gu, gn, gE, gB⟩ := lanczos_core hP.closed hi' (lenv_at hV h.closed (by omega)) (renv_at hV h.closed hi') (P := P.toVmpsPar) h.closed h.left h.right rfl
    hP.herm h.nz hP.tri hP.iter
  have hx : (ofV g.vec).r = (tens ψ (i + 2)).l := h.closed.2.2 (i + 1) hi
  have pd := tnExpR_pad (P := P) hx ν i ((vmpsAlg N P.toVmpsPar).lenv ψ i) (tens ψ i) (tens ψ (i + 1))
  set q := tnExpR P ν i ((vmpsAlg N P.toVmpsPar).lenv ψ i) (tens ψ i) (tens ψ (i + 1)) (ofV g.vec) (tens ψ (i + 2)) with hq
  have hU : tnUpd P ν .r i ((vmpsAlg N P.toVmpsPar).lenv ψ i) ((vmpsAlg N P.toVmpsPar).renv N ψ (N - (i + 2))) (ψ i).ten (ψ (i + 1)).ten (ψ (i + 2)).ten =
      (⟨(P.splitR q.1).1, some g.energy⟩, ⟨(P.splitR q.1).2, some g.energy⟩, ⟨q.2, some g.energy⟩) := by
    have hg' : lanczosAt P.toVmpsPar i ((vmpsAlg N P.toVmpsPar).lenv ψ i) ((vmpsAlg N P.toVmpsPar).renv N ψ (N - (i + 2))) (ψ i).ten (ψ (i + 1)).ten = some g := hg
    unfold tnUpd
    simp only [hg']
    rfl
  refine ⟨_, g.energy, hU, rfl, rfl, rfl, ?_⟩
  have pl : (P.splitR q.1).1.l = (tens ψ i).l := (hP.spR.dimL q.1).trans pd.l
  obtain ⟨c, z, ip, ex⟩ := split_core0 h.closed hi' h.left h.right g.vec (p := ((P.splitR q.1).1, cutCols (P.splitR q.1).2 (tens ψ (i + 1)).r)) pl (hP.spR.mid q.1) rfl
    (projR_at (T := ofV g.vec) (p := ((P.splitR q.1).1, cutCols (P.splitR q.1).2 (tens ψ (i + 1)).r)) pl (hP.spR.iso _) fun y j b hj hb => by
      show (P.splitR q.1).2.v y j b = _
      rw [hP.spR.proj q.1 y j b hj (lt_of_lt_of_le hb pd.le), pd.l]
      exact sum_congr rfl fun x _ => sum_congr rfl fun a _ => by rw [pd.v x y a b hb])
  set t1 := setPair (tens ψ) i ((P.splitR q.1).1, cutCols (P.splitR q.1).2 (tens ψ (i + 1)).r) with ht1
  have t11 : t1 (i + 1) = cutCols (P.splitR q.1).2 (tens ψ (i + 1)).r := setPair_r _ _ _
  have t12 : t1 (i + 1 + 1) = tens ψ (i + 2) := setPair_o _ _ _ (by omega) (by omega)
  obtain ⟨c2, s2⟩ := same_step c (i := i + 1) (by omega) (p := (P.splitR q.1).2) (q := q.2) (by rw [t11]; rfl) ((hP.spR.dimR q.1).trans pd.m.symm) (by rw [t12]; exact pd.r)
    (by
      rw [t11, t12]
      intro s s' a b _ _
      exact (padR_same pd (hP.spR.dimR q.1) s s' a b).symm)
  rw [put3_r _ _ _ (cutCols (P.splitR q.1).2 (tens ψ (i + 1)).r)]
  rw [← ht1, s2]
  refine ⟨⟨gB, embed N i (tens ψ) (ofV g.vec), gn, gE, ip, fun hx => ex fun s s' a b ha hb => ?_⟩, c2, fun j hj => ?_, fun j hj hj' => ?_, fun hν => z ?_⟩
  · have := hx.1 q.1 s s' a b (by rw [pd.l]; exact ha) (lt_of_lt_of_le hb pd.le)
    rw [pd.v s s' a b hb] at this
    exact this
  · rw [setPair_o _ _ _ (by omega) (by omega)]
    by_cases h1 : j = i
    · subst h1; rw [ht1, setPair_l]; exact hP.spR.iso _
    · rw [ht1, setPair_o _ _ _ h1 (by omega)]; exact h.left j (by omega)
  · rw [setPair_o _ _ _ (by omega) (by omega), ht1, setPair_o _ _ _ (by omega) (by omega)]
    exact h.right j (by omega) hj'
  · have hq0 : q = (ofV g.vec, tens ψ (i + 2)) := by
      rw [hq]; unfold tnExpR; rw [tn_silent hν]; rfl
    rw [hq0]
    exact hP.spR.nz _ (ofV_nz gu)

/-- The update of the pair `(i+1, i+2)`, moving left. -/
theorem tnUpdL_ok (hP : TnOK N P) (ν : ℝ) {ψ : Nat → LTen σ 𝕜} {i : Nat} (hi : i + 2 < N) (h : PairAt N (i + 1) (tens ψ)) :
    ∃ p e, tnUpd P ν .l (i + 2) ((vmpsAlg N P.toVmpsPar).lenv ψ (i + 1)) ((vmpsAlg N P.toVmpsPar).renv N ψ (N - (i + 3))) (ψ i).ten (ψ (i + 1)).ten (ψ (i + 2)).ten = p ∧
      p.1.e0 = some e ∧ p.2.1.e0 = some e ∧ p.2.2.e0 = some e ∧ HStep N (opM N P.w) P.NoCut (stateV N (tens ψ)) e (stateV N (tens (put3 ψ i p))) ∧
      Closed N (tens (put3 ψ i p)) ∧ (∀ j, j < i → LeftIso (tens (put3 ψ i p) j)) ∧ (∀ j, i + 1 < j → j < N → RightIso (tens (put3 ψ i p) j)) ∧
      (|ν| < 1e-10 → stateV N (tens (put3 ψ i p)) ≠ 0) := by
  have hV := hP.toParOK
  obtain ⟨g, hg, gu, gn, gE, gB⟩ := lanczos_core hP.closed (i := i + 1) hi (lenv_at hV h.closed (by omega)) (renv_at hV h.closed hi) (P := P.toVmpsPar) h.closed h.left h.right rfl
    hP.herm h.nz hP.tri hP.iter
  have hx : (tens ψ i).r = (ofV g.vec).l := h.closed.2.2 i (by omega)
  have pd := tnExpL_pad (P := P) hx ν (i + 1) ((vmpsAlg N P.toVmpsPar).renv N ψ (N - (i + 3))) (tens ψ (i + 1)) (tens ψ (i + 2))
  set q := tnExpL P ν (i + 1) ((vmpsAlg N P.toVmpsPar).renv N ψ (N - (i + 3))) (tens ψ (i + 1)) (tens ψ (i + 2)) (tens ψ i) (ofV g.vec) with hq
  have hU : tnUpd P ν .l (i + 2) ((vmpsAlg N P.toVmpsPar).lenv ψ (i + 1)) ((vmpsAlg N P.toVmpsPar).renv N ψ (N - (i + 3))) (ψ i).ten (ψ (i + 1)).ten (ψ (i + 2)).ten =
      (⟨q.1, some g.energy⟩, ⟨(P.splitL q.2).1, some g.energy⟩, ⟨(P.splitL q.2).2, some g.energy⟩) := by
    have hg' : lanczosAt P.toVmpsPar (i + 2 - 1) ((vmpsAlg N P.toVmpsPar).lenv ψ (i + 1)) ((vmpsAlg N P.toVmpsPar).renv N ψ (N - (i + 3))) (ψ (i + 1)).ten (ψ (i + 2)).ten = some g := hg
    unfold tnUpd
    simp only [hg']
    rfl
  refine ⟨_, g.energy, hU, rfl, rfl, rfl, ?_⟩
  have pr : (P.splitL q.2).2.r = (tens ψ (i + 2)).r := (hP.spL.dimR q.2).trans pd.r
  obtain ⟨c, z, ip, ex⟩ := split_core0 h.closed (i := i + 1) hi h.left h.right g.vec (p := (cutRows (P.splitL q.2).1 (tens ψ (i + 1)).l, (P.splitL q.2).2)) rfl (hP.spL.mid q.2) pr
    (projL_at (T := ofV g.vec) (p := (cutRows (P.splitL q.2).1 (tens ψ (i + 1)).l, (P.splitL q.2).2)) pr (hP.spL.mid q.2) (hP.spL.iso _) fun x a j ha hj => by
      show (P.splitL q.2).1.v x a j = _
      rw [hP.spL.proj q.2 x a j (lt_of_lt_of_le ha pd.le) hj, pd.r]
      exact sum_congr rfl fun y _ => sum_congr rfl fun b _ => by rw [pd.v x y a b ha])
  set t1 := setPair (tens ψ) (i + 1) (cutRows (P.splitL q.2).1 (tens ψ (i + 1)).l, (P.splitL q.2).2) with ht1
  have t10 : t1 i = tens ψ i := setPair_o _ _ _ (by omega) (by omega)
  have t11 : t1 (i + 1) = cutRows (P.splitL q.2).1 (tens ψ (i + 1)).l := setPair_l _ _ _
  obtain ⟨c2, s2⟩ := same_step c (i := i) (by omega) (p := q.1) (q := (P.splitL q.2).1) (by rw [t10]; exact pd.l) (pd.m.trans (hP.spL.dimL q.2).symm) (by rw [t11]; rfl)
    (by
      rw [t10, t11]
      intro s s' a b _ _
      show ∑ k ∈ range (tens ψ i).r, (tens ψ i).v s a k * (P.splitL q.2).1.v s' k b = _
      rw [hx]
      exact (padL_same pd (P.splitL q.2).1 s s' a b).symm)
  rw [put3_l _ _ _ (cutRows (P.splitL q.2).1 (tens ψ (i + 1)).l)]
  rw [← ht1, s2]
  refine ⟨⟨gB, embed N (i + 1) (tens ψ) (ofV g.vec), gn, gE, ip, fun hx => ex fun s s' a b ha hb => ?_⟩, c2, fun j hj => ?_, fun j hj hj' => ?_, fun hν => z ?_⟩
  · have := hx.2 q.2 s s' a b (lt_of_lt_of_le ha pd.le) (by rw [pd.r]; exact hb)
    rw [pd.v s s' a b ha] at this
    exact this
  · rw [setPair_o _ _ _ (by omega) (by omega), ht1, setPair_o _ _ _ (by omega) (by omega)]
    exact h.left j (by omega)
  · rw [setPair_o _ _ _ (by omega) (by omega)]
    by_cases h1 : j = i + 2
    · subst h1
      have : t1 (i + 2) = (P.splitL q.2).2 := setPair_r _ _ _
      rw [this]; exact hP.spL.iso _
    · rw [ht1, setPair_o _ _ _ (by omega) (by omega)]; exact h.right j (by omega) hj'
  · have hq0 : q = (tens ψ i, ofV g.vec) := by
      rw [hq]; unfold tnExpL; rw [tn_silent hν]; rfl
    rw [hq0]
    exact hP.spL.nz _ (ofV_nz gu)

end upd
end Verif.Mps
