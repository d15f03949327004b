import Verif.Mps.TruncFacts
import Verif.Props.Fmpo
import Mathlib.Tactic.Linarith
/-
C66: what the truncation of a `FiniteMPO` leaves.

Specification vocabulary: `IsOp`, `opMat` (Verif/Props/Fmpo.lean); the squared Frobenius norm of an operator `O` is `trace (O Oᴴ)`.
-/
namespace Verif.Props
open Verif.Mps Finset

variable {σ K : Type} [CommRing K] [StarRing K] [Fintype σ] {N : Nat}

theorem frob_chain2 (ts us : List (Ten (σ × σ) K)) :
    Matrix.trace (opMat N ts * (opMat N us).conjTranspose) =
      ∑ s : Fin N → σ × σ, amp ts (List.ofFn s) 0 0 * star (amp us (List.ofFn s) 0 0) := by
  unfold Matrix.trace
  rw [sum_pairs]
  refine sum_congr rfl fun s _ => ?_
  rw [Matrix.diag_apply, Matrix.mul_apply]
  rfl

/-- When the overlap of two operators is the squared norm of the second, the second is an orthogonal projection of the first. -/
theorem frob_pythagoras {A B : Matrix (Fin N → σ) (Fin N → σ) K}
    (h : Matrix.trace (A * B.conjTranspose) = Matrix.trace (B * B.conjTranspose)) :
    Matrix.trace ((A - B) * (A - B).conjTranspose) = Matrix.trace (A * A.conjTranspose) - Matrix.trace (B * B.conjTranspose) := by
  have h' : Matrix.trace (B * A.conjTranspose) = Matrix.trace (B * B.conjTranspose) := by
    have := congrArg star h
    rw [← Matrix.trace_conjTranspose, ← Matrix.trace_conjTranspose] at this
    simpa [Matrix.conjTranspose_mul] using this
  rw [Matrix.conjTranspose_sub, Matrix.sub_mul, Matrix.mul_sub, Matrix.mul_sub, Matrix.trace_sub, Matrix.trace_sub, Matrix.trace_sub, h, h']
  ring

/-- **C66.** After any history of calls that keep the flags (not `Load`, not `MpoAllScale`), `Truncate(trunc_err, Dmin, Dmax)` of an operator
on two or more sites succeeds and prints one truncation error for each of the `N - 1` bonds. The operator `O'` that is left is an orthogonal projection of `O` —
`⟨O, O'⟩ = ⟨O', O'⟩`, hence `‖O - O'‖² = ‖O‖² - ‖O'‖²` — and `‖O'‖²` is `‖O‖²` times the product of `1 - ε` over the printed errors.
No inner bond is larger than the largest bond the library's SVD leaves, the first tensor is unflagged, all others are flagged RIGHT and `GetCenter()` is -1. -/
theorem C66_truncate [DecidableEq σ] {qr svd tsvd : Ten (σ × σ) K → Ten (σ × σ) K × Mat K}
    {nrm : Ten (σ × σ) K → K × Ten (σ × σ) K} {terr : Ten (σ × σ) K → K} (H : QRSpec qr) (H' : SVDSpec svd) (H'' : TruncSpec tsvd terr)
    {cs : List (MpoCall σ K)} {m : FMpo σ K} (hist : FMpo.history qr svd nrm tsvd terr N cs = .ok m)
    (noLoad : ∀ c ∈ cs, ∀ d, c ≠ .loadDir d) (noAll : ∀ c ∈ cs, ∀ k, c ≠ .allScale k)
    {O : Matrix (Fin N → σ) (Fin N → σ) K} (h : IsOp m O) (hN : 2 ≤ N) :
    ∃ m' es O', FMpo.truncate qr svd tsvd terr m = .ok (m', es) ∧ IsOp m' O' ∧ es.length = N - 1 ∧
      Matrix.trace (O * O'.conjTranspose) = Matrix.trace (O' * O'.conjTranspose) ∧
      Matrix.trace ((O - O') * (O - O').conjTranspose) = Matrix.trace (O * O.conjTranspose) - Matrix.trace (O' * O'.conjTranspose) ∧
      Matrix.trace (O' * O'.conjTranspose) = Matrix.trace (O * O.conjTranspose) * (es.map (1 - ·)).prod ∧
      m'.center = -1 ∧ m'.flags = .none :: List.replicate (N - 1) .right ∧
      (∀ Dmax, (∀ t, (tsvd t).1.l ≤ Dmax) → ∀ i t, 0 < i → m'.slots[i]? = some (some t) → t.l ≤ Dmax) := by
  have hO := h
  obtain ⟨ts0, r0, rfl, b1, b2, rfl⟩ := h.rep
  obtain ⟨m1, ts, e, r, q, c, f, -, -⟩ := mpoCentralize_rep H H' r0 (mpo_history_inv hist).1 (t := ts0.length - 1) (by omega)
  have hist1 : FMpo.history qr svd nrm tsvd terr ts0.length (cs ++ [.centralize ((ts0.length - 1 : Nat) : Int)]) = .ok m1 := by
    unfold FMpo.history at hist ⊢
    rw [List.foldlM_append, hist]
    show (FMpo.centralize qr svd m _ >>= pure) = _
    rw [e]; rfl
  obtain ⟨T, -⟩ := C65_flags_truthful H H' H'' hist1
    (fun c hc d => by rcases List.mem_append.mp hc with h | h; · exact noLoad c h d
                      · simp at h; rw [h]; simp)
    (fun c hc d => by rcases List.mem_append.mp hc with h | h; · exact noAll c h d
                      · simp at h; rw [h]; simp)
  have hlen : ts.length = ts0.length := q.len
  have a1 : headL ts = 1 := q.head.trans b1
  have a2 : lastR ts = 1 := q.last.trans b2
  have hO1 : opMat ts0.length ts = opMat ts0.length ts0 := by
    funext s s'
    exact q.amp _ 0 0 (by rw [b1]; omega)
  obtain ⟨L, t, rfl⟩ : ∃ L t, ts = L ++ [t] := by
    rcases List.eq_nil_or_concat ts with h0 | ⟨a, b, h0⟩
    · subst h0; simp at hlen; omega
    · exact ⟨a, b, by simpa using h0⟩
  have hLl : L.length = ts0.length - 1 := by simp at hlen; omega
  have tr : t.r = 1 := by simpa [lastR] using a2
  have hL : ∀ u ∈ L, LeftIso u := by
    intro u hu
    obtain ⟨j, hj, rfl⟩ := List.getElem_of_mem hu
    refine (T j _ (r.get (i := j) ?_)).1 ?_
    · rw [List.getElem?_append_left hj, List.getElem?_eq_getElem hj]
    · rw [f j (by omega), if_pos (by omega)]
  obtain ⟨m', t', R', es, x1, x2, x3, x4, x5, x6, x7, x8, x9, x10, x11, x12⟩ := truncLoop (qr := qr) H'' (fun ss => amp (L ++ [t]) ss 0 0)
    (ts0.length - 1) m1 [] L t [] r hLl a1 hL (by simp) (proj_start tr)
  have hlen' : (t' :: R').length = ts0.length := by simp at x3 ⊢; omega
  have nrm0 : chainSq (L ++ [t]) = normSq t := by
    refine chainSq_center a1 a2 r.link (i := L.length) (by simp) ?_ ?_
    · intro j u hj hu
      rw [List.getElem?_append_left hj] at hu
      exact hL u (List.mem_of_getElem? hu)
    · intro j u hj hu
      have := (List.getElem?_eq_some_iff.mp hu).1
      simp at this; omega
  have nrm1 : chainSq (t' :: R') = normSq t' := by
    refine chainSq_center (by simpa [headL] using x4) (x5.trans a2) x2.link (i := 0) rfl (by intro j u hj; omega) ?_
    intro j u hj hu
    obtain ⟨j, rfl⟩ : ∃ k, j = k + 1 := ⟨j - 1, by omega⟩
    exact x6 u (List.mem_of_getElem? (by simpa using hu))
  have e0 : Matrix.trace (opMat ts0.length ts0 * (opMat ts0.length ts0).conjTranspose) = normSq t := by
    rw [← hO1, ← hlen, frob_chain, nrm0]
  have e1 : Matrix.trace (opMat ts0.length (t' :: R') * (opMat ts0.length (t' :: R')).conjTranspose) = normSq t' := by
    rw [← hlen', frob_chain, nrm1]
  have e2 : Matrix.trace (opMat ts0.length ts0 * (opMat ts0.length (t' :: R')).conjTranspose) = normSq t' := by
    rw [← hO1, frob_chain2, ← proj_overlap x7 x4, ← hlen']
    rfl
  refine ⟨m', es, opMat ts0.length (t' :: R'), ?_, IsOp.mk' x2 hlen' (by simpa [headL] using x4) (x5.trans a2) rfl, x9, by rw [e2, e1],
    frob_pythagoras (by rw [e2, e1]), by rw [e1, e0, x8], x10 (by omega), ?_, ?_⟩
  · unfold FMpo.truncate
    have sz : FMps.size m = ts0.length := by simp [FMps.size, r0.slots]
    rw [if_pos (by rw [sz]; exact hN), sz, e]
    exact x1
  · apply List.ext_getElem?
    intro j
    by_cases hj : j < ts0.length
    · rw [x11 j (by simp; omega), if_neg (by omega)]
      cases j with
      | zero => simp
      | succ j => rw [if_neg (by omega), if_pos (by omega), List.getElem?_cons_succ, List.getElem?_replicate, if_pos (by omega)]
    · rw [List.getElem?_eq_none (by rw [x2.flen]; omega), List.getElem?_eq_none (by simp; omega)]
  · intro D hD i u hi hu
    rw [x2.slots] at hu
    obtain ⟨i, rfl⟩ : ∃ k, i = k + 1 := ⟨i - 1, by omega⟩
    simp at hu
    exact x12 D hD (by simp) u (List.mem_of_getElem? hu)

omit [StarRing K] [Fintype σ] in
/-- **C66, size.** `Truncate` of an operator on fewer than two sites fails its assertion. -/
theorem C66_truncate_short {qr svd tsvd : Ten (σ × σ) K → Ten (σ × σ) K × Mat K} {terr : Ten (σ × σ) K → K} {m : FMpo σ K}
    {O : Matrix (Fin N → σ) (Fin N → σ) K} (h : IsOp m O) (hN : N < 2) : FMpo.truncate qr svd tsvd terr m = .error .assertFail := by
  obtain ⟨ts, r, rfl, -⟩ := h.rep
  unfold FMpo.truncate
  exact if_neg (by simp [FMps.size, r.slots]; omega)

theorem one_sub_prod_le {es : List ℝ} (h : ∀ e ∈ es, 0 ≤ e ∧ e ≤ 1) :
    1 - (es.map (1 - ·)).prod ≤ es.sum ∧ 0 ≤ (es.map (1 - ·)).prod ∧ (es.map (1 - ·)).prod ≤ 1 := by
  induction es with
  | nil => simp
  | cons e es ih =>
    obtain ⟨i1, i2, i3⟩ := ih fun x hx => h x (by simp [hx])
    obtain ⟨h1, h2⟩ := h e (by simp)
    simp only [List.map_cons, List.prod_cons, List.sum_cons]
    refine ⟨by nlinarith, mul_nonneg (by linarith) i2, by nlinarith⟩

/-- **C66, error bound.** For real operators: when every printed error is between 0 and 1, the squared distance between the old and the new operator is at most
the sum of the printed errors times the squared norm of the old one; with all printed errors zero the operator is unchanged. -/
theorem C66_error_bound [DecidableEq σ] {qr svd tsvd : Ten (σ × σ) ℝ → Ten (σ × σ) ℝ × Mat ℝ}
    {nrm : Ten (σ × σ) ℝ → ℝ × Ten (σ × σ) ℝ} {terr : Ten (σ × σ) ℝ → ℝ} (H : QRSpec qr) (H' : SVDSpec svd) (H'' : TruncSpec tsvd terr)
    (h01 : ∀ t, 0 ≤ terr t ∧ terr t ≤ 1)
    {cs : List (MpoCall σ ℝ)} {m : FMpo σ ℝ} (hist : FMpo.history qr svd nrm tsvd terr N cs = .ok m)
    (noLoad : ∀ c ∈ cs, ∀ d, c ≠ .loadDir d) (noAll : ∀ c ∈ cs, ∀ k, c ≠ .allScale k)
    {O : Matrix (Fin N → σ) (Fin N → σ) ℝ} (h : IsOp m O) (hN : 2 ≤ N) :
    ∃ m' es O', FMpo.truncate qr svd tsvd terr m = .ok (m', es) ∧ IsOp m' O' ∧
      ∑ s, ∑ s', (O s s' - O' s s') ^ 2 ≤ es.sum * ∑ s, ∑ s', O s s' ^ 2 ∧ (es.sum = 0 → O' = O) := by
  obtain ⟨m', es, O', e, io, -, -, e1, e2, -⟩ := C66_truncate H H' H'' hist noLoad noAll h hN
  have fr : ∀ A : Matrix (Fin N → σ) (Fin N → σ) ℝ, Matrix.trace (A * A.conjTranspose) = ∑ s, ∑ s', A s s' ^ 2 := by
    intro A
    unfold Matrix.trace
    refine sum_congr rfl fun s _ => ?_
    rw [Matrix.diag_apply, Matrix.mul_apply]
    exact sum_congr rfl fun s' _ => by rw [Matrix.conjTranspose_apply, star_trivial, sq]
  have hes : ∀ x ∈ es, 0 ≤ x ∧ x ≤ 1 := by
    have : ∀ (l : List Nat) (s s' : FMpo σ ℝ × List ℝ), (∀ x ∈ s.2, 0 ≤ x ∧ x ≤ 1) →
        l.foldlM (fun (s : FMpo σ ℝ × List ℝ) i => do
          let t ← s.1.read i
          let m2 ← FMps.rightTen qr tsvd true s.1 i
          pure (m2, s.2 ++ [terr t])) s = .ok s' → ∀ x ∈ s'.2, 0 ≤ x ∧ x ≤ 1 := by
      intro l
      induction l with
      | nil => intro s s' h e; cases e; exact h
      | cons i l ih =>
        intro s s' h e
        rw [List.foldlM_cons] at e
        obtain ⟨s1, f1, f2⟩ := bind_ok e
        obtain ⟨t, -, f1⟩ := bind_ok f1
        obtain ⟨m2, -, f1⟩ := bind_ok f1
        cases f1
        refine ih _ _ ?_ f2
        intro x hx
        rcases List.mem_append.mp hx with hx | hx
        · exact h x hx
        · simp at hx; subst hx; exact h01 t
    unfold FMpo.truncate at e
    split at e
    · obtain ⟨m1, -, e⟩ := bind_ok e
      exact this _ _ _ (by simp) e
    · cases e
  obtain ⟨p1, p2, p3⟩ := one_sub_prod_le hes
  have hb : ∑ s, ∑ s', (O s s' - O' s s') ^ 2 ≤ es.sum * ∑ s, ∑ s', O s s' ^ 2 := by
    have k : ∑ s, ∑ s', (O s s' - O' s s') ^ 2 = Matrix.trace ((O - O') * (O - O').conjTranspose) := (fr (O - O')).symm
    rw [k, e1, e2, ← fr O]
    have : 0 ≤ Matrix.trace (O * O.conjTranspose) := by
      rw [fr]; exact sum_nonneg fun _ _ => sum_nonneg fun _ _ => sq_nonneg _
    nlinarith
  refine ⟨m', es, O', e, io, hb, fun hz => ?_⟩
  rw [hz, zero_mul] at hb
  funext s s'
  have z : ∑ s, ∑ s', (O s s' - O' s s') ^ 2 = 0 := le_antisymm hb (sum_nonneg fun _ _ => sum_nonneg fun _ _ => sq_nonneg _)
  have z1 := (sum_eq_zero_iff_of_nonneg (fun _ _ => sum_nonneg fun _ _ => sq_nonneg _)).mp z s (mem_univ s)
  have z2 := (sum_eq_zero_iff_of_nonneg (fun _ _ => sq_nonneg _)).mp z1 s' (mem_univ s')
  have := pow_eq_zero_iff (two_ne_zero) |>.mp z2
  linarith

/-! ### A concrete case -/

/-- Two MPO tensors over the rationals, with a bond of dimension two. -/
def exTL : Ten (Bool × Bool) ℚ := ⟨1, 2, fun s _ b => if b = 0 then (if s.1 = s.2 then 1 else 0) else (if s.1 = s.2 then 0 else 1)⟩
def exTR : Ten (Bool × Bool) ℚ := ⟨2, 1, fun s a _ => if a = 0 then (if s.1 = s.2 then 1 else 2) else (if s.1 = s.2 then 3 else 1)⟩

/-- The errors printed by the truncation of the two-site operator to bond dimension 3. -/
def exTrunc : List ℚ :=
  match FMpo.truncate (qrE pairEnum) (svdE pairEnum) (tsvdE pairEnum 3) (terrE pairEnum 3) ⟨[some exTL, some exTR], [.none, .none], -1⟩ with
  | .ok (_, es) => es
  | .error _ => []

theorem exTrunc_eq : exTrunc = [1 / 3] := by decide +kernel

/-- The hypotheses of `C66_truncate` hold for the object written site by site, and a third of the squared norm is discarded. -/
example : ∃ m' O', FMpo.truncate (qrE pairEnum) (svdE pairEnum) (tsvdE pairEnum 3) (terrE pairEnum 3)
      ⟨[some exTL, some exTR], [.none, .none], -1⟩ = .ok (m', [1 / 3]) ∧ IsOp (N := 2) m' O' ∧
    Matrix.trace (O' * O'.conjTranspose) = Matrix.trace (opMat 2 [exTL, exTR] * (opMat 2 [exTL, exTR]).conjTranspose) * (2 / 3) ∧
    (∀ i t, 0 < i → m'.slots[i]? = some (some t) → t.l ≤ 3) := by
  obtain ⟨m', es, O', e, io, -, -, -, h2, -, -, hD⟩ := C66_truncate (N := 2) (qrE_spec (K := ℚ) pairEnum) (svdE_spec pairEnum)
    (tsvdE_spec pairEnum 3) (nrm := fun t => (1, t)) (cs := [.write 0 exTL, .write 1 exTR])
    (m := ⟨[some exTL, some exTR], [.none, .none], -1⟩) rfl (by simp) (by simp) (O := opMat 2 [exTL, exTR])
    ⟨[exTL, exTR], rfl, rfl, linked_mk rfl (List.IsChain.singleton _), rfl, rfl, rfl, rfl⟩ (by omega)
  have : es = [1 / 3] := by
    rw [← exTrunc_eq]
    unfold exTrunc
    rw [e]
  subst this
  refine ⟨m', O', e, io, ?_, hD 3 fun t => Nat.min_le_left _ _⟩
  rw [h2]
  norm_num

/-- The hypotheses of `C66_error_bound` hold for the exact SVD: nothing is discarded and the operator is unchanged. -/
example : ∃ m' es O', FMpo.truncate (qrE pairEnum) (svdE pairEnum) tsvdR (fun _ => 0) exMpo = .ok (m', es) ∧ IsOp (N := 2) m' O' ∧
    ∑ s, ∑ s', (opMat 2 [exL, exR] s s' - O' s s') ^ 2 ≤ es.sum * ∑ s, ∑ s', opMat 2 [exL, exR] s s' ^ 2 ∧ (es.sum = 0 → O' = opMat 2 [exL, exR]) :=
  C66_error_bound (qrE_spec (K := ℝ) pairEnum) (svdE_spec pairEnum) tsvdR_spec (by simp) (nrm := nrmR)
    (cs := [.write 0 exL, .write 1 exR]) (m := exMpo) rfl (by simp) (by simp) exMpo_op.1 (by omega)

end Verif.Props
