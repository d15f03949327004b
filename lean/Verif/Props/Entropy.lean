import Verif.Mps.EntropyRun
import Verif.Mps.SvdExists
import Verif.Props.MpsTrunc
import Mathlib.Analysis.SpecialFunctions.Log.NegMulLog
/-
C80: what `GetEntanglementEntropy` returns and leaves.

Specification vocabulary: `glue x z` is the basis state of all the sites made of the first `i` sites and the rest; `rdm ψ i` is the reduced density matrix of the first `i` sites of the
normalised state; `renyi n A` is `log tr Aⁿ / (1 - n)` and `vonNeumann` is `-∑ λ log λ` over the eigenvalues.
-/
namespace Verif.Props
open Verif.Mps Finset

variable {σ 𝕜 : Type} [RCLike 𝕜] [Fintype σ] [DecidableEq σ] {N : Nat}

/-- The basis state with `x` on the first `i` sites and `z` on the rest. -/
def glue {i : Nat} (x : Fin i → σ) (z : Fin (N - i) → σ) : Fin N → σ := fun k => if h : k.val < i then x ⟨k, h⟩ else z ⟨k - i, by omega⟩

/-- The reduced density matrix of the first `i` sites. -/
noncomputable def rdm (ψ : (Fin N → σ) → 𝕜) (i : Nat) : Matrix (Fin i → σ) (Fin i → σ) 𝕜 :=
  Matrix.of fun x y => (∑ z : Fin (N - i) → σ, ψ (glue x z) * star (ψ (glue y z))) / braket ψ ψ

/-- The Rényi entropy of order `n`. -/
noncomputable def renyi {ι : Type} [Fintype ι] [DecidableEq ι] (n : Nat) (A : Matrix ι ι 𝕜) : ℝ := Real.log (RCLike.re (A ^ n).trace) / (1 - n)

/-- The von Neumann entropy. -/
noncomputable def vonNeumann {ι : Type} [Fintype ι] [DecidableEq ι] {A : Matrix ι ι 𝕜} (hA : A.IsHermitian) : ℝ := -∑ k, hA.eigenvalues k * Real.log (hA.eigenvalues k)

omit [DecidableEq σ] in
theorem rdm_hermitian (ψ : (Fin N → σ) → 𝕜) (i : Nat) : (rdm ψ i).IsHermitian := by
  refine Matrix.IsHermitian.ext fun x y => ?_
  have hb : star (braket ψ ψ) = braket ψ ψ := by
    unfold braket
    rw [star_sum]
    exact sum_congr rfl fun s _ => by rw [star_mul', star_star, mul_comm]
  simp only [rdm, Matrix.of_apply]
  rw [star_div₀, hb, star_sum]
  congr 1
  exact sum_congr rfl fun z _ => by rw [star_mul', star_star, mul_comm]

omit [Fintype σ] [DecidableEq σ] in
theorem ofFn_glue {i : Nat} (hi : i ≤ N) (x : Fin i → σ) (z : Fin (N - i) → σ) : List.ofFn (glue x z) = List.ofFn x ++ List.ofFn z := by
  apply List.ext_getElem
  · simp; omega
  · intro k h1 h2
    rw [List.getElem_ofFn]
    by_cases h : k < i
    · rw [List.getElem_append_left (by simpa using h)]
      simp [glue, h]
    · rw [List.getElem_append_right (by simpa using h)]
      simp [glue, h]

omit [DecidableEq σ] in
theorem rdm_scale {ψ φ : (Fin N → σ) → 𝕜} {c : 𝕜} (h : ∀ s, ψ s = c * φ s) (hc : c ≠ 0) (i : Nat) : rdm ψ i = rdm φ i := by
  have hcc : c * star c ≠ 0 := mul_ne_zero hc (star_ne_zero.mpr hc)
  have hb : braket ψ ψ = c * star c * braket φ φ := by
    unfold braket
    rw [Finset.mul_sum]
    exact sum_congr rfl fun s _ => by rw [h, star_mul']; ring
  ext x y
  simp only [rdm, Matrix.of_apply]
  rw [hb, ← mul_div_mul_left _ (braket φ φ) hcc, Finset.mul_sum]
  congr 1
  exact sum_congr rfl fun z _ => by rw [h, h, star_mul']; ring

omit [DecidableEq σ] in
theorem rdm_chain {ts : List (Ten σ 𝕜)} (h : braket (stateVec ts.length ts) (stateVec ts.length ts) = 1) {i : Nat} (hi : i ≤ ts.length) :
    rdm (stateVec ts.length ts) i = chainRho ts i := by
  ext x y
  simp only [rdm, chainRho, Matrix.of_apply, h, div_one, stateVec, ofFn_glue hi]

theorem powLoop_eq (n : Nat) (p : ℝ) : powLoop (n + 1) p = p ^ (n + 1) := by
  unfold powLoop
  induction n with
  | zero => simp
  | succ n ih =>
    simp only [Nat.add_sub_cancel] at ih ⊢
    rw [List.range'_1_concat, List.foldl_append, ih, pow_succ p (n + 1)]
    rfl

theorem foldl_range_sum (f : Nat → ℝ) (d : Nat) : (List.range d).foldl (fun x k => x + f k) 0 = ∑ k : Fin d, f k := by
  rw [← Finset.sum_range (f := f)]
  induction d with
  | zero => rfl
  | succ d ih => rw [List.range_succ, List.foldl_append, ih, Finset.sum_range_succ]; rfl

/-- The entry made from the diagonal of a decomposition of `A`. -/
theorem eeOf_spec {ι : Type} [Fintype ι] [DecidableEq ι] {A : Matrix ι ι 𝕜} (hA : A.IsHermitian) {d : Nat} (s : Nat → ℝ) (C : Matrix ι (Fin d) 𝕜) (hC : C.conjTranspose * C = 1)
    (h : A = C * Matrix.diagonal (fun j : Fin d => ((s j * s j : ℝ) : 𝕜)) * C.conjTranspose) (htr : A.trace = 1) (n : Nat) :
    (2 ≤ n → eeOf n d s = some (renyi n A)) ∧
    (n = 1 → eeOf n d s = some (vonNeumann hA) ∨ eeOf n d s = none ∧ ∃ k, k < d ∧ s k = 0) ∧ (n = 0 → eeOf n d s = some 0) := by
  have tr : ∀ k, (A ^ (k + 1)).trace = ((∑ j : Fin d, (s j * s j) ^ (k + 1) : ℝ) : 𝕜) := fun k => by
    have := trace_pow_sandwich C hC (fun j : Fin d => s j * s j) k
    rw [← h] at this
    exact this
  refine ⟨fun hn => ?_, fun hn => ?_, fun hn => ?_⟩
  · obtain ⟨k, rfl⟩ : ∃ k, n = k + 1 := ⟨n - 1, by omega⟩
    unfold eeOf renyi
    rw [if_neg (by omega), if_neg (by omega), foldl_range_sum (fun k' => powLoop (k + 1) (s k' * s k')), tr, RCLike.ofReal_re]
    simp only [powLoop_eq]
    congr 1
    have : (1 : ℝ) - ((k + 1 : Nat) : ℝ) = -(((k + 1 : Nat) : ℝ) - 1) := by ring
    rw [this, div_neg, neg_div]
  · subst hn
    unfold eeOf
    rw [if_pos rfl]
    by_cases hz : ∃ k < d, s k * s k = 0
    · rw [if_pos hz]
      obtain ⟨k, hk, h0⟩ := hz
      exact Or.inr ⟨rfl, k, hk, mul_self_eq_zero.mp h0⟩
    · rw [if_neg hz, foldl_range_sum (fun k => -(s k * s k) * Real.log (s k * s k))]
      left
      congr 1
      have := sum_eigenvalues hA C hC (fun j : Fin d => s j * s j) h (fun x => -x * Real.log x) (by simp)
      rw [← this]
      unfold vonNeumann
      rw [← Finset.sum_neg_distrib]
      exact sum_congr rfl fun _ _ => by ring
  · subst hn
    unfold eeOf
    rw [if_neg (by omega), foldl_range_sum (fun k => powLoop 0 (s k * s k))]
    have h1 := tr 0
    rw [pow_one, htr] at h1
    have h2 : ∑ j : Fin d, (s j * s j) ^ (0 + 1) = 1 := by
      apply RCLike.ofReal_injective (K := 𝕜)
      rw [← h1]; simp
    have h3 : ∑ j : Fin d, powLoop 0 (s j * s j) = 1 := by
      rw [← h2]
      exact sum_congr rfl fun j _ => by simp [powLoop]
    rw [h3]; simp

omit [DecidableEq σ] in
theorem rdm_trace (ψ : (Fin N → σ) → 𝕜) (h : braket ψ ψ ≠ 0) {i : Nat} (hi : i ≤ N) : (rdm ψ i).trace = 1 := by
  have : ∑ x : Fin i → σ, ∑ z : Fin (N - i) → σ, ψ (glue x z) * star (ψ (glue x z)) = braket ψ ψ := by
    unfold braket
    let e : (Fin i → σ) × (Fin (N - i) → σ) ≃ (Fin N → σ) :=
      { toFun := fun p => glue p.1 p.2
        invFun := fun s => (fun k => s ⟨k, by omega⟩, fun k => s ⟨i + k, by omega⟩)
        left_inv := fun p => by
          ext k
          · simp [glue]
          · simp [glue]
        right_inv := fun s => by
          funext k
          by_cases hk : k.val < i
          · simp [glue, hk]
          · simp only [glue, hk, dif_neg, not_false_eq_true]
            congr 1
            exact Fin.ext (by show i + (k.val - i) = k.val; omega) }
    rw [← e.sum_comp, Fintype.sum_prod_type]
    exact sum_congr rfl fun x _ => sum_congr rfl fun z _ => mul_comm _ _
  unfold Matrix.trace rdm
  simp only [Matrix.diag_apply, Matrix.of_apply]
  rw [← Finset.sum_div, this, div_self h]

/-- **C80.** After any history of calls without `LoadTen`, `GetEntanglementEntropy(n)` of a non-zero state `ψ` succeeds and returns one number for each of the `N - 1` bonds.
For `n ≥ 2` the number of the bond behind the first `i` sites is the Rényi entropy of order `n` of the reduced density matrix of these sites.
For `n = 1` it is the von Neumann entropy, or NaN, the latter only if the library's SVD keeps a vanishing singular value. For `n = 0` it is zero, for every state.
The MPS is left with the normalised state, all its tensors but the first are right isometries, flagged as such, and `GetCenter()` is -1. -/
theorem C80_entropy {qr : Ten σ 𝕜 → Ten σ 𝕜 × Mat 𝕜} {svd3 : Ten σ 𝕜 → SvdR σ 𝕜} {nrm : Ten σ 𝕜 → 𝕜 × Ten σ 𝕜} (H : QRSpec qr) (H3 : SvdRSpec svd3) (Hn : NormSpec nrm) (Hu : NormUnit nrm)
    {cs : List (Call σ 𝕜)} {m : FMps σ 𝕜} (hist : FMps.history qr (fun t => (svd3 t).pair) N cs = .ok m) (noLoad : ∀ c ∈ cs, ∀ i u, c ≠ .load i u)
    {ψ : (Fin N → σ) → 𝕜} (h : IsState m ψ) (hψ : braket ψ ψ ≠ 0) (hN : 1 ≤ N) (n : Nat) :
    ∃ m' es φ c, FMps.entropy qr svd3 nrm n m = .ok (m', es) ∧ es.length = N - 1 ∧
      (∀ i, 0 < i → i < N → ∃ e, es[i - 1]? = some e ∧ (2 ≤ n → e = some (renyi n (rdm ψ i))) ∧
        (n = 1 → e = some (vonNeumann (rdm_hermitian ψ i)) ∨ e = none ∧ ∃ t k, k < (svd3 t).vt.l ∧ (svd3 t).s k = 0) ∧ (n = 0 → e = some 0)) ∧
      IsState m' φ ∧ (∀ s, ψ s = c * φ s) ∧ braket φ φ = 1 ∧ m'.center = -1 ∧
      (∀ i t, 0 < i → m'.slots[i]? = some (some t) → RightIso t) ∧ (∀ i, 0 < i → i < N → m'.flags[i]? = some .right) ∧ m'.flags[0]? = some .none := by
  obtain ⟨ts0, full, rfl, link, b1, b2, rfl⟩ := h
  have H' := svdR_pair H3
  obtain ⟨hi, hs⟩ := history_inv hist
  have r0 : Rep m ts0 := ⟨full, by rw [hi.flen, full]; simp, link⟩
  obtain ⟨m1, ts, e, r, q, -, f, -, -⟩ := centralize_rep H H' r0 hi (t := ts0.length - 1) (by omega)
  have hist1 : FMps.history qr (fun t => (svd3 t).pair) ts0.length (cs ++ [.centralize ((ts0.length - 1 : Nat) : Int)]) = .ok m1 := by
    unfold FMps.history at hist ⊢
    rw [List.foldlM_append, hist]
    show (FMps.centralize qr _ m _ >>= pure) = _
    rw [e]; rfl
  have T := C15_flags_truthful H H' hist1
    (fun c hc i u => by rcases List.mem_append.mp hc with h | h; · exact noLoad c h i u
                        · simp at h; rw [h]; simp)
  have hlen : ts.length = ts0.length := q.len
  have a1 : headL ts = 1 := q.head.trans b1
  have a2 : lastR ts = 1 := q.last.trans b2
  have hψ1 : stateVec ts0.length ts = stateVec ts0.length ts0 := by
    funext s
    exact q.amp _ 0 0 (by rw [b1]; omega)
  rw [← hψ1] at hψ ⊢
  rw [← hlen] at hN hψ f ⊢
  have hne : ts ≠ [] := by rintro rfl; simp at hN
  obtain ⟨L, t, rfl⟩ : ∃ L t, ts = L ++ [t] := ⟨_, _, (List.dropLast_append_getLast hne).symm⟩
  have ht : (L ++ [t])[L.length]? = some t := by simp
  have hL : ∀ j u, j < L.length → (L ++ [t])[j]? = some u → LeftIso u := by
    intro j u hj hu
    refine (T j u (r.get hu)).1 ?_
    rw [f j (by simp; omega), if_pos (by simp; omega)]
  have nt : braket (stateVec (L ++ [t]).length (L ++ [t])) (stateVec (L ++ [t]).length (L ++ [t])) = normSq t := by
    rw [braket_chainSq]
    refine chainSq_center a1 a2 r.link ht hL ?_
    intro j u hj hu
    have := (List.getElem?_eq_some_iff.mp hu).1
    simp at this; omega
  have nu : normSq (nrm t).2 = 1 := Hu t (by rw [← nt]; exact hψ)
  have nc : normSq t = (nrm t).1 * star (nrm t).1 := by rw [normSq_scale (Hn.dim t) (Hn.fac t), nu, mul_one]
  have c0 : (nrm t).1 ≠ 0 := by
    intro h0
    rw [nt, nc, h0, zero_mul] at hψ
    exact hψ rfl
  have hset : (L ++ [t]).set L.length (nrm t).2 = L ++ [(nrm t).2] := by simp
  obtain ⟨lk2, hd2, la2⟩ := linked_set_same (i := L.length) (u := (nrm t).2) r.link ht (Hn.dim t).1 (Hn.dim t).2
  rw [hset] at lk2 hd2 la2
  set us := L ++ [(nrm t).2] with hus
  have ulen : us.length = (L ++ [t]).length := by simp [hus]
  have am : ∀ s, stateVec (L ++ [t]).length (L ++ [t]) s = (nrm t).1 * stateVec (L ++ [t]).length us s := by
    intro s
    have hsc : scaleTen (nrm t).1 (nrm t).2 = t := by
      unfold scaleTen
      have hv : (fun s a b => (nrm t).1 * (nrm t).2.v s a b) = t.v := by
        funext s a b
        exact (Hn.fac t s a b).symm
      rw [(Hn.dim t).1, (Hn.dim t).2, hv]
    have := amp_scale_set (nrm t).1 L.length us (nrm t).2 (by simp [hus]) (List.ofFn s) 0 0
    rw [hsc, show us.set L.length t = L ++ [t] by simp [hus]] at this
    exact this
  set m2 : FMps σ 𝕜 := ⟨m1.slots.set L.length (some (nrm t).2), m1.flags.set L.length .none, -1⟩ with hm2
  have r2 : Rep m2 us := ⟨by simp [hm2, r.slots, hus], by simp [hm2, r.flen, hus], lk2⟩
  have ub : braket (stateVec us.length us) (stateVec us.length us) = 1 := by
    rw [braket_chainSq, ← nu]
    refine chainSq_center (hd2.trans a1) (la2.trans a2) lk2 (i := L.length) (by simp [hus]) ?_ ?_
    · intro j u hj hu
      rw [hus, List.getElem?_append_left hj] at hu
      exact hL j u hj (by rw [List.getElem?_append_left hj]; exact hu)
    · intro j u hj hu
      have := (List.getElem?_eq_some_iff.mp hu).1
      simp [hus] at this; omega
  obtain ⟨m', ts', es', y1, y2, y3, y4, y5, -, y7, y8, y9, y10⟩ := entLoop H H3 n L.length m2 us (List.replicate L.length (some 0)) r2 (by simp [hus]) (by simp)
    (hd2.trans a1) (la2.trans a2)
    (fun j u hj hu => by
      rw [hus, List.getElem?_append_left hj] at hu
      exact hL j u hj (by rw [List.getElem?_append_left hj]; exact hu))
    (fun j u hj hu => by
      have := (List.getElem?_eq_some_iff.mp hu).1
      simp [hus] at this; omega) rfl
    (fun j hj hj' => by simp [hus] at hj'; omega)
    (by rw [hm2]; simp [r.flen])
  have hφ : stateVec us.length ts' = stateVec us.length us := by
    funext s
    exact y3.amp _ 0 0 (by rw [hd2, a1]; omega)
  rw [← ulen] at am hψ nt hN ⊢
  refine ⟨m', es', stateVec us.length us, (nrm t).1, ?_, by rw [y4]; simp [hus], ?_, ⟨ts', y2.slots, y3.len, y2.link, y3.head.trans (hd2.trans a1), y3.last.trans (la2.trans a2), hφ⟩, am, ub, y8, ?_, y9, y10⟩
  · unfold FMps.entropy
    have sz : FMps.size m = ts0.length := by simp [FMps.size, r0.slots]
    have hl1 : ts0.length - 1 = L.length := by rw [← hlen]; simp
    have hw : m1.write L.length (nrm t).2 = .ok m2 := by
      unfold FMps.write
      exact if_pos (by simp [FMps.size, r.slots])
    rw [if_neg (by rw [sz, ← hlen]; simp), sz, e, hl1]
    show (m1.read L.length >>= _) = _
    rw [read_ok (r.get ht)]
    show (m1.write L.length (nrm t).2 >>= _) = _
    rw [hw]
    exact y1
  · intro i h0 hi
    obtain ⟨i, rfl⟩ : ∃ k, i = k + 1 := ⟨i - 1, by omega⟩
    obtain ⟨e, z1, t', C, z2, z3, rfl⟩ := y5 i (by simp [hus] at hi; omega)
    refine ⟨_, z1, ?_⟩
    have hr : rdm (stateVec us.length (L ++ [t])) (i + 1) = chainRho us (i + 1) := by
      rw [rdm_scale am c0, rdm_chain ub hi.le]
    obtain ⟨w1, w2, w3⟩ := eeOf_spec (rdm_hermitian (stateVec us.length (L ++ [t])) (i + 1)) (svd3 t').s C z2 (hr.trans z3) (rdm_trace _ hψ hi.le) n
    exact ⟨w1, fun h1 => (w2 h1).imp_right fun ⟨a, k, b⟩ => ⟨a, t', k, b⟩, w3⟩
  · intro i u h0 hu
    rw [y2.slots, List.getElem?_map] at hu
    refine y7 i u h0 ?_
    cases hx : ts'[i]? with
    | none => rw [hx] at hu; simp at hu
    | some v => rw [hx] at hu; simp at hu; rw [hu]

/-- **C80, order one.** With an SVD that keeps no vanishing singular value, `GetEntanglementEntropy(1)` returns the von Neumann entropies. -/
theorem C80_von_neumann {qr : Ten σ 𝕜 → Ten σ 𝕜 × Mat 𝕜} {svd3 : Ten σ 𝕜 → SvdR σ 𝕜} {nrm : Ten σ 𝕜 → 𝕜 × Ten σ 𝕜} (H : QRSpec qr) (H3 : SvdRSpec svd3)
    (H0 : ∀ t k, k < (svd3 t).vt.l → (svd3 t).s k ≠ 0) (Hn : NormSpec nrm) (Hu : NormUnit nrm)
    {cs : List (Call σ 𝕜)} {m : FMps σ 𝕜} (hist : FMps.history qr (fun t => (svd3 t).pair) N cs = .ok m) (noLoad : ∀ c ∈ cs, ∀ i u, c ≠ .load i u)
    {ψ : (Fin N → σ) → 𝕜} (h : IsState m ψ) (hψ : braket ψ ψ ≠ 0) (hN : 1 ≤ N) :
    ∃ m' es, FMps.entropy qr svd3 nrm 1 m = .ok (m', es) ∧ es.length = N - 1 ∧ ∀ i, 0 < i → i < N → es[i - 1]? = some (some (vonNeumann (rdm_hermitian ψ i))) := by
  obtain ⟨m', es, -, -, e, l, a, -⟩ := C80_entropy H H3 Hn Hu hist noLoad h hψ hN 1
  refine ⟨m', es, e, l, fun i h0 hi => ?_⟩
  obtain ⟨x, hx, -, h1, -⟩ := a i h0 hi
  rcases h1 rfl with h1 | ⟨-, t, k, hk, h2⟩
  · rw [hx, h1]
  · exact absurd h2 (H0 t k hk)

omit [Fintype σ] [DecidableEq σ] in
/-- **C80, no sites.** On an MPS without sites the call asks for `2^64 - 1` entries. -/
theorem C80_empty {qr : Ten σ 𝕜 → Ten σ 𝕜 × Mat 𝕜} {svd3 : Ten σ 𝕜 → SvdR σ 𝕜} {nrm : Ten σ 𝕜 → 𝕜 × Ten σ 𝕜} {m : FMps σ 𝕜} {ψ : (Fin 0 → σ) → 𝕜} (h : IsState m ψ) (n : Nat) :
    FMps.entropy qr svd3 nrm n m = .error .ub := by
  obtain ⟨ts, full, h0, -⟩ := h
  unfold FMps.entropy
  exact if_pos (by simp [FMps.size, full, h0])

/-! ### The hypotheses hold together for the state `|00⟩ + 2|01⟩ + 3|11⟩` -/

theorem exS_pos : (1 : ℝ) ≤ braket (stateVec 2 [exSL, exSR]) (stateVec 2 [exSL, exSR]) := by
  have e : (1 : ℝ) = star (stateVec 2 [exSL, exSR] fun _ => false) * stateVec 2 [exSL, exSR] fun _ => false := by
    simp [stateVec, amp, exSL, exSR, List.ofFn_succ, sum_range_succ]
  rw [e]
  exact single_le_sum (f := fun s : Fin 2 → Bool => star (stateVec 2 [exSL, exSR] s) * stateVec 2 [exSL, exSR] s)
    (fun s _ => by rw [star_trivial]; exact mul_self_nonneg _) (mem_univ _)

example : ∃ (svd3 : Ten Bool ℝ → SvdR Bool ℝ) (m1 m2 : FMps Bool ℝ),
    FMps.entropy (qrE boolEnum) svd3 nrmR 1 ⟨[some exSL, some exSR], [.none, .none], -1⟩ = .ok (m1, [some (vonNeumann (rdm_hermitian (stateVec 2 [exSL, exSR]) 1))]) ∧
    FMps.entropy (qrE boolEnum) svd3 nrmR 2 ⟨[some exSL, some exSR], [.none, .none], -1⟩ = .ok (m2, [some (renyi 2 (rdm (stateVec 2 [exSL, exSR]) 1))]) := by
  obtain ⟨svd3, H3, H0⟩ := svdR_exists (σ := Bool) (𝕜 := ℝ)
  have hst : IsState (⟨[some exSL, some exSR], [.none, .none], -1⟩ : FMps Bool ℝ) (stateVec 2 [exSL, exSR]) :=
    ⟨[exSL, exSR], rfl, rfl, linked_mk rfl (List.IsChain.singleton _), rfl, rfl, rfl⟩
  have hb : braket (stateVec 2 [exSL, exSR]) (stateVec 2 [exSL, exSR]) ≠ 0 := by
    intro h
    have := exS_pos
    rw [h] at this; linarith
  obtain ⟨m1, es1, e1, l1, a1⟩ := C80_von_neumann (N := 2) (qrE_spec (K := ℝ) boolEnum) H3 H0 nrmR_spec.1 nrmR_spec.2 (cs := [.write 0 exSL, .write 1 exSR]) (m := ⟨[some exSL, some exSR], [.none, .none], -1⟩) rfl (by simp) hst hb (by omega)
  obtain ⟨m2, es2, -, -, e2, l2, a2, -⟩ := C80_entropy (N := 2) (qrE_spec (K := ℝ) boolEnum) H3 nrmR_spec.1 nrmR_spec.2 (cs := [.write 0 exSL, .write 1 exSR]) (m := ⟨[some exSL, some exSR], [.none, .none], -1⟩) rfl (by simp) hst hb (by omega) 2
  refine ⟨svd3, m1, m2, ?_, ?_⟩
  · match es1, l1 with
    | [x], _ =>
      have := a1 1 (by omega) (by omega)
      simp at this
      rw [e1, this]
  · match es2, l2 with
    | [x], _ =>
      obtain ⟨y, hy, h2, -⟩ := a2 1 (by omega) (by omega)
      simp at hy
      rw [e2, hy, h2 le_rfl]

end Verif.Props
