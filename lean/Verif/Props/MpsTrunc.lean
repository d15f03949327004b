import Verif.Mps.TruncMps
import Verif.Props.Fmpo
import Mathlib.Algebra.BigOperators.Field
import Mathlib.Tactic.Linarith
/-
C67: what `TruncateMPS` leaves.

Specification vocabulary: the state of a chain with trivial outer bonds is the vector of its amplitudes (`stateVec`); `braket φ ψ` is the inner product of two states.
-/
namespace Verif.Props
open Verif.Mps Finset

variable {σ K : Type} [CommRing K] {N : Nat}

/-- The state of a chain of MPS tensors. -/
def stateVec (N : Nat) (ts : List (Ten σ K)) : (Fin N → σ) → K := fun s => amp ts (List.ofFn s) 0 0

/-- The inner product, conjugate-linear in the first argument. -/
def braket [StarRing K] [Fintype σ] (φ ψ : (Fin N → σ) → K) : K := ∑ s, star (φ s) * ψ s

/-- The object has a tensor at each of its `N` sites, neighbours share their bonds, the two outer bonds are trivial, and the chain is the state `ψ`. -/
def IsState (m : FMps σ K) (ψ : (Fin N → σ) → K) : Prop :=
  ∃ ts : List (Ten σ K), m.slots = ts.map some ∧ ts.length = N ∧ Linked ts ∧ headL ts = 1 ∧ lastR ts = 1 ∧ stateVec N ts = ψ

variable [StarRing K] [Fintype σ]

theorem braket_chainSq (ts : List (Ten σ K)) : braket (stateVec ts.length ts) (stateVec ts.length ts) = chainSq ts :=
  sum_congr rfl fun _ _ => mul_comm _ _

theorem normSq_scale {t t2 : Ten σ K} {c : K} (hd : t2.l = t.l ∧ t2.r = t.r) (h : ∀ s a b, t.v s a b = c * t2.v s a b) :
    normSq t = c * star c * normSq t2 := by
  unfold normSq
  rw [Finset.mul_sum]
  refine sum_congr rfl fun s _ => ?_
  rw [Finset.mul_sum, hd.1]
  refine sum_congr rfl fun a _ => ?_
  rw [Finset.mul_sum, hd.2]
  refine sum_congr rfl fun b _ => ?_
  rw [h, star_mul']; ring

/-- **C67.** After any history of calls without `LoadTen`, `TruncateMPS(mps, trunc_err, Dmin, Dmax)` of a non-zero state `ψ` on two or more sites succeeds
(provided the library's SVD never discards everything) and prints one truncation error for each of the `N - 1` bonds.
The state `φ` that is left has norm one, its squared overlap with `ψ` is `⟨ψ|ψ⟩` times the product of `1 - ε` over the printed errors,
no inner bond is larger than the largest bond the library's SVD leaves, every tensor but the last is a left isometry — yet every flag reads NONE and `GetCenter()` is -1. -/
theorem C67_truncate [DecidableEq σ] {qr svd : Ten σ K → Ten σ K × Mat K} {nrm : Ten σ K → K × Ten σ K} {svd3 : Ten σ K → Svd3 σ K} {terr : Ten σ K → K}
    {snrm : Nat → (Nat → K) → K × (Nat → K)} (H : QRSpec qr) (H' : SVDSpec svd) (Hn : NormSpec nrm) (Hu : NormUnit nrm) (H3 : Svd3Spec svd3 terr)
    (Hs : SnrmSpec snrm) (keeps : ∀ t, normSq t = 1 → terr t ≠ 1)
    {cs : List (Call σ K)} {m : FMps σ K} (hist : FMps.history qr svd N cs = .ok m) (noLoad : ∀ c ∈ cs, ∀ i u, c ≠ .load i u)
    {ψ : (Fin N → σ) → K} (h : IsState m ψ) (hψ : braket ψ ψ ≠ 0) (hN : 2 ≤ N) :
    ∃ m' es φ, FMps.truncate qr svd nrm svd3 terr snrm m = .ok (m', es) ∧ IsState m' φ ∧ es.length = N - 1 ∧
      braket φ φ = 1 ∧ braket φ ψ * star (braket φ ψ) = braket ψ ψ * (es.map (1 - ·)).prod ∧
      m'.center = -1 ∧ m'.flags = List.replicate N .none ∧
      (∀ i t, i + 1 < N → m'.slots[i]? = some (some t) → LeftIso t) ∧
      (∀ Dmax, (∀ t, (svd3 t).u.r ≤ Dmax) → ∀ i t, i + 1 < N → m'.slots[i]? = some (some t) → t.r ≤ Dmax) := by
  obtain ⟨ts0, full, rfl, link, b1, b2, rfl⟩ := h
  obtain ⟨hi, hs⟩ := history_inv hist
  have r0 : Rep m ts0 := ⟨full, by rw [hi.flen, full]; simp, link⟩
  obtain ⟨m1, ts, e, r, q, -, f, -, -⟩ := centralize_rep H H' r0 hi (t := 0) (by omega)
  have hist1 : FMps.history qr svd ts0.length (cs ++ [.centralize ((0 : Nat) : Int)]) = .ok m1 := by
    unfold FMps.history at hist ⊢
    rw [List.foldlM_append, hist]
    show (FMps.centralize qr svd m _ >>= pure) = _
    rw [e]; rfl
  have T := C15_flags_truthful H H' hist1
    (fun c hc i u => by rcases List.mem_append.mp hc with h | h; · exact noLoad c h i u
                        · simp at h; rw [h]; simp)
  have hlen : ts.length = ts0.length := q.len
  have a1 : headL ts = 1 := q.head.trans b1
  have a2 : lastR ts = 1 := q.last.trans b2
  have hψ1 : stateVec ts0.length ts = stateVec ts0.length ts0 := by
    funext s
    exact q.amp _ 0 0 (by rw [b1]; omega)
  match ts, hlen with
  | t :: R, hlen =>
    have hR : ∀ u ∈ R, RightIso u := by
      intro u hu
      obtain ⟨j, hj, rfl⟩ := List.getElem_of_mem hu
      refine (T (j + 1) _ (r.get (i := j + 1) ?_)).2 ?_
      · rw [List.getElem?_cons_succ, List.getElem?_eq_getElem hj]
      · rw [f (j + 1) (by simp at hlen; omega), if_neg (by omega), if_pos (by omega)]
    have nt : braket (stateVec ts0.length ts0) (stateVec ts0.length ts0) = normSq t := by
      rw [← hψ1, ← hlen, braket_chainSq]
      refine chainSq_center a1 a2 r.link (i := 0) rfl (by intro j u hj; omega) ?_
      intro j u hj hu
      obtain ⟨j, rfl⟩ : ∃ k, j = k + 1 := ⟨j - 1, by omega⟩
      exact hR u (List.mem_of_getElem? (by simpa using hu))
    have nu : normSq (nrm t).2 = 1 := Hu t (by rw [← nt]; exact hψ)
    have nc : normSq t = (nrm t).1 * star (nrm t).1 := by rw [normSq_scale (Hn.dim t) (Hn.fac t), nu, mul_one]
    have tl : t.l = 1 := a1
    have hR0 : R ≠ [] := by rintro rfl; simp at hlen; omega
    have am : ∀ ss, ss.length = R.length + 1 → amp (t :: R) ss 0 0 = (nrm t).1 * amp ((nrm t).2 :: R) ss 0 0 := by
      intro ss hss
      match ss, hss with
      | x :: ss, _ =>
        rw [amp_cons, amp_cons, (Hn.dim t).2, Finset.mul_sum]
        exact sum_congr rfl fun k _ => by rw [Hn.fac t]; ring
    set m2 : FMps σ K := ⟨m1.slots.set 0 (some (nrm t).2), m1.flags.set 0 .none, -1⟩ with hm2
    have r2 : Rep m2 ([] ++ (nrm t).2 :: R) := by
      refine ⟨by simp [hm2, r.slots], by simp [hm2, r.flen], ?_⟩
      have := linked_set_same (i := 0) (u := (nrm t).2) r.link rfl (Hn.dim t).1 (Hn.dim t).2
      exact this.1
    obtain ⟨m', L', t', es, κ, x1, x2, x3, x4, x5, x6, x7, x8, x9, x10, x11, x12, x13⟩ := truncMpsLoop H3 Hs
      (fun t ht h0 => keeps t ht (sub_eq_zero.mp h0).symm) (fun ss => amp (t :: R) ss 0 0) R m2 [] [] (nrm t).2 (nrm t).1 r2
      (by simpa [headL] using (Hn.dim t).1.trans tl) (by simp) hR (projL_start ((Hn.dim t).1.trans tl) am) nu
    have hlen' : (L' ++ [t']).length = ts0.length := by simp at x3 hlen ⊢; omega
    have a2' : lastR (L' ++ [t']) = 1 := by
      rw [x5, ← a2]
      cases R with
      | nil => exact absurd rfl hR0
      | cons v R => simp [lastR]
    have tr' : t'.r = 1 := by simpa [lastR] using a2'
    have e1 : braket (stateVec ts0.length (L' ++ [t'])) (stateVec ts0.length (L' ++ [t'])) = 1 := by
      rw [← hlen', braket_chainSq, ← x8]
      refine chainSq_center x4 a2' x2.link (i := L'.length) (by simp) ?_ ?_
      · intro j u hj hu
        rw [List.getElem?_append_left hj] at hu
        exact x6 u (List.mem_of_getElem? hu)
      · intro j u hj hu
        have := (List.getElem?_eq_some_iff.mp hu).1
        simp at this; omega
    have e2 : braket (stateVec ts0.length (L' ++ [t'])) (stateVec ts0.length ts0) = κ := by
      have := projL_overlap x7 tr' x2.link x4
      rw [x8, mul_one] at this
      rw [← this, ← hψ1]
      have hl2 : ts0.length = L'.length + 1 := by rw [← hlen']; simp
      rw [hl2]; rfl
    refine ⟨m', es, stateVec ts0.length (L' ++ [t']), ?_, ⟨_, x2.slots, hlen', x2.link, x4, a2', rfl⟩, ?_, e1, ?_, x11 hR0, ?_, ?_, ?_⟩
    · unfold FMps.truncate
      have sz : FMps.size m = ts0.length := by simp [FMps.size, r0.slots]
      have hRl : ts0.length - 1 = R.length := by rw [← hlen]; simp
      have e' : FMps.centralize qr svd m 0 = .ok m1 := e
      have hw : m1.write 0 (nrm t).2 = .ok m2 := by
        unfold FMps.write
        exact if_pos (by simp [FMps.size, r.slots])
      rw [if_pos (by rw [sz]; exact hN), sz, e', hRl, List.range_eq_range']
      show (m1.read 0 >>= _) = _
      rw [read_ok (r.get (i := 0) rfl)]
      show (m1.write 0 (nrm t).2 >>= _) = _
      rw [hw]
      exact x1
    · rw [x10]; simp at hlen; omega
    · rw [e2, x9, nt, nc]
    · apply List.ext_getElem?
      intro j
      by_cases hj : j < ts0.length
      · rw [x12 j (by simp at hlen ⊢; omega), if_pos ⟨by simp, hR0⟩, List.getElem?_replicate, if_pos hj]
      · rw [List.getElem?_eq_none (by rw [x2.flen]; omega), List.getElem?_eq_none (by simp; omega)]
    · intro i u hi hu
      rw [x2.slots, List.getElem?_map] at hu
      have hi' : i < L'.length := by simp at hlen'; omega
      rw [List.getElem?_append_left hi', List.getElem?_eq_getElem hi'] at hu
      simp at hu
      exact x6 u (hu ▸ List.getElem_mem hi')
    · intro D hD i u hi hu
      rw [x2.slots, List.getElem?_map] at hu
      have hi' : i < L'.length := by simp at hlen'; omega
      rw [List.getElem?_append_left hi', List.getElem?_eq_getElem hi'] at hu
      simp at hu
      exact x13 D hD (by simp) u (hu ▸ List.getElem_mem hi')

omit [StarRing K] [Fintype σ] in
/-- **C67, size.** `TruncateMPS` of fewer than two sites fails its assertion. -/
theorem C67_truncate_short {qr svd : Ten σ K → Ten σ K × Mat K} {nrm : Ten σ K → K × Ten σ K} {svd3 : Ten σ K → Svd3 σ K} {terr : Ten σ K → K}
    {snrm : Nat → (Nat → K) → K × (Nat → K)} {m : FMps σ K} {ψ : (Fin N → σ) → K} (h : IsState m ψ) (hN : N < 2) :
    FMps.truncate qr svd nrm svd3 terr snrm m = .error .assertFail := by
  obtain ⟨ts, full, rfl, -⟩ := h
  unfold FMps.truncate
  exact if_neg (by simp [FMps.size, full]; omega)

/-! ### A concrete case: a truncating decomposition of the reals -/

variable {τ : Type} [Fintype τ] {d : Nat}

/-- The weight of the first `k` rows of the second factor. -/
noncomputable def rowsW (e : τ ≃ Fin d) (t : Ten τ ℝ) (k : Nat) : ℝ := ∑ j ∈ range k, ∑ b ∈ range t.r, (qrE e t).2 j b ^ 2

open Classical in
/-- How many rows are kept: at most `D`, unless these are all zero. -/
noncomputable def keepR (e : τ ≃ Fin d) (D : Nat) (t : Ten τ ℝ) : Nat :=
  if t.r = 0 then 0 else if rowsW e t (min D (d * t.l)) = 0 then d * t.l else min D (d * t.l)

open Classical in
/-- A truncated decomposition meeting `Svd3Spec`: the basis rows with weights `s` and normalised rows `vt`. -/
noncomputable def svd3R (e : τ ≃ Fin d) (D : Nat) (t : Ten τ ℝ) : Svd3 τ ℝ :=
  ⟨⟨t.l, keepR e D t, (qrE e t).1.v⟩, fun j => √(∑ b ∈ range t.r, (qrE e t).2 j b ^ 2),
    fun j b => if ∑ b ∈ range t.r, (qrE e t).2 j b ^ 2 = 0 then (if b = 0 then 1 else 0)
      else (qrE e t).2 j b / √(∑ b ∈ range t.r, (qrE e t).2 j b ^ 2)⟩

noncomputable def terrR (e : τ ≃ Fin d) (D : Nat) (t : Ten τ ℝ) : ℝ := 1 - rowsW e t (keepR e D t) / normSq t

theorem rowsW_total (e : τ ≃ Fin d) (t : Ten τ ℝ) : rowsW e t (d * t.l) = normSq t := by
  have h : normSq t = normSq (mulR (qrE e t).1 (qrE e t).2 t.r) := by
    unfold normSq
    refine sum_congr rfl fun s _ => sum_congr rfl fun a ha => sum_congr rfl fun b hb => ?_
    rw [(qrE_spec (K := ℝ) e).fac t s a b (mem_range.mp ha) (mem_range.mp hb)]
    rfl
  rw [h, normSq_mulR ((qrE_spec (K := ℝ) e).iso t)]
  refine sum_congr rfl fun j _ => sum_congr rfl fun b _ => ?_
  rw [star_trivial, sq]

theorem rowsW_nonneg (e : τ ≃ Fin d) (t : Ten τ ℝ) (k : Nat) : 0 ≤ rowsW e t k :=
  sum_nonneg fun _ _ => sum_nonneg fun _ _ => sq_nonneg _

theorem keepR_le (e : τ ≃ Fin d) (D : Nat) (t : Ten τ ℝ) : keepR e D t ≤ d * t.l := by
  unfold keepR
  split
  · omega
  · split
    · omega
    · exact Nat.min_le_right _ _

theorem rowsW_le (e : τ ≃ Fin d) (t : Ten τ ℝ) {k n : Nat} (h : k ≤ n) : rowsW e t k ≤ rowsW e t n :=
  sum_le_sum_of_subset_of_nonneg (by simpa using h) fun _ _ _ => sum_nonneg fun _ _ => sq_nonneg _

theorem svd3R_spec (e : τ ≃ Fin d) (D : Nat) : Svd3Spec (svd3R e D) (terrR e D) where
  dim := fun _ => rfl
  iso := fun t x hx y hy => (qrE_spec (K := ℝ) e).iso t x (Nat.lt_of_lt_of_le hx (keepR_le e D t)) y (Nat.lt_of_lt_of_le hy (keepR_le e D t))
  rows := by
    intro t j hj
    have hr : 0 < t.r := by
      rcases Nat.eq_zero_or_pos t.r with h | h
      · have : (svd3R e D t).u.r = 0 := by show keepR e D t = 0; unfold keepR; rw [if_pos h]
        omega
      · exact h
    by_cases h0 : ∑ b ∈ range t.r, (qrE e t).2 j b ^ 2 = 0
    · simp only [svd3R, h0, if_true]
      rw [Finset.sum_eq_single 0]
      · simp
      · intro b _ hb; simp [hb]
      · intro h; exact absurd (mem_range.mpr hr) h
    · simp only [svd3R, h0, if_false, star_trivial]
      have hp : 0 ≤ ∑ b ∈ range t.r, (qrE e t).2 j b ^ 2 := sum_nonneg fun _ _ => sq_nonneg _
      have : ∀ b ∈ range t.r, (qrE e t).2 j b / √(∑ b ∈ range t.r, (qrE e t).2 j b ^ 2) * ((qrE e t).2 j b / √(∑ b ∈ range t.r, (qrE e t).2 j b ^ 2)) =
          (qrE e t).2 j b ^ 2 / ∑ b ∈ range t.r, (qrE e t).2 j b ^ 2 := by
        intro b _
        rw [div_mul_div_comm, Real.mul_self_sqrt hp, sq]
      rw [sum_congr rfl this, ← Finset.sum_div, div_self h0]
  proj := by
    intro t j b hj hb
    have p := svd_proj (svdE_spec (K := ℝ) e) t.tr b j hb (Nat.lt_of_lt_of_le hj (keepR_le e D t))
    have p' : (qrE e t).2 j b = ∑ x, ∑ a ∈ range t.l, star ((qrE e t).1.v x a j) * t.v x a b := by
      refine p.trans ?_
      refine sum_congr rfl fun x _ => sum_congr rfl fun a _ => ?_
      rw [mul_comm]; rfl
    refine Eq.trans ?_ p'
    by_cases h0 : ∑ b ∈ range t.r, (qrE e t).2 j b ^ 2 = 0
    · have z := (sum_eq_zero_iff_of_nonneg (fun _ _ => sq_nonneg _)).mp h0 b (by simpa using hb)
      have z' : (qrE e t).2 j b = 0 := by simpa using z
      simp [svd3R, h0, z']
    · have hp : 0 ≤ ∑ b ∈ range t.r, (qrE e t).2 j b ^ 2 := sum_nonneg fun _ _ => sq_nonneg _
      have hs : √(∑ b ∈ range t.r, (qrE e t).2 j b ^ 2) ≠ 0 := by
        intro h; exact h0 ((Real.sqrt_eq_zero hp).mp h)
      simp only [svd3R, h0, if_false]
      rw [mul_div_cancel₀ _ hs]
  real := fun _ _ => star_trivial _
  err := by
    intro t
    have : ∑ j ∈ range (svd3R e D t).u.r, (svd3R e D t).s j * (svd3R e D t).s j = rowsW e t (keepR e D t) := by
      refine sum_congr rfl fun j _ => ?_
      exact Real.mul_self_sqrt (sum_nonneg fun _ _ => sq_nonneg _)
    rw [this]
    unfold terrR
    by_cases h0 : normSq t = 0
    · have := rowsW_le e t (keepR_le e D t)
      rw [rowsW_total, h0] at this
      rw [h0, mul_zero]
      exact le_antisymm this (rowsW_nonneg e t _)
    · rw [sub_sub_cancel, div_mul_cancel₀ _ h0]

theorem svd3R_keeps (e : τ ≃ Fin d) (D : Nat) (t : Ten τ ℝ) (h : normSq t = 1) : terrR e D t ≠ 1 := by
  intro h1
  unfold terrR at h1
  rw [h, div_one] at h1
  have h2 : rowsW e t (keepR e D t) = 0 := by linarith
  by_cases hr : t.r = 0
  · unfold normSq at h; simp [hr] at h
  · unfold keepR at h2
    rw [if_neg hr] at h2
    split at h2
    · rw [rowsW_total, h] at h2; exact one_ne_zero h2
    · next hne => exact hne h2

open Classical in
/-- `Normalize()` of a real diagonal. -/
noncomputable def snrmR (d : Nat) (s : Nat → ℝ) : ℝ × (Nat → ℝ) :=
  if ∑ j ∈ range d, s j * s j = 0 then (1, s) else (√(∑ j ∈ range d, s j * s j), fun j => s j / √(∑ j ∈ range d, s j * s j))

theorem snrmR_spec : SnrmSpec snrmR where
  fac := by
    intro d s j hj
    unfold snrmR
    split
    · simp
    · next h =>
      have hp : 0 ≤ ∑ j ∈ range d, s j * s j := sum_nonneg fun _ _ => mul_self_nonneg _
      have hs : √(∑ j ∈ range d, s j * s j) ≠ 0 := by
        intro h'; exact h ((Real.sqrt_eq_zero hp).mp h')
      simp only
      rw [mul_div_cancel₀ _ hs]
  unit := by
    intro d s h
    unfold snrmR
    rw [if_neg h]
    have hp : 0 ≤ ∑ j ∈ range d, s j * s j := sum_nonneg fun _ _ => mul_self_nonneg _
    have : ∀ j ∈ range d, s j / √(∑ j ∈ range d, s j * s j) * (s j / √(∑ j ∈ range d, s j * s j)) = s j * s j / ∑ j ∈ range d, s j * s j := by
      intro j _
      rw [div_mul_div_comm, Real.mul_self_sqrt hp]
    simp only
    rw [sum_congr rfl this, ← Finset.sum_div, div_self h]
  real := fun _ _ _ => ⟨star_trivial _, fun _ => star_trivial _⟩

/-- The two-site state `|00⟩ + 2|01⟩ + 3|11⟩` as tensors with a bond of dimension two. -/
def exSL : Ten Bool ℝ := ⟨1, 2, fun s _ b => if (if s then 1 else 0) = b then 1 else 0⟩
def exSR : Ten Bool ℝ := ⟨2, 1, fun s a _ => if a = 0 then (if s then 2 else 1) else (if s then 3 else 0)⟩
def boolEnum : Bool ≃ Fin 2 where
  toFun p := ⟨p.toNat, by cases p <;> decide⟩
  invFun i := decide (i.val = 1)
  left_inv := by decide
  right_inv := by decide

/-- The hypotheses of `C67_truncate` hold together for a truncation to bond dimension one. -/
example : ∃ m' es φ, FMps.truncate (qrE boolEnum) (svdE boolEnum) nrmR (svd3R boolEnum 1) (terrR boolEnum 1) snrmR
      (⟨[some exSL, some exSR], [.none, .none], -1⟩ : FMps Bool ℝ) = .ok (m', es) ∧ IsState (N := 2) m' φ ∧ braket φ φ = 1 := by
  have pos : (1 : ℝ) ≤ braket (stateVec 2 [exSL, exSR]) (stateVec 2 [exSL, exSR]) := by
    have e : (1 : ℝ) = star (stateVec 2 [exSL, exSR] fun _ => false) * stateVec 2 [exSL, exSR] fun _ => false := by
      simp [stateVec, amp, exSL, exSR, List.ofFn_succ, sum_range_succ]
    rw [e]
    exact single_le_sum (f := fun s : Fin 2 → Bool => star (stateVec 2 [exSL, exSR] s) * stateVec 2 [exSL, exSR] s)
      (fun s _ => by rw [star_trivial]; exact mul_self_nonneg _) (mem_univ _)
  obtain ⟨m', es, φ, e, i, -, u, -⟩ := C67_truncate (N := 2) (qrE_spec (K := ℝ) boolEnum) (svdE_spec boolEnum) nrmR_spec.1 nrmR_spec.2 (svd3R_spec boolEnum 1)
    snrmR_spec (svd3R_keeps boolEnum 1) (cs := [.write 0 exSL, .write 1 exSR]) (m := ⟨[some exSL, some exSR], [.none, .none], -1⟩) rfl (by simp)
    (ψ := stateVec 2 [exSL, exSR]) ⟨[exSL, exSR], rfl, rfl, linked_mk rfl (List.IsChain.singleton _), rfl, rfl, rfl⟩ (by intro h; rw [h] at pos; linarith)
    (by omega)
  exact ⟨m', es, φ, e, i, u⟩

end Verif.Props
