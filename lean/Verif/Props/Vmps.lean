import Verif.Mps.VmpsRun
import Verif.Mps.VmpsInst
import Verif.Props.TwoSite
/-
C62: the two-site optimisation is variational.

`H = opM N P.w` is the operator of the MPO, `stateV N t` the state of the tensors `t`, both written out in Verif/Mps/VmpsSpec.lean. The order of the
updates (`upds`) and the state after `n` of them (`runAt`) are those of the sweep whose file accesses are the subject of C18 and C19.
-/
namespace Verif.Props
open Finset Verif.Mps Verif.Disk Verif.Algo

variable {σ 𝕜 : Type} [RCLike 𝕜] [Fintype σ] [DecidableEq σ] {N : Nat} {P : VmpsPar σ 𝕜}

/-- **Specification**: nothing is discarded in any decomposition. -/
def NoCut (P : VmpsPar σ 𝕜) : Prop := (∀ T : Blk2 σ 𝕜, T.Is (P.splitR T)) ∧ ∀ T : Blk2 σ 𝕜, T.Is (P.splitL T)

/-- **Specification**: update `n` reports the energy `e`. -/
def Reports (N : Nat) (P : VmpsPar σ 𝕜) (us : List (Dir × Nat)) (ψ : (Nat → LTen σ 𝕜) × Nat) (n : Nat) (e : ℝ) : Prop :=
  ∃ u, us[n]? = some u ∧ ((runAt N P us ψ (n + 1)).1 u.2).e0 = some e ∧ ((runAt N P us ψ (n + 1)).1 (u.2 + 1)).e0 = some e

/-- **Specification**: the state of the MPS after `n` updates. -/
noncomputable def stateAfter (N : Nat) (P : VmpsPar σ 𝕜) (us : List (Dir × Nat)) (ψ : (Nat → LTen σ 𝕜) × Nat) (n : Nat) : ChainV σ 𝕜 N :=
  stateV N (tens (runAt N P us ψ n).1)

theorem expect_of {X : ChainV σ 𝕜 N} {H : Matrix (Fin N → σ) (Fin N → σ) 𝕜} {e : ℝ} (h : inner 𝕜 X (Matrix.toEuclideanLin H X) = (e : 𝕜)) : expect H X = e := by
  unfold Mps.expect; rw [h, RCLike.ofReal_re]

omit [DecidableEq σ] in
theorem pyth {X Y : ChainV σ 𝕜 N} (h : inner 𝕜 Y X = ((‖Y‖ ^ 2 : ℝ) : 𝕜)) (h1 : ‖X‖ = 1) : ‖X - Y‖ ^ 2 = 1 - ‖Y‖ ^ 2 := by
  have e := norm_sub_sq (𝕜 := 𝕜) X Y
  have hi : RCLike.re (inner 𝕜 X Y) = ‖Y‖ ^ 2 := by rw [inner_re_symm, h, RCLike.ofReal_re]
  rw [e, hi, h1]; ring

/-- **C62** (every update). Start from an MPS whose canonical centre is at the left boundary site or the one after it, with a Hermitian MPO. Then every
update of every sweep reports an energy `e` that is the expectation value of the Hamiltonian in a normalised state `Φ` of the whole chain. The energy is
at most that of the MPS before the update, and the MPS after the update is the orthogonal projection of `Φ` on the directions kept: the part discarded has
squared norm `1 - ‖Ψ'‖²`. -/
theorem C62_update (hP : ParOK N P) {lb rb : Nat} (h1 : lb + 2 ≤ rb) (h2 : rb < N) (k clk : Nat) {ψ : Nat → LTen σ 𝕜} {c : Nat} (hc : c = lb ∨ c = lb + 1)
    (h : Canon N c (tens ψ)) (hz : stateV N (tens ψ) ≠ 0) {n : Nat} (hn : n < (upds lb rb k).length) :
    stateAfter N P (upds lb rb k) (ψ, clk) n ≠ 0 ∧ stateAfter N P (upds lb rb k) (ψ, clk) (n + 1) ≠ 0 ∧
    ∃ e, Reports N P (upds lb rb k) (ψ, clk) n e ∧
      e * ‖stateAfter N P (upds lb rb k) (ψ, clk) n‖ ^ 2 ≤ expect (opM N P.w) (stateAfter N P (upds lb rb k) (ψ, clk) n) ∧
      ∃ Φ : ChainV σ 𝕜 N, ‖Φ‖ = 1 ∧ inner 𝕜 Φ (Matrix.toEuclideanLin (opM N P.w) Φ) = (e : 𝕜) ∧
        inner 𝕜 (stateAfter N P (upds lb rb k) (ψ, clk) (n + 1)) Φ = ((‖stateAfter N P (upds lb rb k) (ψ, clk) (n + 1)‖ ^ 2 : ℝ) : 𝕜) ∧
        ‖Φ - stateAfter N P (upds lb rb k) (ψ, clk) (n + 1)‖ ^ 2 = 1 - ‖stateAfter N P (upds lb rb k) (ψ, clk) (n + 1)‖ ^ 2 ∧
        (NoCut P → stateAfter N P (upds lb rb k) (ψ, clk) (n + 1) = Φ) := by
  have hp := (path_sweeps h1 h2 k hc).1
  obtain ⟨-, nz, e, e1, e2, vs⟩ := runAt_ok (ψ := (ψ, clk)) hP hp h hz hn
  obtain ⟨Φ, a, b, c', d⟩ := vs.unit
  refine ⟨nz, ?_, e, ⟨_, List.getElem?_eq_getElem hn, e1, e2⟩, vs.better, Φ, a, b, c', pyth c' a, d⟩
  by_cases hl : n + 1 < (upds lb rb k).length
  · exact (runAt_ok (ψ := (ψ, clk)) hP hp h hz hl).2.1
  · have : runAt N P (upds lb rb k) (ψ, clk) (n + 1) = (upds lb rb k).foldl (opt1 (vmpsAlg N P) N) (ψ, clk) := by
      unfold runAt; rw [List.take_of_length_le (by omega)]
    unfold stateAfter
    rw [this]
    exact (fold_ok (ψ := (ψ, clk)) hP _ hp h hz).2

/-- The energy an update reports is unique. -/
theorem reports_unique {us : List (Dir × Nat)} {ψ : (Nat → LTen σ 𝕜) × Nat} {n : Nat} {e e' : ℝ} (h : Reports N P us ψ n e) (h' : Reports N P us ψ n e') : e = e' := by
  obtain ⟨u, hu, h1, -⟩ := h
  obtain ⟨u', hu', h1', -⟩ := h'
  rw [hu] at hu'
  obtain rfl := Option.some.inj hu'
  rw [h1] at h1'
  exact Option.some.inj h1'

/-- **C62** (lower bound). No reported energy is below the spectrum: a lower bound of the expectation values of the Hamiltonian, for example the exact
ground-state energy, is a lower bound of every reported energy. -/
theorem C62_lower_bound (hP : ParOK N P) {lb rb : Nat} (h1 : lb + 2 ≤ rb) (h2 : rb < N) (k clk : Nat) {ψ : Nat → LTen σ 𝕜} {c : Nat} (hc : c = lb ∨ c = lb + 1)
    (h : Canon N c (tens ψ)) (hz : stateV N (tens ψ) ≠ 0) {E0 : ℝ} (hE : ∀ Φ : ChainV σ 𝕜 N, E0 * ‖Φ‖ ^ 2 ≤ expect (opM N P.w) Φ) {n : Nat} {e : ℝ}
    (he : Reports N P (upds lb rb k) (ψ, clk) n e) : E0 ≤ e := by
  have hn : n < (upds lb rb k).length := by
    obtain ⟨u, hu, -⟩ := he
    by_contra hc
    rw [List.getElem?_eq_none (by omega)] at hu
    cases hu
  obtain ⟨-, -, e', he', -, Φ, a, b, -⟩ := C62_update hP h1 h2 k clk hc h hz hn
  rw [reports_unique he he']
  have := hE Φ
  rw [a, expect_of b] at this
  simpa using this

/-- **C62** (the energy of the MPS that is kept). If `C` bounds the Hamiltonian, the energy of the MPS after an update differs from the reported one by at most
`C (2 √ε + ε)`, where `ε = 1 - ‖Ψ'‖²` is the squared norm of what was discarded. -/
theorem C62_truncation (hP : ParOK N P) {lb rb : Nat} (h1 : lb + 2 ≤ rb) (h2 : rb < N) (k clk : Nat) {ψ : Nat → LTen σ 𝕜} {c : Nat} (hc : c = lb ∨ c = lb + 1)
    (h : Canon N c (tens ψ)) (hz : stateV N (tens ψ) ≠ 0) {C : ℝ} (hC : ∀ Φ : ChainV σ 𝕜 N, ‖Matrix.toEuclideanLin (opM N P.w) Φ‖ ≤ C * ‖Φ‖) {n : Nat} {e : ℝ}
    (he : Reports N P (upds lb rb k) (ψ, clk) n e) :
    ∃ ε, ε = 1 - ‖stateAfter N P (upds lb rb k) (ψ, clk) (n + 1)‖ ^ 2 ∧ 0 ≤ ε ∧ ε < 1 ∧
      |expect (opM N P.w) (stateAfter N P (upds lb rb k) (ψ, clk) (n + 1)) - e| ≤ C * (2 * Real.sqrt ε + ε) := by
  have hn : n < (upds lb rb k).length := by
    obtain ⟨u, hu, -⟩ := he
    by_contra hc
    rw [List.getElem?_eq_none (by omega)] at hu
    cases hu
  obtain ⟨-, nz, e', he', -, Φ, a, b, -, pn, -⟩ := C62_update hP h1 h2 k clk hc h hz hn
  obtain rfl := reports_unique he he'
  generalize hΨ : stateAfter N P (upds lb rb k) (ψ, clk) (n + 1) = Ψ at *
  refine ⟨_, rfl, by rw [← pn]; positivity, ?_, ?_⟩
  · have := norm_pos_iff.mpr nz
    nlinarith
  · set L := Matrix.toEuclideanLin (opM N P.w) with hL
    set D := Φ - Ψ with hD
    have hsq : Real.sqrt (1 - ‖Ψ‖ ^ 2) = ‖D‖ := by rw [← pn, Real.sqrt_sq (norm_nonneg _)]
    have hle : ‖Ψ‖ ≤ 1 := by nlinarith [norm_nonneg Ψ, sq_nonneg ‖D‖]
    have ee : (e : ℝ) = RCLike.re (inner 𝕜 Φ (L Φ)) := by rw [b, RCLike.ofReal_re]
    have hΦ : Φ = Ψ + D := by rw [hD]; abel
    have exp : RCLike.re (inner 𝕜 Φ (L Φ)) = RCLike.re (inner 𝕜 Ψ (L Ψ)) + RCLike.re (inner 𝕜 Ψ (L D)) + RCLike.re (inner 𝕜 D (L Ψ)) + RCLike.re (inner 𝕜 D (L D)) := by
      rw [hΦ, map_add, inner_add_left, inner_add_right, inner_add_right]
      simp only [map_add]; ring
    have bd : ∀ X Y : ChainV σ 𝕜 N, |RCLike.re (inner 𝕜 X (L Y))| ≤ C * (‖X‖ * ‖Y‖) := fun X Y =>
      calc |RCLike.re (inner 𝕜 X (L Y))| ≤ ‖inner 𝕜 X (L Y)‖ := RCLike.abs_re_le_norm _
        _ ≤ ‖X‖ * ‖L Y‖ := norm_inner_le_norm _ _
        _ ≤ ‖X‖ * (C * ‖Y‖) := mul_le_mul_of_nonneg_left (hC Y) (norm_nonneg _)
        _ = _ := by ring
    have hC0 : 0 ≤ C := by
      have := hC Φ
      rw [a, mul_one] at this
      exact (norm_nonneg _).trans this
    have b1 := bd Ψ D
    have b2 := bd D Ψ
    have b3 := bd D D
    rw [hsq, ← pn]
    show |RCLike.re (inner 𝕜 Ψ (L Ψ)) - e| ≤ _
    rw [ee, exp]
    have m1 : C * (‖Ψ‖ * ‖D‖) ≤ C * ‖D‖ := mul_le_mul_of_nonneg_left (by nlinarith [norm_nonneg D]) hC0
    rw [abs_le] at b1 b2 b3 ⊢
    have m2 : ‖D‖ * ‖Ψ‖ = ‖Ψ‖ * ‖D‖ := mul_comm _ _
    rw [m2] at b2
    constructor <;> nlinarith [b1.1, b1.2, b2.1, b2.2, b3.1, b3.2]

/-- **C62** (no truncation). If nothing is discarded, the MPS after every update is normalised and has the energy just reported; the energies do not increase
along the run, and the first is at most the energy of the initial MPS. -/
theorem C62_monotone (hP : ParOK N P) (hcut : NoCut P) {lb rb : Nat} (h1 : lb + 2 ≤ rb) (h2 : rb < N) (k clk : Nat) {ψ : Nat → LTen σ 𝕜} {c : Nat}
    (hc : c = lb ∨ c = lb + 1) (h : Canon N c (tens ψ)) (hz : stateV N (tens ψ) ≠ 0) :
    (∀ n e, Reports N P (upds lb rb k) (ψ, clk) n e → ‖stateAfter N P (upds lb rb k) (ψ, clk) (n + 1)‖ = 1 ∧
      expect (opM N P.w) (stateAfter N P (upds lb rb k) (ψ, clk) (n + 1)) = e ∧ e * ‖stateV N (tens ψ)‖ ^ 2 ≤ expect (opM N P.w) (stateV N (tens ψ))) ∧
    ∀ n m e e', n ≤ m → Reports N P (upds lb rb k) (ψ, clk) n e → Reports N P (upds lb rb k) (ψ, clk) m e' → e' ≤ e := by
  have hlt : ∀ {n e}, Reports N P (upds lb rb k) (ψ, clk) n e → n < (upds lb rb k).length := by
    rintro n e ⟨u, hu, -⟩
    by_contra hc
    rw [List.getElem?_eq_none (by omega)] at hu
    cases hu
  have one : ∀ n e, Reports N P (upds lb rb k) (ψ, clk) n e → ‖stateAfter N P (upds lb rb k) (ψ, clk) (n + 1)‖ = 1 ∧
      expect (opM N P.w) (stateAfter N P (upds lb rb k) (ψ, clk) (n + 1)) = e := by
    intro n e he
    obtain ⟨-, -, e', he', -, Φ, a, b, -, -, d⟩ := C62_update hP h1 h2 k clk hc h hz (hlt he)
    obtain rfl := reports_unique he he'
    rw [d hcut]
    exact ⟨a, expect_of b⟩
  have step : ∀ n m e e', n ≤ m → Reports N P (upds lb rb k) (ψ, clk) n e → Reports N P (upds lb rb k) (ψ, clk) m e' → e' ≤ e := by
    intro n m e e' hnm he
    induction m, hnm using Nat.le_induction generalizing e' with
    | base => intro he'; rw [reports_unique he he']
    | succ m hm ih =>
      intro he'
      have hl := hlt he'
      obtain ⟨-, -, e1, he1, -⟩ := C62_update hP h1 h2 k clk hc h hz (n := m) (by omega)
      obtain ⟨-, -, e2, he2, bt, -⟩ := C62_update hP h1 h2 k clk hc h hz hl
      obtain rfl := reports_unique he' he2
      obtain ⟨o1, o2⟩ := one m e1 he1
      rw [o1, o2] at bt
      have := ih e1 he1
      linarith
  refine ⟨fun n e he => ⟨(one n e he).1, (one n e he).2, ?_⟩, step⟩
  have hl := hlt he
  obtain ⟨-, -, e0, he0, bt, -⟩ := C62_update hP h1 h2 k clk hc h hz (n := 0) (by omega)
  have := step 0 n e0 e (by omega) he0 he
  have hs : stateAfter N P (upds lb rb k) (ψ, clk) 0 = stateV N (tens ψ) := rfl
  rw [hs] at bt
  refine le_trans ?_ bt
  exact mul_le_mul_of_nonneg_right this (by positivity)

/-- The local operations keep the outer legs. -/
theorem vmps_legs (hR : BlkSplitR P.splitR) (hL : BlkSplitL P.splitL) : (vmpsAlg N P).Legs where
  left := fun c d i e f t u => by
    show unitEnv (updTwo P d _ e f t.ten u.ten).1.ten.l (P.w 0).l (updTwo P d _ e f t.ten u.ten).1.ten.l = unitEnv t.ten.l (P.w 0).l t.ten.l
    have : ∀ j, (updTwo P d j e f t.ten u.ten).1.ten.l = t.ten.l := by
      intro j
      unfold updTwo
      split
      · rfl
      · cases d
        · exact hR.dimL _
        · exact hL.dimL _
    rw [this]
  right := fun c d i e f t u => by
    show unitEnv (updTwo P d _ e f t.ten u.ten).2.ten.r (P.w (N - 1)).r (updTwo P d _ e f t.ten u.ten).2.ten.r = unitEnv u.ten.r (P.w (N - 1)).r u.ten.r
    have : ∀ j, (updTwo P d j e f t.ten u.ten).2.ten.r = u.ten.r := by
      intro j
      unfold updTwo
      split
      · rfl
      · cases d
        · exact hR.dimR _
        · exact hL.dimR _
    rw [this]

theorem upds_last {lb rb : Nat} (h1 : lb + 2 ≤ rb) {k : Nat} (hk : k ≠ 0) : ∃ us, upds lb rb k = us ++ [(.l, lb + 1)] := by
  obtain ⟨k, rfl⟩ := Nat.exists_eq_succ_of_ne_zero hk
  have : ∃ us, sweepUpds lb rb = us ++ [(.l, lb + 1)] := by
    unfold sweepUpds
    obtain ⟨m, hm⟩ : ∃ m, rb - 1 - lb = m + 1 := ⟨rb - 2 - lb, by omega⟩
    rw [hm, List.range'_succ (s := lb + 1), List.reverse_cons, List.map_append, ← List.append_assoc]
    exact ⟨_, rfl⟩
  obtain ⟨us, hu⟩ := this
  refine ⟨(List.replicate k (sweepUpds lb rb)).flatten ++ us, ?_⟩
  unfold upds
  rw [List.replicate_succ', List.flatten_append, List.append_assoc, ← hu]
  simp

/-- **C62** (the call). `TwoSiteFiniteVMPS` on at least three sites with at least one sweep, from an MPS on disk with its centre at site 0 or 1 and a Hermitian
MPO: the call succeeds, the MPS then on disk has its canonical centre at site 1 and is not zero, and the energy `e` returned, that of the last update, is not below any
lower bound of the Hamiltonian. If nothing was discarded, the MPS on disk is normalised, `e` is its energy, and it is not above that of the initial MPS. -/
theorem C62_run (hP : ParOK N P) (hN : 3 ≤ N) (temp : Bool) {k : Nat} (hk : k ≠ 0) (clk : Nat) {ψ : Nat → LTen σ 𝕜} {d : Dsk (LTen σ 𝕜) (Env3 𝕜)} (hm : OnDisk N ψ d)
    (ht : TempOK (vmpsAlg N P) N temp ψ d) {c : Nat} (hc : c = 0 ∨ c = 1) (h : Canon N c (tens ψ)) (hz : stateV N (tens ψ) ≠ 0) :
    ∃ s' ψ' e, run N (N - 1) (twoSite (vmpsAlg N P) N temp k) ⟨Mem.blank clk, d⟩ = .ok s' ∧ OnDisk N ψ' s'.dsk ∧
      Canon N 1 (tens ψ') ∧ stateV N (tens ψ') ≠ 0 ∧ (ψ' 1).e0 = some e ∧ (ψ' 2).e0 = some e ∧
      (∀ E0, (∀ Φ : ChainV σ 𝕜 N, E0 * ‖Φ‖ ^ 2 ≤ expect (opM N P.w) Φ) → E0 ≤ e) ∧
      (NoCut P → ‖stateV N (tens ψ')‖ = 1 ∧ expect (opM N P.w) (stateV N (tens ψ')) = e ∧
        e * ‖stateV N (tens ψ)‖ ^ 2 ≤ expect (opM N P.w) (stateV N (tens ψ))) := by
  obtain ⟨s', r, o, -⟩ := C19_final_mps (vmps_legs hP.spR hP.spL) hN temp k clk hm ht
  have hp := path_sweeps (N := N) (lb := 0) (rb := N - 1) (by omega) (by omega) k (c := c) (by omega)
  have he := hp.2 hk
  obtain ⟨us, hus⟩ := upds_last (lb := 0) (rb := N - 1) (by omega) hk
  have hlen : us.length < (upds 0 (N - 1) k).length := by rw [hus]; simp
  have hg : (upds 0 (N - 1) k)[us.length]? = some (.l, 1) := by rw [hus]; simp
  have hf := fold_ok (ψ := (ψ, clk)) hP _ hp.1 h hz
  have hs : runAt N P (upds 0 (N - 1) k) (ψ, clk) (us.length + 1) = optSweeps (vmpsAlg N P) N 0 (N - 1) k (ψ, clk) := by
    unfold runAt; rw [List.take_of_length_le (by rw [hus]; simp), optSweeps_fold]
  rw [he, ← optSweeps_fold] at hf
  obtain ⟨-, -, e, hr, -⟩ := C62_update hP (lb := 0) (rb := N - 1) (by omega) (by omega) k clk (c := c) (by omega) h hz hlen
  have hr' := hr
  obtain ⟨u, hu, r1, r2⟩ := hr
  rw [hg] at hu
  obtain rfl := Option.some.inj hu
  rw [hs] at r1 r2
  refine ⟨s', _, e, r, o, hf.1, hf.2, r1, r2, fun E0 hE => ?_, fun hcut => ?_⟩
  · exact C62_lower_bound hP (lb := 0) (rb := N - 1) (by omega) (by omega) k clk (c := c) (by omega) h hz hE hr'
  · have := (C62_monotone hP hcut (lb := 0) (rb := N - 1) (by omega) (by omega) k clk (c := c) (by omega) h hz).1 _ _ hr'
    unfold stateAfter at this
    rw [hs] at this
    exact this

/-! ### The hypotheses can be met: the transverse Ising chain -/

/-- `[[1, 0, 0], [Z, 0, 0], [X, Z, 1]]`, restricted to the last row at the left end and the first column at the right end. -/
noncomputable def exIsing (N i : Nat) : Ten (Bool × Bool) ℝ :=
  ⟨if i = 0 then 1 else 3, if i + 1 = N then 1 else 3, fun s a b =>
    let one : ℝ := if s.1 = s.2 then 1 else 0
    let z : ℝ := if s.1 = s.2 then (if s.1 then 1 else -1) else 0
    let x : ℝ := if s.1 = s.2 then 0 else 1
    match (if i = 0 then 2 else a), b with
    | 0, 0 => one
    | 1, 0 => z
    | 2, 0 => x
    | 2, 1 => z
    | 2, 2 => one
    | _, _ => 0⟩

/-- All spins up. -/
def exUp : Ten Bool ℝ := ⟨1, 1, fun s _ _ => if s then 1 else 0⟩

def upEnum : Bool ≃ Fin 2 where
  toFun b := if b then 1 else 0
  invFun i := if i = 1 then true else false
  left_inv := by decide
  right_inv := by decide

theorem exIsing_sym (N i : Nat) (x y : Bool) (a b : Nat) : star ((exIsing N i).v (x, y) a b) = (exIsing N i).v (y, x) a b := by
  rw [star_trivial]
  unfold exIsing
  cases x <;> cases y <;> rfl

theorem exIsing_closed {N : Nat} (hN : 2 ≤ N) : Closed N (exIsing N) := by
  refine ⟨by simp [exIsing], ?_, fun j hj => ?_⟩
  · show (if N - 1 + 1 = N then 1 else 3) = 1
    rw [if_pos (by omega)]
  · show (if j + 1 = N then 1 else 3) = (if j + 1 = 0 then 1 else 3)
    rw [if_neg (by omega), if_neg (by omega)]

theorem exUp_left : LeftIso exUp := by
  intro x hx y hy
  obtain rfl : x = 0 := by simpa [exUp] using hx
  obtain rfl : y = 0 := by simpa [exUp] using hy
  simp [exUp]

theorem exUp_right : RightIso exUp := by
  intro x hx y hy
  obtain rfl : x = 0 := by simpa [exUp] using hx
  obtain rfl : y = 0 := by simpa [exUp] using hy
  simp [exUp]

theorem exUp_canon (N c : Nat) : Canon N c (tens fun _ => (⟨exUp, none⟩ : LTen Bool ℝ)) :=
  ⟨⟨rfl, rfl, fun _ _ => rfl⟩, fun _ _ => exUp_left, fun _ _ _ => exUp_right⟩

theorem exUp_nz (N : Nat) : stateV N (tens fun _ => (⟨exUp, none⟩ : LTen Bool ℝ)) ≠ 0 := by
  have key : ∀ n, amp ((List.range n).map (tens fun _ => (⟨exUp, none⟩ : LTen Bool ℝ))) (List.replicate n true) 0 0 = 1 := by
    intro n
    have e : (List.range n).map (tens fun _ => (⟨exUp, none⟩ : LTen Bool ℝ)) = List.replicate n exUp := by
      show (List.range n).map (fun _ => exUp) = _
      rw [List.map_const', List.length_range]
    rw [e]
    clear e
    induction n with
    | zero => simp [amp]
    | succ n ih => rw [List.replicate_succ, List.replicate_succ, amp_cons]; simp [exUp] at ih ⊢; exact ih
  intro h
  have h1 := congrArg (fun Ψ : ChainV Bool ℝ N => Ψ fun _ => true) h
  have h2 : amp ((List.range N).map (tens fun _ => (⟨exUp, none⟩ : LTen Bool ℝ))) (List.ofFn fun _ : Fin N => true) 0 0 = 0 := h1
  rw [List.ofFn_const, key] at h2
  exact one_ne_zero h2

/-- The run with at most `D` directions kept. -/
noncomputable def exPar (N D : Nat) (tri : TriSolver) : VmpsPar Bool ℝ :=
  ⟨exIsing N, fun T => cutNZ D T (fullR upEnum T), fun T => cutNZ D T (fullL upEnum T), tri, 10, 1⟩

/-- The run without truncation. -/
noncomputable def exParFull (N : Nat) (tri : TriSolver) : VmpsPar Bool ℝ :=
  ⟨exIsing N, fullR upEnum, fullL upEnum, tri, 10, 1⟩

theorem exPar_ok {N D : Nat} (hN : 2 ≤ N) {tri : TriSolver} (ht : Solves tri) : ParOK N (exPar N D tri) :=
  ⟨exIsing_closed hN, herm_of_sym (exIsing_sym N), cutR_spec upEnum D, cutL_spec upEnum D, ht, by show 2 ≤ 10; omega⟩

theorem exParFull_ok {N : Nat} (hN : 2 ≤ N) {tri : TriSolver} (ht : Solves tri) : ParOK N (exParFull N tri) :=
  ⟨exIsing_closed hN, herm_of_sym (exIsing_sym N), fullR_spec upEnum, fullL_spec upEnum, ht, by show 2 ≤ 10; omega⟩

/-- Both with truncation to two directions and without, on chains of any length from three, the hypotheses of `C62_run` hold for the Ising chain and the product state. -/
example (N : Nat) (hN : 3 ≤ N) : ∃ tri, ParOK N (exPar N 2 tri) ∧ ParOK N (exParFull N tri) ∧ NoCut (exParFull N tri) ∧
    Canon N 0 (tens fun _ => (⟨exUp, none⟩ : LTen Bool ℝ)) ∧ stateV N (tens fun _ => (⟨exUp, none⟩ : LTen Bool ℝ)) ≠ 0 ∧
    TempOK (vmpsAlg N (exPar N 2 tri)) N false (fun _ => ⟨exUp, none⟩) ⟨fun _ => .whole ⟨exUp, none⟩, fun _ => .gone, fun _ => .gone⟩ := by
  obtain ⟨tri, ht⟩ := solver_exists
  exact ⟨tri, exPar_ok (by omega) ht, exParFull_ok (by omega) ht, ⟨fullR_is upEnum, fullL_is upEnum⟩, exUp_canon N 0, exUp_nz N, fun h => by cases h⟩

/-- The order of the updates on five sites. -/
example : upds 0 4 1 = [(.r, 0), (.r, 1), (.r, 2), (.l, 3), (.l, 2), (.l, 1)] := by decide

end Verif.Props
