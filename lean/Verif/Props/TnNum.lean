import Verif.Mps.TnRun
import Verif.Props.SsNum
import Verif.Props.Noised
/-
C78: the two-site optimisation with noise.

`H = opM N P.w` is the operator of the MPO, `stateV N t` the state of the tensors `t` (Verif/Mps/VmpsSpec.lean). The order of the updates (`upds lb rb k`) is that of `k` sweeps
between the sites `lb` and `rb`; the state after `n` of them (`tnState`) and the energy that update `n` reports (`TnReports`) are those of the sweep whose file accesses are the
subject of C24. The noise given to each update is an arbitrary sequence; `C78_adaptive` says that the noises the program chooses are one of them.
-/
namespace Verif.Props
open Finset Verif.Mps Verif.Disk Verif.Algo

variable {σ 𝕜 : Type} [RCLike 𝕜] [Fintype σ] [DecidableEq σ] {N : Nat} {P : TnPar σ 𝕜}

theorem tnReports_lt {us : List (Dir × Nat)} {ψ : (Nat → LTen σ 𝕜) × Nat} {n : Nat} {e : ℝ} (h : TnReports N P us ψ n e) : n < us.length := by
  obtain ⟨u, hu, -⟩ := h
  by_contra hc
  rw [List.getElem?_eq_none (by omega)] at hu
  cases hu

theorem tnReports_unique {us : List (Dir × Nat)} {ψ : (Nat → LTen σ 𝕜) × Nat} {n : Nat} {e e' : ℝ} (h : TnReports N P us ψ n e) (h' : TnReports N P us ψ n e') : e = e' := by
  obtain ⟨u, hu, h1⟩ := h
  obtain ⟨u', hu', h1'⟩ := h'
  rw [hu] at hu'
  obtain rfl := Option.some.inj hu'
  rw [h1] at h1'
  exact Option.some.inj h1'

/-- **C78** (every update). Start from an MPS with its canonical centre at the first or second site of the sweeps and a Hermitian MPO, with any noises. As long as the state has not become zero, every
update reports an energy `e` that is at most the energy of the MPS before it and that is the energy of a unit vector `Φ`; the MPS after it is an orthogonal projection of
`Φ`, and is `Φ` if nothing is discarded: the expansion by noise leaves the state alone. -/
theorem C78_update (hP : TnOK N P) {lb rb : Nat} (h1 : lb + 2 ≤ rb) (h2 : rb < N) (k clk : Nat) {ψ : Nat → LTen σ 𝕜} {c : Nat} (hc : c = lb ∨ c = lb + 1) (h : Mps.Canon N c (tens ψ)) {n : Nat} (hn : n < (upds lb rb k).length)
    (hz : TnAlive N P (upds lb rb k) (ψ, clk) n) :
    ∃ e, TnReports N P (upds lb rb k) (ψ, clk) n e ∧
      e * ‖tnState N P (upds lb rb k) (ψ, clk) n‖ ^ 2 ≤ expect (opM N P.w) (tnState N P (upds lb rb k) (ψ, clk) n) ∧
      ∃ Φ : ChainV σ 𝕜 N, ‖Φ‖ = 1 ∧ inner 𝕜 Φ (Matrix.toEuclideanLin (opM N P.w) Φ) = (e : 𝕜) ∧
        inner 𝕜 (tnState N P (upds lb rb k) (ψ, clk) (n + 1)) Φ = ((‖tnState N P (upds lb rb k) (ψ, clk) (n + 1)‖ ^ 2 : ℝ) : 𝕜) ∧
        ‖Φ - tnState N P (upds lb rb k) (ψ, clk) (n + 1)‖ ^ 2 = 1 - ‖tnState N P (upds lb rb k) (ψ, clk) (n + 1)‖ ^ 2 ∧
        (P.NoCut → tnState N P (upds lb rb k) (ψ, clk) (n + 1) = Φ) := by
  obtain ⟨-, -, -, -, e, e1, e2, -, hs⟩ := tnAt_ok hP (tnPath_sweeps h1 h2 k).1 (ψ := (ψ, clk)) (openAt_canon h hc) hn hz
  obtain ⟨Φ, a, b, q, d⟩ := hs.unit
  refine ⟨e, ⟨_, List.getElem?_eq_getElem hn, ?_⟩, hs.better, Φ, a, b, q, pyth q a, d⟩
  generalize (upds lb rb k)[n] = u at e1 e2 ⊢
  obtain ⟨d, i⟩ := u
  cases d
  · exact e1
  · exact e2

/-- **C78** (without noise). If every noise is below the threshold of the code, the state never becomes zero, whatever is discarded. -/
theorem C78_alive_silent (hP : TnOK N P) (hs : P.Silent) {lb rb : Nat} (h1 : lb + 2 ≤ rb) (h2 : rb < N) (k clk : Nat) {ψ : Nat → LTen σ 𝕜} {c : Nat} (hc : c = lb ∨ c = lb + 1) (h : Mps.Canon N c (tens ψ)) (hz : stateV N (tens ψ) ≠ 0) :
    TnAlive N P (upds lb rb k) (ψ, clk) (upds lb rb k).length := by
  have key : ∀ n, n ≤ (upds lb rb k).length → TnAlive N P (upds lb rb k) (ψ, clk) n := by
    intro n
    induction n with
    | zero => intro _ m hm; obtain rfl : m = 0 := by omega
              exact hz
    | succ n ih =>
      intro hn m hm
      have hi := ih (by omega)
      by_cases hmn : m = n + 1
      · subst hmn
        exact (tnAt_ok hP (tnPath_sweeps h1 h2 k).1 (ψ := (ψ, clk)) (openAt_canon h hc) (by omega) hi).2.2.2.1 (hs _)
      · exact hi m (by omega)
  exact key _ (Nat.le_refl _)

/-- **C78** (nothing discarded). If no decomposition discards anything, the state never becomes zero, whatever the noises. -/
theorem C78_alive_nocut (hP : TnOK N P) (hcut : P.NoCut) {lb rb : Nat} (h1 : lb + 2 ≤ rb) (h2 : rb < N) (k clk : Nat) {ψ : Nat → LTen σ 𝕜} {c : Nat} (hc : c = lb ∨ c = lb + 1) (h : Mps.Canon N c (tens ψ)) (hz : stateV N (tens ψ) ≠ 0) :
    TnAlive N P (upds lb rb k) (ψ, clk) (upds lb rb k).length := by
  have key : ∀ n, n ≤ (upds lb rb k).length → TnAlive N P (upds lb rb k) (ψ, clk) n := by
    intro n
    induction n with
    | zero => intro _ m hm; obtain rfl : m = 0 := by omega
              exact hz
    | succ n ih =>
      intro hn m hm
      have hi := ih (by omega)
      by_cases hmn : m = n + 1
      · subst hmn
        obtain ⟨e, -, -, Φ, q1, -, -, -, q2⟩ := C78_update hP h1 h2 k clk hc h (show n < (upds lb rb k).length by omega) hi
        intro h0
        rw [← q2 hcut, h0, norm_zero] at q1
        exact zero_ne_one q1
      · exact hi m (by omega)
  exact key _ (Nat.le_refl _)

/-- **C78** (lower bound). No energy reported before the state becomes zero is below a lower bound of the Hamiltonian, for example the exact ground-state energy. -/
theorem C78_lower_bound (hP : TnOK N P) {lb rb : Nat} (h1 : lb + 2 ≤ rb) (h2 : rb < N) (k clk : Nat) {ψ : Nat → LTen σ 𝕜} {c : Nat} (hc : c = lb ∨ c = lb + 1) (h : Mps.Canon N c (tens ψ)) {n : Nat} (hz : TnAlive N P (upds lb rb k) (ψ, clk) n)
    {E0 : ℝ} (hE : ∀ Φ : ChainV σ 𝕜 N, E0 * ‖Φ‖ ^ 2 ≤ expect (opM N P.w) Φ) {e : ℝ} (he : TnReports N P (upds lb rb k) (ψ, clk) n e) : E0 ≤ e := by
  obtain ⟨e', he', -, Φ, a, b, -⟩ := C78_update hP h1 h2 k clk hc h (tnReports_lt he) hz
  rw [tnReports_unique he he']
  have := hE Φ
  rw [a, expect_of b] at this
  simpa using this

/-- **C78** (the program's own energy). The number that `CalEnergyEptTwoSite` computes before update `n`, from the environments and the tensors of the two sites, is the energy
of the whole MPS at that moment (not divided by its norm). -/
theorem C78_energy (hP : TnOK N P) {lb rb : Nat} (h1 : lb + 2 ≤ rb) (h2 : rb < N) (k clk : Nat) {ψ : Nat → LTen σ 𝕜} {c : Nat} (hc : c = lb ∨ c = lb + 1) (h : Mps.Canon N c (tens ψ))
    {n : Nat} (hn : n < (upds lb rb k).length) (hz : TnAlive N P (upds lb rb k) (ψ, clk) n) :
    tnActual N P (tnAt N P (upds lb rb k) (ψ, clk) n).1 (upds lb rb k)[n] = expect (opM N P.w) (tnState N P (upds lb rb k) (ψ, clk) n) := by
  obtain ⟨hi, ho, -⟩ := tnAt_ok hP (tnPath_sweeps h1 h2 k).1 (ψ := (ψ, clk)) (openAt_canon h hc) hn hz
  unfold tnState
  generalize (tnAt N P (upds lb rb k) (ψ, clk) n).1 = φ at *
  generalize (upds lb rb k)[n] = u at *
  have hcl := ho.closed
  unfold tnActual tnEnergy Mps.expect
  rw [lenv_tn, renv_tn hcl _ (by omega)]
  have := embed_elem hP.closed hi (lenv_at hP.toParOK hcl (by omega)) (renv_at hP.toParOK hcl hi) (toV (mergeTen (φ u.2).ten (φ (u.2 + 1)).ten)) (toV (mergeTen (φ u.2).ten (φ (u.2 + 1)).ten))
  have em : embed N u.2 (tens φ) (ofV (toV (mergeTen (φ u.2).ten (φ (u.2 + 1)).ten))) = stateV N (tens φ) := by
    rw [← embed_merge hcl hi]
    exact embed_congr rfl rfl fun x y a b ha hb => by
      show (if h : a < (mergeTen (φ u.2).ten (φ (u.2 + 1)).ten).l ∧ b < (mergeTen (φ u.2).ten (φ (u.2 + 1)).ten).r then
        toV (mergeTen (φ u.2).ten (φ (u.2 + 1)).ten) (⟨a, h.1⟩, x, y, ⟨b, h.2⟩) else 0) = _
      rw [dif_pos ⟨ha, hb⟩]
      rfl
  exact congrArg RCLike.re (((congrArg₂ (fun x y => inner 𝕜 x (Matrix.toEuclideanLin (opM N P.w) y)) em.symm em.symm).trans this).symm)

/-- **C78** (nothing discarded). Then, whatever the noises, the MPS after every update is normalised and has the energy just reported; the energies do not increase along
the run, and the first is at most the energy of the initial MPS. -/
theorem C78_monotone (hP : TnOK N P) (hcut : P.NoCut) {lb rb : Nat} (h1 : lb + 2 ≤ rb) (h2 : rb < N) (k clk : Nat) {ψ : Nat → LTen σ 𝕜} {c : Nat} (hc : c = lb ∨ c = lb + 1) (h : Mps.Canon N c (tens ψ)) (hz : stateV N (tens ψ) ≠ 0) :
    (∀ n e, TnReports N P (upds lb rb k) (ψ, clk) n e → ‖tnState N P (upds lb rb k) (ψ, clk) (n + 1)‖ = 1 ∧
      expect (opM N P.w) (tnState N P (upds lb rb k) (ψ, clk) (n + 1)) = e ∧ e * ‖stateV N (tens ψ)‖ ^ 2 ≤ expect (opM N P.w) (stateV N (tens ψ))) ∧
    ∀ n m e e', n ≤ m → TnReports N P (upds lb rb k) (ψ, clk) n e → TnReports N P (upds lb rb k) (ψ, clk) m e' → e' ≤ e := by
  have al := C78_alive_nocut hP hcut h1 h2 k clk hc h hz
  have upd := fun n (hn : n < (upds lb rb k).length) => C78_update hP h1 h2 k clk hc h hn (fun m hm => al m (by omega))
  have one : ∀ n e, TnReports N P (upds lb rb k) (ψ, clk) n e → ‖tnState N P (upds lb rb k) (ψ, clk) (n + 1)‖ = 1 ∧
      expect (opM N P.w) (tnState N P (upds lb rb k) (ψ, clk) (n + 1)) = e := by
    intro n e he
    obtain ⟨e', he', -, Φ, a, b, -, -, d⟩ := upd n (tnReports_lt he)
    obtain rfl := tnReports_unique he he'
    rw [d hcut]
    exact ⟨a, expect_of b⟩
  have step : ∀ n m e e', n ≤ m → TnReports N P (upds lb rb k) (ψ, clk) n e → TnReports N P (upds lb rb k) (ψ, clk) m e' → e' ≤ e := by
    intro n m e e' hnm he
    induction m, hnm using Nat.le_induction generalizing e' with
    | base => intro he'; rw [tnReports_unique he he']
    | succ m hm ih =>
      intro he'
      have hl := tnReports_lt he'
      obtain ⟨e1, he1, -⟩ := upd m (by omega)
      obtain ⟨e2, he2, bt, -⟩ := upd (m + 1) hl
      obtain rfl := tnReports_unique he' he2
      obtain ⟨o1, o2⟩ := one m e1 he1
      rw [o1, o2] at bt
      have := ih e1 he1
      linarith
  refine ⟨fun n e he => ⟨(one n e he).1, (one n e he).2, ?_⟩, step⟩
  have hl := tnReports_lt he
  obtain ⟨e0, he0, bt, -⟩ := upd 0 (by omega)
  have := step 0 n e0 e (by omega) he0 he
  have hs : tnState N P (upds lb rb k) (ψ, clk) 0 = stateV N (tens ψ) := rfl
  rw [hs] at bt
  exact le_trans (mul_le_mul_of_nonneg_right this (by positivity)) bt

/-- **Specification**: what the noised sweeps between `lb` and `rb` leave on disk, started from the state `Φ0`: an MPS `ψ'` with its canonical centre at site `lb+1`, not zero; the
energy `e` of the last update is not below any lower bound of the Hamiltonian; if nothing was discarded, `ψ'` is normalised, `e` is its energy, and it is not above that of `Φ0`. -/
def TnResult (N : Nat) (P : TnPar σ 𝕜) (lb : Nat) (Φ0 : ChainV σ 𝕜 N) (ψ' : Nat → LTen σ 𝕜) (e : ℝ) : Prop :=
  Mps.Canon N (lb + 1) (tens ψ') ∧ stateV N (tens ψ') ≠ 0 ∧ (ψ' lb).e0 = some e ∧ (ψ' (lb + 1)).e0 = some e ∧ (ψ' (lb + 2)).e0 = some e ∧
    (∀ E0, (∀ Φ : ChainV σ 𝕜 N, E0 * ‖Φ‖ ^ 2 ≤ expect (opM N P.w) Φ) → E0 ≤ e) ∧
    (P.NoCut → ‖stateV N (tens ψ')‖ = 1 ∧ expect (opM N P.w) (stateV N (tens ψ')) = e ∧ e * ‖Φ0‖ ^ 2 ≤ expect (opM N P.w) Φ0)

/-- The sweeps. -/
theorem tn_result (hP : TnOK N P) {lb rb : Nat} (h1 : lb + 2 ≤ rb) (h2 : rb < N) {k : Nat} (hk : k ≠ 0) (clk : Nat) {ψ : Nat → LTen σ 𝕜} {c : Nat} (hc : c = lb ∨ c = lb + 1)
    (h : Mps.Canon N c (tens ψ)) (hz : TnAlive N P (upds lb rb k) (ψ, clk) (upds lb rb k).length) :
    ∃ e, TnResult N P lb (stateV N (tens ψ)) (noisedMps (tnAlg N P.toVmpsPar) (tnOpt P) (tnCanon P) N lb rb k (ψ, clk)) e := by
  obtain ⟨us, hus⟩ := tnUpds_last h1 hk
  have hlen : us.length < (upds lb rb k).length := by rw [hus]; simp
  have hlen' : us.length + 1 = (upds lb rb k).length := by rw [hus]; simp
  have hg : (upds lb rb k)[us.length] = (.l, lb + 1) := by simp [hus]
  have hs : tnAt N P (upds lb rb k) (ψ, clk) (us.length + 1) = opt3Sweeps (tnAlg N P.toVmpsPar) (tnOpt P) N lb rb k (ψ, clk) := by
    unfold tnAt; rw [List.take_of_length_le (by omega), opt3Sweeps_fold]
  have al : TnAlive N P (upds lb rb k) (ψ, clk) us.length := fun m hm => hz m (by omega)
  obtain ⟨-, -, ho, -, e, e1, e2, e3, -⟩ := tnAt_ok hP (tnPath_sweeps h1 h2 k).1 (ψ := (ψ, clk)) (openAt_canon h hc) hlen al
  have hr : TnReports N P (upds lb rb k) (ψ, clk) us.length e := ⟨_, List.getElem?_eq_getElem hlen, by rw [hg] at e2 ⊢; exact e2⟩
  have nz := hz _ (Nat.le_refl _)
  have z0 : stateV N (tens ψ) ≠ 0 := hz 0 (by omega)
  rw [hg] at ho e1 e2 e3
  unfold tnState at nz
  rw [← hlen'] at nz
  have mo := fun hcut : P.NoCut => (C78_monotone hP hcut h1 h2 k clk hc h z0).1 _ _ hr
  unfold tnState at mo
  rw [hs] at ho e1 e2 e3 nz
  obtain ⟨q1, q2, q3⟩ := canonAt_ok hP.qr (i := lb) (by omega) ho
  refine ⟨e, q1, q2 ▸ nz, (q3 _).trans e3, (q3 _).trans e1, (q3 _).trans e2, fun E0 hE => C78_lower_bound hP h1 h2 k clk hc h al hE hr, fun hcut => ?_⟩
  have := mo hcut
  rw [hs] at this
  rw [show stateV N (tens (noisedMps (tnAlg N P.toVmpsPar) (tnOpt P) (tnCanon P) N lb rb k (ψ, clk))) = _ from q2]
  exact this

/-- **C78** (the call). `TwoSiteFiniteVMPSWithNoise` on at least three sites with at least one sweep, from an MPS on disk with its centre not behind the second site of the sweeps and a Hermitian MPO,
wherever the bond dimensions put the first and last site of the sweeps, with any noises that do not turn the state into zero: the call succeeds, and what it leaves on disk is `TnResult`:
the centre is at the second site of the sweeps, and the energy returned, that of the last update, is variational. -/
theorem C78_run (hP : TnOK N P) (hN : 3 ≤ N) (fuse : (l : Nat) → Fin l × σ ≃ Fin (l * Fintype.card σ)) (dmax : Nat) (bl br : Nat → Bool) {k : Nat} (hk : k ≠ 0) (clk : Nat)
    {ψ : Nat → LTen σ 𝕜} {d : Dsk (LTen σ 𝕜) (Env3 𝕜)} {mem : Mem (LTen σ 𝕜) (Env3 𝕜)} (h0 : NoTensors mem clk) (hm : OnDisk N ψ d) (hj : ∀ k, d.r k ≠ .junk)
    (hr : Reusable (tnAlg N P.toVmpsPar) N (lbOf bl N) (rbOf br N) ψ d) {c : Nat} (hc : c ≤ lbOf bl N + 1) (h : Mps.Canon N c (tens ψ))
    (hz : TnAlive N P (upds (lbOf bl N) (rbOf br N) k) (gauged (vmpsG P.qr fuse dmax) N (lbOf bl N) (rbOf br N) ψ, clk) (upds (lbOf bl N) (rbOf br N) k).length) :
    ∃ s' ψ' e, run N N (noised (tnAlg N P.toVmpsPar) (tnOpt P) (tnCanon P) N (vmpsG P.qr fuse dmax) bl br d k) ⟨mem, d⟩ = .ok s' ∧ OnDisk N ψ' s'.dsk ∧
      TnResult N P (lbOf bl N) (stateV N (tens ψ)) ψ' e := by
  obtain ⟨b1, b2⟩ := bounds_ok bl br hN
  obtain ⟨s', r, o, -⟩ := C24_noised (tn_legs hP.spR hP.spL) (tnCanon_legs hP.qr) (vmpsG_laws hP.qr fuse dmax) bl br hN k h0 hm hj hr
  obtain ⟨g1, g2⟩ := vmpsG_canon hP.qr fuse dmax b1 b2 (c := c) (by omega) h
  obtain ⟨e, he⟩ := tn_result hP b1 b2 hk clk (Or.inr rfl) g1 hz
  rw [g2] at he
  exact ⟨s', _, e, r, o, he⟩

/-- **C78** (the call without noise, or without cuts). Then nothing need be assumed of the run: an MPS that is not zero at the beginning never becomes zero. -/
theorem C78_run_alive (hP : TnOK N P) (hN : 3 ≤ N) (fuse : (l : Nat) → Fin l × σ ≃ Fin (l * Fintype.card σ)) (dmax : Nat) (bl br : Nat → Bool) {k : Nat} (hk : k ≠ 0) (clk : Nat)
    (hq : P.Silent ∨ P.NoCut) {ψ : Nat → LTen σ 𝕜} {d : Dsk (LTen σ 𝕜) (Env3 𝕜)} {mem : Mem (LTen σ 𝕜) (Env3 𝕜)} (h0 : NoTensors mem clk) (hm : OnDisk N ψ d)
    (hj : ∀ k, d.r k ≠ .junk) (hr : Reusable (tnAlg N P.toVmpsPar) N (lbOf bl N) (rbOf br N) ψ d) {c : Nat} (hc : c ≤ lbOf bl N + 1) (h : Mps.Canon N c (tens ψ))
    (hz : stateV N (tens ψ) ≠ 0) :
    ∃ s' ψ' e, run N N (noised (tnAlg N P.toVmpsPar) (tnOpt P) (tnCanon P) N (vmpsG P.qr fuse dmax) bl br d k) ⟨mem, d⟩ = .ok s' ∧ OnDisk N ψ' s'.dsk ∧
      TnResult N P (lbOf bl N) (stateV N (tens ψ)) ψ' e := by
  obtain ⟨b1, b2⟩ := bounds_ok bl br hN
  obtain ⟨g1, g2⟩ := vmpsG_canon hP.qr fuse dmax b1 b2 (c := c) (by omega) h
  refine C78_run hP hN fuse dmax bl br hk clk h0 hm hj hr hc h ?_
  rcases hq with hq | hq
  · exact C78_alive_silent hP hq b1 b2 k clk (Or.inr rfl) g1 (g2 ▸ hz)
  · exact C78_alive_nocut hP hq b1 b2 k clk (Or.inr rfl) g1 (g2 ▸ hz)

/-! ### The noises that the program chooses -/

/-- The same run with other noises. -/
def tnWithNoise (P : TnPar σ 𝕜) (ν : Nat → ℝ) : TnPar σ 𝕜 := { P with noise := ν }

theorem tnMarked_map (lb rb k : Nat) : (tnMarked lb rb k).map Prod.fst = upds lb rb k := by
  unfold tnMarked upds
  induction k with
  | zero => rfl
  | succ k ih =>
    rw [List.range_succ, List.flatMap_append, List.map_append, ih, List.replicate_succ', List.flatten_append, List.flatMap_singleton, List.flatten_singleton]
    congr 1
    cases sweepUpds lb rb with
    | nil => rfl
    | cons u us => simp [Function.comp_def]

theorem tn1_with (ν : Nat → ℝ) (ψ : (Nat → LTen σ 𝕜) × Nat) (u : Dir × Nat) : tn1 N (tnWithNoise P ν) ψ u = (tnWith N P (ν ψ.2) ψ.1 u, ψ.2 + 1) := by
  obtain ⟨d, i⟩ := u
  cases d <;> rfl

theorem tnAt_seq (ν : Nat → ℝ) (lb rb k clk n : Nat) (ψ : Nat → LTen σ 𝕜) : tnAt N (tnWithNoise P ν) (upds lb rb k) (ψ, clk) n =
    seqRun (fun x s (u : (Dir × Nat) × Option Nat) => tnWith N P x s u.1) ν ((tnMarked lb rb k).take n) (ψ, clk) := by
  unfold tnAt seqRun
  rw [← tnMarked_map, ← List.map_take, List.foldl_map]
  congr 1
  funext s u
  exact tn1_with ν s u.1

/-- **C78** (the adaptive noises). With the noises chosen by the rule of the program from its list of initial noises, its parameters and the energies of the run, the MPS after every
update is the one obtained with some sequence of noises fixed in advance; so everything above holds of it. -/
theorem C78_adaptive (N : Nat) (P : TnPar σ 𝕜) (Q : NoiseParams ℝ) (lb rb k clk : Nat) (ψ : Nat → LTen σ 𝕜) (h : NoiseSt ℝ) :
    ∃ ν : Nat → ℝ, ∀ n, (tnAdapt N P Q ((tnMarked lb rb k).take n) (ψ, h)).1 = (tnAt N (tnWithNoise P ν) (upds lb rb k) (ψ, clk) n).1 := by
  obtain ⟨ν, hν⟩ := seqRun_exists (fun x s (u : (Dir × Nat) × Option Nat) => tnWith N P x s u.1) (tnNoise N P Q) (tnScal N P Q) (tnMarked lb rb k) ψ h clk
  exact ⟨ν, fun n => by rw [tnAt_seq]; exact (hν n).symm⟩

theorem tnNoise_zero {Q : NoiseParams ℝ} (hQ : ∀ x, x ∈ Q.noises → x = 0) (hm : 0 ≤ Q.maxNoise) {ψ : Nat → LTen σ 𝕜} {h : NoiseSt ℝ} {u : (Dir × Nat) × Option Nat}
    (hh : h.noise = 0 ∨ (u.2 = some 0 ∧ Q.noises ≠ [])) : tnNoise N P Q ψ h u = 0 := by
  have h0 : (tnReset Q.noises h u.2).noise = 0 := by
    unfold tnReset
    rcases hu : u.2 with _ | i
    · rcases hh with hh | hh
      · exact hh
      · rw [hu] at hh; cases hh.1
    · show (Q.noises[i]?).getD h.noise = 0
      cases hy : Q.noises[i]? with
      | some y => exact hQ _ (List.mem_of_getElem? hy)
      | none =>
        rcases hh with hh | hh
        · exact hh
        · rw [hu] at hh
          obtain rfl := Option.some.inj hh.1
          have := List.length_pos_iff.mpr hh.2
          rw [List.getElem?_eq_getElem this] at hy
          cases hy
  unfold tnNoise adapt
  rw [h0]
  split
  · rfl
  · split
    · exact zero_mul _
    · unfold Dbl.min
      split
      · rename_i hlt
        have : Q.maxNoise < realDbl.mul 0 Q.increase := by simpa [realDbl] using hlt
        rw [show realDbl.mul 0 Q.increase = 0 from zero_mul _] at this
        linarith
      · exact zero_mul _

/-- **C78** (no noise). If there are initial noises and all are zero, the program runs with noise zero throughout; then the state never becomes zero (`C78_alive_silent`). -/
theorem C78_no_noise (N : Nat) (P : TnPar σ 𝕜) {Q : NoiseParams ℝ} (hne : Q.noises ≠ []) (hQ : ∀ x, x ∈ Q.noises → x = 0) (hm : 0 ≤ Q.maxNoise) (lb rb k clk : Nat)
    (ψ : Nat → LTen σ 𝕜) (h : NoiseSt ℝ) (n : Nat) :
    (tnAdapt N P Q ((tnMarked lb rb k).take n) (ψ, h)).1 = (tnAt N (tnWithNoise P fun _ => 0) (upds lb rb k) (ψ, clk) n).1 ∧ (tnWithNoise P fun _ => 0).Silent := by
  refine ⟨?_, fun n => by show |(0 : ℝ)| < _; rw [abs_zero]; norm_num⟩
  rw [tnAt_seq]
  have key : ∀ (us : List ((Dir × Nat) × Option Nat)) (ψ : Nat → LTen σ 𝕜) (h : NoiseSt ℝ) (c : Nat), (h.noise = 0 ∨ ∀ u, us.head? = some u → u.2 = some 0) →
      (tnAdapt N P Q us (ψ, h)).1 = (seqRun (fun x s (u : (Dir × Nat) × Option Nat) => tnWith N P x s u.1) (fun _ => 0) us (ψ, c)).1 := by
    intro us
    induction us with
    | nil => intros; rfl
    | cons u us ih =>
      intro ψ h c hh
      have hz : tnNoise N P Q ψ h u = 0 := tnNoise_zero hQ hm (hh.imp_right fun hh => ⟨hh u rfl, hne⟩)
      have := ih (tnWith N P (tnNoise N P Q ψ h u) ψ u.1) (tnScal N P Q ψ h u) (c + 1) (Or.inl hz)
      refine Eq.trans (b := (tnAdapt N P Q us (tnWith N P (tnNoise N P Q ψ h u) ψ u.1, tnScal N P Q ψ h u)).1) rfl (this.trans ?_)
      rw [hz]
      rfl
  refine key _ _ _ _ (Or.inr fun u hu => ?_)
  unfold tnMarked at hu
  cases k with
  | zero => simp at hu
  | succ k =>
    cases n with
    | zero => simp at hu
    | succ n =>
      rw [List.range_succ_eq_map, List.flatMap_cons] at hu
      cases hs : sweepUpds lb rb with
      | nil =>
        rw [hs] at hu
        have hf : ∀ l : List Nat, (l.flatMap fun _ => ([] : List ((Dir × Nat) × Option Nat))) = [] := fun l => by simp
        simp only [List.nil_append] at hu
        rw [hf] at hu
        cases hu
      | cons v vs =>
        rw [hs] at hu
        simp only [List.cons_append, List.take_succ_cons, List.head?_cons] at hu
        obtain rfl := Option.some.inj hu
        rfl

end Verif.Props
