import Verif.Mps.SsRun
import Verif.Props.SingleSite
import Verif.Props.Vmps
/-
C77: the single-site optimisation with subspace expansion.

`H = opM N P.w` is the operator of the MPO, `stateV N t` the state of the tensors `t` (Verif/Mps/VmpsSpec.lean). The order of the updates (`ssUpds`), the
state after `n` of them (`ssState`) and the energy that update `n` reports (`SsReports`) are those of the sweep whose file accesses are the subject of C23.
The noise given to each update is an arbitrary sequence; `C77_adaptive` says that the noises the program chooses are one of them.
-/
namespace Verif.Props
open Finset Verif.Mps Verif.Disk Verif.Algo

variable {σ 𝕜 : Type} [RCLike 𝕜] [Fintype σ] [DecidableEq σ] {N : Nat} {P : SsPar σ 𝕜}

/-- **Specification**: none of the first `n` updates turns the state into zero. -/
def Alive (N : Nat) (P : SsPar σ 𝕜) (us : List (Dir × Nat)) (ψ : (Nat → LTen σ 𝕜) × Nat) (n : Nat) : Prop := ∀ m, m ≤ n → ssState N P us ψ m ≠ 0

theorem ssReports_lt {us : List (Dir × Nat)} {ψ : (Nat → LTen σ 𝕜) × Nat} {n : Nat} {e : ℝ} (h : SsReports N P us ψ n e) : n < us.length := by
  obtain ⟨u, hu, -⟩ := h
  by_contra hc
  rw [List.getElem?_eq_none (by omega)] at hu
  cases hu

theorem ssReports_unique {us : List (Dir × Nat)} {ψ : (Nat → LTen σ 𝕜) × Nat} {n : Nat} {e e' : ℝ} (h : SsReports N P us ψ n e) (h' : SsReports N P us ψ n e') : e = e' := by
  obtain ⟨u, hu, h1⟩ := h
  obtain ⟨u', hu', h1'⟩ := h'
  rw [hu] at hu'
  obtain rfl := Option.some.inj hu'
  rw [h1] at h1'
  exact Option.some.inj h1'

/-- **C77** (every update). Start from an MPS with its canonical centre at site 0 and a Hermitian MPO, with any noises. As long as the state has not become zero, every
update reports an energy `e` that is at most the energy of the MPS before it and that is the energy of a unit vector `Φ`; the MPS after it is an orthogonal projection of
`Φ`, and is `Φ` if nothing is discarded: the expansion by noise leaves the state alone. -/
theorem C77_update (hP : SsOK N P) (hN : 2 ≤ N) (k clk : Nat) {ψ : Nat → LTen σ 𝕜} (h : Canon N 0 (tens ψ)) {n : Nat} (hn : n < (ssUpds N k).length)
    (hz : Alive N P (ssUpds N k) (ψ, clk) n) :
    ∃ e, SsReports N P (ssUpds N k) (ψ, clk) n e ∧
      e * ‖ssState N P (ssUpds N k) (ψ, clk) n‖ ^ 2 ≤ expect (opM N P.w) (ssState N P (ssUpds N k) (ψ, clk) n) ∧
      ∃ Φ : ChainV σ 𝕜 N, ‖Φ‖ = 1 ∧ inner 𝕜 Φ (Matrix.toEuclideanLin (opM N P.w) Φ) = (e : 𝕜) ∧
        inner 𝕜 (ssState N P (ssUpds N k) (ψ, clk) (n + 1)) Φ = ((‖ssState N P (ssUpds N k) (ψ, clk) (n + 1)‖ ^ 2 : ℝ) : 𝕜) ∧
        ‖Φ - ssState N P (ssUpds N k) (ψ, clk) (n + 1)‖ ^ 2 = 1 - ‖ssState N P (ssUpds N k) (ψ, clk) (n + 1)‖ ^ 2 ∧
        (P.NoCut → ssState N P (ssUpds N k) (ψ, clk) (n + 1) = Φ) := by
  obtain ⟨-, -, -, e, e1, -, hs⟩ := ssAt_ok hP (ssPath_sweeps hN k).1 (ψ := (ψ, clk)) h hn hz
  obtain ⟨Φ, a, b, c, d⟩ := hs.unit
  exact ⟨e, ⟨_, List.getElem?_eq_getElem hn, e1⟩, hs.better, Φ, a, b, c, pyth c a, d⟩

/-- **C77** (without noise). If every noise is below the threshold of the code, the state never becomes zero, whatever is discarded. -/
theorem C77_alive_silent (hP : SsOK N P) (hs : P.Silent) (hN : 2 ≤ N) (k clk : Nat) {ψ : Nat → LTen σ 𝕜} (h : Canon N 0 (tens ψ)) (hz : stateV N (tens ψ) ≠ 0) :
    Alive N P (ssUpds N k) (ψ, clk) (ssUpds N k).length := by
  have key : ∀ n, n ≤ (ssUpds N k).length → Alive N P (ssUpds N k) (ψ, clk) n := by
    intro n
    induction n with
    | zero => intro _ m hm; obtain rfl : m = 0 := by omega
              exact hz
    | succ n ih =>
      intro hn m hm
      have hi := ih (by omega)
      by_cases hmn : m = n + 1
      · subst hmn
        exact (ssAt_ok hP (ssPath_sweeps hN k).1 (ψ := (ψ, clk)) h (by omega) hi).2.2.1 (hs _)
      · exact hi m (by omega)
  exact key _ (Nat.le_refl _)

/-- **C77** (nothing discarded). If no decomposition discards anything, the state never becomes zero, whatever the noises. -/
theorem C77_alive_nocut (hP : SsOK N P) (hc : P.NoCut) (hN : 2 ≤ N) (k clk : Nat) {ψ : Nat → LTen σ 𝕜} (h : Canon N 0 (tens ψ)) (hz : stateV N (tens ψ) ≠ 0) :
    Alive N P (ssUpds N k) (ψ, clk) (ssUpds N k).length := by
  have key : ∀ n, n ≤ (ssUpds N k).length → Alive N P (ssUpds N k) (ψ, clk) n := by
    intro n
    induction n with
    | zero => intro _ m hm; obtain rfl : m = 0 := by omega
              exact hz
    | succ n ih =>
      intro hn m hm
      have hi := ih (by omega)
      by_cases hmn : m = n + 1
      · subst hmn
        obtain ⟨e, -, -, Φ, h1, -, -, -, h2⟩ := C77_update hP hN k clk h (show n < (ssUpds N k).length by omega) hi
        intro h0
        rw [← h2 hc, h0, norm_zero] at h1
        exact zero_ne_one h1
      · exact hi m (by omega)
  exact key _ (Nat.le_refl _)

/-- **C77** (lower bound). No energy reported before the state becomes zero is below a lower bound of the Hamiltonian, for example the exact ground-state energy. -/
theorem C77_lower_bound (hP : SsOK N P) (hN : 2 ≤ N) (k clk : Nat) {ψ : Nat → LTen σ 𝕜} (h : Canon N 0 (tens ψ)) {n : Nat} (hz : Alive N P (ssUpds N k) (ψ, clk) n)
    {E0 : ℝ} (hE : ∀ Φ : ChainV σ 𝕜 N, E0 * ‖Φ‖ ^ 2 ≤ expect (opM N P.w) Φ) {e : ℝ} (he : SsReports N P (ssUpds N k) (ψ, clk) n e) : E0 ≤ e := by
  obtain ⟨e', he', -, Φ, a, b, -⟩ := C77_update hP hN k clk h (ssReports_lt he) hz
  rw [ssReports_unique he he']
  have := hE Φ
  rw [a, expect_of b] at this
  simpa using this

/-- **C77** (the program's own energy). The number that `CalEnergyEptSingleSite` computes before update `n`, from the environments and the tensor of the target site, is the energy
of the whole MPS at that moment (not divided by its norm). -/
theorem C77_energy (hP : SsOK N P) (hN : 2 ≤ N) (k clk : Nat) {ψ : Nat → LTen σ 𝕜} (h : Canon N 0 (tens ψ)) {n : Nat} (hn : n < (ssUpds N k).length)
    (hz : Alive N P (ssUpds N k) (ψ, clk) n) {φ : Nat → LTen σ 𝕜} (hφ : (ssAt N P (ssUpds N k) (ψ, clk) n).1 = φ) :
    ssEnergy ((ssAlg N P).lenv φ (ssUpds N k)[n].2) ((ssAlg N P).renv N φ (N - ((ssUpds N k)[n].2 + 1))) (P.w (ssUpds N k)[n].2) (φ (ssUpds N k)[n].2).ten =
      expect (opM N P.w) (ssState N P (ssUpds N k) (ψ, clk) n) := by
  obtain ⟨hc, -⟩ := ssAt_ok hP (ssPath_sweeps hN k).1 (ψ := (ψ, clk)) h hn hz
  have hs : (ssUpds N k) = (ssUpds N k).take n ++ (ssUpds N k)[n] :: (ssUpds N k).drop (n + 1) := by
    rw [← List.drop_eq_getElem_cons hn, List.take_append_drop]
  have hp' := (ssPath_sweeps hN k).1
  rw [hs, ssPath_append] at hp'
  obtain ⟨-, ⟨-, p1, p2, p3⟩, -⟩ := hp'
  unfold ssState
  rw [hφ] at hc ⊢
  generalize (ssUpds N k)[n] = u at *
  obtain ⟨d, i⟩ := u
  simp only at p1 p2 p3 hc ⊢
  unfold ssEnergy Mps.expect
  cases d with
  | r =>
    have := (ss_embR hP (p2 rfl) hc).2 (toS (tens φ i)) (toS (tens φ i))
    rw [embed_sAddR hc.1 (p2 rfl)] at this
    exact congrArg RCLike.re this.symm
  | l =>
    obtain ⟨j, rfl⟩ : ∃ j, i = j + 1 := ⟨i - 1, by have := p3 rfl; omega⟩
    have := (ss_embL hP p1 hc).2 (toS (tens φ (j + 1))) (toS (tens φ (j + 1)))
    rw [embed_sAddL hc.1 p1] at this
    exact congrArg RCLike.re this.symm

/-- **C77** (nothing discarded). Then, whatever the noises, the MPS after every update is normalised and has the energy just reported; the energies do not increase along
the run, and the first is at most the energy of the initial MPS. -/
theorem C77_monotone (hP : SsOK N P) (hcut : P.NoCut) (hN : 2 ≤ N) (k clk : Nat) {ψ : Nat → LTen σ 𝕜} (h : Canon N 0 (tens ψ)) (hz : stateV N (tens ψ) ≠ 0) :
    (∀ n e, SsReports N P (ssUpds N k) (ψ, clk) n e → ‖ssState N P (ssUpds N k) (ψ, clk) (n + 1)‖ = 1 ∧
      expect (opM N P.w) (ssState N P (ssUpds N k) (ψ, clk) (n + 1)) = e ∧ e * ‖stateV N (tens ψ)‖ ^ 2 ≤ expect (opM N P.w) (stateV N (tens ψ))) ∧
    ∀ n m e e', n ≤ m → SsReports N P (ssUpds N k) (ψ, clk) n e → SsReports N P (ssUpds N k) (ψ, clk) m e' → e' ≤ e := by
  have al := C77_alive_nocut hP hcut hN k clk h hz
  have upd := fun n (hn : n < (ssUpds N k).length) => C77_update hP hN k clk h hn (fun m hm => al m (by omega))
  have one : ∀ n e, SsReports N P (ssUpds N k) (ψ, clk) n e → ‖ssState N P (ssUpds N k) (ψ, clk) (n + 1)‖ = 1 ∧
      expect (opM N P.w) (ssState N P (ssUpds N k) (ψ, clk) (n + 1)) = e := by
    intro n e he
    obtain ⟨e', he', -, Φ, a, b, -, -, d⟩ := upd n (ssReports_lt he)
    obtain rfl := ssReports_unique he he'
    rw [d hcut]
    exact ⟨a, expect_of b⟩
  have step : ∀ n m e e', n ≤ m → SsReports N P (ssUpds N k) (ψ, clk) n e → SsReports N P (ssUpds N k) (ψ, clk) m e' → e' ≤ e := by
    intro n m e e' hnm he
    induction m, hnm using Nat.le_induction generalizing e' with
    | base => intro he'; rw [ssReports_unique he he']
    | succ m hm ih =>
      intro he'
      have hl := ssReports_lt he'
      obtain ⟨e1, he1, -⟩ := upd m (by omega)
      obtain ⟨e2, he2, bt, -⟩ := upd (m + 1) hl
      obtain rfl := ssReports_unique he' he2
      obtain ⟨o1, o2⟩ := one m e1 he1
      rw [o1, o2] at bt
      have := ih e1 he1
      linarith
  refine ⟨fun n e he => ⟨(one n e he).1, (one n e he).2, ?_⟩, step⟩
  have hl := ssReports_lt he
  obtain ⟨e0, he0, bt, -⟩ := upd 0 (by omega)
  have := step 0 n e0 e (by omega) he0 he
  have hs : ssState N P (ssUpds N k) (ψ, clk) 0 = stateV N (tens ψ) := rfl
  rw [hs] at bt
  exact le_trans (mul_le_mul_of_nonneg_right this (by positivity)) bt

/-- **C77** (the call). `SingleSiteFiniteVMPS` on at least two sites with at least one sweep, from an MPS on disk with its centre at site 0 and a Hermitian MPO, with any noises that do not
turn the state into zero: the call succeeds, the MPS then on disk has its canonical centre at site 0 and is not zero, and the energy `e` returned, that of the last update, is
not below any lower bound of the Hamiltonian. If nothing was discarded, the MPS on disk is normalised, `e` is its energy, and it is not above that of the initial MPS. -/
theorem C77_run (hP : SsOK N P) (hN : 2 ≤ N) (temp : Bool) {k : Nat} (hk : k ≠ 0) (clk : Nat) {ψ : Nat → LTen σ 𝕜} {d : Dsk (LTen σ 𝕜) (Env3 𝕜)} (hm : OnDisk N ψ d)
    (ht : TempOK1 (ssAlg N P) N temp ψ d) (h : Canon N 0 (tens ψ)) (hz : Alive N P (ssUpds N k) (ψ, clk) (ssUpds N k).length) :
    ∃ s' ψ' e, run N N (singleSite (ssAlg N P) (ssOpt N P) N temp k) ⟨Mem.blank clk, d⟩ = .ok s' ∧ OnDisk N ψ' s'.dsk ∧
      Canon N 0 (tens ψ') ∧ stateV N (tens ψ') ≠ 0 ∧ (ψ' 0).e0 = some e ∧ (ψ' 1).e0 = some e ∧
      (∀ E0, (∀ Φ : ChainV σ 𝕜 N, E0 * ‖Φ‖ ^ 2 ≤ expect (opM N P.w) Φ) → E0 ≤ e) ∧
      (P.NoCut → ‖stateV N (tens ψ')‖ = 1 ∧ expect (opM N P.w) (stateV N (tens ψ')) = e ∧
        e * ‖stateV N (tens ψ)‖ ^ 2 ≤ expect (opM N P.w) (stateV N (tens ψ))) := by
  obtain ⟨s', r, o, -⟩ := C23_single_site (ss_legs hP.svR hP.svL) hN temp k clk hm ht
  obtain ⟨us, hus⟩ := ssUpds_last hN hk
  have hlen : us.length < (ssUpds N k).length := by rw [hus]; simp
  have hlen' : us.length + 1 = (ssUpds N k).length := by rw [hus]; simp
  have hg : (ssUpds N k)[us.length] = (.l, 1) := by simp [hus]
  have hs : ssAt N P (ssUpds N k) (ψ, clk) (us.length + 1) = opt1Sweeps (ssAlg N P) (ssOpt N P) N k (ψ, clk) := by
    unfold ssAt; rw [List.take_of_length_le (by omega), opt1Sweeps_fold]
  have al : Alive N P (ssUpds N k) (ψ, clk) us.length := fun m hm => hz m (by omega)
  obtain ⟨-, hc, -, e, e1, e2, -⟩ := ssAt_ok hP (ssPath_sweeps hN k).1 (ψ := (ψ, clk)) h hlen al
  have hr : SsReports N P (ssUpds N k) (ψ, clk) us.length e := ⟨_, List.getElem?_eq_getElem hlen, e1⟩
  have nz := hz _ (Nat.le_refl _)
  have z0 : stateV N (tens ψ) ≠ 0 := hz 0 (by omega)
  rw [hg] at hc e1 e2
  unfold ssState at nz
  rw [← hlen'] at nz
  rw [hs] at hc e1 e2 nz
  refine ⟨s', _, e, r, o, hc, nz, e2, e1, fun E0 hE => C77_lower_bound hP hN k clk h al hE hr, fun hcut => ?_⟩
  have := (C77_monotone hP hcut hN k clk h z0).1 _ _ hr
  unfold ssState at this
  rw [hs] at this
  exact this

/-! ### The noises that the program chooses -/

/-- The same run with other noises. -/
def withNoise (P : SsPar σ 𝕜) (ν : Nat → ℝ) : SsPar σ 𝕜 := { P with noise := ν }

theorem marked_map (N k : Nat) : (ssMarked N k).map Prod.fst = ssUpds N k := by
  unfold ssMarked ssUpds
  induction k with
  | zero => rfl
  | succ k ih =>
    rw [List.range_succ, List.flatMap_append, List.map_append, ih, List.replicate_succ', List.flatten_append, List.flatMap_singleton, List.flatten_singleton]
    congr 1
    cases ssSweep N with
    | nil => rfl
    | cons u us => simp [Function.comp_def]

theorem ss1_with (ν : Nat → ℝ) (ψ : (Nat → LTen σ 𝕜) × Nat) (u : Dir × Nat) : ss1 N (withNoise P ν) ψ u = (ssWith N P (ν ψ.2) ψ.1 u, ψ.2 + 1) := by
  obtain ⟨d, i⟩ := u
  cases d <;> rfl

theorem ssAt_seq (ν : Nat → ℝ) (k clk n : Nat) (ψ : Nat → LTen σ 𝕜) : ssAt N (withNoise P ν) (ssUpds N k) (ψ, clk) n =
    seqRun (fun x s (u : (Dir × Nat) × Option Nat) => ssWith N P x s u.1) ν ((ssMarked N k).take n) (ψ, clk) := by
  unfold ssAt seqRun
  rw [← marked_map, ← List.map_take, List.foldl_map]
  congr 1
  funext s u
  exact ss1_with ν s u.1

/-- **C77** (the adaptive noises). With the noises chosen by the rule of the program from its list of initial noises, its parameters and the energies of the run, the MPS after every
update is the one obtained with some sequence of noises fixed in advance; so everything above holds of it. -/
theorem C77_adaptive (N : Nat) (P : SsPar σ 𝕜) (Q : NoiseParams ℝ) (k clk : Nat) (ψ : Nat → LTen σ 𝕜) (h : NoiseSt ℝ) :
    ∃ ν : Nat → ℝ, ∀ n, (ssAdapt N P Q ((ssMarked N k).take n) (ψ, h)).1 = (ssAt N (withNoise P ν) (ssUpds N k) (ψ, clk) n).1 := by
  obtain ⟨ν, hν⟩ := seqRun_exists (fun x s (u : (Dir × Nat) × Option Nat) => ssWith N P x s u.1) (ssNoise N P Q) (ssScal N P Q) (ssMarked N k) ψ h clk
  exact ⟨ν, fun n => by rw [ssAt_seq]; exact (hν n).symm⟩

theorem ssNoise_zero {Q : NoiseParams ℝ} (hQ : ∀ x, x ∈ Q.noises → x = 0) (hm : 0 ≤ Q.maxNoise) {ψ : Nat → LTen σ 𝕜} {h : NoiseSt ℝ} {u : (Dir × Nat) × Option Nat}
    (hh : h.noise = 0 ∨ u.2 = some 0) : ssNoise N P Q ψ h u = 0 := by
  have h0 : (ssReset Q.noises h u.2).noise = 0 := by
    unfold ssReset
    have hl : ∀ (i : Nat) (y : ℝ), (if Q.noises = [] then [(0 : ℝ)] else Q.noises)[i]? = some y → y = 0 := by
      intro i y hy
      split at hy
      · simpa using List.mem_of_getElem? hy
      · exact hQ _ (List.mem_of_getElem? hy)
    rcases hu : u.2 with _ | i
    · rcases hh with hh | hh
      · exact hh
      · rw [hu] at hh; cases hh
    · show ((if Q.noises = [] then [(0 : ℝ)] else Q.noises)[i]?).getD h.noise = 0
      cases hy : (if Q.noises = [] then [(0 : ℝ)] else Q.noises)[i]? with
      | some y => exact hl i y hy
      | none =>
        rcases hh with hh | hh
        · exact hh
        · rw [hu] at hh
          obtain rfl := Option.some.inj hh
          split at hy
          · cases hy
          · rename_i hne
            have := List.length_pos_iff.mpr hne
            rw [List.getElem?_eq_getElem this] at hy
            cases hy
  unfold ssNoise adapt
  rw [h0]
  split
  · rfl
  · split
    · exact zero_mul _
    · unfold Dbl.min
      split
      · rename_i hlt
        have : Q.maxNoise < realDbl.mul 0 Q.increase := by simpa [realDbl] using hlt
        rw [show realDbl.mul 0 Q.increase = 0 from zero_mul _] at this
        linarith
      · exact zero_mul _

/-- **C77** (no noise). If all initial noises are zero, or there are none, the program runs with noise zero throughout; then the state never becomes zero (`C77_alive_silent`). -/
theorem C77_no_noise (N : Nat) (P : SsPar σ 𝕜) {Q : NoiseParams ℝ} (hQ : ∀ x, x ∈ Q.noises → x = 0) (hm : 0 ≤ Q.maxNoise) (k clk : Nat) (ψ : Nat → LTen σ 𝕜) (h : NoiseSt ℝ) (n : Nat) :
    (ssAdapt N P Q ((ssMarked N k).take n) (ψ, h)).1 = (ssAt N (withNoise P fun _ => 0) (ssUpds N k) (ψ, clk) n).1 ∧ (withNoise P fun _ => 0).Silent := by
  refine ⟨?_, fun n => by show |(0 : ℝ)| < _; rw [abs_zero]; norm_num⟩
  rw [ssAt_seq]
  have key : ∀ (us : List ((Dir × Nat) × Option Nat)) (ψ : Nat → LTen σ 𝕜) (h : NoiseSt ℝ) (c : Nat), (h.noise = 0 ∨ ∀ u, us.head? = some u → u.2 = some 0) →
      (ssAdapt N P Q us (ψ, h)).1 = (seqRun (fun x s (u : (Dir × Nat) × Option Nat) => ssWith N P x s u.1) (fun _ => 0) us (ψ, c)).1 := by
    intro us
    induction us with
    | nil => intros; rfl
    | cons u us ih =>
      intro ψ h c hh
      have hz : ssNoise N P Q ψ h u = 0 := ssNoise_zero hQ hm (hh.imp_right fun hh => hh u rfl)
      have := ih (ssWith N P (ssNoise N P Q ψ h u) ψ u.1) (ssScal N P Q ψ h u) (c + 1) (Or.inl hz)
      refine Eq.trans (b := (ssAdapt N P Q us (ssWith N P (ssNoise N P Q ψ h u) ψ u.1, ssScal N P Q ψ h u)).1) rfl (this.trans ?_)
      rw [hz]
      rfl
  refine key _ _ _ _ (Or.inr fun u hu => ?_)
  unfold ssMarked at hu
  cases k with
  | zero => simp at hu
  | succ k =>
    cases n with
    | zero => simp at hu
    | succ n =>
      rw [List.range_succ_eq_map, List.flatMap_cons] at hu
      cases hs : ssSweep N with
      | nil =>
        rw [hs] at hu
        have hf : ∀ l : List Nat, (l.flatMap fun _ => ([] : List ((Dir × Nat) × Option Nat))) = [] := fun l => by simp
        simp only [List.nil_append] at hu
        rw [hf] at hu
        cases hu
      | cons v vs =>
        rw [hs] at hu
        simp only [List.cons_append, List.take_succ_cons, List.head?_cons] at hu
        obtain rfl := Option.some.inj hu
        rfl

end Verif.Props
