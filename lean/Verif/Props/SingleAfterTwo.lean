import Verif.Props.SsNumEx
import Verif.Props.Vmps
/-
C95, the excluded case: `SingleSiteFiniteVMPS` directly after the serial `TwoSiteFiniteVMPS`, which leaves the canonical centre at site 1. The single-site program starts at site 0 without moving the
centre there, so that the first one-site problem is posed in a basis that is not orthonormal.
-/
namespace Verif.Props
open Finset Verif.Mps Verif.Disk Verif.Algo

section
variable {σ 𝕜 : Type} [RCLike 𝕜] [Fintype σ] [DecidableEq σ] {N : Nat} {P : SsPar σ 𝕜}

/-- The norm of a left-canonical tensor is the number of its columns. -/
theorem norm_toS {t : Ten σ 𝕜} (h : LeftIso t) : ‖toS t‖ ^ 2 = (t.r : ℝ) := by
  have h1 : (inner 𝕜 (toS t) (toS t) : 𝕜) = (t.r : 𝕜) := by
    have : ∀ b : Fin t.r, ∑ x, ∑ a : Fin t.l, star (t.v x a b) * t.v x a b = (1 : 𝕜) := fun b => by
      have := h b b.2 b b.2
      rw [if_pos rfl] at this
      rw [← this]
      exact sum_congr rfl fun x _ => (Finset.sum_range (fun a => star (t.v x a b) * t.v x a b)).symm
    calc (inner 𝕜 (toS t) (toS t) : 𝕜) = ∑ i : Fin t.l × σ × Fin t.r, star (t.v i.2.1 i.1 i.2.2) * t.v i.2.1 i.1 i.2.2 := by
          rw [PiLp.inner_apply]
          exact sum_congr rfl fun i _ => by rw [RCLike.inner_apply, mul_comm]; rfl
      _ = ∑ b : Fin t.r, ∑ x, ∑ a : Fin t.l, star (t.v x a b) * t.v x a b := by
          rw [Fintype.sum_prod_type, sum_comm]
          rw [Fintype.sum_prod_type, sum_comm]
      _ = (t.r : 𝕜) := by rw [sum_congr rfl fun b _ => this b]; simp
  rw [inner_self_eq_norm_sq_to_K] at h1
  exact_mod_cast h1

/-- The first one-site problem is that of `H` in the states with another tensor at site 0. -/
theorem first_elem (hP : SsOK N P) (hN : 2 ≤ N) {ψ : Nat → LTen σ 𝕜} (h : Closed N (tens ψ)) (X Y : SiteV σ 𝕜 (tens ψ 0).l (tens ψ 0).r) :
    inner 𝕜 (embed N 0 (tens ψ) (ofV (sAddR (tens ψ (0 + 1)) X))) (Matrix.toEuclideanLin (opM N P.w) (embed N 0 (tens ψ) (ofV (sAddR (tens ψ (0 + 1)) Y)))) =
      inner 𝕜 X (siteHam ((ssAlg N P).lenv ψ 0) ((ssAlg N P).renv N ψ (N - (0 + 1))) (P.w 0) (tens ψ 0).l (tens ψ 0).r Y) := by
  have hi : 0 + 1 < N := by omega
  have he := ss_lenv hP h (show 0 < N by omega)
  have hf := ss_renv hP h hi
  rw [embed_elem hP.closed hi he hf, inner_siteHamR _ _ _ _ _ hf.2.2.1 hf.2.2.2.2.1 (hP.closed.2.2 0 hi), ss_renv_succ hi]

theorem first_symm (hP : SsOK N P) (hN : 2 ≤ N) {ψ : Nat → LTen σ 𝕜} (h : Closed N (tens ψ)) :
    (siteHam ((ssAlg N P).lenv ψ 0) ((ssAlg N P).renv N ψ (N - (0 + 1))) (P.w 0) (tens ψ 0).l (tens ψ 0).r).IsSymmetric := fun X Y => by
  have hS : (Matrix.toEuclideanLin (opM N P.w)).IsSymmetric := Matrix.isSymmetric_toEuclideanLin_iff.mpr hP.herm
  rw [← first_elem hP hN h X Y, ← hS, ← inner_conj_symm, ← first_elem hP hN h Y X, inner_conj_symm]

/-- Where the sweeps begin. -/
theorem ssUpds_first (hN : 2 ≤ N) {k : Nat} (hk : k ≠ 0) : ∃ us, ssUpds N k = (.r, 0) :: us := by
  obtain ⟨k, rfl⟩ := Nat.exists_eq_succ_of_ne_zero hk
  obtain ⟨m, rfl⟩ : ∃ m, N = m + 2 := ⟨N - 2, by omega⟩
  exact ⟨_, by unfold ssUpds ssSweep; rw [List.replicate_succ, List.flatten_cons, show m + 2 - 1 = m + 1 by omega, List.range_succ_eq_map]; rfl⟩

/-- **C95**, the excluded case: from an MPS with its centre at site 1, as `TwoSiteFiniteVMPS` leaves it, the first update of `SingleSiteFiniteVMPS` reports at most the energy of the MPS divided by its
first bond dimension, which is no energy at all. -/
theorem C95_single_after_two (hP : SsOK N P) (hN : 2 ≤ N) {k : Nat} (hk : k ≠ 0) (clk : Nat) {ψ : Nat → LTen σ 𝕜} (h : Canon N 1 (tens ψ)) (hz : stateV N (tens ψ) ≠ 0) :
    ∃ e, SsReports N P (ssUpds N k) (ψ, clk) 0 e ∧ e * ((ψ 0).ten.r : ℝ) ≤ Mps.expect (opM N P.w) (stateV N (tens ψ)) := by
  have hi : 0 + 1 < N := by omega
  have el := first_elem hP hN h.1
  have hs := first_symm hP hN h.1
  have hst := embed_sAddR h.1 hi
  have hv : toS (tens ψ 0) ≠ 0 := fun h0 => by
    apply hz
    have h1 := embed_inner_v h.1 hi (fun j hj => absurd hj (Nat.not_lt_zero j)) (fun j h1 h2 => h.2.2 j h1 h2) (sAddR (tens ψ (0 + 1)) (toS (tens ψ 0))) (sAddR (tens ψ (0 + 1)) (toS (tens ψ 0)))
    have h2 : sAddR (tens ψ (0 + 1)) (0 : SiteV σ 𝕜 (tens ψ 0).l (tens ψ 0).r) = 0 := by
      ext i; simp [sAddR]
    rw [hst, h0, h2, inner_zero_left] at h1
    exact inner_self_eq_zero.mp h1
  obtain ⟨g, hg, gB⟩ := C57_never_worse hs hv hP.tri hP.iter ((tens ψ 0).l * Fintype.card σ * (tens ψ 0).r) P.tol
  rw [← el, hst, norm_toS (h.2.1 0 (by omega))] at gB
  refine ⟨g.energy, ?_, gB⟩
  obtain ⟨us, hu⟩ := ssUpds_first hN hk
  rw [hu]
  refine ⟨_, rfl, ?_⟩
  have hg' : ssLanczos P 0 ((ssAlg N P).lenv ψ 0) ((ssAlg N P).renv N ψ (N - (0 + 1))) (ψ 0).ten = some g := hg
  show (put ψ 0 (ssUpd N P (P.noise clk) .r 0 ((ssAlg N P).lenv ψ 0) ((ssAlg N P).renv N ψ (N - (0 + 1))) (ψ 0).ten (ψ (0 + 1)).ten) 0).e0 = _
  unfold put ssUpd
  rw [Function.update_of_ne (by omega), Function.update_self, hg']
/-- The first update leaves the centre at site 1. -/
theorem first_canon (hP : SsOK N P) (hN : 2 ≤ N) (ν : ℝ) {ψ : Nat → LTen σ 𝕜} (h : Canon N 1 (tens ψ)) :
    Canon N 1 (tens (put ψ 0 (ssUpd N P ν .r 0 ((ssAlg N P).lenv ψ 0) ((ssAlg N P).renv N ψ (N - (0 + 1))) (ψ 0).ten (ψ (0 + 1)).ten))) := by
  have hi : 0 + 1 < N := by omega
  have hL : ∀ j, j < 0 → LeftIso (tens ψ j) := fun j hj => absurd hj (Nat.not_lt_zero j)
  have hR : ∀ j, 0 + 1 < j → j < N → RightIso (tens ψ j) := h.2.2
  unfold ssUpd
  cases hg : ssLanczos P 0 ((ssAlg N P).lenv ψ 0) ((ssAlg N P).renv N ψ (N - (0 + 1))) (ψ 0).ten with
  | none =>
    have : tens (put ψ 0 (⟨(ψ 0).ten, none⟩, ⟨(ψ (0 + 1)).ten, none⟩)) = tens ψ := by
      rw [tens_put]
      funext j
      unfold setPair
      by_cases h1 : j = 0 + 1
      · subst h1; rw [Function.update_self]; rfl
      · rw [Function.update_of_ne h1]
        by_cases h0 : j = 0
        · subst h0; rw [Function.update_self]; rfl
        · rw [Function.update_of_ne h0]
    show Canon N 1 (tens (put ψ 0 (⟨(ψ 0).ten, none⟩, ⟨(ψ (0 + 1)).ten, none⟩)))
    rw [this]; exact h
  | some g =>
    have ag := agree_sAddR (tens ψ (0 + 1)) (h.1.2.2 0 hi) g.vec
    have ag' := ssExpR_agree (N := N) (P := P) ag ν 0 ((ssAlg N P).lenv ψ 0)
    set q := ssExpR N P ν 0 ((ssAlg N P).lenv ψ 0) (ofS g.vec) (tens ψ (0 + 1)) with hq
    have pl : (ssCutR P q).1.l = (tens ψ 0).l := (hP.svR.dim q.1).trans ag'.l
    have pr : (ssCutR P q).2.r = (tens ψ (0 + 1)).r := ag'.r
    obtain ⟨c, -, -, -⟩ := split_core0 h.1 hi hL hR (sAddR (tens ψ (0 + 1)) g.vec) (p := ssCutR P q) pl rfl pr
      (projR_at (T := ofV (sAddR (tens ψ (0 + 1)) g.vec)) pl (hP.svR.iso _) fun y j b hj hb => cutR_hp hP.svR ag' y j b hj hb)
    have hput : tens (put ψ 0 (⟨(ssCutR P q).1, some g.energy⟩, ⟨(ssCutR P q).2, some g.energy⟩)) = setPair (tens ψ) 0 (ssCutR P q) := tens_put _ _ _
    show Canon N 1 (tens (put ψ 0 (⟨(ssCutR P q).1, some g.energy⟩, ⟨(ssCutR P q).2, some g.energy⟩)))
    rw [hput]
    refine ⟨c, fun j hj => ?_, fun j hj hj' => ?_⟩
    · obtain rfl : j = 0 := by omega
      rw [setPair_l]; exact hP.svR.iso _
    · rw [setPair_o _ _ _ (by omega) (by omega)]; exact hR j hj hj'

/-- **C95**, the excluded case: if the first update does not turn the state into zero, `SingleSiteFiniteVMPS` recovers from a centre at site 1. The call succeeds and all updates but the first are those of
C77: the MPS then on disk has its centre at site 0 and is not zero, the energy returned is not below any lower bound of the Hamiltonian, and if nothing was discarded the MPS on disk is normalised and has
this energy, which is at most the energy of the MPS after the first update. -/
theorem C95_single_recovers (hP : SsOK N P) (hN : 2 ≤ N) (temp : Bool) {k : Nat} (hk : k ≠ 0) (clk : Nat) (hq : P.Silent ∨ P.NoCut) {ψ : Nat → LTen σ 𝕜} {d : Dsk (LTen σ 𝕜) (Env3 𝕜)}
    (hm : OnDisk N ψ d) (ht : TempOK1 (ssAlg N P) N temp ψ d) (h : Canon N 1 (tens ψ)) (hz : ssState N P (ssUpds N k) (ψ, clk) 1 ≠ 0) :
    ∃ s' ψ' e, run N N (singleSite (ssAlg N P) (ssOpt N P) N temp k) ⟨Mem.blank clk, d⟩ = .ok s' ∧ OnDisk N ψ' s'.dsk ∧
      Canon N 0 (tens ψ') ∧ stateV N (tens ψ') ≠ 0 ∧ (ψ' 0).e0 = some e ∧
      (∀ E0, (∀ Φ : ChainV σ 𝕜 N, E0 * ‖Φ‖ ^ 2 ≤ Mps.expect (opM N P.w) Φ) → E0 ≤ e) ∧
      (P.NoCut → ‖stateV N (tens ψ')‖ = 1 ∧ Mps.expect (opM N P.w) (stateV N (tens ψ')) = e ∧
        e * ‖ssState N P (ssUpds N k) (ψ, clk) 1‖ ^ 2 ≤ Mps.expect (opM N P.w) (ssState N P (ssUpds N k) (ψ, clk) 1)) := by
  obtain ⟨s', r, o, -⟩ := C23_single_site (ss_legs hP.svR hP.svL) hN temp k clk hm ht
  obtain ⟨us, hus⟩ := ssUpds_first hN hk
  obtain ⟨vs, hvs⟩ := ssUpds_last hN hk
  have hp := (ssPath_sweeps hN k).1
  rw [hus] at hp hz
  set φ := ss1 N P (ψ, clk) (.r, 0) with hφ
  have hc : Canon N 1 (tens φ.1) := first_canon hP hN (P.noise clk) h
  have hz' : ssState N P us φ 0 ≠ 0 := hz
  have upd : ∀ n (hn : n < us.length), (∀ m, m ≤ n → ssState N P us φ m ≠ 0) → _ := fun n hn hz => ssAt_ok hP (us := us) (ψ := φ) hp.2 hc hn hz
  have al : ∀ n, n ≤ us.length → ∀ m, m ≤ n → ssState N P us φ m ≠ 0 := by
    intro n
    induction n with
    | zero => intro _ m hm; obtain rfl : m = 0 := by omega
              exact hz'
    | succ n ih =>
      intro hn m hm
      have hi := ih (by omega)
      by_cases hmn : m = n + 1
      · subst hmn
        obtain ⟨-, -, a, e, -, -, hs⟩ := upd n (by omega) hi
        rcases hq with hq | hq
        · exact a (hq _)
        · obtain ⟨Φ, n1, -, -, n2⟩ := hs.unit
          intro h0
          rw [← n2 hq, h0, norm_zero] at n1
          exact zero_ne_one n1
      · exact hi m (by omega)
  have hl : us.length ≠ 0 := fun h0 => by
    rw [List.length_eq_zero_iff.mp h0] at hus
    rw [hus] at hvs
    cases vs with
    | nil => simp at hvs
    | cons a vs => simp at hvs
  obtain ⟨n, hn⟩ : ∃ n, us.length = n + 1 := ⟨us.length - 1, by omega⟩
  have hlast : us[n]'(by omega) = (.l, 1) := by
    have h1 : (ssUpds N k)[n + 1]? = some (.l, 1) := by
      have : n + 1 = vs.length := by
        have := congrArg List.length (hus.symm.trans hvs)
        simp at this; omega
      rw [hvs, this]; simp
    rw [hus, List.getElem?_cons_succ, List.getElem?_eq_getElem (by omega)] at h1
    exact Option.some.inj h1
  have hs : ssAt N P us φ (n + 1) = opt1Sweeps (ssAlg N P) (ssOpt N P) N k (ψ, clk) := by
    unfold ssAt
    rw [List.take_of_length_le (by omega), opt1Sweeps_fold, hus]
    rfl
  obtain ⟨-, c2, -, e, -, e2, st⟩ := upd n (by omega) fun m hm => al n (by omega) m hm
  have nz := al (n + 1) (by omega) (n + 1) (Nat.le_refl _)
  obtain ⟨Φ, n1, n2, -, n3⟩ := st.unit
  -- without truncation the energies do not increase
  have mono : P.NoCut → ∀ m (hm : m < us.length), ∀ e, HStep N (opM N P.w) P.NoCut (ssState N P us φ m) e (ssState N P us φ (m + 1)) →
      e * ‖ssState N P us φ 0‖ ^ 2 ≤ Mps.expect (opM N P.w) (ssState N P us φ 0) := by
    intro hcut m
    induction m with
    | zero => intro _ e he; exact he.better
    | succ m ih =>
      intro hm e he
      obtain ⟨-, -, -, e', -, -, st'⟩ := upd m (by omega) fun j hj => al m (by omega) j hj
      have h1 := ih (by omega) e' st'
      obtain ⟨Φ', m1, m2, -, m3⟩ := st'.unit
      have h2 := he.better
      rw [m3 hcut, m1, expect_of m2] at h2
      exact le_trans (mul_le_mul_of_nonneg_right (by linarith) (by positivity)) h1
  rw [hlast] at c2 e2
  have mo := fun hcut => mono hcut n (by omega) e st
  unfold ssState at nz n3
  rw [hs] at c2 e2 nz n3
  refine ⟨s', _, e, r, o, c2, nz, e2, fun E0 hE => ?_, fun hcut => ⟨?_, ?_, ?_⟩⟩
  · have := hE Φ
    rw [n1, expect_of n2] at this
    simpa using this
  · rw [n3 hcut]; exact n1
  · rw [n3 hcut]; exact expect_of n2
  · rw [hus]; exact mo hcut

/-- If nothing is discarded, the state after the first update is that of the Lanczos vector. -/
theorem first_state (hP : SsOK N P) (hx : P.NoCut) (hN : 2 ≤ N) (ν : ℝ) {ψ : Nat → LTen σ 𝕜} (h : Canon N 1 (tens ψ))
    {g : GsRes (SiteV σ 𝕜 (tens ψ 0).l (tens ψ 0).r)} (hg : ssLanczos P 0 ((ssAlg N P).lenv ψ 0) ((ssAlg N P).renv N ψ (N - (0 + 1))) (ψ 0).ten = some g) :
    stateV N (tens (put ψ 0 (ssUpd N P ν .r 0 ((ssAlg N P).lenv ψ 0) ((ssAlg N P).renv N ψ (N - (0 + 1))) (ψ 0).ten (ψ (0 + 1)).ten))) =
      embed N 0 (tens ψ) (ofV (sAddR (tens ψ (0 + 1)) g.vec)) := by
  have hi : 0 + 1 < N := by omega
  have hL : ∀ j, j < 0 → LeftIso (tens ψ j) := fun j hj => absurd hj (Nat.not_lt_zero j)
  have hR : ∀ j, 0 + 1 < j → j < N → RightIso (tens ψ j) := h.2.2
  unfold ssUpd
  rw [hg]
  have ag := agree_sAddR (tens ψ (0 + 1)) (h.1.2.2 0 hi) g.vec
  have ag' := ssExpR_agree (N := N) (P := P) ag ν 0 ((ssAlg N P).lenv ψ 0)
  set q := ssExpR N P ν 0 ((ssAlg N P).lenv ψ 0) (ofS g.vec) (tens ψ (0 + 1)) with hq
  have pl : (ssCutR P q).1.l = (tens ψ 0).l := (hP.svR.dim q.1).trans ag'.l
  have pr : (ssCutR P q).2.r = (tens ψ (0 + 1)).r := ag'.r
  obtain ⟨-, -, -, ex⟩ := split_core0 h.1 hi hL hR (sAddR (tens ψ (0 + 1)) g.vec) (p := ssCutR P q) pl rfl pr
    (projR_at (T := ofV (sAddR (tens ψ (0 + 1)) g.vec)) pl (hP.svR.iso _) fun y j b hj hb => cutR_hp hP.svR ag' y j b hj hb)
  have hput : tens (put ψ 0 (⟨(ssCutR P q).1, some g.energy⟩, ⟨(ssCutR P q).2, some g.energy⟩)) = setPair (tens ψ) 0 (ssCutR P q) := tens_put _ _ _
  show stateV N (tens (put ψ 0 (⟨(ssCutR P q).1, some g.energy⟩, ⟨(ssCutR P q).2, some g.energy⟩))) = _
  rw [hput]
  refine ex fun x y a b ha hb => ?_
  rw [ag'.v x y a b ha hb]
  refine (cutR_prod P.svdR q x y a b).trans ?_
  rw [ag'.m]
  exact sum_congr rfl fun k hk => by rw [hx.1 q.1 x a k (by rw [ag'.l]; exact ha) (by rw [ag'.m]; exact mem_range.mp hk)]

end

/-! ### The state becomes zero -/

section
/-- A product Hamiltonian: 1 for an up spin, 2 for a down spin. Its only ground state is all spins up, with energy 1. -/
def exD (_ : Nat) : Ten (Bool × Bool) ℝ := ⟨1, 1, fun s _ _ => if s.1 = s.2 then (if s.1 then 1 else 2) else 0⟩

/-- Its energies. -/
def exLevel (s : Fin 3 → Bool) : ℝ := (if s 0 then 1 else 2) * ((if s 1 then 1 else 2) * (if s 2 then 1 else 2))

theorem exD_diag : opM 3 exD = Matrix.diagonal exLevel := by
  ext s s'
  show amp ((List.range 3).map exD) (List.ofFn fun i => (s i, s' i)) 0 0 = _
  have : amp ((List.range 3).map exD) (List.ofFn fun i => (s i, s' i)) 0 0 = if s 0 = s' 0 ∧ s 1 = s' 1 ∧ s 2 = s' 2 then exLevel s else 0 := by
    simp [List.range_succ, List.ofFn_succ, amp, exD, exLevel]
    split_ifs <;> simp_all
  rw [this, Matrix.diagonal_apply]
  by_cases h : s = s'
  · subst h; simp
  · rw [if_neg h, if_neg]
    rintro ⟨h0, h1, h2⟩
    exact h (funext fun i => by fin_cases i <;> assumption)

theorem exD_mul (Φ : ChainV Bool ℝ 3) (s : Fin 3 → Bool) : Matrix.toEuclideanLin (opM 3 exD) Φ s = exLevel s * Φ s := by
  rw [exD_diag]
  simp [Matrix.mulVec_diagonal, Matrix.toLpLin_apply]

theorem exD_inner (Φ Ψ : ChainV Bool ℝ 3) : inner ℝ Φ (Matrix.toEuclideanLin (opM 3 exD) Ψ) = ∑ s, exLevel s * (Φ s * Ψ s) := by
  rw [PiLp.inner_apply]
  exact sum_congr rfl fun s _ => by rw [RCLike.inner_apply, exD_mul, conj_trivial]; ring

theorem exLevel_ge (s : Fin 3 → Bool) (h : s ≠ fun _ => true) : 2 ≤ exLevel s := by
  unfold exLevel
  have : s 0 = false ∨ s 1 = false ∨ s 2 = false := by
    by_contra hc
    push_neg at hc
    exact h (funext fun i => by fin_cases i <;> simp_all)
  cases h0 : s 0 <;> cases h1 : s 1 <;> cases h2 : s 2 <;> simp_all <;> norm_num

theorem exLevel_up : exLevel (fun _ => true) = 1 := by simp [exLevel]

theorem exLevel_one (s : Fin 3 → Bool) : 1 ≤ exLevel s := by
  by_cases h : s = fun _ => true
  · rw [h, exLevel_up]
  · linarith [exLevel_ge s h]

theorem norm_sq_sum (Φ : ChainV Bool ℝ 3) : ‖Φ‖ ^ 2 = ∑ s, Φ s * Φ s := by
  rw [EuclideanSpace.norm_sq_eq]
  exact sum_congr rfl fun s _ => by rw [Real.norm_eq_abs, sq_abs, sq]

/-- A normalised state of at most the lowest energy is all spins up. -/
theorem exD_ground {Φ : ChainV Bool ℝ 3} (hn : ‖Φ‖ = 1) (he : Mps.expect (opM 3 exD) Φ ≤ 1) : (∀ s, s ≠ (fun _ => true) → Φ s = 0) ∧ Φ (fun _ => true) * Φ (fun _ => true) = 1 := by
  have h1 : ∑ s, Φ s * Φ s = 1 := by rw [← norm_sq_sum, hn]; norm_num
  have h2 : ∑ s, exLevel s * (Φ s * Φ s) ≤ 1 := by
    have := he
    unfold Mps.expect at this
    rw [exD_inner] at this
    exact this
  have h3 : ∑ s, (exLevel s - 1) * (Φ s * Φ s) ≤ 0 := by
    simp only [sub_mul, one_mul, sum_sub_distrib]; linarith
  have h4 : ∀ s ∈ (univ : Finset (Fin 3 → Bool)), 0 ≤ (exLevel s - 1) * (Φ s * Φ s) := fun s _ => mul_nonneg (by linarith [exLevel_one s]) (mul_self_nonneg _)
  have h5 := (sum_eq_zero_iff_of_nonneg h4).mp (le_antisymm h3 (sum_nonneg h4))
  have h6 : ∀ s, s ≠ (fun _ => true) → Φ s = 0 := fun s hs => by
    rcases mul_eq_zero.mp (h5 s (mem_univ s)) with h | h
    · linarith [exLevel_ge s hs]
    · exact mul_self_eq_zero.mp h
  refine ⟨h6, ?_⟩
  rw [← h1]
  exact (sum_eq_single (f := fun s => Φ s * Φ s) (fun _ => true) (fun s _ hs => by show Φ s * Φ s = 0; rw [h6 s hs, mul_zero]) fun h => absurd (mem_univ _) h).symm

/-- The amplitudes of a chain of three sites whose first tensor has been replaced. -/
theorem embed_three {t : Nat → Ten Bool ℝ} (h : Closed 3 t) (X : SiteV Bool ℝ (t 0).l (t 0).r) (s : Fin 3 → Bool) :
    embed 3 0 t (ofV (sAddR (t (0 + 1)) X)) s = ∑ k ∈ range (t 0).r, (ofS X).v (s 0) 0 k * amp [t 1, t 2] [s 1, s 2] k 0 := by
  have hc : Closed 3 (Function.update t 0 (ofS X)) := by
    refine ⟨?_, ?_, fun j hj => ?_⟩
    · rw [Function.update_self]; exact h.1
    · rw [Function.update_of_ne (by omega)]; exact h.2.1
    · rw [Function.update_of_ne (show j + 1 ≠ 0 by omega)]
      by_cases h0 : j = 0
      · subst h0; rw [Function.update_self]; exact h.2.2 0 hj
      · rw [Function.update_of_ne h0]; exact h.2.2 j hj
  have h1 := embed_merge hc (show 0 + 1 < 3 by omega)
  rw [embed_upd (t := t) (fun j hj _ => Function.update_of_ne hj _ _), Function.update_self, Function.update_of_ne (by omega)] at h1
  have ag := agree_sAddR (t (0 + 1)) (h.2.2 0 (by omega)) X
  have h2 : embed 3 0 t (ofV (sAddR (t (0 + 1)) X)) = embed 3 0 t (mergeTen (ofS X) (t (0 + 1))) := embed_congr rfl rfl fun x y a b ha hb => ag.v x y a b ha hb
  rw [h2, h1]
  rfl

/-- The components of a tensor of site 0. -/
noncomputable def co {l r : Nat} (X : SiteV Bool ℝ l r) (s : Bool) (k : Nat) : ℝ := (ofS X).v s 0 k

/-- A one-site problem that only sees the column of the up spin: from the tensor that copies the spin into the bond, the solver finds the vectors that it does not see. -/
theorem kill_core {l r : Nat} (hl : l = 1) (hr : r = 2) (H : SiteV Bool ℝ l r →ₗ[ℝ] SiteV Bool ℝ l r) (v : SiteV Bool ℝ l r)
    (hH : ∀ X Y, inner ℝ X (H Y) = ∑ s : Bool, (if s then 1 else 2) * (co X s 1 * co Y s 1)) (hv : ∀ s k, k < 2 → co v s k = if k = (if s then 1 else 0) then 1 else 0)
    {tri : TriSolver} (ht : Solves tri) {K : Nat} (hK : 2 ≤ K) {dim : Nat} (hd : 1 ≤ dim) (tol : ℝ) :
    ∃ g, gsSolve H v tri K dim tol = some g ∧ g.energy = 0 ∧ ∀ s, co g.vec s 1 = 0 := by
  subst hl hr
  have hs : H.IsSymmetric := fun X Y => by
    rw [real_inner_comm, hH, hH]
    exact sum_congr rfl fun s _ => by ring
  have hc : ∀ (X : SiteV Bool ℝ 1 2) s (k : Fin 2), co X s k = X (0, s, k) := fun X s k => by
    show (if h : 0 < 1 ∧ (k : Nat) < 2 then X (⟨0, h.1⟩, s, ⟨k, h.2⟩) else 0) = _
    rw [dif_pos ⟨Nat.one_pos, k.2⟩]
    rfl
  have c0 : ∀ (X : SiteV Bool ℝ 1 2) s, co X s 0 = X (0, s, 0) := fun X s => hc X s 0
  have c1 : ∀ (X : SiteV Bool ℝ 1 2) s, co X s 1 = X (0, s, 1) := fun X s => hc X s 1
  have v0 : ∀ s, v (0, s, 0) = if s then 0 else 1 := fun s => by rw [← c0, hv s 0 (by omega)]; cases s <;> rfl
  have v1 : ∀ s, v (0, s, 1) = if s then 1 else 0 := fun s => by rw [← c1, hv s 1 (by omega)]; cases s <;> rfl
  have hi : ∀ X Y : SiteV Bool ℝ 1 2, inner ℝ X Y = X (0, true, 0) * Y (0, true, 0) + X (0, true, 1) * Y (0, true, 1) + (X (0, false, 0) * Y (0, false, 0) + X (0, false, 1) * Y (0, false, 1)) := fun X Y => by
    rw [PiLp.inner_apply]
    simp only [Fintype.sum_prod_type, Fin.sum_univ_two, Fintype.sum_bool, Finset.univ_unique, Finset.sum_singleton, RCLike.inner_apply, conj_trivial]
    simp only [Fin.default_eq_zero]
    ring
  let u : SiteV Bool ℝ 1 2 := WithLp.toLp 2 fun i => if i.2.1 = true ∧ i.2.2 = 1 then 1 else 0
  have hu : H v = u := by
    refine ext_inner_left ℝ fun X => ?_
    rw [hH, hi]
    simp only [Fintype.sum_bool, c1, v1]
    simp [u]
  have hv0 : v ≠ 0 := fun h0 => by
    have := v1 true
    rw [h0] at this
    simp at this
  obtain ⟨g, g1, g2, -, -, -, g5, g6, -⟩ := C57_lanczos hs hv0 ht hK dim tol
  obtain ⟨g', g1', hst⟩ := C57_converged hs hv0 ht hK dim tol
  obtain rfl : g' = g := Option.some.inj (g1'.symm.trans g1)
  have h2 : 2 ≤ g'.iters := by
    by_contra hlt
    have h1 : g'.iters = 1 := by omega
    rw [h1] at hst
    rcases hst with h | h | h | ⟨w, hw, hn, -⟩
    · omega
    · omega
    · have : H v ∈ Submodule.span ℝ {v} := by
        refine (Submodule.span_mono ?_) (show H v ∈ krySpace H v 1 by simpa using h)
        rintro _ ⟨j, hj, rfl⟩
        obtain rfl : j = 0 := by have : j < 1 := hj; omega
        simp
      obtain ⟨c, hc'⟩ := Submodule.mem_span_singleton.mp this
      rw [hu] at hc'
      have e1 := congrArg (fun X : SiteV Bool ℝ 1 2 => X (0, false, 0)) hc'
      have e2 := congrArg (fun X : SiteV Bool ℝ 1 2 => X (0, true, 1)) hc'
      simp [u, v0, v1] at e1 e2
      rw [e1] at e2
      exact zero_ne_one e2
    · have : w ∈ (⊥ : Submodule ℝ (SiteV Bool ℝ 1 2)) := by
        rw [← Submodule.span_empty (R := ℝ)]
        refine (Submodule.span_mono ?_) hw
        rintro _ ⟨j, hj, rfl⟩
        have : j < 0 := hj
        omega
      rw [(Submodule.mem_bot ℝ).mp this] at hn
      simp at hn
  have hz : v - u ∈ krySpace H v g'.iters := by
    refine Submodule.sub_mem _ (Submodule.subset_span ⟨0, by show 0 < g'.iters; omega, by simp⟩) (Submodule.subset_span ⟨1, by show 1 < g'.iters; omega, by simp [hu]⟩)
  have h3 := g6 _ hz
  have h4 : inner ℝ (v - u) (H (v - u)) = 0 := by
    rw [hH]
    simp only [Fintype.sum_bool, c1, PiLp.sub_apply, v1]
    simp [u]
  have h5 : ‖v - u‖ ^ 2 = 1 := by
    rw [← real_inner_self_eq_norm_sq, hi]
    simp only [PiLp.sub_apply, v0, v1]
    simp [u]
  rw [h4, h5] at h3
  have h6 : g'.energy ≤ 0 := by simpa using h3
  have h7 : (if True then (1 : ℝ) else 2) * (co g'.vec true 1 * co g'.vec true 1) + 2 * (co g'.vec false 1 * co g'.vec false 1) = g'.energy := by
    have := g5
    rw [hH, Fintype.sum_bool] at this
    simpa using this
  rw [if_pos trivial, one_mul] at h7
  have p1 := mul_self_nonneg (co g'.vec true 1)
  have p2 := mul_self_nonneg (co g'.vec false 1)
  refine ⟨g', g1, by linarith, fun s => ?_⟩
  cases s
  · exact mul_self_eq_zero.mp (by linarith)
  · exact mul_self_eq_zero.mp (by linarith)

theorem two_range {n : Nat} (h : n = 2) (f : Nat → ℝ) : ∑ k ∈ range n, f k = f 0 + f 1 := by
  rw [h, sum_range_succ, sum_range_one]

/-- **C95**, the excluded case, reached by the programs: three spins, the Hamiltonian whose energies are the products of 1 for an up spin and 2 for a down spin. `TwoSiteFiniteVMPS` without truncation,
from the product state of its only ground state, succeeds and leaves the normalised ground state. The first update of `SingleSiteFiniteVMPS`, without noise and truncation, on the MPS it has left on
disk then reports the energy 0, below the ground-state energy 1, and turns the state into zero. -/
theorem C95_single_after_two_violation : ∃ (P2 : VmpsPar Bool ℝ) (P1 : SsPar Bool ℝ), ParOK 3 P2 ∧ NoCut P2 ∧ SsOK 3 P1 ∧ P1.NoCut ∧ P1.Silent ∧ P1.w = P2.w ∧
    (∀ Φ : ChainV Bool ℝ 3, 1 * ‖Φ‖ ^ 2 ≤ Mps.expect (opM 3 P1.w) Φ) ∧
    ∃ s ψ, run 3 2 (twoSite (vmpsAlg 3 P2) 3 false 1) ⟨Mem.blank 0, ⟨fun _ => .whole ⟨exUp, none⟩, fun _ => .gone, fun _ => .gone⟩⟩ = .ok s ∧ OnDisk 3 ψ s.dsk ∧
      ‖stateV 3 (tens ψ)‖ = 1 ∧ Mps.expect (opM 3 P1.w) (stateV 3 (tens ψ)) = 1 ∧
      ∀ k, k ≠ 0 → SsReports 3 P1 (ssUpds 3 k) (ψ, 0) 0 0 ∧ ssState 3 P1 (ssUpds 3 k) (ψ, 0) 1 = 0 := by
  obtain ⟨tri, ht⟩ := solver_exists
  have hcl : Closed 3 exD := ⟨rfl, rfl, fun _ _ => rfl⟩
  have hh : (opM 3 exD).IsHermitian := by rw [exD_diag]; exact Matrix.isHermitian_diagonal _
  let P2 : VmpsPar Bool ℝ := ⟨exD, fullR upEnum, fullL upEnum, tri, 10, 1⟩
  let P1 : SsPar Bool ℝ := ⟨exD, qrE upEnum, svdE upEnum, tri, 10, 1, fun _ => 0⟩
  have h2 : ParOK 3 P2 := ⟨hcl, hh, fullR_spec upEnum, fullL_spec upEnum, ht, by show 2 ≤ 10; omega⟩
  have h1 : SsOK 3 P1 := ⟨hcl, hh, siteFullR_spec _, siteFullL_spec _, ht, by show 2 ≤ 10; omega⟩
  have n2 : NoCut P2 := ⟨fullR_is _, fullL_is _⟩
  have n1 : P1.NoCut := ⟨fun t x a b ha hb => ((qrE_spec (K := ℝ) upEnum).fac t x a b ha hb).symm, fun t x a b ha hb => ((svdE_spec (K := ℝ) upEnum).fac t x a b ha hb).symm⟩
  have hlow : ∀ Φ : ChainV Bool ℝ 3, 1 * ‖Φ‖ ^ 2 ≤ Mps.expect (opM 3 exD) Φ := fun Φ => by
    have : Mps.expect (opM 3 exD) Φ = ∑ s, exLevel s * (Φ s * Φ s) := exD_inner Φ Φ
    rw [this, one_mul, norm_sq_sum]
    exact sum_le_sum fun s _ => le_mul_of_one_le_left (mul_self_nonneg _) (exLevel_one s)
  let ψ0 : Nat → LTen Bool ℝ := fun _ => ⟨exUp, none⟩
  obtain ⟨s', r, o, -⟩ := C19_final_mps (A := vmpsAlg 3 P2) (vmps_legs h2.spR h2.spL) (N := 3) (by omega) false 1 0 (ψ := ψ0)
    (d := ⟨fun _ => .whole ⟨exUp, none⟩, fun _ => .gone, fun _ => .gone⟩) (fun _ _ => rfl) (fun h => by cases h)
  obtain ⟨s'', ψ', e, r', o', c', z', -, -, lo, ex⟩ := C62_run h2 (by omega) false one_ne_zero 0 (ψ := ψ0)
    (d := ⟨fun _ => .whole ⟨exUp, none⟩, fun _ => .gone, fun _ => .gone⟩) (fun _ _ => rfl) (fun h => by cases h) (.inl rfl) (exUp_canon 3 0) (exUp_nz 3)
  obtain rfl : s'' = s' := Except.ok.inj (r'.symm.trans r)
  have hψ : ψ' 0 = (optSweeps (vmpsAlg 3 P2) 3 0 2 1 (ψ0, 0)).1 0 := File.whole.inj ((o' 0 (by omega)).symm.trans (o 0 (by omega)))
  -- the first tensor copies the spin into the bond
  have hr : (ψ' 0).ten.l = 1 ∧ (ψ' 0).ten.r = 2 ∧ ∀ s k, (ψ' 0).ten.v s 0 k = if k = (if s then 1 else 0) then 1 else 0 := by
    obtain ⟨-, -, e1, ⟨u, hu, r1, -⟩, -⟩ := C62_update h2 (lb := 0) (rb := 2) (by omega) (by omega) 1 0 (.inl rfl) (exUp_canon 3 0) (exUp_nz 3) (n := 0) (by decide)
    obtain rfl : (.r, 0) = u := Option.some.inj hu
    have hu1 : (optSweeps (vmpsAlg 3 P2) 3 0 2 1 (ψ0, 0)).1 0 = (updTwo P2 .r 0 ((vmpsAlg 3 P2).lenv ψ0 0) ((vmpsAlg 3 P2).renv 3 ψ0 1) exUp exUp).1 := rfl
    have hu2 : (runAt 3 P2 (upds 0 2 1) (ψ0, 0) 1).1 0 = (updTwo P2 .r 0 ((vmpsAlg 3 P2).lenv ψ0 0) ((vmpsAlg 3 P2).renv 3 ψ0 1) exUp exUp).1 := rfl
    rw [hψ, hu1]
    have r1 : (updTwo P2 .r 0 ((vmpsAlg 3 P2).lenv ψ0 0) ((vmpsAlg 3 P2).renv 3 ψ0 1) exUp exUp).1.e0 = some e1 := hu2 ▸ r1
    unfold updTwo at r1 ⊢
    split at r1
    · cases r1
    · refine ⟨rfl, rfl, fun s k => ?_⟩
      show (if k = (upEnum s).val * 1 + 0 then (1 : ℝ) else 0) = _
      cases s <;> rfl
  obtain ⟨x1, x2, x3⟩ := ex n2
  -- the state is the ground state
  have hup : ∀ s, stateV 3 (tens ψ0) s = if s = (fun _ => true) then 1 else 0 := fun s => by
    have : stateV 3 (tens ψ0) s = if s 0 = true ∧ s 1 = true ∧ s 2 = true then 1 else 0 := by
      show amp ((List.range 3).map (tens ψ0)) (List.ofFn s) 0 0 = _
      simp [List.range_succ, List.ofFn_succ, amp, ψ0, tens, exUp]
      split_ifs <;> simp_all
    rw [this]
    by_cases h : s = fun _ => true
    · subst h; simp
    · rw [if_neg h, if_neg]
      rintro ⟨h0, h1, h2⟩
      exact h (funext fun i => by fin_cases i <;> assumption)
  have hone : ∀ f : (Fin 3 → Bool) → ℝ, ∑ s, f s * (stateV 3 (tens ψ0) s * stateV 3 (tens ψ0) s) = f fun _ => true := fun f => by
    rw [sum_eq_single (fun _ => true) (fun s _ hs => by rw [hup, if_neg hs]; ring) fun h => absurd (mem_univ _) h, hup, if_pos rfl]
    ring
  have e1 : e ≤ 1 := by
    have a : ‖stateV 3 (tens ψ0)‖ ^ 2 = 1 := by rw [norm_sq_sum]; simpa using hone fun _ => 1
    have b : Mps.expect (opM 3 exD) (stateV 3 (tens ψ0)) = 1 := (exD_inner _ _).trans ((hone exLevel).trans exLevel_up)
    have c : e * ‖stateV 3 (tens ψ0)‖ ^ 2 ≤ Mps.expect (opM 3 exD) (stateV 3 (tens ψ0)) := x3
    rw [a, b] at c
    linarith
  have x2' : Mps.expect (opM 3 exD) (stateV 3 (tens ψ')) = e := x2
  have e2 : 1 ≤ e := by have := hlow (stateV 3 (tens ψ')); rw [x1, x2'] at this; linarith
  obtain ⟨g1, g2⟩ := exD_ground x1 (by rw [x2']; exact e1)
  -- the state with another tensor at site 0
  have hv : ∀ s k, k < 2 → co (toS (tens ψ' 0)) s k = if k = (if s then 1 else 0) then 1 else 0 := fun s k hk => by
    have : (tens ψ' 0).v s 0 k = if k = (if s then 1 else 0) then 1 else 0 := hr.2.2 s k
    rw [← this]
    show (if h : 0 < (tens ψ' 0).l ∧ k < (tens ψ' 0).r then (tens ψ' 0).v s 0 k else 0) = _
    rw [dif_pos ⟨by show 0 < (ψ' 0).ten.l; rw [hr.1]; omega, by show k < (ψ' 0).ten.r; rw [hr.2.1]; omega⟩]
  have hA : ∀ s : Fin 3 → Bool, amp [tens ψ' 1, tens ψ' 2] [s 1, s 2] (if s 0 then 1 else 0) 0 = stateV 3 (tens ψ') s := fun s => by
    rw [← embed_sAddR c'.1 (show 0 + 1 < 3 by omega), embed_three c'.1, two_range (show (tens ψ' 0).r = 2 from hr.2.1)]
    have a0 := hv (s 0) 0 (by omega)
    have a1 := hv (s 0) 1 (by omega)
    unfold co at a0 a1
    rw [a0, a1]
    cases s 0 <;> simp
  have hE : ∀ (X : SiteV Bool ℝ (tens ψ' 0).l (tens ψ' 0).r) (s : Fin 3 → Bool), embed 3 0 (tens ψ') (ofV (sAddR (tens ψ' (0 + 1)) X)) s =
      co X (s 0) 1 * if s 1 = true ∧ s 2 = true then stateV 3 (tens ψ') (fun _ => true) else 0 := fun X s => by
    rw [embed_three c'.1, two_range (show (tens ψ' 0).r = 2 from hr.2.1)]
    have b0 : amp [tens ψ' 1, tens ψ' 2] [s 1, s 2] 0 0 = 0 := by
      have := hA ![false, s 1, s 2]
      rw [g1 _ (fun h => by have := congrFun h 0; simp at this)] at this
      simpa using this
    have b1 : amp [tens ψ' 1, tens ψ' 2] [s 1, s 2] 1 0 = if s 1 = true ∧ s 2 = true then stateV 3 (tens ψ') (fun _ => true) else 0 := by
      have := hA ![true, s 1, s 2]
      simp only [Matrix.cons_val_zero, if_true, Matrix.cons_val_one, Matrix.cons_val] at this
      rw [this]
      split_ifs with h
      · exact congrArg (fun q => stateV 3 (tens ψ') q) (show (![true, s 1, s 2] : Fin 3 → Bool) = fun _ => true from funext fun i => by fin_cases i <;> simp [h])
      · exact g1 _ fun hh => h ⟨by simpa using congrFun hh 1, by simpa using congrFun hh 2⟩
    rw [b0, b1, mul_zero, zero_add]
    rfl
  have hH : ∀ X Y, inner ℝ X (siteHam ((ssAlg 3 P1).lenv ψ' 0) ((ssAlg 3 P1).renv 3 ψ' (3 - (0 + 1))) (P1.w 0) (tens ψ' 0).l (tens ψ' 0).r Y) =
      ∑ s : Bool, (if s then 1 else 2) * (co X s 1 * co Y s 1) := fun X Y => by
    rw [← first_elem h1 (by omega) c'.1]
    refine (exD_inner _ _).trans ?_
    simp only [hE]
    have inj : Function.Injective fun b : Bool => (![b, true, true] : Fin 3 → Bool) := fun a b h => by simpa using congrFun h 0
    rw [← sum_subset (subset_univ (univ.image fun b : Bool => (![b, true, true] : Fin 3 → Bool))), sum_image fun a _ b _ h => inj h]
    · refine sum_congr rfl fun b _ => ?_
      have : exLevel ![b, true, true] = if b then 1 else 2 := by cases b <;> simp [exLevel]
      rw [this]
      simp only [Matrix.cons_val_zero, Matrix.cons_val_one, Matrix.cons_val, and_self, if_true]
      linear_combination (if b = true then (1 : ℝ) else 2) * (co X b 1 * co Y b 1) * g2
    · intro s _ hs
      rw [if_neg]
      · ring
      · rintro ⟨q1, q2⟩
        exact hs (mem_image.mpr ⟨s 0, mem_univ _, funext fun i => by fin_cases i <;> simp [q1, q2]⟩)
  obtain ⟨g, hg, ge, gv⟩ := kill_core (show (tens ψ' 0).l = 1 from hr.1) (show (tens ψ' 0).r = 2 from hr.2.1) _ _ hH hv ht (show 2 ≤ 10 by omega)
    (dim := (tens ψ' 0).l * Fintype.card Bool * (tens ψ' 0).r) (by rw [show (tens ψ' 0).l = 1 from hr.1, show (tens ψ' 0).r = 2 from hr.2.1, Fintype.card_bool]; omega) 1
  have hg' : ssLanczos P1 0 ((ssAlg 3 P1).lenv ψ' 0) ((ssAlg 3 P1).renv 3 ψ' (3 - (0 + 1))) (ψ' 0).ten = some g := hg
  refine ⟨P2, P1, h2, n2, h1, n1, fun n => by show |(0 : ℝ)| < 1e-15; norm_num, rfl, hlow, s'', ψ', r, o', x1, by show Mps.expect (opM 3 exD) _ = 1; rw [x2']; linarith, fun k hk => ?_⟩
  obtain ⟨us, hu⟩ : ∃ us, ssUpds 3 k = (.r, 0) :: us := by
    obtain ⟨k, rfl⟩ := Nat.exists_eq_succ_of_ne_zero hk
    exact ⟨_, by unfold ssUpds; rw [List.replicate_succ, List.flatten_cons]; rfl⟩
  rw [hu]
  refine ⟨⟨_, rfl, ?_⟩, ?_⟩
  · show (put ψ' 0 (ssUpd 3 P1 0 .r 0 ((ssAlg 3 P1).lenv ψ' 0) ((ssAlg 3 P1).renv 3 ψ' (3 - (0 + 1))) (ψ' 0).ten (ψ' (0 + 1)).ten) 0).e0 = _
    unfold put ssUpd
    rw [Function.update_of_ne (by omega), Function.update_self, hg', ← ge]
  · show stateV 3 (tens (put ψ' 0 (ssUpd 3 P1 0 .r 0 ((ssAlg 3 P1).lenv ψ' 0) ((ssAlg 3 P1).renv 3 ψ' (3 - (0 + 1))) (ψ' 0).ten (ψ' (0 + 1)).ten))) = 0
    rw [first_state h1 n1 (by omega) 0 c' hg']
    ext s
    rw [hE, gv, zero_mul]
    rfl

/-- The hypotheses are met: all spins up, which is canonical around every site, and the transverse Ising chain, with truncation to `D` directions and no noise. -/
example (N D k : Nat) (hN : 2 ≤ N) (hk : k ≠ 0) : ∃ tri, SsOK N (exSsCut N D tri) ∧ Canon N 1 (tens fun _ => (⟨exUp, none⟩ : LTen Bool ℝ)) ∧
    (∃ e, SsReports N (exSsCut N D tri) (ssUpds N k) (fun _ => ⟨exUp, none⟩, 0) 0 e) ∧
    ∃ s ψ e, run N N (singleSite (ssAlg N (exSsCut N D tri)) (ssOpt N (exSsCut N D tri)) N false k) ⟨Mem.blank 0, ⟨fun _ => .whole ⟨exUp, none⟩, fun _ => .gone, fun _ => .gone⟩⟩ = .ok s ∧
      OnDisk N ψ s.dsk ∧ Canon N 0 (tens ψ) ∧ (ψ 0).e0 = some e := by
  obtain ⟨tri, ht⟩ := solver_exists
  have hP := exSsCut_ok (D := D) hN ht
  have hs : (exSsCut N D tri).Silent := fun n => by show |(0 : ℝ)| < 1e-15; norm_num
  obtain ⟨e, he, -⟩ := C95_single_after_two hP hN hk 0 (exUp_canon N 1) (exUp_nz N)
  have hz := C77_alive_silent hP hs hN k 0 (exUp_canon N 0) (exUp_nz N) 1 (by have := ssReports_lt he; omega)
  obtain ⟨s, ψ, e', a1, a2, a3, -, a5, -⟩ := C95_single_recovers hP hN false hk 0 (.inl hs) (d := ⟨fun _ => .whole ⟨exUp, none⟩, fun _ => .gone, fun _ => .gone⟩) (fun _ _ => rfl) (fun h => by cases h)
    (exUp_canon N 1) hz
  exact ⟨tri, hP, exUp_canon N 1, ⟨e, he⟩, s, ψ, e', a1, a2, a3, a5⟩

end
end Verif.Props
