import Verif.Disk.SingleSiteFacts
import Verif.Disk.InitCrash
import Verif.Props.TwoSite
/-
Property C23 (the single-site variational sweep on disk), with its crash points (C54).
-/
namespace Verif.Props
open Verif.Disk

variable {T E : Type}

/-- A concrete local update: the `c`-th update writes the versions `10+2c`, `11+2c`. -/
def exOpt1 : Opt1 Nat (List Nat) := fun c _ _ _ _ _ _ => ((10 + 2 * c, 11 + 2 * c), c + 1)

theorem exOpt1_legs : exOpt1.Legs exAlg := ⟨fun _ _ _ _ _ _ _ => rfl, fun _ _ _ _ _ _ _ => rfl⟩

/-- **Specification**: the environments a single-site sweep starts with: the left one of no sites and the right ones
of `0 … N-1` sites. -/
structure EnvReady1 (A : Alg T E) (N : Nat) (ψ : Nat → T) (d : Dsk T E) : Prop where
  l : d.l 0 = .whole (A.lenv ψ 0)
  r : ∀ k, k < N → d.r k = .whole (A.renv N ψ k)

theorem EnvReady1.geo {A : Alg T E} {N : Nat} (hN : 2 ≤ N) {ψ : Nat → T} {d : Dsk T E} (h : EnvReady1 A N ψ d) :
    EnvReadyW A (geo1 N) ψ d := ⟨h.l, fun k _ h2 => h.r k (by simp only [geo1] at h2; omega)⟩

theorem EnvReady1.of_geo {A : Alg T E} {N : Nat} (hN : 2 ≤ N) {ψ : Nat → T} {d : Dsk T E} (h : EnvReadyW A (geo1 N) ψ d) :
    EnvReady1 A N ψ d := ⟨h.l, fun k hk => h.r k (by simp only [geo1]; omega) (by simp only [geo1]; omega)⟩

/-- The sweeps with their crash points. -/
theorem sweeps1_thru {A : Alg T E} {O : Opt1 T E} (H : O.Legs A) {N : Nat} (hN : 2 ≤ N) (k clk : Nat) {ψ : Nat → T} {d : Dsk T E}
    {mem : Mem T E} (h0 : NoTensors mem clk) (hm : OnDisk N ψ d) (he : EnvReady1 A N ψ d) :
    Thru N N (sweeps1 A O N k) ⟨mem, d⟩ (AfterW A (geo1 N)) (fun s' =>
      OnDisk N (opt1Sweeps A O N k (ψ, clk)).1 s'.dsk ∧ NoTensors s'.mem (opt1Sweeps A O N k (ψ, clk)).2 ∧
      EnvReady1 A N (opt1Sweeps A O N k (ψ, clk)).1 s'.dsk ∧
      (∀ j, 0 < j → s'.dsk.l j = if k ≠ 0 ∧ j < N then .gone else d.l j) ∧ (∀ j, N ≤ j → s'.dsk.r j = d.r j)) := by
  have ok := geo1_ok hN
  have hst := startW_of ok (A := A) (g := geo1 N) hm (he.geo hN) (reg := mem.reg) (clk := clk)
  have hA : AfterW A (geo1 N) d := Or.inr (Or.inl ⟨ψ, hm, he.geo hN⟩)
  unfold sweeps1
  rw [sweep1_eq hN, opt1Sweeps_eq]
  refine Thru.ldM (t := ψ 0) (by omega) (hm 0 (by omega)) hA ?_
  have hmem : (⟨{ mem with m := Function.update mem.m 0 (some (ψ 0)) }, d⟩ : Sys T E) =
      ⟨⟨wnd ((geo1 N).lb + (geo1 N).h + 1 - (geo1 N).w) ((geo1 N).lb + (geo1 N).h) ψ, fun _ => none, fun _ => none, mem.reg, clk⟩, d⟩ := by
    obtain ⟨m, l, r, reg, c⟩ := mem
    obtain ⟨e1, e2, e3, e4⟩ := h0
    simp only at e1 e2 e3 e4
    subst e1 e2 e3 e4
    simp only [geo1, Sys.mk.injEq, Mem.mk.injEq, and_true]
    funext j
    by_cases h : j = 0
    · subst h; rw [wnd_in (by omega) (by omega)]; simp
    · rw [wnd_out (by omega)]; simp [h]
  rw [hmem]
  refine Thru.append (sweepsLoopW ok (kern1_ok H hN) k hst) fun s1 i1 => ?_
  generalize hφ : optSweepsW (geo1 N) (kern1 A O N) k (ψ, clk) = φ at i1 ⊢
  have i1m : s1.mem.m = wnd 0 1 φ.1 := i1.m
  have dm : ∀ j, j < N → 0 < j → s1.dsk.m j = .whole (φ.1 j) := fun j hj h => i1.d.m j hj (by simp only [geo1]; omega)
  have dl : s1.dsk.l 0 = .whole (A.lenv φ.1 0) := by
    have := i1.d.l 0
    rwa [if_pos (by simp only [geo1]; omega)] at this
  have dr : ∀ j, j < N → s1.dsk.r j = .whole (A.renv N φ.1 j) := fun j hj => by
    have := i1.d.r j
    rwa [if_pos (by simp only [geo1]; omega)] at this
  refine Thru.dpM (t := φ.1 0) (by omega) (by rw [i1m, wnd_in (by omega) (by omega)]) (i1.d.after ok) ?_ (Thru.nil ?_ ?_)
  · right; right
    exact ⟨0, by simp [geo1], by simp [geo1], by simp⟩
  · have hon : OnDisk N φ.1 (⟨Function.update s1.dsk.m 0 (.whole (φ.1 0)), s1.dsk.l, s1.dsk.r⟩ : Dsk T E) := fun j hj => by
      by_cases h : j = 0
      · subst h; simp
      · simp only [Function.update_of_ne h]; exact dm j hj (by omega)
    refine ⟨hon, ⟨?_, i1.l, i1.r, i1.clk⟩, ⟨dl, dr⟩, fun j hj => ?_, fun j hj => ?_⟩
    · rw [i1m, wnd_cutLo]; funext j; exact wnd_out (by omega)
    · have := i1.d.l j
      rw [if_neg (by simp only [geo1]; omega)] at this
      simp only [this]
      by_cases hk : k = 0
      · rw [if_pos hk, if_neg (by omega)]
      · rw [if_neg hk, trimW]
        by_cases h : j < N
        · rw [if_pos (by simp only [geo1]; omega), if_pos ⟨hk, h⟩]
        · rw [if_neg (by simp only [geo1]; omega), if_neg (fun x => h x.2)]
    · have := i1.d.r j
      rw [if_neg (by simp only [geo1]; omega), if_neg (by simp only [geo1]; omega)] at this
      simp only [this]
  · right; left
    refine ⟨φ.1, fun j hj => ?_, dl, fun j _ h2 => dr j (by simp only [geo1] at h2; omega)⟩
    by_cases h : j = 0
    · subst h; simp
    · simp only [Function.update_of_ne h]; exact dm j hj (by omega)

/-- The environments that `SingleSiteFiniteVMPS` starts from: those of an earlier run if the temporary directory
exists. -/
def TempOK1 (A : Alg T E) (N : Nat) (temp : Bool) (ψ : Nat → T) (d : Dsk T E) : Prop := temp = true → EnvReady1 A N ψ d

theorem initEnvs1 {A : Alg T E} {N : Nat} (hN : 2 ≤ N) {clk : Nat} {ψ : Nat → T} {d : Dsk T E} (hm : OnDisk N ψ d) :
    ∃ s', run N N (initEnvs A N 1) ⟨Mem.blank clk, d⟩ = .ok s' ∧ NoTensors s'.mem clk ∧ OnDisk N ψ s'.dsk ∧
      EnvReady1 A N ψ s'.dsk ∧ (∀ j, j ≠ 0 → s'.dsk.l j = d.l j) := by
  obtain ⟨s', hr, e1, e2, e3, e4, e5⟩ := initEnvs_ok (A := A) (n := N) (s0 := ⟨Mem.blank clk, d⟩) hm rfl (show 1 < N by omega)
  refine ⟨s', hr, ⟨e1, e2, e3, e4⟩, ?_, ⟨?_, fun k g1 => ?_⟩, fun j hj => ?_⟩
  · rw [e5]; exact hm
  · rw [e5]; simp
  · rw [e5]; simp only []; rw [if_pos (by omega)]
  · rw [e5]; simp only [Function.update_of_ne hj]

theorem singleSite_start {A : Alg T E} {N : Nat} (hN : 2 ≤ N) (temp : Bool) {clk : Nat} {ψ : Nat → T} {d : Dsk T E}
    (hm : OnDisk N ψ d) (ht : TempOK1 A N temp ψ d) :
    ∃ s', run N N (if temp then [] else initEnvs A N 1) ⟨Mem.blank clk, d⟩ = .ok s' ∧ NoTensors s'.mem clk ∧ OnDisk N ψ s'.dsk ∧
      EnvReady1 A N ψ s'.dsk ∧ (∀ j, j ≠ 0 → s'.dsk.l j = d.l j) := by
  cases temp with
  | true => exact ⟨⟨Mem.blank clk, d⟩, rfl, blank_noTensors clk, hm, ht rfl, fun _ _ => rfl⟩
  | false => exact initEnvs1 hN hm

/-- **C23**. `SingleSiteFiniteVMPS` on at least two sites, whether it creates the environments or takes those of an
earlier run, and for any number of sweeps: no load misses its file, no null pointer is used and no index is out of
range. The files of all sites are then those of the MPS obtained by the local updates in order, each in the exact
environments of the current MPS; nothing is left in memory. The right environments of `0 … N-1` sites and the left
one of no sites are those of the new MPS; the other left environments are removed. -/
theorem C23_single_site {A : Alg T E} {O : Opt1 T E} (H : O.Legs A) {N : Nat} (hN : 2 ≤ N) (temp : Bool) (k clk : Nat) {ψ : Nat → T}
    {d : Dsk T E} (hm : OnDisk N ψ d) (ht : TempOK1 A N temp ψ d) :
    ∃ s', run N N (singleSite A O N temp k) ⟨Mem.blank clk, d⟩ = .ok s' ∧
      OnDisk N (opt1Sweeps A O N k (ψ, clk)).1 s'.dsk ∧ NoTensors s'.mem (opt1Sweeps A O N k (ψ, clk)).2 ∧
      EnvReady1 A N (opt1Sweeps A O N k (ψ, clk)).1 s'.dsk ∧
      (∀ j, 0 < j → j < N → s'.dsk.l j = if k = 0 then d.l j else .gone) := by
  obtain ⟨s1, r1, h1, h2, h3, h4⟩ := singleSite_start (A := A) hN temp (clk := clk) hm ht
  obtain ⟨⟨s2, r2, g1, g2, g3, g4, -⟩, -⟩ := sweeps1_thru H hN k clk h1 h2 h3
  refine ⟨s2, by rw [singleSite, run_append, r1]; exact r2, g1, g2, g3, fun j hj hj' => ?_⟩
  rw [g4 j hj]
  by_cases hk : k = 0
  · rw [if_neg (by omega), if_pos hk, h4 j (by omega)]
  · rw [if_pos ⟨hk, hj'⟩, if_neg hk]

/-- Concretely: three sites, one sweep. The specification gives the versions `16, 17, 15`, and these are the
files. -/
example : ((List.range 3).map (opt1Sweeps exAlg exOpt1 3 1 ((fun j => j), 0)).1 = [16, 17, 15]) ∧
    (run 3 3 (singleSite exAlg exOpt1 3 false 1) ⟨Mem.blank 0, exDsk⟩).toOption.map (fun s => shot s.dsk 4) =
      some ([.whole 16, .whole 17, .whole 15, .whole 3], [.whole [], .gone, .gone, .gone],
        [.whole [], .whole [15], .whole [17, 15], .gone]) := by decide

/-- Two sites work too. -/
example : (run 2 2 (singleSite exAlg exOpt1 2 false 2) ⟨Mem.blank 0, exDsk⟩).toOption.map (fun s => shot s.dsk 2) =
      some ([.whole 16, .whole 17], [.whole [], .gone], [.whole [], .whole [17]]) := by decide

/-! ### Crash points -/

/-- What the program leaves when it is killed. -/
theorem singleSite_after {A : Alg T E} {O : Opt1 T E} (H : O.Legs A) {N : Nat} (hN : 2 ≤ N) (temp : Bool) (k clk : Nat) {ψ : Nat → T}
    {d d' : Dsk T E} (hm : OnDisk N ψ d) (ht : TempOK1 A N temp ψ d) (hl : temp = false → d.l 0 = .gone)
    (hc : Crash N N (singleSite A O N temp k) ⟨Mem.blank clk, d⟩ d') : (∀ e, d'.l 0 ≠ .whole e) ∨ AfterW A (geo1 N) d' := by
  obtain ⟨s1, r1, h1, h2, h3, -⟩ := singleSite_start (A := A) hN temp (clk := clk) hm ht
  unfold singleSite at hc
  rcases hc.append_inv with hc | ⟨s2, r2, hc⟩
  · cases temp with
    | true =>
      rw [if_pos rfl] at hc
      rw [hc.nil_inv]
      exact Or.inr (Or.inr (Or.inl ⟨ψ, hm, (ht rfl).geo hN⟩))
    | false =>
      rcases initEnvs_crash (show 1 < N by omega) (s0 := ⟨Mem.blank clk, d⟩) hm rfl (by rw [hl rfl]; simp) hc with h | rfl
      · exact Or.inl h
      · refine Or.inr (Or.inr (Or.inl ⟨ψ, hm, by simp [geo1], fun k _ g2 => ?_⟩))
        simp only [geo1] at g2 ⊢
        rw [if_pos (by omega)]
  · rw [r1] at r2
    injection r2 with r2
    subst r2
    exact Or.inr ((sweeps1_thru H hN k clk h1 h2 h3).2 _ hc)

/-- **C54** (no stale environment, single-site). Whenever the program is killed, if the tensor files are all complete
and so is the left environment of no sites, then every complete right environment is that of the tensors on disk.
(Without that left environment a new run stops at its first step, see `C54_restart`.) -/
theorem C54_no_stale_environment {A : Alg T E} {O : Opt1 T E} (H : O.Legs A) {N : Nat} (hN : 2 ≤ N) (temp : Bool) (k clk : Nat)
    {ψ : Nat → T} {d d' : Dsk T E} (hm : OnDisk N ψ d) (ht : TempOK1 A N temp ψ d) (hl : temp = false → d.l 0 = .gone)
    (hc : Crash N N (singleSite A O N temp k) ⟨Mem.blank clk, d⟩ d') {ψ' : Nat → T} (hm' : OnDisk N ψ' d') {e0 : E}
    (hl' : d'.l 0 = .whole e0) : e0 = A.lenv ψ' 0 ∧ ∀ k e, k < N → d'.r k = .whole e → e = A.renv N ψ' k := by
  rcases singleSite_after H hN temp k clk hm ht hl hc with h | h
  · exact absurd hl' (h e0)
  · obtain ⟨h1, h2⟩ := h.consistent (geo1_ok hN) (ψ := ψ') hm'
    refine ⟨?_, fun k e hk he => h2 k e (by simp only [geo1]; omega) (by simp only [geo1]; omega) he⟩
    have h1 : d'.l 0 = .whole (A.lenv ψ' 0) := h1
    rw [hl'] at h1
    injection h1

/-- Without the first right environment, the left one, or the first tensor the sweeps stop at a load. -/
theorem sweeps1_fails (A : Alg T E) (O : Opt1 T E) {N : Nat} (hN : 2 ≤ N) {k : Nat} (hk : 1 ≤ k) {s : Sys T E}
    (h : (∀ e, s.dsk.r (N - 1) ≠ .whole e) ∨ (∀ e, s.dsk.l 0 ≠ .whole e) ∨ (∀ t, s.dsk.m 0 ≠ .whole t)) :
    LoadFails (run N N (sweeps1 A O N k) s) := by
  obtain ⟨k, rfl⟩ : ∃ k', k = k' + 1 := ⟨k - 1, by omega⟩
  obtain ⟨n, hn⟩ : ∃ n, N - 1 = n + 1 := ⟨N - 2, by omega⟩
  unfold sweeps1 sweep1
  rw [List.replicate_succ, List.flatten_cons, List.range_eq_range', hn, List.range'_succ, List.flatMap_cons]
  unfold stepR1 loadR1
  rw [if_pos rfl]
  simp only [List.cons_append]
  refine fails_ldM (by omega) fun t ht => ?_
  show LoadFails (run N N (.ldM 1 :: .ldR (N - 0 - 1) :: _) _)
  refine fails_ldM (by omega) fun t' ht' => ?_
  refine fails_ldR (by omega) fun e he => ?_
  show LoadFails (run N N (.ldL 0 :: _) _)
  refine fails_ldL (by omega) fun e' he' => ?_
  rcases h with h | h | h
  · exact absurd he (h e)
  · exact absurd he' (h e')
  · exact absurd ht (h t)

/-- **C54** (restart, single-site). `SingleSiteFiniteVMPS`, started with a fresh temporary directory or with the
environments of an earlier run, is killed at any moment and started again. It either stops at a load of a missing or
incomplete file, or makes exact sweeps on the MPS that is on disk. -/
theorem C54_restart {A : Alg T E} {O : Opt1 T E} (H : O.Legs A) {N : Nat} (hN : 2 ≤ N) (temp : Bool) (k clk : Nat) {ψ : Nat → T}
    {d d' : Dsk T E} (hm : OnDisk N ψ d) (ht : TempOK1 A N temp ψ d) (hl : temp = false → d.l 0 = .gone)
    (hc : Crash N N (singleSite A O N temp k) ⟨Mem.blank clk, d⟩ d') {k' : Nat} (hk : 1 ≤ k') (clk' : Nat) :
    LoadFails (run N N (singleSite A O N true k') ⟨Mem.blank clk', d'⟩) ∨
      ∃ ψ' s', OnDisk N ψ' d' ∧ run N N (singleSite A O N true k') ⟨Mem.blank clk', d'⟩ = .ok s' ∧
        OnDisk N (opt1Sweeps A O N k' (ψ', clk')).1 s'.dsk := by
  have hrun : singleSite A O N true k' = sweeps1 A O N k' := by simp [singleSite]
  rcases singleSite_after H hN temp k clk hm ht hl hc with h | ⟨ψ', b, hb, hb', h⟩ | ⟨ψ', h, h'⟩ | ⟨c, h1, h2, h⟩
  · rw [hrun]; exact Or.inl (sweeps1_fails A O hN hk (Or.inr (Or.inl h)))
  · rw [hrun]; left
    refine sweeps1_fails A O hN hk (Or.inl fun e he => ?_)
    have := (h.r (N - 1) e (by simp only [geo1]; omega) (by simp only [geo1]; omega) he).1
    simp only [geo1] at this hb
    omega
  · right
    obtain ⟨s', hr, g, -⟩ := C23_single_site H hN true k' clk' (ψ := ψ') h fun _ => EnvReady1.of_geo hN h'
    exact ⟨ψ', s', h, hr, g⟩
  · rw [hrun]; left
    simp only [geo1] at h1 h2
    obtain rfl : c = 0 := by omega
    exact sweeps1_fails A O hN hk (Or.inr (Or.inr fun t ht => by rw [h] at ht; exact absurd ht (by simp)))

/-- The hypotheses hold for the concrete algorithm, and there are crash points of both kinds: in the middle of the
sweep the restart stops, at its end it goes on. -/
example : (OnDisk 2 (fun j => j) exDsk ∧ TempOK1 exAlg 2 false (fun j => j) exDsk ∧ exDsk.l 0 = .gone) ∧
    (∃ d', Crash 2 2 (singleSite exAlg exOpt1 2 false 1) ⟨Mem.blank 0, exDsk⟩ d' ∧
      run 2 2 (singleSite exAlg exOpt1 2 true 1) ⟨Mem.blank 0, d'⟩ matches .error .noFile) ∧
    (∃ d', Crash 2 2 (singleSite exAlg exOpt1 2 false 1) ⟨Mem.blank 0, exDsk⟩ d' ∧
      run 2 2 (singleSite exAlg exOpt1 2 true 1) ⟨Mem.blank 0, d'⟩ matches .ok _) :=
  ⟨⟨fun _ _ => rfl, fun h => by simp at h, rfl⟩,
    ⟨_, ⟨(singleSite exAlg exOpt1 2 false 1).take 20, (singleSite exAlg exOpt1 2 false 1).drop 20, _, rfl, rfl, Or.inl rfl⟩, by decide⟩,
    ⟨_, ⟨singleSite exAlg exOpt1 2 false 1, [], _, by rw [List.append_nil], rfl, Or.inl rfl⟩, by decide⟩⟩

end Verif.Props
