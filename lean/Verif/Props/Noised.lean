import Verif.Disk.NoisedFacts
import Verif.Props.Boundary
/-
Property C24 (the noised two-site variational sweep on disk), with its crash points (C54).
-/
namespace Verif.Props
open Verif.Disk

variable {T E : Type}

/-- A concrete local update: the `c`-th update writes the versions `10+3c`, `11+3c`, `12+3c`. -/
def exOpt3 : Opt3 Nat (List Nat) := fun c _ _ _ _ _ _ _ => ((10 + 3 * c, 11 + 3 * c, 12 + 3 * c), c + 1)

theorem exOpt3_legs : exOpt3.Legs exAlg := ⟨fun _ _ _ _ _ _ _ _ => rfl, fun _ _ _ _ _ _ _ _ => rfl⟩

/-- A concrete canonicalisation. -/
def exCanon : Canon Nat := fun t u => (t + 100, u + 100)

theorem exCanon_legs : exCanon.Legs exAlg := ⟨fun _ _ => rfl, fun _ _ => rfl⟩

/-- **Specification**: the MPS after `k` noised sweeps between `lb` and `rb`. -/
def noisedMps (A : Alg T E) (O : Opt3 T E) (C : Canon T) (N lb rb k : Nat) (ψ : (Nat → T) × Nat) : Nat → T :=
  canonAt C lb (opt3Sweeps A O N lb rb k ψ).1

/-- The sweeps with their crash points. -/
theorem sweeps3_thru {A : Alg T E} {O : Opt3 T E} (H : O.Legs A) {C : Canon T} (HC : C.Legs A) {N lb rb : Nat} (h1 : lb + 2 ≤ rb)
    (h2 : rb < N) (k clk : Nat) {ψ : Nat → T} {d : Dsk T E} {mem : Mem T E} (h0 : NoTensors mem clk) (hm : OnDisk N ψ d)
    (he : EnvReady A N lb rb ψ d) :
    Thru N N (sweeps3 A O C N lb rb k) ⟨mem, d⟩ (AfterW A (geo3 N lb rb)) (fun s' =>
      OnDisk N (noisedMps A O C N lb rb k (ψ, clk)) s'.dsk ∧ NoTensors s'.mem (opt3Sweeps A O N lb rb k (ψ, clk)).2 ∧
      EnvReady A N lb rb (noisedMps A O C N lb rb k (ψ, clk)) s'.dsk ∧
      (∀ j, s'.dsk.l j = if j = lb then .whole (A.lenv (noisedMps A O C N lb rb k (ψ, clk)) lb)
        else if k ≠ 0 ∧ lb ≤ j ∧ j < rb then .gone else d.l j) ∧
      (∀ j, ¬ (N ≤ j + 1 + rb ∧ j + lb + 2 ≤ N) → s'.dsk.r j = d.r j)) := by
  have ok := geo3_ok h1 h2
  have hst := startW_of ok (A := A) (g := geo3 N lb rb) hm he.geo3 (reg := mem.reg) (clk := clk)
  have hA : AfterW A (geo3 N lb rb) d := Or.inr (Or.inl ⟨ψ, hm, he.geo3⟩)
  unfold sweeps3 noisedMps
  rw [sweep3_eq, opt3Sweeps_eq]
  refine Thru.ldM (t := ψ lb) (by omega) (hm _ (by omega)) hA <| Thru.ldM (t := ψ (lb + 1)) (by omega) (hm _ (by omega)) hA ?_
  have hmem : (⟨{ mem with m := Function.update (Function.update mem.m lb (some (ψ lb))) (lb + 1) (some (ψ (lb + 1))) }, d⟩ : Sys T E) =
      ⟨⟨wnd ((geo3 N lb rb).lb + (geo3 N lb rb).h + 1 - (geo3 N lb rb).w) ((geo3 N lb rb).lb + (geo3 N lb rb).h) ψ,
        fun _ => none, fun _ => none, mem.reg, clk⟩, d⟩ := by
    obtain ⟨m, l, r, reg, c⟩ := mem
    obtain ⟨e1, e2, e3, e4⟩ := h0
    simp only at e1 e2 e3 e4
    subst e1 e2 e3 e4
    simp only [geo3, Sys.mk.injEq, Mem.mk.injEq, and_true]
    funext j
    by_cases h : j = lb + 1
    · subst h; rw [wnd_in (by omega) (by omega)]; simp
    · rw [Function.update_of_ne h]
      by_cases h' : j = lb
      · subst h'; rw [wnd_in (by omega) (by omega)]; simp
      · rw [Function.update_of_ne h', wnd_out (by omega)]
  simp only at hmem ⊢
  rw [hmem]
  refine Thru.append (sweepsLoopW ok (kern3_ok H h2) k hst) fun s1 i1 => ?_
  generalize hφ : optSweepsW (geo3 N lb rb) (kern3 A O N) k (ψ, clk) = φ at i1 ⊢
  have i1m : s1.mem.m = wnd lb (lb + 2) φ.1 := i1.m
  have i1d : DskW A (geo3 N lb rb) (if k = 0 then d.l else trimW (geo3 N lb rb) d.l) d.r φ.1 lb (lb + 2) lb (lb + 2) s1.dsk := i1.d
  obtain ⟨χ, hχ⟩ : ∃ χ, χ = canonAt C lb φ.1 := ⟨_, rfl⟩
  rw [← hχ]
  have χ0 : χ lb = (C (φ.1 lb) (φ.1 (lb + 1))).1 := by rw [hχ]; simp [canonAt, Function.update]
  have χ1 : χ (lb + 1) = (C (φ.1 lb) (φ.1 (lb + 1))).2 := by rw [hχ]; simp [canonAt]
  have χo : ∀ j, j < lb ∨ lb + 2 ≤ j → χ j = φ.1 j := fun j hj => by
    rw [hχ]; simp [canonAt, Function.update, show j ≠ lb by omega, show j ≠ lb + 1 by omega]
  have i2d : DskW A (geo3 N lb rb) (if k = 0 then d.l else trimW (geo3 N lb rb) d.l) d.r χ lb (lb + 2) lb (lb + 2) s1.dsk := by
    refine i1d.change (fun j hj => χo j hj) ?_ ?_ (Nat.le_refl _) (Nat.le_refl _)
    · by_cases h : lb = 0
      · subst h; rw [χ0, HC.left]
      · rw [χo 0 (by omega)]
    · show A.trivR (χ (N - 1)) = A.trivR (φ.1 (N - 1))
      rw [χo (N - 1) (by omega)]
  have hA2 : AfterW A (geo3 N lb rb) s1.dsk := DskW.after ok i2d
  refine Thru.calc (m' := { s1.mem with m := wnd lb (lb + 2) χ }) ?_ hA2 ?_
  · unfold canonC
    rw [i1m, wnd_in (by omega) (by omega), wnd_in (by omega) (by omega)]
    simp only [use, bind, Except.bind, pure, Except.pure, Except.ok.injEq, Mem.mk.injEq, and_true]
    funext j
    by_cases h : j = lb + 1
    · subst h; rw [wnd_in (by omega) (by omega), χ1]; simp
    · rw [Function.update_of_ne h]
      by_cases h' : j = lb
      · subst h'; rw [wnd_in (by omega) (by omega), χ0]; simp
      · rw [Function.update_of_ne h', wnd_out (by omega), wnd_out (by omega)]
  have i3d := i2d.putLo
  have hA3 := DskW.after ok (g := geo3 N lb rb) (i3d.widen (e := lb) (e' := lb + 2) (by omega) (by omega))
  have i4d := i3d.putHi (c' := lb + 1)
  have hA4 := DskW.after ok (g := geo3 N lb rb) (i4d.widen (e := lb) (e' := lb + 2) (by omega) (by omega))
  refine Thru.dpM (t := χ lb) (by omega) (wnd_in (by omega) (by omega)) hA2 ?_ <|
    Thru.dpM (t := χ (lb + 1)) (by omega) (by simp only [wnd_cutLo]; exact wnd_in (by omega) (by omega)) hA3 ?_ <| Thru.nil ?_ hA4
  · right; right
    exact ⟨lb, by simp [geo3], by simp [geo3], by simp⟩
  · right; right
    exact ⟨lb + 1, by simp [geo3], by simp [geo3], by simp⟩
  · refine ⟨fun j hj => i4d.m j hj (by omega), ⟨?_, i1.l, i1.r, i1.clk⟩, ⟨?_, fun j g1 g2 => ?_⟩, fun j => ?_, fun j hj => ?_⟩
    · simp only [wnd_cutLo, wnd_cutHi (a := lb + 1) (b := lb + 1)]
      funext j; exact wnd_out (by omega)
    · have := i4d.l lb
      rwa [if_pos (by simp only [geo3]; omega)] at this
    · have := i4d.r j
      rwa [if_pos (by simp only [geo3]; omega)] at this
    · have := i4d.l j
      by_cases h : j = lb
      · subst h
        rw [if_pos (by simp only [geo3]; omega)] at this
        rw [if_pos rfl]; exact this
      · rw [if_neg (by simp only [geo3]; omega)] at this
        rw [if_neg h]
        refine this.trans ?_
        by_cases hk : k = 0
        · rw [if_pos hk, if_neg (by omega)]
        · rw [if_neg hk, trimW]
          by_cases h' : lb ≤ j ∧ j < rb
          · rw [if_pos (by simp only [geo3]; omega), if_pos ⟨hk, h'⟩]
          · rw [if_neg (by simp only [geo3]; omega), if_neg (fun x => h' x.2)]
    · have := i4d.r j
      rwa [if_neg (by simp only [geo3]; omega), if_neg (by simp only [geo3]; omega)] at this

/-- **C24** (sweeps between two boundary sites). From a directory with the MPS `ψ` and the environments a sweep
starts with, any number of noised sweeps runs without missing file, null pointer or index out of range. The MPS on
disk is then the one obtained by the local updates of three sites in order, each in the exact environments of the
current MPS, and a last canonicalisation of site `lb`; nothing is left in memory, and the environment files are again
those a sweep starts with, now for the new MPS. -/
theorem C24_sweeps {A : Alg T E} {O : Opt3 T E} (H : O.Legs A) {C : Canon T} (HC : C.Legs A) {N lb rb : Nat} (h1 : lb + 2 ≤ rb)
    (h2 : rb < N) (k clk : Nat) {ψ : Nat → T} {d : Dsk T E} {mem : Mem T E} (h0 : NoTensors mem clk) (hm : OnDisk N ψ d)
    (he : EnvReady A N lb rb ψ d) :
    ∃ s', run N N (sweeps3 A O C N lb rb k) ⟨mem, d⟩ = .ok s' ∧
      OnDisk N (noisedMps A O C N lb rb k (ψ, clk)) s'.dsk ∧ NoTensors s'.mem (opt3Sweeps A O N lb rb k (ψ, clk)).2 ∧
      EnvReady A N lb rb (noisedMps A O C N lb rb k (ψ, clk)) s'.dsk ∧
      (∀ j, s'.dsk.l j = if j = lb then .whole (A.lenv (noisedMps A O C N lb rb k (ψ, clk)) lb)
        else if k ≠ 0 ∧ lb ≤ j ∧ j < rb then .gone else d.l j) ∧
      (∀ j, ¬ (N ≤ j + 1 + rb ∧ j + lb + 2 ≤ N) → s'.dsk.r j = d.r j) :=
  (sweeps3_thru H HC h1 h2 k clk h0 hm he).1

/-- Concretely: four sites, one sweep over all of them. The specification gives the versions `119, 120, 21, 18`, and
these are the files. -/
example : ((List.range 4).map (noisedMps exAlg exOpt3 exCanon 4 0 3 1 ((fun j => j), 0)) = [119, 120, 21, 18]) ∧
    (run 4 4 (initEnvs exAlg 4 2 ++ sweeps3 exAlg exOpt3 exCanon 4 0 3 1) ⟨Mem.blank 0, exDsk⟩).toOption.map
      (fun s => shot s.dsk 4) =
      some ([.whole 119, .whole 120, .whole 21, .whole 18], [.whole [], .gone, .gone, .gone],
        [.whole [], .whole [18], .whole [21, 18], .gone]) := by decide

/-- **C24** (the program). `TwoSiteFiniteVMPSWithNoise` on at least three sites, wherever the bond dimensions put the
boundary sites: the call succeeds if the right environments found in the temporary directory belong to the MPS
(`Reusable`; true for an empty directory). The files of all sites are then those of the updated MPS, and the
environments on disk belong to it. -/
theorem C24_noised {A : Alg T E} {O : Opt3 T E} (H : O.Legs A) {C : Canon T} (HC : C.Legs A) {G : Gauge T} (L : G.Laws A)
    (bl br : Nat → Bool) {N : Nat} (hN : 3 ≤ N) {clk : Nat} (k : Nat) {ψ : Nat → T} {d : Dsk T E} {mem : Mem T E}
    (h0 : NoTensors mem clk) (hm : OnDisk N ψ d) (hj : ∀ k, d.r k ≠ .junk) (hr : Reusable A N (lbOf bl N) (rbOf br N) ψ d) :
    ∃ s', run N N (noised A O C N G bl br d k) ⟨mem, d⟩ = .ok s' ∧
      OnDisk N (noisedMps A O C N (lbOf bl N) (rbOf br N) k (gauged G N (lbOf bl N) (rbOf br N) ψ, clk)) s'.dsk ∧
      NoTensors s'.mem (opt3Sweeps A O N (lbOf bl N) (rbOf br N) k (gauged G N (lbOf bl N) (rbOf br N) ψ, clk)).2 ∧
      EnvReady A N (lbOf bl N) (rbOf br N)
        (noisedMps A O C N (lbOf bl N) (rbOf br N) k (gauged G N (lbOf bl N) (rbOf br N) ψ, clk)) s'.dsk := by
  obtain ⟨b1, b2⟩ := bounds_ok bl br hN
  obtain ⟨s1, r1, e1, e2, e3, e4⟩ := C20_boundary_envs (A := A) L bl br (n := N) hN h0 hm hj hr
  obtain ⟨s2, r2, f1, f2, f3, -⟩ := C24_sweeps H HC b1 b2 k clk e1 e2 e3
  exact ⟨s2, by rw [noised, run_append, r1]; exact r2, f1, f2, f3⟩

/-- The hypotheses hold for the concrete algorithm and an empty temporary directory, and the call does what the
theorem says: five sites, all of them swept. -/
example : (OnDisk 5 (fun j => j) exDsk ∧ (∀ k, exDsk.r k ≠ .junk) ∧ Reusable exAlg 5 0 4 (fun j => j) exDsk) ∧
    (lbOf wide.1 5 = 0 ∧ rbOf wide.2.1 5 = 4) ∧
    (run 5 5 (noised exAlg exOpt3 exCanon 5 exGauge wide.1 wide.2.1 exDsk 1) ⟨Mem.blank 0, exDsk⟩).toOption.map
      (fun s => (shot s.dsk 5).1) = some [.whole 125, .whole 126, .whole 27, .whole 24, .whole 21] :=
  ⟨⟨fun _ _ => rfl, fun _ => by simp [exDsk], fun _ _ _ _ h => by simp [exDsk] at h⟩, by decide, by decide +kernel⟩

/-- **C54** (no stale environment, noised). Whenever the noised sweeps are killed, if the tensor files are all
complete then every complete environment file of the swept range is the environment of the tensors on disk. -/
theorem C54_noised_no_stale_environment {A : Alg T E} {O : Opt3 T E} (H : O.Legs A) {C : Canon T} (HC : C.Legs A) {N lb rb : Nat}
    (h1 : lb + 2 ≤ rb) (h2 : rb < N) (k clk : Nat) {ψ : Nat → T} {d d' : Dsk T E} {mem : Mem T E} (h0 : NoTensors mem clk)
    (hm : OnDisk N ψ d) (he : EnvReady A N lb rb ψ d) (hc : Crash N N (sweeps3 A O C N lb rb k) ⟨mem, d⟩ d') {ψ' : Nat → T}
    (hm' : OnDisk N ψ' d') : d'.l lb = .whole (A.lenv ψ' lb) ∧
      ∀ k e, N ≤ k + 1 + rb → k + lb + 2 ≤ N → d'.r k = .whole e → e = A.renv N ψ' k :=
  AfterW.consistent (geo3_ok h1 h2) ((sweeps3_thru H HC h1 h2 k clk h0 hm he).2 _ hc) hm'

end Verif.Props
