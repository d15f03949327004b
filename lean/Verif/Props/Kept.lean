import Verif.Props.KeptSpec
/-
C96: programs that share a temporary directory.
-/
namespace Verif.Props
open Verif.Disk

variable {T E : Type}

theorem SameEnv.lenv {A B : Alg T E} (h : SameEnv A B) (ψ : Nat → T) (k : Nat) : A.lenv ψ k = B.lenv ψ k := by
  induction k with
  | zero => simp [Alg.lenv, h.tl]
  | succ k ih => simp [Alg.lenv, h.gl, ih]

theorem SameEnv.renv {A B : Alg T E} (h : SameEnv A B) (N : Nat) (ψ : Nat → T) (k : Nat) : A.renv N ψ k = B.renv N ψ k := by
  induction k with
  | zero => simp [Alg.renv, h.tr]
  | succ k ih => simp [Alg.renv, h.gr, ih]

theorem SameEnv.refl (A : Alg T E) : SameEnv A A := ⟨rfl, rfl, rfl, rfl⟩

theorem SameEnv.ready {A B : Alg T E} (h : SameEnv A B) {N lb rb : Nat} {ψ : Nat → T} {d : Dsk T E} (he : EnvReady A N lb rb ψ d) :
    EnvReady B N lb rb ψ d := ⟨by rw [← h.lenv]; exact he.l, fun k g1 g2 => by rw [← h.renv]; exact he.r k g1 g2⟩

theorem SameEnv.ready1 {A B : Alg T E} (h : SameEnv A B) {N : Nat} {ψ : Nat → T} {d : Dsk T E} (he : EnvReady1 A N ψ d) :
    EnvReady1 B N ψ d := ⟨by rw [← h.lenv]; exact he.l, fun k g1 => by rw [← h.renv]; exact he.r k g1⟩

theorem EnvReady1.two {A : Alg T E} {N : Nat} {ψ : Nat → T} {d : Dsk T E} (he : EnvReady1 A N ψ d) :
    EnvReady A N 0 (N - 1) ψ d := ⟨he.l, fun k _ g2 => he.r k (by omega)⟩

/-- What a call leaves for the next one. -/
structure Left (N : Nat) (r : KeptRun T E) (ψ : Nat → T) (d : Dsk T E) : Prop where
  two : EnvReady r.alg N (r.range N).1 (r.range N).2 ψ d
  one : r.isSingle = true → EnvReady1 r.alg N ψ d
  junk : ∀ j, d.r j ≠ .junk

theorem two_exec {A : Alg T E} (H : A.Legs) {N : Nat} (hN : 3 ≤ N) (temp : Bool) (k clk : Nat) {ψ : Nat → T}
    {d : Dsk T E} (hm : OnDisk N ψ d) (ht : TempOK A N temp ψ d) :
    ∃ s', run N (N - 1) (twoSite A N temp k) ⟨Mem.blank clk, d⟩ = .ok s' ∧
      OnDisk N (optSweeps A N 0 (N - 1) k (ψ, clk)).1 s'.dsk ∧ s'.mem.clk = (optSweeps A N 0 (N - 1) k (ψ, clk)).2 ∧
      EnvReady A N 0 (N - 1) (optSweeps A N 0 (N - 1) k (ψ, clk)).1 s'.dsk ∧ (∀ j, N ≤ j + 1 → s'.dsk.r j = d.r j) := by
  obtain ⟨s1, r1, h1, h2, h3, -⟩ := twoSite_start hN temp (blank_noTensors clk) hm ht
  obtain ⟨s2, r2, g1, g2, g3, -, g5⟩ := C18_sweeps H (lb := 0) (rb := N - 1) (by omega) (by omega) k clk h1 h2 h3
  refine ⟨s2, by rw [twoSite_eq, run_append, r1]; exact r2, g1, g2.clk, g3, fun j hj => ?_⟩
  rw [g5 j (by omega)]
  have h1 : assertEmpty N (Mem.blank clk : Mem T E) = .ok (Mem.blank clk) := by
    unfold assertEmpty; rw [if_pos (by simp [Mem.blank])]
  cases temp with
  | true =>
    simp only [run, exec, h1] at r1
    injection r1 with r1
    rw [← r1]
  | false =>
    obtain ⟨s', hr, -, -, -, -, e5⟩ := initEnvs_ok (A := A) (n := N - 1) (s0 := ⟨Mem.blank clk, d⟩) hm rfl (show 2 < N by omega)
    simp only [run, exec, h1] at r1
    have := hr.symm.trans r1
    injection this with this
    rw [← this, e5]
    simp only []
    rw [if_neg (by omega)]

theorem single_exec {A : Alg T E} {O : Opt1 T E} (H : O.Legs A) {N : Nat} (hN : 3 ≤ N) (temp : Bool) (k clk : Nat) {ψ : Nat → T}
    {d : Dsk T E} (hm : OnDisk N ψ d) (ht : TempOK1 A N temp ψ d) :
    ∃ s', run N N (singleSite A O N temp k) ⟨Mem.blank clk, d⟩ = .ok s' ∧
      OnDisk N (opt1Sweeps A O N k (ψ, clk)).1 s'.dsk ∧ s'.mem.clk = (opt1Sweeps A O N k (ψ, clk)).2 ∧
      EnvReady1 A N (opt1Sweeps A O N k (ψ, clk)).1 s'.dsk ∧ (∀ j, N ≤ j → s'.dsk.r j = d.r j) := by
  obtain ⟨s1, r1, h1, h2, h3, -⟩ := singleSite_start (A := A) (show 2 ≤ N by omega) temp (clk := clk) hm ht
  obtain ⟨⟨s2, r2, g1, g2, g3, -, g5⟩, -⟩ := sweeps1_thru H (show 2 ≤ N by omega) k clk h1 h2 h3
  refine ⟨s2, by rw [singleSite, run_append, r1]; exact r2, g1, g2.clk, g3, fun j hj => ?_⟩
  rw [g5 j hj]
  cases temp with
  | true =>
    rw [if_pos rfl] at r1
    injection r1 with r1
    rw [← r1]
  | false =>
    obtain ⟨s', hr, -, -, -, -, e5⟩ := initEnvs_ok (A := A) (n := N) (s0 := ⟨Mem.blank clk, d⟩) hm rfl (show 1 < N by omega)
    have := hr.symm.trans r1
    injection this with this
    rw [← this, e5]
    simp only []
    rw [if_neg (by omega)]

theorem noisy_exec {A : Alg T E} {O : Opt3 T E} (H : O.Legs A) {C : Canon T} (HC : C.Legs A) {G : Gauge T} (L : G.Laws A)
    (bl br : Nat → Bool) {N : Nat} (hN : 3 ≤ N) (k clk : Nat) {ψ : Nat → T} {d : Dsk T E}
    (hm : OnDisk N ψ d) (hj : ∀ k, d.r k ≠ .junk) (hr : Reusable A N (lbOf bl N) (rbOf br N) ψ d) :
    ∃ s', run N N (noised A O C N G bl br d k) ⟨Mem.blank clk, d⟩ = .ok s' ∧
      OnDisk N (noisedMps A O C N (lbOf bl N) (rbOf br N) k (gauged G N (lbOf bl N) (rbOf br N) ψ, clk)) s'.dsk ∧
      s'.mem.clk = (opt3Sweeps A O N (lbOf bl N) (rbOf br N) k (gauged G N (lbOf bl N) (rbOf br N) ψ, clk)).2 ∧
      EnvReady A N (lbOf bl N) (rbOf br N)
        (noisedMps A O C N (lbOf bl N) (rbOf br N) k (gauged G N (lbOf bl N) (rbOf br N) ψ, clk)) s'.dsk ∧
      (∀ j, s'.dsk.r j ≠ .junk) := by
  obtain ⟨b1, b2⟩ := bounds_ok bl br hN
  obtain ⟨s1, r1, e1, e2, e3, e4⟩ := C20_boundary_envs (A := A) L bl br (n := N) hN (blank_noTensors clk) hm hj hr
  obtain ⟨s2, r2, f1, f2, f3, -, f4⟩ := C24_sweeps H HC b1 b2 k clk e1 e2 e3
  refine ⟨s2, by rw [noised, run_append, r1]; exact r2, f1, f2.clk, f3, fun j => ?_⟩
  by_cases h : N ≤ j + 1 + rbOf br N ∧ j + lbOf bl N + 2 ≤ N
  · rw [f3.r j h.1 h.2]; simp
  · rw [f4 j h]; exact e4 j

theorem kept_exec {N : Nat} (hN : 3 ≤ N) (r : KeptRun T E) (hL : r.Legs) (temp : Bool) {ψ : Nat → T} {d : Dsk T E}
    (hm : OnDisk N ψ d) (hj : ∀ j, d.r j ≠ .junk)
    (h2 : temp = true → r.range N = (0, N - 1) → EnvReady r.alg N 0 (N - 1) ψ d)
    (h1 : temp = true → r.isSingle = true → EnvReady1 r.alg N ψ d)
    (h3 : Reusable r.alg N (r.range N).1 (r.range N).2 ψ d) :
    ∃ s', r.exec N temp ⟨Mem.blank 0, d⟩ = .ok s' ∧ OnDisk N (r.ideal N ψ) s'.dsk ∧ Left N r (r.ideal N ψ) s'.dsk := by
  cases r with
  | two A k =>
    obtain ⟨s', e1, e2, -, e4, e5⟩ := two_exec hL hN temp k 0 hm (fun h => h2 h rfl)
    refine ⟨s', e1, e2, e4, fun h => by simp [KeptRun.isSingle] at h, fun j => ?_⟩
    by_cases h : N ≤ j + 1
    · rw [e5 j h]; exact hj j
    · rw [e4.r j (by omega) (by omega)]; simp
  | single A O k =>
    obtain ⟨s', e1, e2, -, e4, e5⟩ := single_exec hL hN temp k 0 hm (fun h => h1 h rfl)
    refine ⟨s', e1, e2, e4.two, fun _ => e4, fun j => ?_⟩
    by_cases h : N ≤ j
    · rw [e5 j h]; exact hj j
    · rw [e4.r j (by omega)]; simp
  | noisy A O C G bl br k =>
    obtain ⟨s', e1, e2, -, e4, e5⟩ := noisy_exec hL.1 hL.2.1 hL.2.2 bl br hN k 0 hm hj h3
    exact ⟨s', e1, e2, e4, fun h => by simp [KeptRun.isSingle] at h, e5⟩

theorem kept_runs {N : Nat} (hN : 3 ≤ N) : ∀ (rs : List (Bool × KeptRun T E)) (c : Option (KeptRun T E)) (ψ : Nat → T)
    (d : Dsk T E), (∀ r ∈ rs, r.2.Legs) → MayKeep N c rs → OnDisk N ψ d → (∀ c', c = some c' → Left N c' ψ d) →
    ∃ d', keptRuns N rs d = .ok d' ∧ OnDisk N (idealRuns N rs ψ) d'
  | [], _, ψ, d, _, _, hm, _ => ⟨d, rfl, hm⟩
  | (true, r) :: rs, c, ψ, d, hL, hk, hm, hc => by
    have hk : MayKeep N (some r) rs := by cases c <;> exact hk
    obtain ⟨s', e1, e2, e4⟩ := kept_exec hN r (hL _ List.mem_cons_self) false (d := wipe d) hm (by simp [wipe]) (by simp)
      (by simp) (fun k e _ _ h => by simp [wipe] at h)
    obtain ⟨d', g1, g2⟩ := kept_runs hN rs (some r) (r.ideal N ψ) s'.dsk
      (fun r hr => hL r (List.mem_cons_of_mem _ hr)) hk e2 (fun c' h => by injection h with h; rw [← h]; exact e4)
    refine ⟨d', ?_, g2⟩
    simp only [keptRuns, Bool.not_true, if_true]
    rw [e1]
    exact g1
  | (false, r) :: rs, none, ψ, d, hL, hk, hm, hc => hk.elim
  | (false, r) :: rs, some c, ψ, d, hL, hk, hm, hc => by
    obtain ⟨⟨hs, hlo, hhi, h1⟩, hk⟩ := hk
    have hc := hc c rfl
    obtain ⟨s', e1, e2, e4⟩ := kept_exec hN r (hL _ List.mem_cons_self) true (d := d) hm hc.junk
      (fun _ h => by
        have h0 : c.range N = (0, N - 1) := by
          rw [h] at hlo hhi
          cases c with
          | two A k => rfl
          | single A O k => rfl
          | noisy A O C G bl br k =>
            have := (bounds_ok bl br hN).2
            simp only [KeptRun.range] at hlo hhi ⊢
            rw [Prod.mk.injEq]
            constructor <;> omega
        have := hs.ready hc.two
        rw [h0] at this
        exact this)
      (fun _ h => hs.ready1 (hc.one (h1 h)))
      (fun k e g1 g2 g3 => by
        rw [hc.two.r k (by omega) (by omega), hs.renv] at g3
        injection g3 with g3
        exact g3.symm)
    obtain ⟨d', g1, g2⟩ := kept_runs hN rs (some r) (r.ideal N ψ) s'.dsk
      (fun r hr => hL r (List.mem_cons_of_mem _ hr)) hk e2 (fun c' h => by injection h with h; rw [← h]; exact e4)
    refine ⟨d', ?_, g2⟩
    simp only [keptRuns, Bool.not_false]
    rw [show (if false = true then wipe d else d) = d from rfl, e1]
    exact g1

/-- **C96**. Any calls of `TwoSiteFiniteVMPS`, `SingleSiteFiniteVMPS` and `TwoSiteFiniteVMPSWithNoise` on at least three
sites, one after the other on the same directories, the temporary one being deleted before some of them. If each that
finds it is for the Hamiltonian of the call before and sweeps within the range of the call before, and no single-site call
finds it after a two-site call, then every call succeeds, and the MPS on disk is at the end the one obtained by local
updates in exact environments. -/
theorem C96_kept_directory {N : Nat} (hN : 3 ≤ N) (rs : List (Bool × KeptRun T E)) (hL : ∀ r ∈ rs, r.2.Legs)
    (hk : MayKeep N none rs) {ψ : Nat → T} {d : Dsk T E} (hm : OnDisk N ψ d) :
    ∃ d', keptRuns N rs d = .ok d' ∧ OnDisk N (idealRuns N rs ψ) d' :=
  kept_runs hN rs none ψ d hL hk hm (fun c hc => by simp at hc)

/-- **C96** (deleting it always works). With the temporary directory deleted before every call, any calls, for any
Hamiltonians and in any order, are exact. -/
theorem C96_deleted {N : Nat} (hN : 3 ≤ N) (rs : List (KeptRun T E)) (hL : ∀ r ∈ rs, r.Legs) {ψ : Nat → T}
    {d : Dsk T E} (hm : OnDisk N ψ d) :
    ∃ d', keptRuns N (rs.map fun r => (true, r)) d = .ok d' ∧ OnDisk N (idealRuns N (rs.map fun r => (true, r)) ψ) d' := by
  refine C96_kept_directory hN _ (fun r hr => ?_) ?_ hm
  · obtain ⟨r', h, rfl⟩ := List.mem_map.1 hr
    exact hL r' h
  · generalize (none : Option (KeptRun T E)) = c
    induction rs generalizing c with
    | nil => cases c <;> trivial
    | cons r rs ih => cases c <;> exact ih (fun r hr => hL r (List.mem_cons_of_mem _ hr)) _

theorem ideal_del (N : Nat) (rs : List (Bool × KeptRun T E)) (ψ : Nat → T) :
    idealRuns N ((rs.map Prod.snd).map fun r => (true, r)) ψ = idealRuns N rs ψ := by
  induction rs generalizing ψ with
  | nil => rfl
  | cons r rs ih => exact ih _

/-- **C96** (keeping changes nothing). Where the directory may be kept, the calls leave file by file the MPS they leave
when it is deleted before every call; so what is known of calls that start with an empty temporary directory (C95) holds
for them. -/
theorem C96_as_deleted {N : Nat} (hN : 3 ≤ N) (rs : List (Bool × KeptRun T E)) (hL : ∀ r ∈ rs, r.2.Legs)
    (hk : MayKeep N none rs) {ψ : Nat → T} {d : Dsk T E} (hm : OnDisk N ψ d) :
    ∃ d1 d2, keptRuns N rs d = .ok d1 ∧ keptRuns N ((rs.map Prod.snd).map fun r => (true, r)) d = .ok d2 ∧
      ∀ j, j < N → d1.m j = d2.m j := by
  obtain ⟨d1, e1, e2⟩ := C96_kept_directory hN rs hL hk hm
  obtain ⟨d2, f1, f2⟩ := C96_deleted hN (rs.map Prod.snd) (fun r hr => by
    obtain ⟨r', h, rfl⟩ := List.mem_map.1 hr
    exact hL r' h) hm
  rw [ideal_del] at f2
  exact ⟨d1, d2, e1, f1, fun j hj => by rw [e2 j hj, f2 j hj]⟩

/-- **C96** (the code, single-site after two-site). A `SingleSiteFiniteVMPS` that finds the temporary directory a
`TwoSiteFiniteVMPS` has created stops at a load of a missing file: the right environment of all sites but the first is
not there. -/
theorem C96_single_after_two_violation {A : Alg T E} (H : A.Legs) (B : Alg T E) (O : Opt1 T E) {N : Nat} (hN : 3 ≤ N)
    (k : Nat) {k' : Nat} (hk : 1 ≤ k') {ψ : Nat → T} {d : Dsk T E} (hm : OnDisk N ψ d) :
    keptRuns N [(true, .two A k), (false, .single B O k')] d = .error .noFile ∨
      keptRuns N [(true, .two A k), (false, .single B O k')] d = .error .badFile := by
  obtain ⟨s', e1, -, -, -, e5⟩ := two_exec H hN false k 0 (d := wipe d) hm (by simp [TempOK])
  have h : LoadFails (run N N (singleSite B O N true k') ⟨Mem.blank 0, s'.dsk⟩) := by
    rw [show singleSite B O N true k' = sweeps1 B O N k' by simp [singleSite]]
    exact sweeps1_fails B O (by omega) hk (Or.inl fun e he => by rw [e5 _ (by omega)] at he; simp [wipe] at he)
  simp only [keptRuns, KeptRun.exec, Bool.not_true, Bool.not_false, if_true]
  rw [e1]
  simp only []
  rw [show (if false = true then wipe s'.dsk else s'.dsk) = s'.dsk from rfl]
  rcases h with h | h <;> rw [h]
  · exact Or.inl rfl
  · exact Or.inr rfl

/-- **C96** (the code, the stale file). A `TwoSiteFiniteVMPS` leaves the right environment of all sites but the first as
it finds it: after a single-site call that of the MPS before its own sweeps, where the next single-site call takes it
for that of the MPS on disk. -/
theorem C96_stale_file {A B : Alg T E} (S : SameEnv A B) {O : Opt1 T E} (HO : O.Legs A) (H : B.Legs) {N : Nat} (hN : 3 ≤ N)
    (k k' : Nat) {ψ : Nat → T} {d : Dsk T E} (hm : OnDisk N ψ d) :
    ∃ d', keptRuns N [(true, .single A O k), (false, .two B k')] d = .ok d' ∧
      d'.r (N - 1) = .whole (A.renv N (opt1Sweeps A O N k (ψ, 0)).1 (N - 1)) := by
  obtain ⟨s', e1, e2, -, e4, -⟩ := C23_single_site HO (by omega) false k 0 (d := wipe d) hm (by simp [TempOK1])
  obtain ⟨s2, f1, -, -, -, f5⟩ := two_exec H hN true k' 0 e2 (fun _ => S.ready e4.two)
  refine ⟨s2.dsk, ?_, by rw [f5 _ (by omega), e4.r _ (by omega)]⟩
  simp only [keptRuns, KeptRun.exec, Bool.not_true, Bool.not_false, if_true]
  rw [e1]
  simp only []
  rw [show (if false = true then wipe s'.dsk else s'.dsk) = s'.dsk from rfl, f1]

/-! ### Concrete cases

Tensors are numbers, environments the sums of the tensors of their sites, each multiplied with the number `h` of the
Hamiltonian. An update adds the environments to the tensors. -/

/-- A concrete algorithm. -/
def keepAlg (h : Nat) : Alg Nat Nat where
  trivL _ := 0
  trivR _ := 0
  growL _ e t := e + h * t
  growR _ e t := e + h * t
  opt c _ _ e f t u := (t + e + c, u + f)

/-- A concrete single-site update. -/
def keepOpt1 : Opt1 Nat Nat := fun c _ _ e f t u => ((t + f, u + e + c), c + 1)

theorem keepAlg_legs (h : Nat) : (keepAlg h).Legs := ⟨fun _ _ _ _ _ _ _ => rfl, fun _ _ _ _ _ _ _ => rfl⟩

theorem keepOpt1_legs (h : Nat) : keepOpt1.Legs (keepAlg h) := ⟨fun _ _ _ _ _ _ _ => rfl, fun _ _ _ _ _ _ _ => rfl⟩

/-- The tensors `1, 2, 3, …` and no environments. -/
def keepDsk : Dsk Nat Nat := ⟨fun j => .whole (j + 1), fun _ => .gone, fun _ => .gone⟩

/-- The tensors after the calls. -/
def keepShot (N : Nat) (rs : List (Bool × KeptRun Nat Nat)) : Option (List (File Nat)) :=
  (keptRuns N rs keepDsk).toOption.map fun d => (List.range N).map d.m

/-- The tensors that exact environments give. -/
def keepIdeal (N : Nat) (rs : List (Bool × KeptRun Nat Nat)) : Option (List (File Nat)) :=
  some ((List.range N).map fun j => .whole (idealRuns N rs (fun j => j + 1) j))

/-- A concrete noisy update. -/
def keepOpt3 : Opt3 Nat Nat := fun c _ _ e f t u v => ((t + e, u + c, v + f), c + 1)

/-- A noisy call with the trivial changes of gauge, and the range given by `w`. -/
def keepNoisy (h : Nat) (w : (Nat → Bool) × (Nat → Bool) × Nat) : KeptRun Nat Nat :=
  .noisy (keepAlg h) keepOpt3 (fun t u => (t, u)) exGauge w.1 w.2.1 1

theorem keepNoisy_legs (h : Nat) (w : (Nat → Bool) × (Nat → Bool) × Nat) : (keepNoisy h w).Legs :=
  ⟨⟨fun _ _ _ _ _ _ _ _ => rfl, fun _ _ _ _ _ _ _ _ => rfl⟩, ⟨fun _ _ => rfl, fun _ _ => rfl⟩,
    ⟨fun _ _ _ => rfl, fun _ _ _ => rfl, fun _ _ _ => rfl, fun _ _ _ => rfl, fun _ _ _ _ => rfl⟩⟩

/-- With a noisy call after a single-site one, over the whole chain and over the middle. -/
example : MayKeep 5 none [(true, .single (keepAlg 1) keepOpt1 1), (false, .two (keepAlg 1) 1), (false, keepNoisy 1 wide),
    (false, keepNoisy 1 narrow)] := by
  refine ⟨⟨SameEnv.refl _, ?_, ?_, ?_⟩, ⟨SameEnv.refl _, ?_, ?_, ?_⟩, ⟨SameEnv.refl _, ?_, ?_, ?_⟩, trivial⟩ <;> decide

/-- The hypotheses hold: two single-site calls, two two-site calls, and another Hamiltonian in a new directory. -/
example : MayKeep 3 none [(true, .single (keepAlg 1) keepOpt1 1), (false, .single (keepAlg 1) keepOpt1 2), (false, .two (keepAlg 1) 1),
    (false, .two (keepAlg 1) 1), (true, KeptRun.two (keepAlg 2) 1)] ∧ OnDisk 3 (fun j => j + 1) keepDsk := by
  simp [MayKeep, KeptRun.isSingle, KeptRun.range, KeptRun.alg, SameEnv.refl, OnDisk, keepDsk]

/-- **C96** (the code, stale environment used). A single-site, a two-site and a single-site call for the same Hamiltonian
in one temporary directory all succeed, but the last one does not make its updates in the environments of the MPS on
disk, and leaves another MPS than exact environments give; with the directory deleted before the last call it leaves
the right one. -/
theorem C96_stale_violation : let rs := fun del => [(true, KeptRun.single (keepAlg 1) keepOpt1 1),
    (false, .two (keepAlg 1) 1), (del, .single (keepAlg 1) keepOpt1 1)]
    (∃ l, keepShot 3 (rs false) = some l ∧ keepIdeal 3 (rs false) ≠ some l) ∧ keepShot 3 (rs true) = keepIdeal 3 (rs true) := by
  refine ⟨⟨_, rfl, by decide⟩, by decide⟩

/-- **C96** (the code, another Hamiltonian). A call for another Hamiltonian that finds the temporary directory succeeds
too, with updates in environments of the old Hamiltonian, and leaves another MPS than exact environments give; again
deleting the directory helps. -/
theorem C96_hamiltonian_violation : let rs := fun del => [(true, KeptRun.two (keepAlg 1) 1), (del, .two (keepAlg 2) 1)]
    (∃ l, keepShot 3 (rs false) = some l ∧ keepIdeal 3 (rs false) ≠ some l) ∧ keepShot 3 (rs true) = keepIdeal 3 (rs true) := by
  refine ⟨⟨_, rfl, by decide⟩, by decide⟩

/-- **C96** (the code, a larger range). Five sites: a two-site call, a noisy call over the sites 1 to 3, and a two-site call
for the same Hamiltonian in one temporary directory all succeed, but the last one uses a right environment from before the
noisy call; again deleting the directory helps. -/
theorem C96_range_violation : let rs := fun del => [(true, KeptRun.two (keepAlg 1) 1), (false, keepNoisy 1 narrow),
    (del, .two (keepAlg 1) 1)]
    (∃ l, keepShot 5 (rs false) = some l ∧ keepIdeal 5 (rs false) ≠ some l) ∧ keepShot 5 (rs true) = keepIdeal 5 (rs true) := by
  refine ⟨⟨_, rfl, by decide +kernel⟩, by decide +kernel⟩

end Verif.Props
