import Verif.Disk.CrashFacts
/-
Properties C18, C19, C20, C22 (the two-site variational sweep on disk).
-/
namespace Verif.Props
open Verif.Disk

variable {T E : Type}

/-! ### A concrete algorithm

Tensors are version numbers, environments are the lists of the versions of their sites, and the `c`-th update
writes the versions `10+2c`, `11+2c`. -/

/-- A concrete algorithm. -/
def exAlg : Alg Nat (List Nat) where
  trivL _ := []
  trivR _ := []
  growL _ e t := e ++ [t]
  growR _ e t := t :: e
  opt c _ _ _ _ _ _ := (10 + 2 * c, 11 + 2 * c)

theorem exAlg_legs : exAlg.Legs := ⟨fun _ _ _ _ _ _ _ => rfl, fun _ _ _ _ _ _ _ => rfl⟩

/-- A directory with the tensors `0, 1, 2, …` and no environments. -/
def exDsk : Dsk Nat (List Nat) := ⟨fun j => .whole j, fun _ => .gone, fun _ => .gone⟩

/-- The first files of a directory. -/
def shot (d : Dsk T E) (n : Nat) : List (File T) × List (File E) × List (File E) :=
  ((List.range n).map d.m, (List.range n).map d.l, (List.range n).map d.r)

/-! ### C18, C19 -/

/-- No tensor in memory. -/
structure NoTensors (mem : Mem T E) (clk : Nat) : Prop where
  m : mem.m = fun _ => none
  l : mem.l = fun _ => none
  r : mem.r = fun _ => none
  clk : mem.clk = clk

theorem blank_noTensors (clk : Nat) : NoTensors (Mem.blank clk : Mem T E) clk := ⟨rfl, rfl, rfl, rfl⟩

theorem start_of {A : Alg T E} {N lb rb : Nat} (h1 : lb + 2 ≤ rb) (h2 : rb < N) {clk : Nat} {ψ : Nat → T}
    {d : Dsk T E} {mem : Mem T E} (h0 : NoTensors mem clk) (hm : OnDisk N ψ d) (he : EnvReady A N lb rb ψ d) :
    Start A N lb rb d.l d.r (ψ, clk) ⟨{ mem with m := Function.update mem.m (lb + 1) (some (ψ (lb + 1))) }, d⟩ := by
  refine ⟨?_, h0.l, h0.r, h0.clk, fun j hj _ => hm j hj, ⟨_, hm _ (by omega)⟩, fun j => ?_, fun j => ?_⟩
  · funext j; simp [one, Function.update, h0.m]
  · by_cases h : j = lb
    · subst h; rw [if_pos (by omega)]; exact he.l
    · rw [if_neg (by omega)]
  · by_cases h : N ≤ j + 1 + rb ∧ j + lb + 2 ≤ N
    · rw [if_pos h]; exact he.r j h.1 h.2
    · rw [if_neg h, if_neg h]

/-- **C18**, **C19** (sweeps between two boundary sites). From a directory with the MPS `ψ` and the environments a
sweep starts with, any number of sweeps runs without missing file, null pointer or index out of range. The MPS on
disk is then the one obtained by optimising the pairs in order, each in the exact environments of the current MPS;
nothing is left in memory, and the environment files are again those a sweep starts with, now for the new MPS. -/
theorem C18_sweeps {A : Alg T E} (H : A.Legs) {N lb rb : Nat} (h1 : lb + 2 ≤ rb) (h2 : rb < N) (k clk : Nat) {ψ : Nat → T}
    {d : Dsk T E} {mem : Mem T E} (h0 : NoTensors mem clk) (hm : OnDisk N ψ d) (he : EnvReady A N lb rb ψ d) :
    ∃ s', run N (N - 1) (sweeps2 A N lb rb k) ⟨mem, d⟩ = .ok s' ∧
      OnDisk N (optSweeps A N lb rb k (ψ, clk)).1 s'.dsk ∧ NoTensors s'.mem (optSweeps A N lb rb k (ψ, clk)).2 ∧
      EnvReady A N lb rb (optSweeps A N lb rb k (ψ, clk)).1 s'.dsk ∧
      (∀ j, s'.dsk.l j = if j = lb then .whole (A.lenv (optSweeps A N lb rb k (ψ, clk)).1 lb)
        else if k ≠ 0 ∧ lb ≤ j ∧ j < rb then .gone else d.l j) ∧
      (∀ j, ¬ (N ≤ j + 1 + rb ∧ j + lb + 2 ≤ N) → s'.dsk.r j = d.r j) := by
  have hst := start_of h1 h2 h0 hm he
  have : Does N (N - 1) (sweeps2 A N lb rb k) ⟨mem, d⟩ (fun s' =>
      OnDisk N (optSweeps A N lb rb k (ψ, clk)).1 s'.dsk ∧ NoTensors s'.mem (optSweeps A N lb rb k (ψ, clk)).2 ∧
      EnvReady A N lb rb (optSweeps A N lb rb k (ψ, clk)).1 s'.dsk ∧
      (∀ j, s'.dsk.l j = if j = lb then .whole (A.lenv (optSweeps A N lb rb k (ψ, clk)).1 lb)
        else if k ≠ 0 ∧ lb ≤ j ∧ j < rb then .gone else d.l j) ∧
      (∀ j, ¬ (N ≤ j + 1 + rb ∧ j + lb + 2 ≤ N) → s'.dsk.r j = d.r j)) := by
    unfold sweeps2
    refine .ldM (by omega) (hm _ (by omega)) ?_
    refine Does.append (sweepsLoop_ok H h1 h2 k hst) fun s1 i1 => ?_
    refine .dpM (t := (optSweeps A N lb rb k (ψ, clk)).1 (lb + 1)) (by omega) (by rw [i1.m]; simp [one]) (.nil ?_)
    refine ⟨fun j hj => ?_, ⟨?_, i1.l, i1.r, i1.clk⟩, ⟨?_, fun j g1 g2 => ?_⟩, fun j => ?_, fun j hj => ?_⟩
    · by_cases h : j = lb + 1
      · subst h; simp
      · simp only [Function.update_of_ne h]; exact i1.d.m j hj h
    · funext j
      rw [i1.m]
      by_cases h : j = lb + 1
      · subst h; simp
      · simp only [Function.update_of_ne h]; simp [one, h]
    · simp only [i1.d.l lb]; rw [if_pos (by omega)]
    · simp only [i1.d.r j]; rw [if_pos (by omega)]
    · simp only [i1.d.l j]
      by_cases h : j = lb
      · subst h; rw [if_pos (by omega), if_pos rfl]
      · rw [if_neg (by omega), if_neg h]
        by_cases hk : k = 0
        · rw [if_pos hk, if_neg (by omega)]
        · rw [if_neg hk, trim]
          by_cases hj : lb ≤ j ∧ j < rb
          · rw [if_pos hj, if_pos ⟨hk, hj⟩]
          · rw [if_neg hj, if_neg (fun x => hj x.2)]
    · simp only [i1.d.r j]; rw [if_neg hj, if_neg hj]
  exact this

/-- **C20** (serial). `InitEnvs` writes the right environment of every length `0 … N-usn`, each of the tensors on
disk, and the trivial left environment; it touches no tensor file and leaves memory empty. For a sweep from `lb` it
is called with `usn = lb + 2`, so that the longest one is `N-2-lb`. -/
theorem C20_init_envs (A : Alg T E) {N n usn : Nat} (h : usn < N) (clk : Nat) {ψ : Nat → T} {d : Dsk T E} (hm : OnDisk N ψ d) :
    ∃ s', run N n (initEnvs A N usn) ⟨Mem.blank clk, d⟩ = .ok s' ∧ s'.dsk.m = d.m ∧ s'.mem.m = (fun _ => none) ∧
      (∀ k, k ≤ N - usn → s'.dsk.r k = .whole (A.renv N ψ k)) ∧ (∀ k, N - usn < k → s'.dsk.r k = d.r k) ∧
      s'.dsk.l 0 = .whole (A.lenv ψ 0) ∧ (∀ k, 0 < k → s'.dsk.l k = d.l k) := by
  obtain ⟨s', hr, e1, -, -, -, e2⟩ := initEnvs_ok (A := A) (n := n) (s0 := ⟨Mem.blank clk, d⟩) hm rfl h
  refine ⟨s', hr, ?_, e1, fun k hk => ?_, fun k hk => ?_, ?_, fun k hk => ?_⟩ <;> rw [e2]
  · simp only []; rw [if_pos hk]
  · simp only []; rw [if_neg (by omega)]
  · simp
  · simp only [Function.update_of_ne (show k ≠ 0 by omega)]

/-- Concretely, for three sites. -/
example : (run 3 2 (initEnvs exAlg 3 2) ⟨Mem.blank 0, exDsk⟩).toOption.map (fun s => shot s.dsk 3) =
    some ([.whole 0, .whole 1, .whole 2], [.whole [], .gone, .gone], [.whole [], .whole [2], .gone]) := by decide

/-- The environments that `TwoSiteFiniteVMPS` starts from: those of an earlier run if the temporary directory exists. -/
def TempOK (A : Alg T E) (N : Nat) (temp : Bool) (ψ : Nat → T) (d : Dsk T E) : Prop :=
  temp = true → EnvReady A N 0 (N - 1) ψ d

/-- `TwoSiteFiniteVMPS` is the initialisation followed by the sweeps. -/
theorem twoSite_start {A : Alg T E} {N : Nat} (hN : 3 ≤ N) (temp : Bool) {clk : Nat} {ψ : Nat → T}
    {d : Dsk T E} {mem : Mem T E} (h0 : NoTensors mem clk) (hm : OnDisk N ψ d) (ht : TempOK A N temp ψ d) :
    ∃ s', run N (N - 1) (.calc (assertEmpty N) :: (if temp then [] else initEnvs A N 2)) ⟨mem, d⟩ = .ok s' ∧
      NoTensors s'.mem clk ∧ OnDisk N ψ s'.dsk ∧ EnvReady A N 0 (N - 1) ψ s'.dsk ∧
      (∀ j, j ≠ 0 → s'.dsk.l j = d.l j) := by
  have h1 : assertEmpty N mem = .ok mem := by
    unfold assertEmpty; rw [if_pos (by simp [h0.m])]
  cases temp with
  | true =>
    refine ⟨⟨mem, d⟩, ?_, h0, hm, ht rfl, fun _ _ => rfl⟩
    simp only [run, exec, h1]; rfl
  | false =>
    obtain ⟨s', hr, e1, e2, e3, e4, e5⟩ := initEnvs_ok (A := A) (n := N - 1) (s0 := ⟨mem, d⟩) hm h0.m (show 2 < N by omega)
    refine ⟨s', ?_, ⟨e1, e2.trans h0.l, e3.trans h0.r, e4.trans h0.clk⟩, ?_, ⟨?_, fun k g1 g2 => ?_⟩, fun j hj => ?_⟩
    · simp only [run, exec, h1]; exact hr
    · rw [e5]; exact hm
    · rw [e5]; simp
    · rw [e5]; simp only []; rw [if_pos (by omega)]
    · rw [e5]; simp only [Function.update_of_ne hj]

theorem twoSite_eq (A : Alg T E) (N : Nat) (temp : Bool) (k : Nat) : twoSite A N temp k =
    (.calc (assertEmpty N) :: (if temp then [] else initEnvs A N 2)) ++ sweeps2 A N 0 (N - 1) k := by
  simp [twoSite]

/-- **C18**, **C19** (the serial `TwoSiteFiniteVMPS`, at least three sites). Whether the environments are created
or taken from an earlier run, the call succeeds, nothing is left in memory, the files of all sites are those of the
optimised MPS, and of the environments exactly the left one of length `0` and the right ones `0 … N-2` remain among
those that the program uses, all belonging to the optimised MPS. -/
theorem C19_final_mps {A : Alg T E} (H : A.Legs) {N : Nat} (hN : 3 ≤ N) (temp : Bool) (k clk : Nat) {ψ : Nat → T}
    {d : Dsk T E} (hm : OnDisk N ψ d) (ht : TempOK A N temp ψ d) :
    ∃ s', run N (N - 1) (twoSite A N temp k) ⟨Mem.blank clk, d⟩ = .ok s' ∧
      OnDisk N (optSweeps A N 0 (N - 1) k (ψ, clk)).1 s'.dsk ∧ s'.mem.m = (fun _ => none) ∧
      EnvReady A N 0 (N - 1) (optSweeps A N 0 (N - 1) k (ψ, clk)).1 s'.dsk ∧
      (∀ j, 0 < j → j < N - 1 → s'.dsk.l j = if k = 0 then d.l j else .gone) := by
  obtain ⟨s1, r1, h1, h2, h3, h4⟩ := twoSite_start hN temp (blank_noTensors clk) hm ht
  obtain ⟨s2, r2, g1, g2, g3, g4, -⟩ := C18_sweeps H (lb := 0) (rb := N - 1) (by omega) (by omega) k clk h1 h2 h3
  refine ⟨s2, by rw [twoSite_eq, run_append, r1]; exact r2, g1, g2.m, g3, fun j hj hj' => ?_⟩
  rw [g4 j, if_neg (by omega)]
  by_cases hk : k = 0
  · rw [if_neg (by omega), if_pos hk, h4 j (by omega)]
  · rw [if_pos (by omega), if_neg hk]

/-- Concretely: four sites, one sweep. The specification gives the versions `10, 16, 17, 15`, and these are the
files. -/
example : ((List.range 4).map (optSweeps exAlg 4 0 3 1 ((fun j => j), 0)).1 = [10, 16, 17, 15]) ∧
    (run 4 3 (twoSite exAlg 4 false 1) ⟨Mem.blank 0, exDsk⟩).toOption.map (fun s => shot s.dsk 4) =
      some ([.whole 10, .whole 16, .whole 17, .whole 15], [.whole [], .gone, .gone, .gone],
        [.whole [], .whole [15], .whole [17, 15], .gone]) := by decide

/-- **C18** (the code, two sites). With two sites and no temporary directory the call does not get beyond the
initialisation: the tensor of the last site stays in memory and the assertion at the end of `InitEnvs` fails. -/
theorem C18_two_sites_violation (A : Alg T E) (k clk : Nat) (t u : T) {d : Dsk T E} (h0 : d.m 0 = .whole t)
    (h1 : d.m 1 = .whole u) : run 2 1 (twoSite A 2 false k) ⟨Mem.blank clk, d⟩ = .error .assertFail := by
  simp [twoSite, initEnvs, run, exec, assertEmpty, Mem.blank, h0, h1, File.get, startR, startL, use, bind, Except.bind, pure,
    Except.pure, List.range_succ, Function.update]

/-! ### C22 -/

theorem after_consistent {A : Alg T E} {N lb rb : Nat} (h1 : lb + 2 ≤ rb) (h2 : rb < N) {d : Dsk T E} (h : After A N lb rb d)
    {ψ : Nat → T} (hm : OnDisk N ψ d) : d.l lb = .whole (A.lenv ψ lb) ∧
      ∀ k e, N ≤ k + 1 + rb → k + lb + 2 ≤ N → d.r k = .whole e → e = A.renv N ψ k := by
  rcases h with ⟨ψ', b, hb, hb', h⟩ | ⟨ψ', h, h'⟩ | ⟨h, -⟩
  · refine ⟨?_, fun k e g1 g2 g3 => ?_⟩
    · rw [h.env]
      refine congrArg _ (lenv_congr A (h.tl _ (hm 0 (by omega))).symm lb fun j hj => ?_)
      have := hm j (by omega)
      rw [h.left j hj] at this
      injection this
    · obtain ⟨g4, rfl⟩ := h.r k e g1 g2 g3
      refine renv_congr A (h.tr _ (hm (N - 1) (by omega))).symm k (fun j hj hj' => ?_) (by omega)
      have := hm j hj'
      rw [h.right j (by omega) hj'] at this
      injection this
  · have e : ∀ j, j < N → ψ' j = ψ j := fun j hj => by
      have := h j hj
      rw [hm j hj] at this
      injection this with this
      exact this.symm
    refine ⟨?_, fun k e' g1 g2 g3 => ?_⟩
    · rw [h'.l]; exact congrArg _ (lenv_congr A (by rw [e 0 (by omega)]) lb fun j hj => e j (by omega))
    · rw [h'.r k g1 g2] at g3
      injection g3 with g3
      rw [← g3]
      exact renv_congr A (by rw [e (N - 1) (by omega)]) k (fun j _ hj => e j hj) (by omega)
  · rw [hm (lb + 1) (by omega)] at h
    exact absurd h (by simp)

/-- Where the sweeps can be killed. -/
theorem sweeps2_after {A : Alg T E} (H : A.Legs) {N lb rb : Nat} (h1 : lb + 2 ≤ rb) (h2 : rb < N) {k clk : Nat} {ψ : Nat → T}
    {d d' : Dsk T E} {mem : Mem T E} (h0 : NoTensors mem clk) (hm : OnDisk N ψ d) (he : EnvReady A N lb rb ψ d)
    (hc : Crash N (N - 1) (sweeps2 A N lb rb k) ⟨mem, d⟩ d') : After A N lb rb d' := by
  have hst := start_of h1 h2 h0 hm he
  have h3 : After A N lb rb d := hst.after h1 h2
  unfold sweeps2 at hc
  rcases hc.cons_inv with rfl | rfl | ⟨s1, e1, hc⟩
  · exact h3
  · exact h3
  rw [exec, if_pos (by omega), hm (lb + 1) (by omega)] at e1
  injection e1 with e1
  subst e1
  obtain ⟨⟨s2, r2, i2⟩, hcr⟩ := sweepsLoop_thru H h1 h2 k hst
  rcases hc.append_inv with hc | ⟨s3, r3, hc⟩
  · exact hcr _ hc
  rw [show run N (N - 1) _ _ = Except.ok s2 from r2] at r3
  injection r3 with r3
  subst r3
  have h4 := i2.after h1 h2
  rcases hc.cons_inv with rfl | rfl | ⟨s4, e4, hc⟩
  · exact h4
  · right; right
    refine ⟨by simp [tear], (optSweeps A N lb rb k (ψ, clk)).1, fun j hj hj' => ?_, ⟨?_, fun k g1 g2 => ?_⟩⟩
    · simp only [tear, Function.update_of_ne hj']; exact i2.d.m j hj hj'
    · simp only [tear, i2.d.l lb]; rw [if_pos (by omega)]
    · simp only [tear, i2.d.r k]; rw [if_pos (by omega)]
  · rw [exec, if_pos (by omega)] at e4
    injection e4 with e4
    subst e4
    rw [hc.nil_inv]
    right; left
    refine ⟨(optSweeps A N lb rb k (ψ, clk)).1, fun j hj => ?_, ⟨?_, fun k g1 g2 => ?_⟩⟩
    · by_cases h : j = lb + 1
      · subst h; simp [i2.m, one, dumped]
      · simp only [Function.update_of_ne h]; exact i2.d.m j hj h
    · simp only [i2.d.l lb]; rw [if_pos (by omega)]
    · simp only [i2.d.r k]; rw [if_pos (by omega)]

/-- **C22** (no stale environment). Whenever the sweeps are killed, if the tensor files are all complete then every
complete environment file of the swept range is the environment of the tensors on disk. -/
theorem C22_no_stale_environment {A : Alg T E} (H : A.Legs) {N lb rb : Nat} (h1 : lb + 2 ≤ rb) (h2 : rb < N) (k clk : Nat)
    {ψ : Nat → T} {d d' : Dsk T E} (hm : OnDisk N ψ d) (he : EnvReady A N lb rb ψ d)
    (hc : Crash N (N - 1) (sweeps2 A N lb rb k) ⟨Mem.blank clk, d⟩ d') {ψ' : Nat → T} (hm' : OnDisk N ψ' d') :
    d'.l lb = .whole (A.lenv ψ' lb) ∧
      ∀ k e, N ≤ k + 1 + rb → k + lb + 2 ≤ N → d'.r k = .whole e → e = A.renv N ψ' k :=
  after_consistent h1 h2 (sweeps2_after H h1 h2 (blank_noTensors clk) hm he hc) hm'

/-- A failed load. -/
def LoadFails (x : Except Err (Sys T E)) : Prop := x = .error .noFile ∨ x = .error .badFile

theorem get_cases {α : Type} (f : File α) : (f.get = .error .noFile ∨ f.get = .error .badFile) ∨ ∃ a, f = .whole a := by
  cases f with
  | gone => exact Or.inl (Or.inl rfl)
  | junk => exact Or.inl (Or.inr rfl)
  | whole a => exact Or.inr ⟨a, rfl⟩

theorem fails_ldM {N n i : Nat} {ops : List (Op T E)} {s : Sys T E} (hi : i < N) (h : ∀ t, s.dsk.m i = .whole t →
    LoadFails (run N n ops ⟨{ s.mem with m := Function.update s.mem.m i (some t) }, s.dsk⟩)) :
    LoadFails (run N n (.ldM i :: ops) s) := by
  rw [run, exec, if_pos hi]
  rcases get_cases (s.dsk.m i) with (g | g) | ⟨t, g⟩
  · rw [g]; exact Or.inl rfl
  · rw [g]; exact Or.inr rfl
  · rw [g]; exact h t g

theorem fails_ldL {N n i : Nat} {ops : List (Op T E)} {s : Sys T E} (hi : i < n) (h : ∀ t, s.dsk.l i = .whole t →
    LoadFails (run N n ops ⟨{ s.mem with l := Function.update s.mem.l i (some t) }, s.dsk⟩)) :
    LoadFails (run N n (.ldL i :: ops) s) := by
  rw [run, exec, if_pos hi]
  rcases get_cases (s.dsk.l i) with (g | g) | ⟨t, g⟩
  · rw [g]; exact Or.inl rfl
  · rw [g]; exact Or.inr rfl
  · rw [g]; exact h t g

theorem fails_ldR {N n i : Nat} {ops : List (Op T E)} {s : Sys T E} (hi : i < n) (h : ∀ t, s.dsk.r i = .whole t →
    LoadFails (run N n ops ⟨{ s.mem with r := Function.update s.mem.r i (some t) }, s.dsk⟩)) :
    LoadFails (run N n (.ldR i :: ops) s) := by
  rw [run, exec, if_pos hi]
  rcases get_cases (s.dsk.r i) with (g | g) | ⟨t, g⟩
  · rw [g]; exact Or.inl rfl
  · rw [g]; exact Or.inr rfl
  · rw [g]; exact h t g

/-- Without the first right environment, the left one, or the tensor of site `lb+1` the sweeps stop at a load. -/
theorem sweeps2_fails (A : Alg T E) {N lb rb : Nat} (h1 : lb + 2 ≤ rb) (h2 : rb < N) {k : Nat} (hk : 1 ≤ k) {s : Sys T E}
    (h : (∀ e, s.dsk.r (N - (lb + 2)) ≠ .whole e) ∨ (∀ e, s.dsk.l lb ≠ .whole e) ∨ (∀ t, s.dsk.m (lb + 1) ≠ .whole t)) :
    LoadFails (run N (N - 1) (sweeps2 A N lb rb k) s) := by
  obtain ⟨k, rfl⟩ : ∃ k', k = k' + 1 := ⟨k - 1, by omega⟩
  obtain ⟨n, hn⟩ : ∃ n, rb - 1 - lb = n + 1 := ⟨rb - 2 - lb, by omega⟩
  unfold sweeps2 sweep2 sitesR
  rw [hn, List.replicate_succ, List.flatten_cons, List.range'_succ, List.flatMap_cons]
  unfold stepR2 loadR2
  rw [if_pos rfl]
  simp only [List.cons_append]
  refine fails_ldM (by omega) fun t ht => ?_
  show LoadFails (run N (N - 1) (.ldM lb :: _) _)
  refine fails_ldM (by omega) fun t' ht' => ?_
  refine fails_ldR (by omega) fun e he => ?_
  show LoadFails (run N (N - 1) (.ldL lb :: _) _)
  refine fails_ldL (by omega) fun e' he' => ?_
  rcases h with h | h | h
  · exact absurd he (h e)
  · exact absurd he' (h e')
  · exact absurd ht (h t)

/-- **C22** (restart between two boundaries). After the sweeps were killed at any moment, sweeps over the same
range either stop at a load of a missing or incomplete file, or are exact sweeps on the MPS that is on disk. -/
theorem C22_restart_sweeps {A : Alg T E} (H : A.Legs) {N lb rb : Nat} (h1 : lb + 2 ≤ rb) (h2 : rb < N) (k clk : Nat)
    {ψ : Nat → T} {d d' : Dsk T E} (hm : OnDisk N ψ d) (he : EnvReady A N lb rb ψ d)
    (hc : Crash N (N - 1) (sweeps2 A N lb rb k) ⟨Mem.blank clk, d⟩ d') {k' : Nat} (hk : 1 ≤ k') (clk' : Nat) :
    LoadFails (run N (N - 1) (sweeps2 A N lb rb k') ⟨Mem.blank clk', d'⟩) ∨
      ∃ ψ' s', OnDisk N ψ' d' ∧ run N (N - 1) (sweeps2 A N lb rb k') ⟨Mem.blank clk', d'⟩ = .ok s' ∧
        OnDisk N (optSweeps A N lb rb k' (ψ', clk')).1 s'.dsk := by
  rcases sweeps2_after H h1 h2 (blank_noTensors clk) hm he hc with ⟨ψ', b, hb, hb', h⟩ | ⟨ψ', h, h'⟩ | ⟨h, -⟩
  · left
    refine sweeps2_fails A h1 h2 hk (Or.inl fun e he => ?_)
    have := (h.r _ e (by omega) (by omega) he).1
    omega
  · right
    obtain ⟨s', hr, g, -⟩ := C18_sweeps H h1 h2 k' clk' (blank_noTensors clk') h h'
    exact ⟨ψ', s', h, hr, g⟩
  · left
    exact sweeps2_fails A h1 h2 hk (Or.inr (Or.inr fun t ht => by simp [h] at ht))

/-- Operations that do not complete the left environment `0`. -/
def NotL0 : Op T E → Prop
  | .dpL k => k ≠ 0
  | .wrL k => k ≠ 0
  | _ => True

theorem notL0_exec {N n : Nat} {o : Op T E} (ho : NotL0 o) {s s1 : Sys T E} (he : exec N n o s = .ok s1)
    (h : ∀ e, s.dsk.l 0 ≠ .whole e) : ∀ e, s1.dsk.l 0 ≠ .whole e := by
  rw [exec_dsk he]
  cases o <;> try exact h
  case dpL k => intro e; simp only [eff, Function.update_of_ne (Ne.symm ho)]; exact h e
  case wrL k => intro e; simp only [eff, Function.update_of_ne (Ne.symm ho)]; exact h e
  case rmL k =>
    intro e
    by_cases hk : k = 0
    · subst hk; simp [eff]
    · simp only [eff, Function.update_of_ne (Ne.symm hk)]; exact h e

theorem notL0_tear {o : Op T E} (ho : NotL0 o) {d : Dsk T E} (h : ∀ e, d.l 0 ≠ .whole e) : ∀ e, (tear d o).l 0 ≠ .whole e := by
  cases o <;> try exact h
  case dpL k => intro e; simp only [tear, Function.update_of_ne (Ne.symm ho)]; exact h e
  case wrL k => intro e; simp only [tear, Function.update_of_ne (Ne.symm ho)]; exact h e

theorem notL0_crash {N n : Nat} : ∀ {ops : List (Op T E)}, (∀ o, o ∈ ops → NotL0 o) → ∀ {s : Sys T E} {d : Dsk T E},
    Crash N n ops s d → (∀ e, s.dsk.l 0 ≠ .whole e) → ∀ e, d.l 0 ≠ .whole e
  | [], _, s, d, hc, h => hc.nil_inv ▸ h
  | o :: ops, ho, s, d, hc, h => by
    rcases hc.cons_inv with rfl | rfl | ⟨s1, he, hc'⟩
    · exact h
    · exact notL0_tear (ho o (by simp)) h
    · exact notL0_crash (fun o' h' => ho o' (by simp [h'])) hc' (notL0_exec (ho o (by simp)) he h)

theorem notL0_run {N n : Nat} : ∀ {ops : List (Op T E)}, (∀ o, o ∈ ops → NotL0 o) → ∀ {s s1 : Sys T E},
    run N n ops s = .ok s1 → (∀ e, s.dsk.l 0 ≠ .whole e) → ∀ e, s1.dsk.l 0 ≠ .whole e
  | [], _, s, s1, hr, h => by injection hr with hr; subst hr; exact h
  | o :: ops, ho, s, s1, hr, h => by
    rw [run] at hr
    cases he : exec N n o s with
    | error x => rw [he] at hr; exact absurd hr (by simp [bind, Except.bind])
    | ok s2 =>
      rw [he] at hr
      exact notL0_run (fun o' h' => ho o' (by simp [h'])) hr (notL0_exec (ho o (by simp)) he h)

/-- Killed during the initialisation: either the left environment is not there, or all is. -/
theorem init_crash {A : Alg T E} {N : Nat} (hN : 3 ≤ N) {clk : Nat} {ψ : Nat → T} {d d' : Dsk T E} (hm : OnDisk N ψ d)
    (hl : ∀ e, d.l 0 ≠ .whole e)
    (hc : Crash N (N - 1) (.calc (assertEmpty N) :: initEnvs A N 2) ⟨Mem.blank clk, d⟩ d') :
    (∀ e, d'.l 0 ≠ .whole e) ∨ (OnDisk N ψ d' ∧ EnvReady A N 0 (N - 1) ψ d') := by
  have hspl : (.calc (assertEmpty N) :: initEnvs A N 2 : List (Op T E)) =
      (.calc (assertEmpty N) :: .ldM (N - 1) :: .calc (startR A N) :: .wrR 0 ::
        ((List.range' 1 (N - 2)).flatMap (initStep A N) ++ [.ldM 0, .calc (startL A)])) ++
      [.wrL 0, .frM 0, .calc (assertEmpty N)] := by simp [initEnvs]
  have hf : ∀ o, o ∈ (.calc (assertEmpty N) :: .ldM (N - 1) :: .calc (startR A N) :: .wrR 0 ::
        ((List.range' 1 (N - 2)).flatMap (initStep A N) ++ [.ldM 0, .calc (startL A)]) : List (Op T E)) → NotL0 o := by
    intro o ho
    simp only [List.mem_cons, List.mem_append, List.mem_flatMap, List.not_mem_nil, or_false] at ho
    rcases ho with rfl | rfl | rfl | rfl | ⟨i, -, ho⟩ | rfl | rfl <;> try trivial
    unfold initStep at ho
    simp only [List.mem_append, List.mem_cons, List.not_mem_nil, or_false] at ho
    rcases ho with ho | rfl | rfl | rfl <;> try trivial
    split at ho
    · simp only [List.mem_cons, List.not_mem_nil, or_false] at ho; subst ho; trivial
    · exact absurd ho (by simp)
  obtain ⟨s', r', -, h1, h2, -⟩ := twoSite_start (A := A) hN false (blank_noTensors clk) hm (fun h => by simp at h)
  have r'' : run N (N - 1) (.calc (assertEmpty N) :: initEnvs A N 2) ⟨Mem.blank clk, d⟩ = .ok s' := r'
  rw [hspl] at hc r''
  rcases hc.append_inv with hc | ⟨s1, r1, hc⟩
  · exact Or.inl (notL0_crash hf hc hl)
  have hl1 := notL0_run hf r1 hl
  rw [run_append, r1] at r''
  have r3 : run N (N - 1) [.wrL 0, .frM 0, .calc (assertEmpty N)] s1 = .ok s' := r''
  rcases hc.cons_inv with rfl | rfl | ⟨s2, e2, hc⟩
  · exact Or.inl hl1
  · exact Or.inl fun e => by simp [tear]
  right
  rw [run, e2] at r3
  have hdd : d' = s'.dsk := by
    rcases hc.cons_inv with rfl | rfl | ⟨s3, e3, hc⟩
    all_goals
      replace r3 : run N (N - 1) [.frM 0, .calc (assertEmpty N)] s2 = .ok s' := r3
      rw [run] at r3
    · rw [exec, if_pos (by omega)] at r3
      replace r3 : run N (N - 1) [.calc (assertEmpty N)] ⟨_, s2.dsk⟩ = .ok s' := r3
      rw [run, exec] at r3
      cases hf : assertEmpty N ({ s2.mem with m := Function.update s2.mem.m 0 none } : Mem T E) with
      | error x => rw [hf] at r3; exact absurd r3 (by simp [bind, Except.bind])
      | ok m => rw [hf] at r3; injection r3 with r3; subst r3; rfl
    · rw [exec, if_pos (by omega)] at r3
      replace r3 : run N (N - 1) [.calc (assertEmpty N)] ⟨_, s2.dsk⟩ = .ok s' := r3
      rw [run, exec] at r3
      cases hf : assertEmpty N ({ s2.mem with m := Function.update s2.mem.m 0 none } : Mem T E) with
      | error x => rw [hf] at r3; exact absurd r3 (by simp [bind, Except.bind])
      | ok m => rw [hf] at r3; injection r3 with r3; subst r3; rfl
    · rw [e3] at r3
      rw [exec, if_pos (by omega)] at e3
      injection e3 with e3
      replace r3 : run N (N - 1) [.calc (assertEmpty N)] s3 = .ok s' := r3
      rw [run, exec] at r3
      cases hf : assertEmpty N s3.mem with
      | error x => rw [hf] at r3; exact absurd r3 (by simp [bind, Except.bind])
      | ok m =>
        rw [hf] at r3; injection r3 with r3; subst r3
        rcases hc.cons_inv with rfl | rfl | ⟨s4, e4, hc⟩
        · rfl
        · rfl
        · rw [exec, hf] at e4
          injection e4 with e4; subst e4
          exact hc.nil_inv
  rw [hdd]
  exact ⟨h1, h2⟩

/-- **C22** (restart of the serial program). The serial `TwoSiteFiniteVMPS`, started with a fresh temporary directory
or with the environments of an earlier run, is killed at any moment and started again; as the temporary directory
now exists, it takes what is there. It either stops at a load of a missing or incomplete file, or makes exact sweeps
on the MPS that is on disk. -/
theorem C22_restart {A : Alg T E} (H : A.Legs) {N : Nat} (hN : 3 ≤ N) (temp : Bool) (k clk : Nat) {ψ : Nat → T}
    {d d' : Dsk T E} (hm : OnDisk N ψ d) (ht : TempOK A N temp ψ d) (hl : temp = false → d.l 0 = .gone)
    (hc : Crash N (N - 1) (twoSite A N temp k) ⟨Mem.blank clk, d⟩ d') {k' : Nat} (hk : 1 ≤ k') (clk' : Nat) :
    LoadFails (run N (N - 1) (twoSite A N true k') ⟨Mem.blank clk', d'⟩) ∨
      ∃ ψ' s', OnDisk N ψ' d' ∧ run N (N - 1) (twoSite A N true k') ⟨Mem.blank clk', d'⟩ = .ok s' ∧
        OnDisk N (optSweeps A N 0 (N - 1) k' (ψ', clk')).1 s'.dsk := by
  have hrun : run N (N - 1) (twoSite A N true k') ⟨Mem.blank clk', d'⟩ =
      run N (N - 1) (sweeps2 A N 0 (N - 1) k') ⟨Mem.blank clk', d'⟩ := by
    have h1 : assertEmpty N (Mem.blank clk' : Mem T E) = .ok (Mem.blank clk') := by
      unfold assertEmpty; rw [if_pos (by simp [Mem.blank])]
    rw [twoSite, if_pos rfl, List.nil_append, run, exec, h1]; rfl
  have key : (∀ e, d'.l 0 ≠ .whole e) ∨ After A N 0 (N - 1) d' := by
    rw [twoSite_eq] at hc
    obtain ⟨s1, r1, h1, h2, h3, -⟩ := twoSite_start (A := A) hN temp (blank_noTensors clk) hm ht
    rcases hc.append_inv with hc | ⟨s2, r2, hc⟩
    · cases temp with
      | true =>
        right; right; left
        refine ⟨ψ, ?_⟩
        rcases hc.cons_inv with rfl | rfl | ⟨s2, e2, hc⟩
        · exact ⟨hm, ht rfl⟩
        · exact ⟨hm, ht rfl⟩
        · have h1 : assertEmpty N (Mem.blank clk : Mem T E) = .ok (Mem.blank clk) := by
            unfold assertEmpty; rw [if_pos (by simp [Mem.blank])]
          rw [exec, h1] at e2
          injection e2 with e2
          subst e2
          rw [hc.nil_inv]; exact ⟨hm, ht rfl⟩
      | false =>
        rcases init_crash hN hm (by rw [hl rfl]; simp) hc with h | h
        · exact Or.inl h
        · exact Or.inr (Or.inr (Or.inl ⟨ψ, h⟩))
    · rw [r1] at r2
      injection r2 with r2
      subst r2
      exact Or.inr (sweeps2_after H (by omega) (by omega) h1 h2 h3 hc)
  rw [hrun]
  rcases key with h | ⟨ψ', b, hb, hb', h⟩ | ⟨ψ', h, h'⟩ | ⟨h, -⟩
  · exact Or.inl (sweeps2_fails A (by omega) (by omega) hk (Or.inr (Or.inl h)))
  · left
    refine sweeps2_fails A (by omega) (by omega) hk (Or.inl fun e he => ?_)
    have := (h.r _ e (by omega) (by omega) he).1
    omega
  · right
    obtain ⟨s', hr, g, -⟩ := C18_sweeps H (lb := 0) (rb := N - 1) (by omega) (by omega) k' clk' (blank_noTensors clk') h h'
    exact ⟨ψ', s', h, hr, g⟩
  · left
    exact sweeps2_fails A (by omega) (by omega) hk (Or.inr (Or.inr fun t ht => by simp [h] at ht))

/-- The hypotheses of the restart theorem hold for the concrete algorithm. -/
example : OnDisk 3 (fun j => j) exDsk ∧ TempOK exAlg 3 false (fun j => j) exDsk ∧ exDsk.l 0 = .gone :=
  ⟨fun _ _ => rfl, fun h => by simp at h, rfl⟩

/-- The states the algorithm goes through on three sites in one sweep. -/
def exTrajectory : List (List Nat) := [[0, 1, 2], [10, 11, 2], [10, 12, 13]]

example : let ψ0 : (Nat → Nat) × Nat := ((fun j => j), 0)
    let ψ1 := optR exAlg 3 ψ0 0
    let ψ2 := optL exAlg 3 ψ1 2
    optSweeps exAlg 3 0 2 1 ψ0 = ψ2 ∧ exTrajectory = [ψ0, ψ1, ψ2].map (fun ψ => (List.range 3).map ψ.1) :=
  ⟨rfl, by decide⟩

/-- **C22** (the code). The MPS that a restart goes on with need not be one the algorithm ever had: while the centre
tensor is only in memory its file is that of an earlier state. On three sites, killed at the end of the first sweep,
the directory holds the new tensors of the sites 0 and 2 and the initial tensor of site 1, and the next run accepts
it without complaint. -/
theorem C22_mixed_state_violation : ∃ d' : Dsk Nat (List Nat),
    Crash 3 2 (twoSite exAlg 3 false 1) ⟨Mem.blank 0, exDsk⟩ d' ∧
      OnDisk 3 (fun j => [10, 1, 13].getD j 0) d' ∧ [10, 1, 13] ∉ exTrajectory ∧
      ∃ s', run 3 2 (twoSite exAlg 3 true 1) ⟨Mem.blank 0, d'⟩ = .ok s' := by
  obtain ⟨s1, r1, -⟩ : ∃ s1, run 3 2 ((twoSite exAlg 3 false 1).dropLast) ⟨Mem.blank 0, exDsk⟩ = .ok s1 ∧ True := ⟨_, rfl, trivial⟩
  have hs : (run 3 2 ((twoSite exAlg 3 false 1).dropLast) ⟨Mem.blank 0, exDsk⟩).toOption.map (fun s => shot s.dsk 3) =
      some ([.whole 10, .whole 1, .whole 13], [.whole [], .gone, .gone], [.whole [], .whole [13], .gone]) := by decide
  rw [r1] at hs
  have hs' : shot s1.dsk 3 = ([.whole 10, .whole 1, .whole 13], [.whole [], .gone, .gone], [.whole [], .whole [13], .gone]) := by
    simpa [Except.toOption] using hs
  simp only [shot, List.range_succ, List.range_zero, List.nil_append, List.cons_append, List.map_cons, List.map_nil,
    Prod.mk.injEq, List.cons.injEq, and_true] at hs'
  obtain ⟨⟨a0, a1, a2⟩, ⟨b0, -⟩, ⟨c0, c1, -⟩⟩ := hs'
  have hm : OnDisk 3 (fun j => [10, 1, 13].getD j 0) s1.dsk := by
    intro j hj
    rcases (show j = 0 ∨ j = 1 ∨ j = 2 by omega) with rfl | rfl | rfl
    · exact a0
    · exact a1
    · exact a2
  refine ⟨s1.dsk, ⟨(twoSite exAlg 3 false 1).dropLast, [.dpM 1 true], s1, rfl, r1, Or.inl rfl⟩, hm, by decide, ?_⟩
  obtain ⟨s', hr, -⟩ := C19_final_mps exAlg_legs (N := 3) (by omega) true 1 0 hm (fun _ => ⟨b0, fun k g1 g2 => by
    rcases (show k = 0 ∨ k = 1 by omega) with rfl | rfl
    · exact c0
    · exact c1⟩)
  exact ⟨s', hr⟩

end Verif.Props
