import Verif.Disk.BoundaryFacts
import Verif.Props.TwoSite
/-
Properties C20 (boundary environments), C21 and C53 (reuse of environments between runs).
-/
namespace Verif.Props
open Verif.Disk

variable {T E : Type}

/-! ### C21 -/

/-- **C21** (boundary sites). Whatever the bond dimensions, for a chain of at least three sites the two boundary
sites lie in the chain and leave room for a pair and one more site. -/
theorem C21_boundaries (bl br : Nat → Bool) {N : Nat} (hN : 3 ≤ N) : lbOf bl N + 2 ≤ rbOf br N ∧ rbOf br N ≤ N - 1 := by
  have := bounds_ok bl br hN
  omega

/-- Seven sites: the largest and the smallest range. -/
example : (lbOf (fun _ => true) 7, rbOf (fun _ => true) 7) = (0, 6) ∧ (lbOf (fun _ => false) 7, rbOf (fun _ => false) 7) = (2, 4) := by
  decide

/-- **C21** (files). For at least three sites the check succeeds: all loads find their files, the tensor files then
hold the MPS after the changes of gauge at the two ends, no environment file is touched, and memory is unchanged
(in particular empty). -/
theorem C21_check (G : Gauge T) (bl br : Nat → Bool) {N n : Nat} (hN : 3 ≤ N) {clk : Nat} {ψ : Nat → T} {d : Dsk T E}
    {mem : Mem T E} (h0 : NoTensors mem clk) (hm : OnDisk N ψ d) :
    ∃ s', run N n (checkBoundary G bl br N) ⟨mem, d⟩ = .ok s' ∧ OnDisk N (gauged G N (lbOf bl N) (rbOf br N) ψ) s'.dsk ∧
      s'.mem = mem ∧ s'.dsk.l = d.l ∧ s'.dsk.r = d.r := by
  obtain ⟨s', hr, e1, e2, e3, e4⟩ := checkBoundary_ok (n := n) G bl br hN (s := ⟨mem, d⟩) hm h0.m
  exact ⟨s', hr, e4, e1, e2, e3⟩

/-- **C21** (the code, two sites). With two sites the check loads only the tensor of site 0 but dumps two: after the
left half the file of site 1 does not hold a tensor any more, and the next step, loading it, fails. -/
theorem C21_two_sites_violation (G : Gauge T) (bl br : Nat → Bool) (n clk : Nat) {t u : T} {d : Dsk T E}
    (h0 : d.m 0 = .whole t) (_h1 : d.m 1 = .whole u) :
    ∃ done rest s1, checkBoundary G bl br 2 = done ++ rest ∧ run 2 n done ⟨Mem.blank clk, d⟩ = .ok s1 ∧ s1.dsk.m 1 = .junk ∧
      run 2 n (checkBoundary G bl br 2) ⟨Mem.blank clk, d⟩ = .error .badFile := by
  have hl : lbOf bl 2 = 0 := by simp [lbOf, midL]
  have hr : rbOf br 2 = 0 := by simp [rbOf, rightSites, midR]
  have key : ∃ s1, run 2 n (.calc (assertEmpty 2) :: checkL G 0 0) ⟨Mem.blank clk, d⟩ = .ok s1 ∧ s1.dsk.m 1 = .junk := by
    simp [run, exec, assertEmpty, Mem.blank, checkL, h0, File.get, bind, Except.bind, pure, Except.pure, List.range_succ, dumped]
  obtain ⟨s1, e1, e2⟩ := key
  refine ⟨.calc (assertEmpty 2) :: checkL G 0 0, checkR G 2 0 ++ [.calc (assertEmpty 2)], s1, ?_, e1, e2, ?_⟩
  · simp [checkBoundary, hl, hr, midL]
  · simp [checkBoundary, hl, hr, midL, run, exec, assertEmpty, Mem.blank, checkL, checkR, h0, File.get, bind, Except.bind, pure,
      Except.pure, List.range_succ, dumped]

/-! ### C20 -/

theorem foldL_ends {A : Alg T E} {G : Gauge T} (L : G.Laws A) {N : Nat} : ∀ (k : Nat) {i : Nat} {φ : Nat → T}, i + k < N →
    A.trivL ((List.range' i k).foldl (gaugeL G) φ 0) = A.trivL (φ 0) ∧
      A.trivR ((List.range' i k).foldl (gaugeL G) φ (N - 1)) = A.trivR (φ (N - 1))
  | 0, _, _, _ => ⟨rfl, rfl⟩
  | k + 1, i, φ, h => by
    rw [List.range'_succ, List.foldl_cons]
    obtain ⟨h1, h2⟩ := foldL_ends L (N := N) k (i := i + 1) (φ := gaugeL G φ i) (by omega)
    refine ⟨h1.trans ?_, h2.trans ?_⟩
    · by_cases h0 : i = 0
      · subst h0; simp [gaugeL, Function.update, L.ll]
      · rw [gaugeL_at G φ (by omega) (by omega)]
    · by_cases h0 : N - 1 = i + 1
      · rw [h0]; simp [gaugeL, Function.update, L.lr]
      · rw [gaugeL_at G φ (by omega) (by omega)]

theorem foldR_ends {A : Alg T E} {G : Gauge T} (L : G.Laws A) {N : Nat} : ∀ (k : Nat) {i : Nat} {φ : Nat → T}, 1 ≤ i → i + k ≤ N →
    A.trivL ((List.range' i k).reverse.foldl (gaugeR G) φ 0) = A.trivL (φ 0) ∧
      A.trivR ((List.range' i k).reverse.foldl (gaugeR G) φ (N - 1)) = A.trivR (φ (N - 1)) ∧
      ∀ j, N < j + i → j ≤ N → A.renv N ((List.range' i k).reverse.foldl (gaugeR G) φ) j = A.renv N φ j
  | 0, _, _, _, _ => ⟨rfl, rfl, fun _ _ _ => rfl⟩
  | k + 1, i, φ, hi, h => by
    rw [List.range'_1_concat, List.reverse_append]
    simp only [List.reverse_cons, List.reverse_nil, List.nil_append, List.cons_append, List.foldl_cons]
    obtain ⟨h1, h2, h3⟩ := foldR_ends L (N := N) k (i := i) (φ := gaugeR G φ (i + k)) hi (by omega)
    have e2 : A.trivR (gaugeR G φ (i + k) (N - 1)) = A.trivR (φ (N - 1)) := by
      by_cases h0 : N - 1 = i + k
      · rw [h0]; simp [gaugeR, Function.update, L.rr]
      · rw [gaugeR_at G φ (by omega) (by omega)]
    refine ⟨h1.trans ?_, h2.trans e2, fun j hj hj' => (h3 j hj hj').trans ?_⟩
    · by_cases h0 : i + k - 1 = 0
      · have : i + k = 1 := by omega
        rw [this]
        simp [gaugeR, Function.update, L.rl]
      · rw [gaugeR_at G φ (by omega) (by omega)]
    · -- blocks that contain both sites keep their environment
      have hlow : ∀ m, m + (i + k) + 1 ≤ N → A.renv N (gaugeR G φ (i + k)) m = A.renv N φ m := fun m hm =>
        renv_congr A e2 m (fun j hj hj' => gaugeR_at G φ (by omega) (by omega)) (by omega)
      have hpair : A.renv N (gaugeR G φ (i + k)) (N - (i + k) + 1) = A.renv N φ (N - (i + k) + 1) := by
        obtain ⟨m, hm⟩ : ∃ m, N - (i + k) = m + 1 := ⟨N - (i + k) - 1, by omega⟩
        rw [hm, Alg.renv, Alg.renv, Alg.renv, Alg.renv, hlow m (by omega), show N - 1 - (m + 1) = i + k - 1 by omega,
          show N - 1 - m = i + k by omega]
        have := L.env (i + k) (A.renv N φ m) (φ (i + k - 1)) (φ (i + k))
        rw [← this]
        simp [gaugeR, Function.update, show i + k - 1 ≠ i + k by omega]
      have hup : ∀ m, N - (i + k) + 1 + m ≤ N → A.renv N (gaugeR G φ (i + k)) (N - (i + k) + 1 + m) = A.renv N φ (N - (i + k) + 1 + m) := by
        intro m
        induction m with
        | zero => intro _; exact hpair
        | succ m ih =>
          intro hm
          rw [← Nat.add_assoc, Alg.renv, Alg.renv, ih (by omega), gaugeR_at G φ (by omega) (by omega)]
      have := hup (j - (N - (i + k) + 1)) (by omega)
      rwa [show N - (i + k) + 1 + (j - (N - (i + k) + 1)) = j by omega] at this

/-- The environments that reach over a boundary are not changed by the changes of gauge. -/
theorem gauged_renv {A : Alg T E} {G : Gauge T} (L : G.Laws A) {N lb rb : Nat} (h1 : lb + 2 ≤ rb) (h2 : rb < N) (ψ : Nat → T)
    {k : Nat} (hk : N < k + rb) (hk' : k + lb + 2 ≤ N) : A.renv N (gauged G N lb rb ψ) k = A.renv N ψ k := by
  unfold gauged
  rw [(foldR_ends L (N - rb) (i := rb) (by omega) (by omega)).2.2 k hk (by omega), List.range_eq_range']
  exact renv_congr A (foldL_ends L (N := N) (lb + 1) (i := 0) (by omega)).2 k
    (fun j hj hj' => foldL_at G (lb := lb) (lb + 1) (by omega)) (by omega)

/-- The environments on disk that an initialisation for the range `lb … rb` may keep. -/
def Reusable (A : Alg T E) (N lb rb : Nat) (ψ : Nat → T) (d : Dsk T E) : Prop :=
  ∀ k e, N < k + rb → k + lb + 2 ≤ N → d.r k = .whole e → e = A.renv N ψ k

/-- **C20** (with boundaries). `FiniteVMPSInit` on a directory with the MPS `ψ` of at least three sites succeeds. If
there is no incomplete file and the right environments that exist in the range are those of `ψ`, then afterwards
exactly what a sweep needs is there, for the MPS that is now on disk. -/
theorem C20_boundary_envs {A : Alg T E} {G : Gauge T} (L : G.Laws A) (bl br : Nat → Bool) {N n : Nat} (hN : 3 ≤ N) {clk : Nat}
    {ψ : Nat → T} {d : Dsk T E} {mem : Mem T E} (h0 : NoTensors mem clk) (hm : OnDisk N ψ d) (hj : ∀ k, d.r k ≠ .junk)
    (hr : Reusable A N (lbOf bl N) (rbOf br N) ψ d) :
    ∃ s', run N n (vmpsInit A G bl br N d) ⟨mem, d⟩ = .ok s' ∧ NoTensors s'.mem clk ∧
      OnDisk N (gauged G N (lbOf bl N) (rbOf br N) ψ) s'.dsk ∧
      EnvReady A N (lbOf bl N) (rbOf br N) (gauged G N (lbOf bl N) (rbOf br N) ψ) s'.dsk ∧ (∀ k, s'.dsk.r k ≠ .junk) := by
  obtain ⟨b1, b2⟩ := bounds_ok bl br hN
  obtain ⟨lb, hlb⟩ : ∃ lb, lb = lbOf bl N := ⟨_, rfl⟩
  obtain ⟨rb, hrb⟩ : ∃ rb, rb = rbOf br N := ⟨_, rfl⟩
  obtain ⟨φ, hφ⟩ : ∃ φ, φ = gauged G N (lbOf bl N) (rbOf br N) ψ := ⟨_, rfl⟩
  obtain ⟨s1, r1, e1, e2, e3, e4⟩ := C21_check (n := n) G bl br hN h0 hm
  have hren : ∀ k, N < k + rb → k + lb + 2 ≤ N → A.renv N φ k = A.renv N ψ k := fun k g1 g2 => by
    rw [hφ]; subst hlb hrb; exact gauged_renv L b1 b2 ψ g1 g2
  unfold vmpsInit
  rw [← hφ] at e1 ⊢
  rw [← hlb, ← hrb] at b1 hr ⊢
  rw [← hrb] at b2
  -- the right environments before the boundary environments are written
  have step : ∃ s2, run N n (if needEnvs N lb rb d then initEnvs A N (lb + 2) else []) s1 = .ok s2 ∧ NoTensors s2.mem clk ∧
      s2.dsk.m = s1.dsk.m ∧ (∀ k, N < k + rb → k + lb + 2 ≤ N → s2.dsk.r k = .whole (A.renv N φ k)) ∧
      ∀ k, s2.dsk.r k ≠ .junk := by
    cases hneed : needEnvs N lb rb d with
    | true =>
      rw [if_pos rfl]
      obtain ⟨s2, r2, f1, f2, f3, f4, f5⟩ := initEnvs_ok (A := A) (n := n) (usn := lb + 2) (ψ := φ) (s0 := s1) e1
        (by rw [e2]; exact h0.m) (by omega)
      refine ⟨s2, r2, ⟨f1, by rw [f2, e2]; exact h0.l, by rw [f3, e2]; exact h0.r, by rw [f4, e2]; exact h0.clk⟩, by rw [f5],
        fun k g1 g2 => ?_, fun k => ?_⟩
      · rw [f5]; simp only []; rw [if_pos (by omega)]
      · rw [f5]
        simp only []
        split
        · simp
        · rw [e4]; exact hj k
    | false =>
      refine ⟨s1, rfl, by rw [e2]; exact h0, rfl, fun k g1 g2 => ?_, fun k => by rw [e4]; exact hj k⟩
      unfold needEnvs at hneed
      simp only [Bool.not_eq_false', List.all_eq_true] at hneed
      have hp := hneed k (by rw [List.mem_range'_1]; omega)
      rw [e4]
      cases hk : d.r k with
      | gone => rw [hk] at hp; simp [File.present] at hp
      | junk => exact absurd hk (hj k)
      | whole e => rw [hr k e g1 g2 hk, hren k g1 g2]
  obtain ⟨s2, r2, f1, f2, f3, f4⟩ := step
  obtain ⟨s3, r3, g1, g2, g3, g4, g5⟩ := updateBoundary_ok (A := A) (n := n) (lb := lb) (rb := rb) (ψ := φ) (s0 := s2) (by omega) b2
    (by rw [f2]; exact e1) f1.m
  refine ⟨s3, ?_, ⟨g1, g2.trans f1.l, g3.trans f1.r, g4.trans f1.clk⟩, ?_, ⟨?_, fun k h1 h2 => ?_⟩, fun k => ?_⟩
  · rw [run_append, r1]
    show run N n _ s1 = _
    rw [run_append, r2]
    exact r3
  · rw [g5]; show ∀ j, j < N → s2.dsk.m j = _; rw [f2]; exact e1
  · rw [g5]; simp
  · rw [g5]
    simp only []
    by_cases h : N ≤ k + rb + 1 ∧ k + rb ≤ N
    · rw [if_pos h]
    · rw [if_neg h]; exact f3 k (by omega) h2
  · rw [g5]
    simp only []
    split
    · simp
    · exact f4 k

/-- **C20**, **C18**, **C19** (the whole program with boundaries). Under the same conditions the program with `k`
sweeps succeeds, and the directory ends up with the MPS obtained by the changes of gauge and the exact sweeps, with
the environments for it, and with no incomplete environment file in the range. -/
theorem C20_vmps_run {A : Alg T E} (H : A.Legs) {G : Gauge T} (L : G.Laws A) (bl br : Nat → Bool) {N : Nat} (hN : 3 ≤ N) {clk : Nat}
    (k : Nat) {ψ : Nat → T} {d : Dsk T E} {mem : Mem T E} (h0 : NoTensors mem clk) (hm : OnDisk N ψ d) (hj : ∀ k, d.r k ≠ .junk)
    (hr : Reusable A N (lbOf bl N) (rbOf br N) ψ d) :
    ∃ s', run N (N - 1) (vmpsRun A G bl br N d k) ⟨mem, d⟩ = .ok s' ∧
      OnDisk N (optSweeps A N (lbOf bl N) (rbOf br N) k (gauged G N (lbOf bl N) (rbOf br N) ψ, clk)).1 s'.dsk ∧
      NoTensors s'.mem (optSweeps A N (lbOf bl N) (rbOf br N) k (gauged G N (lbOf bl N) (rbOf br N) ψ, clk)).2 ∧
      EnvReady A N (lbOf bl N) (rbOf br N)
        (optSweeps A N (lbOf bl N) (rbOf br N) k (gauged G N (lbOf bl N) (rbOf br N) ψ, clk)).1 s'.dsk ∧
      (∀ k, s'.dsk.r k ≠ .junk) := by
  obtain ⟨b1, b2⟩ := bounds_ok bl br hN
  obtain ⟨s1, r1, e1, e2, e3, e4⟩ := C20_boundary_envs (A := A) L bl br (n := N - 1) hN h0 hm hj hr
  obtain ⟨s2, r2, f1, f2, f3, -, f4⟩ := C18_sweeps H b1 b2 k clk e1 e2 e3
  refine ⟨s2, by rw [vmpsRun, run_append, r1]; exact r2, f1, f2, f3, fun j => ?_⟩
  by_cases h : N ≤ j + 1 + rbOf br N ∧ j + lbOf bl N + 2 ≤ N
  · rw [f3.r j h.1 h.2]; simp
  · rw [f4 j h]; exact e4 j

/-! ### C53: several runs with the same temporary directory -/

/-- Runs one after the other, each given by what determines its boundaries and by its number of sweeps. -/
def vmpsRuns (A : Alg T E) (G : Gauge T) (N : Nat) : List ((Nat → Bool) × (Nat → Bool) × Nat) → Sys T E → Except Err (Sys T E)
  | [], s => .ok s
  | (bl, br, k) :: rs, s => do
    let s1 ← run N (N - 1) (vmpsRun A G bl br N s.dsk k) s
    vmpsRuns A G N rs s1

/-- **Specification**: the MPS after the runs. -/
def specRuns (A : Alg T E) (G : Gauge T) (N : Nat) : List ((Nat → Bool) × (Nat → Bool) × Nat) → (Nat → T) × Nat → (Nat → T) × Nat
  | [], ψ => ψ
  | (bl, br, k) :: rs, ψ =>
    specRuns A G N rs (optSweeps A N (lbOf bl N) (rbOf br N) k (gauged G N (lbOf bl N) (rbOf br N) ψ.1, ψ.2))

/-- The range of each run lies within that of the run before; `lo`, `hi` is the range before the first. -/
def Nested (N : Nat) : List ((Nat → Bool) × (Nat → Bool) × Nat) → Nat → Nat → Prop
  | [], _, _ => True
  | (bl, br, _) :: rs, lo, hi => lo ≤ lbOf bl N ∧ rbOf br N ≤ hi ∧ Nested N rs (lbOf bl N) (rbOf br N)

theorem nested_runs {A : Alg T E} (H : A.Legs) {G : Gauge T} (L : G.Laws A) {N : Nat} (hN : 3 ≤ N) :
    ∀ (rs : List ((Nat → Bool) × (Nat → Bool) × Nat)) {lo hi : Nat} {ψ : (Nat → T) × Nat} {s : Sys T E}, Nested N rs lo hi →
    NoTensors s.mem ψ.2 → OnDisk N ψ.1 s.dsk → (∀ k, s.dsk.r k ≠ .junk) → Reusable A N lo hi ψ.1 s.dsk →
    ∃ s', vmpsRuns A G N rs s = .ok s' ∧ OnDisk N (specRuns A G N rs ψ).1 s'.dsk
  | [], _, _, ψ, s, _, _, hm, _, _ => ⟨s, rfl, hm⟩
  | (bl, br, k) :: rs, lo, hi, ψ, ⟨mem, d⟩, ⟨n1, n2, n3⟩, h0, hm, hj, hr => by
    obtain ⟨s1, r1, e1, e2, e3, e4⟩ := C20_vmps_run H L bl br hN k h0 hm hj
      (fun j e g1 g2 g3 => hr j e (by omega) (by omega) g3)
    obtain ⟨s2, r2, e5⟩ := nested_runs H L hN rs n3 e2 e1 e4 (fun j e g1 g2 g3 => by
      rw [e3.r j (by omega) (by omega)] at g3
      injection g3 with g3
      exact g3.symm)
    exact ⟨s2, by rw [vmpsRuns, r1]; exact r2, e5⟩

/-- **C53**. Runs with the same temporary directory, the first with an empty one, any number of sweeps each: if no
run has a larger range than the one before (as when `Dmax` never decreases), every run uses exact environments of
the current MPS, although it takes over what it finds. -/
theorem C53_nested_runs {A : Alg T E} (H : A.Legs) {G : Gauge T} (L : G.Laws A) {N : Nat} (hN : 3 ≤ N)
    (rs : List ((Nat → Bool) × (Nat → Bool) × Nat)) (hn : Nested N rs 0 N) (clk : Nat) {ψ : Nat → T} {d : Dsk T E}
    (hm : OnDisk N ψ d) (hr : ∀ k, d.r k = .gone) :
    ∃ s', vmpsRuns A G N rs ⟨Mem.blank clk, d⟩ = .ok s' ∧ OnDisk N (specRuns A G N rs (ψ, clk)).1 s'.dsk :=
  nested_runs H L hN rs hn (blank_noTensors clk) hm (fun k => by rw [hr k]; simp) (fun k e _ _ h => by simp [hr k] at h)

/-- The trivial change of gauge obeys the laws. -/
def exGauge : Gauge Nat := ⟨fun _ t u => (t, u), fun _ t u => (t, u)⟩

theorem exGauge_laws : exGauge.Laws exAlg :=
  ⟨fun _ _ _ => rfl, fun _ _ _ => rfl, fun _ _ _ => rfl, fun _ _ _ => rfl, fun _ _ _ _ => rfl⟩

/-- The range `0 … 6` of seven sites, one sweep. -/
def wide : (Nat → Bool) × (Nat → Bool) × Nat := (fun _ => true, fun _ => true, 1)
/-- The range `2 … 4` of seven sites, one sweep. -/
def narrow : (Nat → Bool) × (Nat → Bool) × Nat := (fun _ => false, fun _ => false, 1)

example : Nested 7 [wide, narrow, narrow] 0 7 := by
  refine ⟨?_, ?_, ?_, ?_, ?_, ?_, trivial⟩ <;> decide

/-- **C53** (the code). Without that condition it does not hold. Seven sites, three runs with one sweep each, with
the ranges `0…6`, `2…4` (a larger `Dmax`) and `0…6` (the first `Dmax` again): the third run finds all right
environments, but the one of length 5, which its first update uses, is still that of the first run. -/
theorem C53_violation : ∃ (s3 : Sys Nat (List Nat)) (ψ : Nat → Nat) (e : List Nat),
    (vmpsRuns exAlg exGauge 7 [wide, narrow] ⟨Mem.blank 0, exDsk⟩ >>= fun s2 =>
      run 7 6 (vmpsInit exAlg exGauge wide.1 wide.2.1 7 s2.dsk) s2) = .ok s3 ∧
      OnDisk 7 ψ s3.dsk ∧ s3.dsk.r 5 = .whole e ∧ e ≠ exAlg.renv 7 ψ 5 := by
  have hs : (vmpsRuns exAlg exGauge 7 [wide, narrow] ⟨Mem.blank 0, exDsk⟩ >>= fun s2 =>
      run 7 6 (vmpsInit exAlg exGauge wide.1 wide.2.1 7 s2.dsk) s2).toOption.map (fun s => ((shot s.dsk 7).1, s.dsk.r 5)) =
      some ([.whole 10, .whole 28, .whole 30, .whole 32, .whole 33, .whole 23, .whole 21], .whole [29, 27, 25, 23, 21]) := by
    decide +kernel
  cases hrun : (vmpsRuns exAlg exGauge 7 [wide, narrow] ⟨Mem.blank 0, exDsk⟩ >>= fun s2 =>
      run 7 6 (vmpsInit exAlg exGauge wide.1 wide.2.1 7 s2.dsk) s2) with
  | error x => rw [hrun] at hs; exact absurd hs (by simp [Except.toOption])
  | ok s3 =>
    rw [hrun] at hs
    simp only [Except.toOption, Option.map_some, Option.some.injEq, Prod.mk.injEq] at hs
    obtain ⟨h1, h2⟩ := hs
    simp only [shot, List.range_succ, List.range_zero, List.nil_append, List.cons_append, List.map_cons, List.map_nil,
      List.cons.injEq, and_true] at h1
    obtain ⟨a0, a1, a2, a3, a4, a5, a6⟩ := h1
    refine ⟨s3, fun j => [10, 28, 30, 32, 33, 23, 21].getD j 0, _, rfl, fun j hj => ?_, h2, by decide⟩
    rcases (show j = 0 ∨ j = 1 ∨ j = 2 ∨ j = 3 ∨ j = 4 ∨ j = 5 ∨ j = 6 by omega) with rfl | rfl | rfl | rfl | rfl | rfl | rfl
    exacts [a0, a1, a2, a3, a4, a5, a6]

end Verif.Props
