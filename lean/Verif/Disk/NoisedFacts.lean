import Verif.Disk.Noised
import Verif.Disk.WindowFacts
/-
The noised two-site sweep has the common shape.
-/
namespace Verif.Disk

variable {T E : Type} {A : Alg T E} {O : Opt3 T E} {C : Canon T} {N lb rb : Nat}

/-- The numbers of the noised sweep. -/
def geo3 (N lb rb : Nat) : Geo := ⟨N, N, lb, rb, 2, 3⟩

theorem geo3_ok (h1 : lb + 2 ≤ rb) (h2 : rb < N) : (geo3 N lb rb).OK := by
  constructor <;> simp [geo3] <;> omega

/-- The work of the noised sweep. -/
def kern3 (A : Alg T E) (O : Opt3 T E) (N : Nat) : Kern T E :=
  ⟨upd3R A O N N, upd3L A O N N, opt3R A O N, opt3L A O N⟩

theorem upd3R_ok {n i : Nat} {s : Mem T E} {e f : E} {t u v : T} (h1 : i + 2 < N) (h2 : i + 1 < n) (h3 : N - (i + 2) < n)
    (he : s.l i = some e) (hf : s.r (N - (i + 2)) = some f) (ht : s.m i = some t) (hu : s.m (i + 1) = some u)
    (hv : s.m (i + 2) = some v) :
    upd3R A O N n i s = .ok { s with
      m := Function.update (Function.update (Function.update s.m i (some (O s.clk .r i e f t u v).1.1)) (i + 1)
        (some (O s.clk .r i e f t u v).1.2.1)) (i + 2) (some (O s.clk .r i e f t u v).1.2.2)
      l := Function.update s.l (i + 1) (some (A.growL i e (O s.clk .r i e f t u v).1.1))
      clk := (O s.clk .r i e f t u v).2 } := by
  simp [upd3R, h1, h2, h3, he, hf, ht, hu, hv, use, bind, Except.bind, pure, Except.pure]

theorem upd3L_ok {n i : Nat} {s : Mem T E} {e f : E} {t u v : T} (h1 : 2 ≤ i) (h2 : i < N) (h3 : i - 1 < n) (h4 : N - i < n)
    (he : s.l (i - 1) = some e) (hf : s.r (N - i - 1) = some f) (ht : s.m (i - 2) = some t) (hu : s.m (i - 1) = some u)
    (hv : s.m i = some v) :
    upd3L A O N n i s = .ok { s with
      m := Function.update (Function.update (Function.update s.m (i - 2) (some (O s.clk .l i e f t u v).1.1)) (i - 1)
        (some (O s.clk .l i e f t u v).1.2.1)) i (some (O s.clk .l i e f t u v).1.2.2)
      r := Function.update s.r (N - i) (some (A.growR i f (O s.clk .l i e f t u v).1.2.2))
      clk := (O s.clk .l i e f t u v).2 } := by
  simp [upd3L, h1, h2, h3, h4, he, hf, ht, hu, hv, use, bind, Except.bind, pure, Except.pure]

theorem opt3R_at (ψ : (Nat → T) × Nat) (i j : Nat) (h : j < i ∨ i + 2 < j) : (opt3R A O N ψ i).1 j = ψ.1 j := by
  simp [opt3R, Function.update, show j ≠ i by omega, show j ≠ i + 1 by omega, show j ≠ i + 2 by omega]

theorem opt3L_at (ψ : (Nat → T) × Nat) (i j : Nat) (h : j + 2 < i ∨ i < j) : (opt3L A O N ψ i).1 j = ψ.1 j := by
  simp [opt3L, Function.update, show j ≠ i by omega, show j ≠ i - 1 by omega, show j ≠ i - 2 by omega]

theorem kern3_ok (H : O.Legs A) (h2 : rb < N) : KernOK A (geo3 N lb rb) (kern3 A O N) := by
  have tlR : ∀ (ψ : (Nat → T) × Nat) i, A.trivL ((opt3R A O N ψ i).1 0) = A.trivL (ψ.1 0) := fun ψ i => by
    by_cases h : i = 0
    · subst h; simp [opt3R, Function.update, H.left]
    · rw [opt3R_at ψ i 0 (by omega)]
  have trL : ∀ (ψ : (Nat → T) × Nat) i, i < N → A.trivR ((opt3L A O N ψ i).1 (N - 1)) = A.trivR (ψ.1 (N - 1)) := fun ψ i hi => by
    by_cases h : N - 1 = i
    · rw [h]; simp [opt3L, Function.update, H.right]
    · rw [opt3L_at ψ i _ (by omega)]
  constructor <;> simp only [geo3, kern3]
  · intro ψ i j _ _ hj; exact opt3R_at ψ i j (by omega)
  · intro ψ i _ _; exact tlR ψ i
  · intro ψ i _ hi
    by_cases h : N - 1 = i + 2
    · rw [h]; simp [opt3R, Function.update, H.right]
    · rw [opt3R_at ψ i _ (by omega)]
  · intro ψ i reg _ hi
    refine (upd3R_ok (e := A.lenv ψ.1 i) (f := A.renv N ψ.1 (N - (i + 2))) (t := ψ.1 i) (u := ψ.1 (i + 1)) (v := ψ.1 (i + 2))
      (by omega) (by omega) (by omega) (by simp [one]) (by simp [one]) (wnd_in (by omega) (by omega))
      (wnd_in (by omega) (by omega)) (wnd_in (by omega) (by omega))).trans ?_
    simp only [Except.ok.injEq, Mem.mk.injEq, and_true, true_and]
    refine ⟨?_, ?_, rfl⟩
    · funext j
      by_cases h3 : j = i + 2
      · subst h3; rw [Function.update_self, wnd_in (by omega) (by omega)]; simp [opt3R]
      · rw [Function.update_of_ne h3]
        by_cases h1 : j = i + 1
        · subst h1; rw [Function.update_self, wnd_in (by omega) (by omega)]; simp [opt3R, Function.update]
        · rw [Function.update_of_ne h1]
          by_cases h2 : j = i
          · subst h2; rw [Function.update_self, wnd_in (by omega) (by omega)]; simp [opt3R, Function.update]
          · rw [Function.update_of_ne h2, wnd_out (by omega), wnd_out (by omega)]
    · rw [Alg.lenv, lenv_congr A (tlR ψ i) i (fun k hk => opt3R_at ψ i k (by omega))]
      simp [opt3R, Function.update]
  · intro ψ i j _ _ hj; exact opt3L_at ψ i j (by omega)
  · intro ψ i hi _
    by_cases h : i = 2
    · subst h; simp [opt3L, Function.update, H.left]
    · rw [opt3L_at ψ i _ (by omega)]
  · intro ψ i _ hi; exact trL ψ i (by omega)
  · intro ψ i reg h0 hi
    refine (upd3L_ok (e := A.lenv ψ.1 (i - 1)) (f := A.renv N ψ.1 (N - (i + 1))) (t := ψ.1 (i - 2)) (u := ψ.1 (i - 1)) (v := ψ.1 i)
      (by omega) (by omega) (by omega) (by omega) (by rw [show i + 1 - 2 = i - 1 by omega]; simp [one])
      (by rw [show N - i - 1 = N - (i + 1) by omega]; simp [one]) (wnd_in (by omega) (by omega))
      (wnd_in (by omega) (by omega)) (wnd_in (by omega) (by omega))).trans ?_
    simp only [Except.ok.injEq, Mem.mk.injEq, and_true, true_and]
    refine ⟨?_, ?_, rfl⟩
    · funext j
      by_cases h1 : j = i
      · subst h1; rw [Function.update_self, wnd_in (by omega) (by omega)]; simp [opt3L]
      · rw [Function.update_of_ne h1]
        by_cases h2 : j = i - 1
        · subst h2; rw [Function.update_self, wnd_in (by omega) (by omega)]
          simp [opt3L, Function.update, show ¬ i - 1 = i by omega]
        · rw [Function.update_of_ne h2]
          by_cases h3 : j = i - 2
          · subst h3; rw [Function.update_self, wnd_in (by omega) (by omega)]
            simp [opt3L, Function.update, show ¬ i - 2 = i by omega, show ¬ i - 2 = i - 1 by omega]
          · rw [Function.update_of_ne h3, wnd_out (by omega), wnd_out (by omega)]
    · have e : A.renv N (opt3L A O N ψ i).1 (N - i) = A.growR i (A.renv N ψ.1 (N - (i + 1)))
          (O ψ.2 .l i (A.lenv ψ.1 (i - 1)) (A.renv N ψ.1 (N - (i + 1))) (ψ.1 (i - 2)) (ψ.1 (i - 1)) (ψ.1 i)).1.2.2 := by
        rw [show N - i = (N - (i + 1)) + 1 by omega, Alg.renv,
          renv_congr A (trL ψ i (by omega)) (N - (i + 1)) (fun k hk _ => opt3L_at ψ i k (by omega)) (by omega),
          show N - 1 - (N - (i + 1)) = i by omega]
        simp [opt3L]
      rw [e]

theorem stepR3_eq {i : Nat} : stepR3 A O N lb i = stepRW (geo3 N lb rb) (kern3 A O N) i := by
  unfold stepR3 loadR3 dumpR3 stepRW Geo.xR kern3 geo3
  simp only [show i + 3 - 1 = i + 2 by omega, show ¬ (i = lb ∧ 3 = 2) by omega, if_false,
    show N - 1 - (i + 1) = N - (i + 2) by omega]
  by_cases h : i = lb
  · subst h; simp
  · simp [h]

theorem stepL3_eq {i : Nat} : stepL3 A O N rb i = stepLW (geo3 N lb rb) (kern3 A O N) i := by
  unfold stepL3 loadL3 dumpL3 stepLW Geo.xL kern3 geo3
  simp only [show i + 1 - 3 = i - 2 by omega, show i + 1 - 2 = i - 1 by omega, show ¬ (i = rb ∧ 3 = 2) by omega, if_false,
    show N - 1 - i = N - (i + 1) by omega]
  by_cases h : i = rb
  · subst h; simp
  · simp [h]

theorem sweep3_eq : sweep3 A O N lb rb = sweepW (geo3 N lb rb) (kern3 A O N) := by
  unfold sweep3 sweepW
  rw [show stepR3 A O N lb = stepRW (geo3 N lb rb) (kern3 A O N) from funext fun i => stepR3_eq,
    show stepL3 A O N rb = stepLW (geo3 N lb rb) (kern3 A O N) from funext fun i => stepL3_eq]
  simp [Geo.sitesR, Geo.sitesL, geo3]

theorem opt3Sweep_eq : opt3Sweep A O N lb rb = optSweepW (geo3 N lb rb) (kern3 A O N) := by
  funext ψ; simp [opt3Sweep, optSweepW, Geo.sitesR, Geo.sitesL, geo3, kern3]

theorem opt3Sweeps_eq : ∀ (k : Nat) (ψ : (Nat → T) × Nat),
    opt3Sweeps A O N lb rb k ψ = optSweepsW (geo3 N lb rb) (kern3 A O N) k ψ
  | 0, _ => rfl
  | k + 1, ψ => by rw [opt3Sweeps, optSweepsW, opt3Sweeps_eq k, opt3Sweep_eq]

theorem EnvReady.geo3 {ψ : Nat → T} {d : Dsk T E} (h : EnvReady A N lb rb ψ d) : EnvReadyW A (geo3 N lb rb) ψ d := ⟨h.l, h.r⟩

theorem EnvReadyW.of3 {ψ : Nat → T} {d : Dsk T E} (h : EnvReadyW A (geo3 N lb rb) ψ d) : EnvReady A N lb rb ψ d := ⟨h.l, h.r⟩

end Verif.Disk
