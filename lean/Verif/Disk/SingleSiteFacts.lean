import Verif.Disk.SingleSite
import Verif.Disk.WindowFacts
/-
The single-site sweep has the common shape.
-/
namespace Verif.Disk

variable {T E : Type} {A : Alg T E} {O : Opt1 T E} {N : Nat}

/-- The numbers of the single-site sweep. -/
def geo1 (N : Nat) : Geo := ⟨N, N, 0, N - 1, 1, 2⟩

theorem geo1_ok (h : 2 ≤ N) : (geo1 N).OK := by
  constructor <;> simp [geo1] <;> omega

/-- The work of the single-site sweep. -/
def kern1 (A : Alg T E) (O : Opt1 T E) (N : Nat) : Kern T E :=
  ⟨upd1R A O N N, upd1L A O N N, opt1R A O N, opt1L A O N⟩

theorem upd1R_ok {n i : Nat} {s : Mem T E} {e f : E} {t u : T} (h1 : i + 1 < N) (h2 : i + 1 < n) (h3 : N - (i + 1) < n)
    (he : s.l i = some e) (hf : s.r (N - i - 1) = some f) (ht : s.m i = some t) (hu : s.m (i + 1) = some u) :
    upd1R A O N n i s = .ok { s with
      m := Function.update (Function.update s.m i (some (O s.clk .r i e f t u).1.1)) (i + 1) (some (O s.clk .r i e f t u).1.2)
      l := Function.update s.l (i + 1) (some (A.growL i e (O s.clk .r i e f t u).1.1))
      clk := (O s.clk .r i e f t u).2 } := by
  simp [upd1R, h1, h2, h3, he, hf, ht, hu, use, bind, Except.bind, pure, Except.pure]

theorem upd1L_ok {n i : Nat} {s : Mem T E} {e f : E} {t u : T} (h1 : 1 ≤ i) (h2 : i < N) (h3 : i < n) (h4 : N - i < n)
    (he : s.l i = some e) (hf : s.r (N - i - 1) = some f) (ht : s.m (i - 1) = some t) (hu : s.m i = some u) :
    upd1L A O N n i s = .ok { s with
      m := Function.update (Function.update s.m (i - 1) (some (O s.clk .l i e f t u).1.1)) i (some (O s.clk .l i e f t u).1.2)
      r := Function.update s.r (N - i) (some (A.growR i f (O s.clk .l i e f t u).1.2))
      clk := (O s.clk .l i e f t u).2 } := by
  simp [upd1L, h1, h2, h3, h4, he, hf, ht, hu, use, bind, Except.bind, pure, Except.pure]

theorem opt1R_at (ψ : (Nat → T) × Nat) (i j : Nat) (h1 : j ≠ i) (h2 : j ≠ i + 1) : (opt1R A O N ψ i).1 j = ψ.1 j := by
  simp [opt1R, Function.update, h1, h2]

theorem opt1L_at (ψ : (Nat → T) × Nat) (i j : Nat) (h1 : j ≠ i) (h2 : j ≠ i - 1) : (opt1L A O N ψ i).1 j = ψ.1 j := by
  simp [opt1L, Function.update, h1, h2]

theorem kern1_ok (H : O.Legs A) (h : 2 ≤ N) : KernOK A (geo1 N) (kern1 A O N) := by
  have tlR : ∀ (ψ : (Nat → T) × Nat) i, A.trivL ((opt1R A O N ψ i).1 0) = A.trivL (ψ.1 0) := fun ψ i => by
    by_cases h : i = 0
    · subst h; simp [opt1R, Function.update, H.left]
    · simp [opt1R, Function.update, show ¬ 0 = i by omega]
  have trL : ∀ (ψ : (Nat → T) × Nat) i, i < N → A.trivR ((opt1L A O N ψ i).1 (N - 1)) = A.trivR (ψ.1 (N - 1)) := fun ψ i hi => by
    by_cases h : N - 1 = i
    · rw [h]; simp [opt1L, Function.update, H.right]
    · simp [opt1L, Function.update, h, show ¬ N - 1 = i - 1 by omega]
  constructor <;> simp only [geo1, kern1]
  · intro ψ i j _ _ hj; exact opt1R_at ψ i j (by omega) (by omega)
  · intro ψ i _ _; exact tlR ψ i
  · intro ψ i _ hi
    by_cases h : N - 1 = i + 1
    · rw [h]; simp [opt1R, Function.update, H.right]
    · simp [opt1R, Function.update, show ¬ N - 1 = i by omega, h]
  · intro ψ i reg _ hi
    refine (upd1R_ok (e := A.lenv ψ.1 i) (f := A.renv N ψ.1 (N - (i + 1))) (t := ψ.1 i) (u := ψ.1 (i + 1)) (by omega) (by omega) (by omega)
      (by simp [one]) (by rw [show N - i - 1 = N - (i + 1) by omega]; simp [one]) (wnd_in (by omega) (by omega))
      (wnd_in (by omega) (by omega))).trans ?_
    simp only [Except.ok.injEq, Mem.mk.injEq, and_true, true_and]
    refine ⟨?_, ?_, rfl⟩
    · funext j
      by_cases h1 : j = i + 1
      · subst h1; rw [Function.update_self, wnd_in (by omega) (by omega)]; simp [opt1R]
      · rw [Function.update_of_ne h1]
        by_cases h2 : j = i
        · subst h2; rw [Function.update_self, wnd_in (by omega) (by omega)]; simp [opt1R, Function.update]
        · rw [Function.update_of_ne h2, wnd_out (by omega), wnd_out (by omega)]
    · rw [Alg.lenv, lenv_congr A (tlR ψ i) i (fun k hk => opt1R_at ψ i k (by omega) (by omega))]
      simp [opt1R, Function.update]
  · intro ψ i j _ _ hj; exact opt1L_at ψ i j (by omega) (by omega)
  · intro ψ i hi _
    by_cases h : i = 1
    · subst h; simp [opt1L, Function.update, H.left]
    · simp [opt1L, Function.update, show ¬ 0 = i by omega, show ¬ 0 = i - 1 by omega]
  · intro ψ i _ hi; exact trL ψ i (by omega)
  · intro ψ i reg h0 hi
    refine (upd1L_ok (e := A.lenv ψ.1 i) (f := A.renv N ψ.1 (N - (i + 1))) (t := ψ.1 (i - 1)) (u := ψ.1 i) (by omega) (by omega) (by omega)
      (by omega) (by simp [one]) (by rw [show N - i - 1 = N - (i + 1) by omega]; simp [one]) (wnd_in (by omega) (by omega))
      (wnd_in (by omega) (by omega))).trans ?_
    simp only [Except.ok.injEq, Mem.mk.injEq, and_true, true_and]
    refine ⟨?_, ?_, rfl⟩
    · funext j
      by_cases h1 : j = i
      · subst h1; rw [Function.update_self, wnd_in (by omega) (by omega)]; simp [opt1L]
      · rw [Function.update_of_ne h1]
        by_cases h2 : j = i - 1
        · subst h2; rw [Function.update_self, wnd_in (by omega) (by omega)]
          simp [opt1L, Function.update, show ¬ i - 1 = i by omega]
        · rw [Function.update_of_ne h2, wnd_out (by omega), wnd_out (by omega)]
    · have e : A.renv N (opt1L A O N ψ i).1 (N - i) = A.growR i (A.renv N ψ.1 (N - (i + 1)))
          (O ψ.2 .l i (A.lenv ψ.1 i) (A.renv N ψ.1 (N - (i + 1))) (ψ.1 (i - 1)) (ψ.1 i)).1.2 := by
        rw [show N - i = (N - (i + 1)) + 1 by omega, Alg.renv,
          renv_congr A (trL ψ i (by omega)) (N - (i + 1)) (fun k hk _ => opt1L_at ψ i k (by omega) (by omega)) (by omega),
          show N - 1 - (N - (i + 1)) = i by omega]
        simp [opt1L]
      rw [e]

theorem stepR1_eq (h : 2 ≤ N) {i : Nat} : stepR1 A O N i = stepRW (geo1 N) (kern1 A O N) i := by
  unfold stepR1 loadR1 dumpR1 stepRW Geo.xR kern1 geo1
  simp only [show i + 2 - 1 = i + 1 by omega, show ¬ (i = 0 ∧ 2 = 1) by omega, if_false, Nat.sub_sub]
  by_cases h : i = 0
  · subst h; simp
  · simp [h]

theorem stepL1_eq (h : 2 ≤ N) {i : Nat} : stepL1 A O N i = stepLW (geo1 N) (kern1 A O N) i := by
  unfold stepL1 loadL1 dumpL1 stepLW Geo.xL kern1 geo1
  simp only [show i + 1 - 2 = i - 1 by omega, show i + 1 - 1 = i by omega, show ¬ (i = N - 1 ∧ 2 = 1) by omega, if_false, Nat.sub_sub]
  by_cases h : i = N - 1
  · subst h; simp [show N - (N - 1 + 1) = 0 by omega]
  · simp [h]

theorem sweep1_eq (h : 2 ≤ N) : sweep1 A O N = sweepW (geo1 N) (kern1 A O N) := by
  unfold sweep1 sweepW
  rw [show stepR1 A O N = stepRW (geo1 N) (kern1 A O N) from funext fun i => stepR1_eq h,
    show stepL1 A O N = stepLW (geo1 N) (kern1 A O N) from funext fun i => stepL1_eq h]
  simp [Geo.sitesR, Geo.sitesL, geo1, List.range_eq_range']

theorem opt1Sweep_eq : opt1Sweep A O N = optSweepW (geo1 N) (kern1 A O N) := by
  funext ψ; simp [opt1Sweep, optSweepW, Geo.sitesR, Geo.sitesL, geo1, kern1, List.range_eq_range']

theorem opt1Sweeps_eq : ∀ (k : Nat) (ψ : (Nat → T) × Nat), opt1Sweeps A O N k ψ = optSweepsW (geo1 N) (kern1 A O N) k ψ
  | 0, _ => rfl
  | k + 1, ψ => by rw [opt1Sweeps, optSweepsW, opt1Sweeps_eq k, opt1Sweep_eq]

end Verif.Disk
