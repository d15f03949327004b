import Verif.Disk.Tdvp
import Verif.Disk.WindowFacts
/-
The TDVP sweep has the common shape, up to its last half step.
-/
namespace Verif.Disk

variable {T E : Type} {A : Alg T E} {B : Evo T E} {N : Nat} {tau : Rat}

/-- The numbers of the TDVP sweep. -/
def geoT (N : Nat) : Geo := ⟨N, N - 1, 0, N - 1, 2, 2⟩

theorem geoT_ok (h : 3 ≤ N) : (geoT N).OK := by
  constructor <;> simp [geoT] <;> omega

/-- The evolutions of a right-moving step. -/
def actR (A : Alg T E) (B : Evo T E) (N : Nat) (tau : Rat) (ψ : Nat → T) (i : Nat) : Nat → T :=
  (Act.site (i + 1) (-tau / 2)).apply A B N ((Act.bond .r i (tau / 2)).apply A B N ψ) 

/-- The evolutions of a left-moving step. -/
def actL (A : Alg T E) (B : Evo T E) (N : Nat) (tau : Rat) (ψ : Nat → T) (i : Nat) : Nat → T :=
  (Act.site (i - 1) (-tau / 2)).apply A B N ((Act.bond .l (i - 1) (if i = N - 1 then tau else tau / 2)).apply A B N ψ) 

/-- The work of the TDVP sweep. -/
def kernT (A : Alg T E) (B : Evo T E) (N : Nat) (tau : Rat) : Kern T E :=
  ⟨tdvpR A B N (N - 1) tau, tdvpL A B N (N - 1) tau, fun ψ i => (actR A B N tau ψ.1 i, ψ.2), fun ψ i => (actL A B N tau ψ.1 i, ψ.2)⟩

theorem tdvp2R_ok {n i : Nat} {s : Mem T E} {e f : E} {t u : T} (h1 : i + 2 ≤ N) (h2 : i + 1 < n) (h3 : N - (i + 2) < n)
    (he : s.l i = some e) (hf : s.r (N - (i + 2)) = some f) (ht : s.m i = some t) (hu : s.m (i + 1) = some u) :
    tdvp2R A B N n tau i s = .ok { s with
      m := Function.update (Function.update s.m i (some (B.ev2 .r (tau / 2) i e f t u).1)) (i + 1) (some (B.ev2 .r (tau / 2) i e f t u).2)
      l := Function.update s.l (i + 1) (some (A.growL i e (B.ev2 .r (tau / 2) i e f t u).1)) } := by
  simp [tdvp2R, h1, h2, h3, he, hf, ht, hu, use, bind, Except.bind, pure, Except.pure]

theorem tdvp2L_ok {n i : Nat} {s : Mem T E} {e f : E} {t u : T} (h1 : 1 ≤ i) (h2 : i < N) (h3 : i - 1 < n) (h4 : N - i < n)
    (he : s.l (i - 1) = some e) (hf : s.r (N - i - 1) = some f) (ht : s.m (i - 1) = some t) (hu : s.m i = some u) :
    tdvp2L A B N n tau i s = .ok { s with
      m := Function.update (Function.update s.m (i - 1) (some (B.ev2 .l (tau / 2) (i - 1) e f t u).1)) i
        (some (B.ev2 .l (tau / 2) (i - 1) e f t u).2)
      r := Function.update s.r (N - i) (some (A.growR i f (B.ev2 .l (tau / 2) (i - 1) e f t u).2)) } := by
  simp [tdvp2L, h1, h2, h3, h4, he, hf, ht, hu, use, bind, Except.bind, pure, Except.pure]

theorem tdvp1_ok {n i : Nat} {s : Mem T E} {e f : E} {t : T} (h1 : i < N) (h2 : i < n) (h3 : N - i - 1 < n)
    (he : s.l i = some e) (hf : s.r (N - i - 1) = some f) (ht : s.m i = some t) :
    tdvp1 B N n tau i s = .ok { s with m := Function.update s.m i (some (B.ev1 (-tau / 2) i e f t)) } := by
  simp [tdvp1, h1, h2, h3, he, hf, ht, use, bind, Except.bind, pure, Except.pure]

theorem bond_at (ψ : Nat → T) (d : Dir) (b : Nat) (x : Rat) (j : Nat) (h1 : j ≠ b) (h2 : j ≠ b + 1) :
    (Act.bond d b x).apply A B N ψ j = ψ j := by simp [Act.apply, Function.update, h1, h2]

theorem site_at (ψ : Nat → T) (b : Nat) (x : Rat) (j : Nat) (h1 : j ≠ b) : (Act.site b x).apply A B N ψ j = ψ j := by
  simp [Act.apply, Function.update, h1]

theorem bond_lo (ψ : Nat → T) (d : Dir) (b : Nat) (x : Rat) : (Act.bond d b x).apply A B N ψ b =
    (B.ev2 d x b (A.lenv ψ b) (A.renv N ψ (N - (b + 2))) (ψ b) (ψ (b + 1))).1 := by
  simp [Act.apply, Function.update]

theorem bond_hi (ψ : Nat → T) (d : Dir) (b : Nat) (x : Rat) : (Act.bond d b x).apply A B N ψ (b + 1) =
    (B.ev2 d x b (A.lenv ψ b) (A.renv N ψ (N - (b + 2))) (ψ b) (ψ (b + 1))).2 := by
  simp [Act.apply, Function.update]

theorem bond_tl (H : B.Legs A) (ψ : Nat → T) (d : Dir) (b : Nat) (x : Rat) :
    A.trivL ((Act.bond d b x).apply A B N ψ 0) = A.trivL (ψ 0) := by
  by_cases h : b = 0
  · subst h; rw [bond_lo, H.left]
  · rw [bond_at _ _ _ _ _ (by omega) (by omega)]

theorem bond_tr (H : B.Legs A) (ψ : Nat → T) (d : Dir) (b : Nat) (x : Rat) (hb : b + 1 < N) :
    A.trivR ((Act.bond d b x).apply A B N ψ (N - 1)) = A.trivR (ψ (N - 1)) := by
  by_cases h : b + 2 = N
  · obtain rfl : N = b + 2 := h.symm
    rw [show b + 2 - 1 = b + 1 by omega, bond_hi, H.right]
  · rw [bond_at _ _ _ _ _ (by omega) (by omega)]

theorem bond_lenv (H : B.Legs A) (ψ : Nat → T) (d : Dir) (b : Nat) (x : Rat) :
    A.lenv ((Act.bond d b x).apply A B N ψ) (b + 1) =
      A.growL b (A.lenv ψ b) (B.ev2 d x b (A.lenv ψ b) (A.renv N ψ (N - (b + 2))) (ψ b) (ψ (b + 1))).1 := by
  rw [Alg.lenv, lenv_congr A (bond_tl H ψ d b x) b (fun k hk => bond_at _ _ _ _ _ (by omega) (by omega)), bond_lo]

theorem bond_renv (H : B.Legs A) (ψ : Nat → T) (d : Dir) (b : Nat) (x : Rat) (hb : b + 1 < N) :
    A.renv N ((Act.bond d b x).apply A B N ψ) (N - (b + 1)) =
      A.growR (b + 1) (A.renv N ψ (N - (b + 2))) (B.ev2 d x b (A.lenv ψ b) (A.renv N ψ (N - (b + 2))) (ψ b) (ψ (b + 1))).2 := by
  rw [show N - (b + 1) = (N - (b + 2)) + 1 by omega, Alg.renv,
    renv_congr A (bond_tr H ψ d b x hb) (N - (b + 2)) (fun k hk _ => bond_at _ _ _ _ _ (by omega) (by omega)) (by omega),
    show N - 1 - (N - (b + 2)) = b + 1 by omega, bond_hi]

theorem bond_lenv_lo (H : B.Legs A) (ψ : Nat → T) (d : Dir) (b : Nat) (x : Rat) :
    A.lenv ((Act.bond d b x).apply A B N ψ) b = A.lenv ψ b :=
  lenv_congr A (bond_tl H ψ d b x) b (fun k hk => bond_at _ _ _ _ _ (by omega) (by omega))

theorem bond_renv_hi (H : B.Legs A) (ψ : Nat → T) (d : Dir) (b : Nat) (x : Rat) (hb : b + 1 < N) :
    A.renv N ((Act.bond d b x).apply A B N ψ) (N - (b + 2)) = A.renv N ψ (N - (b + 2)) :=
  renv_congr A (bond_tr H ψ d b x hb) (N - (b + 2)) (fun k hk _ => bond_at _ _ _ _ _ (by omega) (by omega)) (by omega)

theorem site_lenv (ψ : Nat → T) (b : Nat) (x : Rat) (hb : 0 < b) : A.lenv ((Act.site b x).apply A B N ψ) b = A.lenv ψ b :=
  lenv_congr A (by rw [site_at _ _ _ _ (by omega)]) b (fun k hk => site_at _ _ _ _ (by omega))

theorem site_renv (ψ : Nat → T) (b : Nat) (x : Rat) (hb : b + 1 < N) :
    A.renv N ((Act.site b x).apply A B N ψ) (N - (b + 1)) = A.renv N ψ (N - (b + 1)) :=
  renv_congr A (by rw [site_at _ _ _ _ (by omega)]) _ (fun k hk _ => site_at _ _ _ _ (by omega)) (by omega)

/-- A pair in memory evolves. -/
theorem wnd_bond (ψ : Nat → T) (d : Dir) (b : Nat) (x : Rat) :
    Function.update (Function.update (wnd b (b + 2) ψ) b
      (some (B.ev2 d x b (A.lenv ψ b) (A.renv N ψ (N - (b + 2))) (ψ b) (ψ (b + 1))).1)) (b + 1)
      (some (B.ev2 d x b (A.lenv ψ b) (A.renv N ψ (N - (b + 2))) (ψ b) (ψ (b + 1))).2) =
    wnd b (b + 2) ((Act.bond d b x).apply A B N ψ) := by
  funext j
  by_cases h1 : j = b + 1
  · subst h1; rw [Function.update_self, wnd_in (by omega) (by omega), bond_hi]
  · rw [Function.update_of_ne h1]
    by_cases h2 : j = b
    · subst h2; rw [Function.update_self, wnd_in (by omega) (by omega), bond_lo]
    · rw [Function.update_of_ne h2, wnd_out (by omega), wnd_out (by omega)]

/-- A tensor in memory evolves. -/
theorem wnd_site (ψ : Nat → T) (a c b : Nat) (x : Rat) (h1 : a ≤ b) (h2 : b < c) :
    Function.update (wnd a c ψ) b (some (B.ev1 x b (A.lenv ψ b) (A.renv N ψ (N - (b + 1))) (ψ b))) =
    wnd a c ((Act.site b x).apply A B N ψ) := by
  funext j
  by_cases h : j = b
  · subst h; rw [Function.update_self, wnd_in h1 h2]; simp [Act.apply]
  · rw [Function.update_of_ne h]
    by_cases h' : a ≤ j ∧ j < c
    · rw [wnd_in h'.1 h'.2, wnd_in h'.1 h'.2, site_at _ _ _ _ h]
    · rw [wnd_out (by omega), wnd_out (by omega)]

theorem kernT_ok (H : B.Legs A) (hN : 3 ≤ N) : KernOK A (geoT N) (kernT A B N tau) := by
  constructor <;> simp only [geoT, kernT]
  · intro ψ i j _ _ hj
    rw [actR, site_at _ _ _ _ (by omega), bond_at _ _ _ _ _ (by omega) (by omega)]
  · intro ψ i _ _
    rw [actR, site_at _ _ _ _ (by omega), bond_tl H]
  · intro ψ i _ hi
    rw [actR, site_at _ _ _ _ (by omega), bond_tr H _ _ _ _ (by omega)]
  · intro ψ i reg _ hi
    unfold tdvpR
    rw [tdvp2R_ok (e := A.lenv ψ.1 i) (f := A.renv N ψ.1 (N - (i + 2))) (t := ψ.1 i) (u := ψ.1 (i + 1)) (by omega) (by omega)
      (by omega) (by simp [one]) (by simp [one]) (wnd_in (by omega) (by omega)) (wnd_in (by omega) (by omega))]
    simp only [bind, Except.bind]
    rw [wnd_bond, ← bond_lenv H]
    generalize hφ : (Act.bond .r i (tau / 2)).apply A B N ψ.1 = φ
    have hr : A.renv N ψ.1 (N - (i + 2)) = A.renv N φ (N - (i + 2)) := by rw [← hφ, bond_renv_hi H _ _ _ _ (by omega)]
    rw [hr, tdvp1_ok (e := A.lenv φ (i + 1)) (f := A.renv N φ (N - (i + 1 + 1))) (t := φ (i + 1)) (by omega) (by omega)
      (by omega) (by simp) (by rw [Nat.sub_sub, show i + 1 + 1 = i + 2 by omega]; simp [one]) (wnd_in (by omega) (by omega))]
    simp only [Except.ok.injEq, Mem.mk.injEq, and_true, true_and]
    refine ⟨?_, ?_⟩
    · rw [wnd_site _ _ _ _ _ (by omega) (by omega), actR, hφ]
    · rw [actR, hφ, site_lenv _ _ _ (by omega)]
  · intro ψ i j _ _ hj
    rw [actL, site_at _ _ _ _ (by omega), bond_at _ _ _ _ _ (by omega) (by omega)]
  · intro ψ i _ _
    rw [actL, site_at _ _ _ _ (by omega), bond_tl H]
  · intro ψ i _ hi
    rw [actL, site_at _ _ _ _ (by omega), bond_tr H _ _ _ _ (by omega)]
  · intro ψ i reg h0 hi
    obtain ⟨b, rfl⟩ : ∃ b, i = b + 1 := ⟨i - 1, by omega⟩
    unfold tdvpL actL
    have htau : ∀ c : Prop, [Decidable c] → (if c then tau * 2 else tau) / 2 = if c then tau else tau / 2 := fun c _ => by
      by_cases h : c
      · rw [if_pos h, if_pos h]
        exact Rat.mul_div_cancel (by decide)
      · rw [if_neg h, if_neg h]
    simp only [Nat.add_sub_cancel, show b + 1 + 1 - 2 = b by omega, show b + 1 + 1 = b + 2 by omega]
    rw [tdvp2L_ok (e := A.lenv ψ.1 b) (f := A.renv N ψ.1 (N - (b + 2))) (t := ψ.1 b) (u := ψ.1 (b + 1)) (by omega) (by omega)
      (by omega) (by omega) (by simp [one]) (by rw [Nat.sub_sub]; simp [one])
      (wnd_in (by omega) (by omega)) (wnd_in (by omega) (by omega))]
    simp only [bind, Except.bind, Nat.add_sub_cancel, htau]
    generalize (if b + 1 = N - 1 then tau else tau / 2) = x
    rw [wnd_bond, ← bond_renv H _ _ _ _ (by omega)]
    generalize hφ : (Act.bond .l b x).apply A B N ψ.1 = φ
    have hr : A.lenv ψ.1 b = A.lenv φ b := by rw [← hφ, bond_lenv_lo H]
    rw [hr, tdvp1_ok (e := A.lenv φ b) (f := A.renv N φ (N - (b + 1))) (t := φ b) (by omega) (by omega)
      (by omega) (by simp [one]) (by rw [Nat.sub_sub]; simp) (wnd_in (by omega) (by omega))]
    simp only [Except.ok.injEq, Mem.mk.injEq, and_true, true_and]
    refine ⟨?_, ?_⟩
    · rw [wnd_site _ _ _ _ _ (by omega) (by omega)]
    · rw [site_renv _ _ _ (by omega)]

theorem stepRT_eq {i : Nat} : stepRT A B N tau i = stepRW (geoT N) (kernT A B N tau) i := by
  unfold stepRT loadR2 dumpR2 stepRW Geo.xR kernT geoT
  by_cases h : i = 0
  · subst h; simp
  · simp [h]

theorem stepLT_eq (h : 3 ≤ N) {i : Nat} : stepLT A B N tau i = stepLW (geoT N) (kernT A B N tau) i := by
  unfold stepLT loadL2 dumpL2 stepLW Geo.xL kernT geoT
  by_cases h : i = N - 1
  · subst h; simp [show N - (N - 1 + 1) = 0 by omega, show N - 1 + 1 - 2 = N - 2 by omega, show N - 1 - 1 = N - 2 by omega]
  · simp [h, show i + 1 - 2 = i - 1 by omega]

theorem sweepT_eq {B' : Evo T E} (h : 3 ≤ N) : sweepTM A B N B' tau = .calc freshAll :: .ldM 1 ::
    ((geoT N).sitesR.flatMap (stepRW (geoT N) (kernT A B N tau)) ++
      ((geoT N).sitesL.flatMap (stepLW (geoT N) (kernT A B N tau)) ++ lastT A B' N tau)) := by
  unfold sweepTM
  rw [show stepRT A B N tau = stepRW (geoT N) (kernT A B N tau) from funext fun i => stepRT_eq,
    show stepLT A B N tau = stepLW (geoT N) (kernT A B N tau) from funext fun i => stepLT_eq h]
  simp [Geo.sitesR, Geo.sitesL, geoT, List.range_eq_range', show N - 1 + 1 - 2 = N - 2 by omega]

theorem foldl_fst {α β γ : Type} (f : α → β → α) (l : List β) (a : α) (c : γ) :
    l.foldl (fun (p : α × γ) b => (f p.1 b, p.2)) (a, c) = (l.foldl f a, c) := by
  induction l generalizing a with
  | nil => rfl
  | cons x l ih => exact ih _

theorem foldl_flatMap {α β γ : Type} (f : α → β → α) (g : γ → List β) (l : List γ) (a : α) :
    (l.flatMap g).foldl f a = l.foldl (fun a c => (g c).foldl f a) a := by
  induction l generalizing a with
  | nil => rfl
  | cons x l ih => rw [List.flatMap_cons, List.foldl_append, ih]; rfl

/-- The loops of the sweep make the evolutions of the schedule but the last. -/
theorem tdvp_all (h : 3 ≤ N) (ψ : (Nat → T) × Nat) : Act.all A B N ψ.1 (tdvpSchedule N tau).dropLast = (optSweepW (geoT N) (kernT A B N tau) ψ).1 := by
  obtain ⟨ψ, c⟩ := ψ
  unfold Act.all tdvpSchedule optSweepW
  rw [List.dropLast_concat, List.foldl_append, foldl_flatMap, foldl_flatMap]
  simp only [kernT]
  rw [foldl_fst, foldl_fst]
  simp [Geo.sitesR, Geo.sitesL, geoT, List.range_eq_range', show N - 1 + 1 - 2 = N - 2 by omega, actL]
  rfl

theorem schedule_concat (N : Nat) (tau : Rat) : tdvpSchedule N tau = (tdvpSchedule N tau).dropLast ++ [.bond .r 0 (tau / 2)] := by
  unfold tdvpSchedule
  rw [List.dropLast_concat]

/-- With the same evolutions everywhere it is the serial version. -/
theorem stepM_self (ψ : Nat → T) : stepM A B B N tau ψ = Act.all A B N ψ (tdvpSchedule N tau) := by
  rw [schedule_concat]
  unfold stepM Act.all
  rw [List.foldl_append]
  rfl

theorem stepsM_self : ∀ (k : Nat) (ψ : Nat → T), stepsM A B B N tau k ψ = tdvpSteps A B N tau k ψ
  | 0, _ => rfl
  | k + 1, ψ => by rw [stepsM, tdvpSteps, stepM_self, stepsM_self k]

theorem optSweepT_clk (ψ : (Nat → T) × Nat) : (optSweepW (geoT N) (kernT A B N tau) ψ).2 = ψ.2 := by
  obtain ⟨ψ, c⟩ := ψ
  unfold optSweepW
  simp only [kernT]
  rw [foldl_fst, foldl_fst]

end Verif.Disk
