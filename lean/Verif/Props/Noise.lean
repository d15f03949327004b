import Verif.Algo.Noise
import Mathlib.Algebra.Order.Ring.Rat
/-
Properties C25 (range of the running noise) and C56 (the returned energy).
-/
namespace Verif.Props
open Verif.Algo

variable {K : Type}

/-- `x` does not exceed `max_noise` or one of the given start values. -/
def Below (D : Dbl K) (P : NoiseParams K) (ns : List K) (x : K) : Prop :=
  D.le x P.maxNoise = true ∨ ∃ n, n ∈ ns ∧ D.le x n = true

theorem noiseLoop_range {D : Dbl K} {P : NoiseParams K} {ok : K → Prop} (L : D.Laws ok) (H : P.Ok D ok) {ns : List K}
    (hns : ∀ x, x ∈ ns → ok x) : ∀ (ess : List (List (K × K))) (i : Nat) (x e : Option K), (i < ns.length ∨ x ≠ none) →
      (∀ y, x = some y → ok y ∧ Below D P ns y) →
      ∃ r, noiseLoop D P ns i x e ess = some r ∧ r.1.length = ess.length ∧ ∀ t, t ∈ r.1 →
        ∃ y, ok y ∧ Below D P ns y ∧ Trace D P ok y t ∧ ∀ x, x ∈ t → ok x ∧ Below D P ns x
  | [], _, _, e, _, _ => ⟨([], e), rfl, rfl, fun _ h => absurd h (by simp)⟩
  | es :: ess, i, x, e, h, hx => by
    obtain ⟨y, hy, hy', hy''⟩ : ∃ y, (if i < ns.length then ns[i]? else x) = some y ∧ ok y ∧ Below D P ns y := by
      by_cases hi : i < ns.length
      · refine ⟨ns[i], by rw [if_pos hi, List.getElem?_eq_getElem hi], hns _ (List.getElem_mem hi), Or.inr ⟨_, List.getElem_mem hi, ?_⟩⟩
        exact L.refl _ (hns _ (List.getElem_mem hi))
      · rw [if_neg hi]
        cases x with
        | none => exact absurd rfl (h.resolve_left hi)
        | some y => exact ⟨y, rfl, hx y rfl⟩
    obtain ⟨g1, g2, g3, g4⟩ := sweepNoise_trace L H es ⟨D.zero, D.zero, y⟩ hy'
    have up : ∀ z, D.le z y = true ∨ D.le z P.maxNoise = true → Below D P ns z := by
      rintro z (hz | hz)
      · rcases hy'' with h | ⟨n, hn, h⟩
        · exact Or.inl (L.trans _ _ _ hz h)
        · exact Or.inr ⟨n, hn, L.trans _ _ _ hz h⟩
      · exact Or.inl hz
    obtain ⟨r, hr, hl, hr'⟩ := noiseLoop_range L H hns ess (i + 1) (some (sweepNoise D P ⟨D.zero, D.zero, y⟩ es).2.noise)
      (some (sweepNoise D P ⟨D.zero, D.zero, y⟩ es).2.e0) (Or.inr (by simp))
      (fun z hz => by injection hz with hz; subst hz; exact ⟨g2, up _ g4⟩)
    refine ⟨_, by rw [noiseLoop, hy]; simp only [hr, Option.map_some]; rfl, by simp [hl], fun t ht => ?_⟩
    rcases List.mem_cons.mp ht with rfl | ht
    · refine ⟨y, hy', hy'', g1, fun x hx => ⟨?_, up x (g3 x hx)⟩⟩
      clear g2 g3 g4 hr hr' hl
      generalize (sweepNoise D P ⟨D.zero, D.zero, y⟩ es).1 = t at g1 hx
      simp only at g1
      clear up hy' hy'' hy ht
      induction g1 with
      | nil => exact absurd hx (by simp)
      | cons a b ys h1 _ _ ih =>
        rcases List.mem_cons.mp hx with rfl | hx
        · exact h1
        · exact ih hx
    · exact hr' t ht

/-- **C25** (single site). For admissible parameters (finite, not negative, `noise_decrease ≤ 1`) and any energies at all
sites of all sweeps, every noise that an update is given is finite and not negative and does not exceed `max_noise`
or one of the preset noises. Within a sweep it is kept, lowered, or increased by the factor `noise_increase` with
the result at most `max_noise` (`Trace`). -/
theorem C25_single_site {D : Dbl K} {P : NoiseParams K} {ok : K → Prop} (L : D.Laws ok) (H : P.Ok D ok) (ess : List (List (K × K))) :
    ∃ r, noiseSingle D P ess = some r ∧ r.1.length = ess.length ∧ ∀ t, t ∈ r.1 →
      ∃ y, ok y ∧ Below D P (if P.noises = [] then [D.zero] else P.noises) y ∧ Trace D P ok y t ∧
        ∀ x, x ∈ t → ok x ∧ Below D P (if P.noises = [] then [D.zero] else P.noises) x := by
  refine noiseLoop_range L H (fun x hx => ?_) ess 0 none none (Or.inl ?_) (fun y hy => absurd hy (by simp))
  · split at hx
    · simp only [List.mem_cons, List.not_mem_nil, or_false] at hx; rw [hx]; exact L.zero_ok
    · exact H.noises x hx
  · split
    · exact Nat.one_pos
    · rename_i h; exact List.length_pos_iff.mpr h

/-- **C25** (two sites). The same if at least one noise is given. -/
theorem C25_two_site {D : Dbl K} {P : NoiseParams K} {ok : K → Prop} (L : D.Laws ok) (H : P.Ok D ok) (h : P.noises ≠ [])
    (ess : List (List (K × K))) :
    ∃ r, noiseTwo D P ess = some r ∧ r.1.length = ess.length ∧ ∀ t, t ∈ r.1 →
      ∃ y, ok y ∧ Below D P P.noises y ∧ Trace D P ok y t ∧ ∀ x, x ∈ t → ok x ∧ Below D P P.noises x :=
  noiseLoop_range L H H.noises ess 0 none none (Or.inl (List.length_pos_iff.mpr h)) (fun y hy => absurd hy (by simp))

/-- **C25** (two sites, the code). Without preset noises the program goes on after the run without noise, and its first
sweep reads an uninitialised noise. -/
theorem C25_empty_violation (D : Dbl K) (P : NoiseParams K) (h : P.noises = []) (es : List (K × K)) (ess : List (List (K × K))) :
    noiseTwo D P (es :: ess) = none := by
  simp [noiseTwo, noiseLoop, h]

/-- Each sweep that has a preset noise starts with it: the first update of sweep `i` gets the preset noise, or what one
adaption makes of it with both energies zero. -/
theorem noiseLoop_start {D : Dbl K} {P : NoiseParams K} {ns : List K} : ∀ (ess : List (List (K × K))) (i : Nat) (x e : Option K) r,
    noiseLoop D P ns i x e ess = some r → ∀ j n a b es, ns[i + j]? = some n → ess[j]? = some ((a, b) :: es) →
      ∃ t, r.1[j]? = some (adapt D P ⟨D.zero, D.zero, n⟩ a :: t)
  | [], _, _, _, _, _, j, _, _, _, _, _, h => absurd h (by simp)
  | s :: ess, i, x, e, r, hr, j, n, a, b, es, hn, hes => by
    rw [noiseLoop] at hr
    cases hy : (if i < ns.length then ns[i]? else x) with
    | none => rw [hy] at hr; exact absurd hr (by simp)
    | some y =>
      rw [hy] at hr
      simp only [Option.map_eq_some_iff] at hr
      obtain ⟨q, hq, rfl⟩ := hr
      cases j with
      | zero =>
        have hi : i < ns.length := by
          rcases Nat.lt_or_ge i ns.length with h | h
          · exact h
          · rw [Nat.add_zero, List.getElem?_eq_none (by omega)] at hn; exact absurd hn (by simp)
        rw [if_pos hi] at hy
        rw [Nat.add_zero, hy] at hn
        injection hn with hn
        subst hn
        simp only [List.getElem?_cons_zero, Option.some.injEq] at hes
        subst hes
        exact ⟨_, rfl⟩
      | succ j =>
        rw [List.getElem?_cons_succ] at hes ⊢
        exact noiseLoop_start ess (i + 1) _ _ q hq j n a b es (by rw [← hn]; congr 1; omega) hes

/-- **C25** (preset noises). A sweep that has a preset noise starts with it, whatever noise the sweep before ended with:
if the energy before the first update is not positive the first update is given exactly the preset noise. -/
theorem C25_preset {D : Dbl K} {P : NoiseParams K} {ess : List (List (K × K))} {r} (h : noiseTwo D P ess = some r) {j : Nat} {n a b : K}
    {es : List (K × K)} (hn : P.noises[j]? = some n) (he : ess[j]? = some ((a, b) :: es))
    (ha : D.le (D.sub a D.zero) D.zero = true) : ∃ t, r.1[j]? = some (n :: t) := by
  obtain ⟨t, ht⟩ := noiseLoop_start ess 0 none none r h j n a b es (by rw [Nat.zero_add]; exact hn) he
  exact ⟨t, by rw [ht, adapt]; simp [ha]⟩

theorem noiseLoop_zero {D : Dbl K} {P : NoiseParams K} {ok : K → Prop} (L : D.Laws ok) (H : P.Ok D ok) {ns : List K}
    (hns : ∀ x, x ∈ ns → x = D.zero) : ∀ (ess : List (List (K × K))) (i : Nat) (x e : Option K),
      (∀ y, x = some y → y = D.zero) → ∀ r, noiseLoop D P ns i x e ess = some r → ∀ t, t ∈ r.1 → ∀ x, x ∈ t → x = D.zero
  | [], _, _, _, _, r, hr, t, ht, _, _ => by
    rw [noiseLoop] at hr; injection hr with hr; subst hr; exact absurd ht (by simp)
  | es :: ess, i, x, e, hx, r, hr, t, ht, z, hz => by
    rw [noiseLoop] at hr
    cases hy : (if i < ns.length then ns[i]? else x) with
    | none => rw [hy] at hr; exact absurd hr (by simp)
    | some y =>
      have hy0 : y = D.zero := by
        split at hy
        · exact hns y (List.mem_of_getElem? hy)
        · exact hx y hy
      rw [hy] at hr
      simp only [Option.map_eq_some_iff] at hr
      obtain ⟨q, hq, rfl⟩ := hr
      have g := sweepNoise_zero L H es ⟨D.zero, D.zero, y⟩ hy0
      rcases List.mem_cons.mp ht with rfl | ht
      · exact g.1 z hz
      · exact noiseLoop_zero L H hns ess (i + 1) _ _ (fun w hw => by injection hw with hw; subst hw; exact g.2) q hq t ht z hz

/-- **C25** (no noise). If all preset noises are zero, no update of `SingleSiteFiniteVMPS` or
`TwoSiteFiniteVMPSWithNoise` is ever given another noise; the state is never expanded. -/
theorem C25_zero {D : Dbl K} {P : NoiseParams K} {ok : K → Prop} (L : D.Laws ok) (H : P.Ok D ok)
    (h : ∀ x, x ∈ P.noises → x = D.zero) {ess : List (List (K × K))} {r}
    (hr : noiseSingle D P ess = some r ∨ noiseTwo D P ess = some r) : ∀ t, t ∈ r.1 → ∀ x, x ∈ t → x = D.zero := by
  rcases hr with hr | hr
  · refine noiseLoop_zero L H (fun x hx => ?_) ess 0 none none (fun y hy => absurd hy (by simp)) r hr
    split at hx
    · simpa using hx
    · exact h x hx
  · exact noiseLoop_zero L H h ess 0 none none (fun y hy => absurd hy (by simp)) r hr

/-- Rational numbers with a rounding function, the model of `double`. -/
def rounded (rnd : Rat → Rat) : Dbl Rat :=
  ⟨0, 1, fun a b => rnd (a - b), fun a b => rnd (a * b), fun a => |a|, fun a b => decide (a ≤ b), fun a b => decide (a < b)⟩

/-- The laws hold for exact arithmetic and for any monotone rounding, the admissible numbers being the representable
ones that are not negative. -/
theorem rounded_laws {rnd : Rat → Rat} (mono : ∀ a b, a ≤ b → rnd a ≤ rnd b) (idem : ∀ a, rnd (rnd a) = rnd a) (h0 : rnd 0 = 0) :
    (rounded rnd).Laws (fun a => 0 ≤ a ∧ rnd a = a) where
  zero_ok := ⟨le_refl _, h0⟩
  refl a _ := by simp [rounded]
  trans a b c h1 h2 := by
    simp only [rounded, decide_eq_true_eq] at *
    exact le_trans h1 h2
  mul_ok a b m ha hb hm h := by
    simp only [rounded, decide_eq_false_iff_not, not_lt, decide_eq_true_eq] at *
    refine ⟨⟨?_, idem _⟩, h⟩
    have := mono 0 (a * b) (mul_nonneg ha.1 hb.1)
    rwa [h0] at this
  mul_le a b ha hb h := by
    simp only [rounded, decide_eq_true_eq] at *
    refine ⟨⟨?_, idem _⟩, ?_⟩
    · have := mono 0 (a * b) (mul_nonneg ha.1 hb.1)
      rwa [h0] at this
    · have := mono (a * b) a (mul_le_of_le_one_right ha.1 h)
      rwa [ha.2] at this
  zero_mul b _ := by simp [rounded, h0]
  zero_le a ha := by simp [rounded, ha.1]

/-- Admissible parameters: those of the library's constants with two preset noises. -/
example : (⟨[1/10, 1/100], 1, 102/100, 95/100, 3/10⟩ : NoiseParams Rat).Ok (rounded id) (fun a => 0 ≤ a ∧ id a = a) where
  noises x hx := by
    simp only [List.mem_cons, List.not_mem_nil, or_false] at hx
    rcases hx with rfl | rfl <;> exact ⟨by decide +kernel, rfl⟩
  max := ⟨by decide +kernel, rfl⟩
  inc := ⟨by decide +kernel, rfl⟩
  dec := ⟨by decide +kernel, rfl⟩
  dec_one := by decide +kernel

/-- A run with all three kinds of adaption. -/
example : (noiseTwo (rounded id) ⟨[1/10], 1, 102/100, 95/100, 3/10⟩ [[(-5, -6), (-5, -7), (-69/10, -8)], [(-8, -9)]]).map (·.1) =
    some [[1/10, 95/1000, 969/10000], [969/10000]] := by decide +kernel

/-! ### C56 -/

theorem sweepNoise_e0 {D : Dbl K} {P : NoiseParams K} : ∀ (es : List (K × K)) (s : NoiseSt K),
    (sweepNoise D P s es).2.e0 = (es.getLast?.map Prod.snd).getD s.e0
  | [], _ => rfl
  | [(_, _)], _ => rfl
  | (a, e) :: p :: es, s => by
    have h := sweepNoise_e0 (D := D) (P := P) (p :: es) ⟨e, a, adapt D P s a⟩
    have h' : (sweepNoise D P s ((a, e) :: p :: es)).2 = (sweepNoise D P ⟨e, a, adapt D P s a⟩ (p :: es)).2 := rfl
    rw [h', h, List.getLast?_cons_cons]
    cases hl : (p :: es).getLast? with
    | none => exact absurd hl (by simp)
    | some q => rfl

theorem noiseLoop_energy {D : Dbl K} {P : NoiseParams K} {ns : List K} : ∀ (ess : List (List (K × K))) (i : Nat) (x e : Option K) r,
    noiseLoop D P ns i x e ess = some r →
      r.2 = match ess.getLast? with | none => e | some es => some ((es.getLast?.map Prod.snd).getD D.zero)
  | [], _, _, _, r, hr => by rw [noiseLoop] at hr; injection hr with hr; subst hr; rfl
  | es :: ess, i, x, e, r, hr => by
    rw [noiseLoop] at hr
    cases hy : (if i < ns.length then ns[i]? else x) with
    | none => rw [hy] at hr; exact absurd hr (by simp)
    | some y =>
      rw [hy] at hr
      simp only [Option.map_eq_some_iff] at hr
      obtain ⟨q, hq, rfl⟩ := hr
      have h := noiseLoop_energy ess (i + 1) _ _ q hq
      simp only
      rw [h]
      cases ess with
      | nil => simp [sweepNoise_e0]
      | cons p ps =>
        rw [List.getLast?_cons_cons]
        cases hl : (p :: ps).getLast? with
        | none => exact absurd hl (by simp)
        | some z => rfl

/-- **C56**. With at least one sweep and at least one update in the last sweep, `SingleSiteFiniteVMPS` and
`TwoSiteFiniteVMPSWithNoise` return the energy of the very last update. -/
theorem C56_energy {D : Dbl K} {P : NoiseParams K} {ess : List (List (K × K))} {es : List (K × K)} {a e : K} {r}
    (hr : noiseSingle D P (ess ++ [es ++ [(a, e)]]) = some r ∨ noiseTwo D P (ess ++ [es ++ [(a, e)]]) = some r) : r.2 = some e := by
  rcases hr with hr | hr <;>
    · have := noiseLoop_energy _ _ _ _ r hr
      simpa using this

/-- **C56** (the code). With no sweeps the returned energy is uninitialised. -/
theorem C56_no_sweeps_violation (D : Dbl K) (P : NoiseParams K) : noiseSingle D P [] = some ([], none) ∧ noiseTwo D P [] = some ([], none) :=
  ⟨rfl, rfl⟩

end Verif.Props
