import Verif.Disk.DmrgSim
import Verif.Disk.WindowFacts
import Verif.Disk.BoundaryFacts
/-
The sweeps of the DMRG executor on group files.
-/
namespace Verif.Disk

variable {T O : Type} {A : Alg T (List O)} {w : Nat → Nat} {N lb rb : Nat}

theorem lenv_length (D : A.Dims w N) (ψ : Nat → T) : ∀ k, (A.lenv ψ k).length = w k
  | 0 => D.tl _
  | k + 1 => D.gl _ _ _ (lenv_length D ψ k)

theorem renv_length (D : A.Dims w N) (ψ : Nat → T) : ∀ k, k ≤ N → (A.renv N ψ k).length = w (N - k)
  | 0, _ => D.tr _
  | k + 1, h => by
    rw [Alg.renv, D.gr _ _ _ (by rw [renv_length D ψ k (by omega), show N - k = N - 1 - k + 1 by omega]),
      show N - 1 - k = N - (k + 1) by omega]

/-- The numbers of the sweep. -/
def geoD (N lb rb : Nat) : Geo := ⟨N, N, lb, rb, 2, 2⟩

theorem geoD_ok (h1 : lb + 2 ≤ rb) (h2 : rb < N) : (geoD N lb rb).OK := by
  constructor <;> simp [geoD] <;> omega

/-- The work of the sweep, with the groups that are cleared early still there. -/
def kernD (A : Alg T (List O)) (N : Nat) : Kern T (List O) := ⟨upd2R A N N, upd2L A N N, optR A N, optL A N⟩

theorem optR_at' (ψ : (Nat → T) × Nat) (i j : Nat) (h1 : j ≠ i) (h2 : j ≠ i + 1) : (optR A N ψ i).1 j = ψ.1 j := by
  simp [optR, Function.update, h1, h2]

theorem optL_at' (ψ : (Nat → T) × Nat) (i j : Nat) (h1 : j ≠ i) (h2 : j ≠ i - 1) : (optL A N ψ i).1 j = ψ.1 j := by
  simp [optL, Function.update, h1, h2]

theorem kernD_ok (H : A.Legs) (h2 : rb < N) : KernOK A (geoD N lb rb) (kernD A N) := by
  have tlR : ∀ (ψ : (Nat → T) × Nat) i, A.trivL ((optR A N ψ i).1 0) = A.trivL (ψ.1 0) := fun ψ i => by
    by_cases h : i = 0
    · subst h; simp [optR, Function.update, H.left]
    · simp [optR, Function.update, show ¬ 0 = i by omega]
  have trL : ∀ (ψ : (Nat → T) × Nat) i, i < N → A.trivR ((optL A N ψ i).1 (N - 1)) = A.trivR (ψ.1 (N - 1)) := fun ψ i hi => by
    by_cases h : N - 1 = i
    · rw [h]; simp [optL, Function.update, H.right]
    · simp [optL, Function.update, h, show ¬ N - 1 = i - 1 by omega]
  constructor <;> simp only [geoD, kernD]
  · intro ψ i j _ _ hj; exact optR_at' ψ i j (by omega) (by omega)
  · intro ψ i _ _; exact tlR ψ i
  · intro ψ i _ hi
    by_cases h : N - 1 = i + 1
    · rw [h]; simp [optR, Function.update, H.right]
    · simp [optR, Function.update, show ¬ N - 1 = i by omega, h]
  · intro ψ i reg _ hi
    simp only [upd2R, show i + 2 ≤ N ∧ i + 1 < N ∧ N - (i + 2) < N by omega, if_true, one, use, wnd, bind, Except.bind, pure,
      Except.pure, show i ≤ i ∧ i < i + 2 by omega, show i ≤ i + 1 ∧ i + 1 < i + 2 by omega, and_self]
    simp only [Except.ok.injEq, Mem.mk.injEq, true_and]
    refine ⟨?_, ?_, rfl⟩
    · funext j
      by_cases h1 : j = i + 1
      · subst h1; rw [Function.update_self, wnd_in (by omega) (by omega)]; simp [optR]
      · rw [Function.update_of_ne h1]
        by_cases h2 : j = i
        · subst h2; rw [Function.update_self, wnd_in (by omega) (by omega)]; simp [optR, Function.update]
        · rw [Function.update_of_ne h2, wnd_out (by omega), wnd_out (by omega)]
    · rw [Alg.lenv, lenv_congr A (tlR ψ i) i (fun k hk => optR_at' ψ i k (by omega) (by omega))]
      simp [optR, Function.update]
  · intro ψ i j _ _ hj; exact optL_at' ψ i j (by omega) (by omega)
  · intro ψ i hi _
    by_cases h : i = 1
    · subst h; simp [optL, Function.update, H.left]
    · simp [optL, Function.update, show ¬ 0 = i by omega, show ¬ 0 = i - 1 by omega]
  · intro ψ i _ hi; exact trL ψ i (by omega)
  · intro ψ i reg h0 hi
    have e : A.renv N (optL A N ψ i).1 (N - i) = A.growR i (A.renv N ψ.1 (N - (i + 1)))
        (A.opt ψ.2 .l i (A.lenv ψ.1 (i - 1)) (A.renv N ψ.1 (N - (i + 1))) (ψ.1 (i - 1)) (ψ.1 i)).2 := by
      rw [show N - i = (N - (i + 1)) + 1 by omega, Alg.renv,
        renv_congr A (trL ψ i (by omega)) (N - (i + 1)) (fun k hk _ => optL_at' ψ i k (by omega) (by omega)) (by omega),
        show N - 1 - (N - (i + 1)) = i by omega]
      simp [optL]
    rw [e]
    simp only [show i + 1 - 2 = i - 1 by omega, upd2L, show 1 ≤ i ∧ i < N ∧ i - 1 < N ∧ N - i < N by omega, if_true, one,
      show N - i - 1 = N - (i + 1) by omega, use, wnd, bind, Except.bind, pure, Except.pure,
      show i - 1 ≤ i - 1 ∧ i - 1 < i + 1 by omega, show i - 1 ≤ i ∧ i < i + 1 by omega, and_self]
    simp only [Except.ok.injEq, Mem.mk.injEq, true_and]
    refine ⟨?_, rfl⟩
    funext j
    by_cases h1 : j = i
    · subst h1; rw [Function.update_self, wnd_in (by omega) (by omega)]; simp [optL]
    · rw [Function.update_of_ne h1]
      by_cases h2 : j = i - 1
      · subst h2; rw [Function.update_self, wnd_in (by omega) (by omega)]
        simp [optL, Function.update, show ¬ i - 1 = i by omega]
      · rw [Function.update_of_ne h2, wnd_out (by omega), wnd_out (by omega)]

/-! ### Early clearing -/

theorem Does.clearR {N n i k : Nat} {f f' : Mem T (List O) → Except Err (Mem T (List O))} {m1 : Mem T (List O)}
    {os : List (Op T (List O))} {s : Sys T (List O)} {P : Sys T (List O) → Prop} (h1 : f s.mem = .ok m1)
    (h2 : f' s.mem = .ok { m1 with r := Function.update m1.r k none })
    (h : Does N n (.calc f :: .frL i :: .frR k :: os) s P) : Does N n (.calc f' :: .frL i :: .frR k :: os) s P := by
  obtain ⟨s', e, p⟩ := h
  refine ⟨s', ?_, p⟩
  rw [← e]
  simp only [run, exec, h1, h2, bind, Except.bind, pure, Except.pure]
  by_cases hi : i < n
  · by_cases hk : k < n
    · simp [hi, hk]
    · simp [hi, hk]
  · simp [hi]

theorem Does.clearL {N n i k : Nat} {f f' : Mem T (List O) → Except Err (Mem T (List O))} {m1 : Mem T (List O)}
    {os : List (Op T (List O))} {s : Sys T (List O)} {P : Sys T (List O) → Prop} (h1 : f s.mem = .ok m1)
    (h2 : f' s.mem = .ok { m1 with l := Function.update m1.l i none })
    (h : Does N n (.calc f :: .frL i :: .frR k :: os) s P) : Does N n (.calc f' :: .frL i :: .frR k :: os) s P := by
  obtain ⟨s', e, p⟩ := h
  refine ⟨s', ?_, p⟩
  rw [← e]
  simp only [run, exec, h1, h2, bind, Except.bind, pure, Except.pure]
  by_cases hi : i < n
  · by_cases hk : k < n
    · simp [hi, hk]
    · simp [hi, hk]
  · simp [hi]

theorem dUpdR_eq {i : Nat} {s m1 : Mem T (List O)} (hl : ∀ e, s.l i = some e → e.length = w i) (h : upd2R A N N i s = .ok m1) :
    dUpdR A w N i s = .ok { m1 with r := Function.update m1.r (N - (i + 2)) none } := by
  unfold upd2R at h
  split at h
  · rename_i hc
    cases he : s.l i with
    | none => rw [he] at h; simp [use, bind, Except.bind] at h
    | some e =>
      rw [he] at h
      cases hf : s.r (N - (i + 2)) with
      | none => rw [hf] at h; simp [use, bind, Except.bind] at h
      | some f =>
        rw [hf] at h
        cases ht : s.m i with
        | none => rw [ht] at h; simp [use, bind, Except.bind] at h
        | some t =>
          rw [ht] at h
          cases hu : s.m (i + 1) with
          | none => rw [hu] at h; simp [use, bind, Except.bind] at h
          | some u =>
            rw [hu] at h
            simp only [use, bind, Except.bind, pure, Except.pure, Except.ok.injEq] at h
            subst h
            simp [dUpdR, show i + 1 < N by omega, he, hf, ht, hu, use, bind, Except.bind, pure, Except.pure, hl e he]
  · simp at h

theorem dUpdL_eq {i : Nat} {s m1 : Mem T (List O)} (hl : ∀ e, s.r (N - (i + 1)) = some e → e.length = w (i + 1))
    (h : upd2L A N N i s = .ok m1) : dUpdL A w N i s = .ok { m1 with l := Function.update m1.l (i - 1) none } := by
  unfold upd2L at h
  split at h
  · rename_i hc
    rw [show N - i - 1 = N - (i + 1) by omega] at h
    cases he : s.l (i - 1) with
    | none => rw [he] at h; simp [use, bind, Except.bind] at h
    | some e =>
      rw [he] at h
      cases hf : s.r (N - (i + 1)) with
      | none => rw [hf] at h; simp [use, bind, Except.bind] at h
      | some f =>
        rw [hf] at h
        cases ht : s.m (i - 1) with
        | none => rw [ht] at h; simp [use, bind, Except.bind] at h
        | some t =>
          rw [ht] at h
          cases hu : s.m i with
          | none => rw [hu] at h; simp [use, bind, Except.bind] at h
          | some u =>
            rw [hu] at h
            simp only [use, bind, Except.bind, pure, Except.pure, Except.ok.injEq] at h
            subst h
            simp [dUpdL, show 1 ≤ i ∧ i < N by omega, show N - 1 - i = N - (i + 1) by omega, he, hf, ht, hu, use, bind,
              Except.bind, pure, Except.pure, hl f hf]
  · simp at h

/-! ### The steps -/

variable {fl fr : Nat → File (List O)}

/-- The state at the beginning of a sweep: a right group may be left from the sweep before. -/
structure StartD (A : Alg T (List O)) (N lb rb : Nat) (fl fr : Nat → File (List O)) (ψ : (Nat → T) × Nat) (s : Sys T (List O)) :
    Prop where
  m : s.mem.m = wnd (lb + 1) (lb + 2) ψ.1
  l : s.mem.l = fun _ => none
  r : ∀ j, j ≠ N - (lb + 2) → s.mem.r j = none
  clk : s.mem.clk = ψ.2
  d : DskW A (geoD N lb rb) fl fr ψ.1 (lb + 1) (lb + 2) lb (lb + 2) s.dsk

theorem workRD (H : A.Legs) (D : A.Dims w N) (h1 : lb + 2 ≤ rb) (h2 : rb < N) {i : Nat} (hi : lb ≤ i) (hi' : i + 2 ≤ rb)
    {ψ : (Nat → T) × Nat} {s : Sys T (List O)} (hs : LoadR A (geoD N lb rb) fl fr ψ i s) :
    Does N N (.calc (dUpdR A w N i) :: dDumpR N i) s (RInvW A (geoD N lb rb) fl fr (optR A N ψ i) (i + 1)) := by
  have hw := workR (geoD_ok h1 h2) (kernD_ok H h2) (i := i) hi hi' hs
  have hd := (kernD_ok (lb := lb) H h2).doR ψ i s.mem.reg hi hi'
  have hm : s.mem = ⟨wnd i (i + 2) ψ.1, one i (A.lenv ψ.1 i), one (N - (i + 2)) (A.renv N ψ.1 (N - (i + 2))), s.mem.reg, ψ.2⟩ := by
    obtain ⟨⟨m, l, r, reg, clk⟩, d⟩ := s
    have := hs.m; have := hs.l; have := hs.r; have := hs.clk
    simp only [geoD] at *
    subst_vars
    rfl
  refine Does.clearR (f := upd2R A N N i) (by rw [hm]; exact hd) (dUpdR_eq (fun e he => ?_) (by rw [hm]; exact hd)) hw.1
  rw [hm] at he
  simp only [one, if_true, Option.some.injEq] at he
  rw [← he]; exact lenv_length D _ _

theorem workLD (H : A.Legs) (D : A.Dims w N) (h1 : lb + 2 ≤ rb) (h2 : rb < N) {i : Nat} (hi : lb + 2 ≤ i) (hi' : i ≤ rb)
    {ψ : (Nat → T) × Nat} {s : Sys T (List O)} (hs : LoadL A (geoD N lb rb) fl fr ψ i s) :
    Does N N (.calc (dUpdL A w N i) :: dDumpL N i) s (LInvW A (geoD N lb rb) fl fr (optL A N ψ i) (i - 1)) := by
  have hw := workL (geoD_ok h1 h2) (kernD_ok H h2) (i := i) hi hi' hs
  have hd := (kernD_ok (lb := lb) H h2).doL ψ i s.mem.reg hi hi'
  have hm : s.mem = ⟨wnd (i - 1) (i + 1) ψ.1, one (i - 1) (A.lenv ψ.1 (i - 1)), one (N - (i + 1)) (A.renv N ψ.1 (N - (i + 1))),
      s.mem.reg, ψ.2⟩ := by
    obtain ⟨⟨m, l, r, reg, clk⟩, d⟩ := s
    have := hs.m; have := hs.l; have := hs.r; have := hs.clk
    simp only [geoD, show i + 1 - 2 = i - 1 by omega] at *
    subst_vars
    rfl
  simp only [geoD, show i + 1 - 2 = i - 1 by omega] at hw hd
  refine Does.clearL (f := upd2L A N N i) (by rw [hm]; exact hd) (dUpdL_eq (fun e he => ?_) (by rw [hm]; exact hd)) hw.1
  rw [hm] at he
  simp only [one, if_true, Option.some.injEq] at he
  rw [← he, renv_length D _ _ (by omega), show N - (N - (i + 1)) = i + 1 by omega]

theorem dStepR_first (H : A.Legs) (D : A.Dims w N) (h1 : lb + 2 ≤ rb) (h2 : rb < N) {ψ : (Nat → T) × Nat} {s : Sys T (List O)}
    (hs : StartD A N lb rb fl fr ψ s) :
    Does N N (dStepR A w N lb lb) s (RInvW A (geoD N lb rb) fl fr (optR A N ψ lb) (lb + 1)) := by
  obtain ⟨⟨m, l, r, reg, clk⟩, d⟩ := s
  obtain ⟨e1, e2, e3, e4, hd⟩ := hs
  simp only at e1 e2 e3 e4 hd
  subst e1 e2 e4
  have q3 := hd.r (N - (lb + 2))
  rw [if_pos (by simp only [geoD]; omega)] at q3
  have q2 := hd.l lb
  rw [if_pos (by simp only [geoD]; omega)] at q2
  have hd1 := hd.delR (by simp only [geoD]; omega) (by simp only [geoD]; omega) (by simp only [geoD]; omega)
  have hd2 := hd1.widen (e := lb) (e' := lb + 2) (by omega) (by omega)
  unfold dStepR dLoadR
  rw [if_pos rfl, List.append_assoc, List.cons_append, List.cons_append, List.nil_append, List.cons_append, List.cons_append, List.nil_append]
  refine .ldM (by omega) (hd.m _ (by simp only [geoD]; omega) (by omega)) <| .ldL (by omega) q2 <| .ldR (by omega) q3 <| .rmR <|
    workRD H D h1 h2 (Nat.le_refl _) h1 ⟨?_, one_set, ?_, rfl, hd2⟩
  · exact wnd_addLo (by omega)
  · funext j
    simp only [one, geoD]
    by_cases hj : j = N - (lb + 2)
    · subst hj; simp
    · simp [hj, e3 j hj]

theorem dStepR_next (H : A.Legs) (D : A.Dims w N) (h1 : lb + 2 ≤ rb) (h2 : rb < N) {i : Nat} (hi : lb < i) (hi' : i + 2 ≤ rb)
    {ψ : (Nat → T) × Nat} {s : Sys T (List O)} (hs : RInvW A (geoD N lb rb) fl fr ψ i s) :
    Does N N (dStepR A w N lb i) s (RInvW A (geoD N lb rb) fl fr (optR A N ψ i) (i + 1)) := by
  obtain ⟨⟨m, l, r, reg, clk⟩, d⟩ := s
  obtain ⟨e1, e2, e3, e4, hd⟩ := hs
  simp only at e1 e2 e3 e4 hd
  subst e1 e2 e3 e4
  have q3 := hd.r (N - (i + 2))
  rw [if_pos (by simp only [geoD]; omega)] at q3
  have hd1 := hd.delR (by simp only [geoD]; omega) (by simp only [geoD]; omega) (by simp only [geoD]; omega)
  have hd2 := hd1.widen (e := i) (e' := i + 2) (by omega) (by simp only [geoD]; omega)
  unfold dStepR dLoadR
  rw [if_neg (by omega), List.append_assoc, List.cons_append, List.nil_append, List.cons_append, List.cons_append, List.nil_append]
  refine .ldM (by omega) (hd.m _ (by simp only [geoD]; omega) (by simp only [geoD]; omega)) <| .ldR (by omega) q3 <| .rmR <|
    workRD H D h1 h2 (by omega) hi' ⟨?_, rfl, one_set, rfl, hd2⟩
  exact wnd_addHi (by omega)

theorem dStepL_first (H : A.Legs) (D : A.Dims w N) (h1 : lb + 2 ≤ rb) (h2 : rb < N) {ψ : (Nat → T) × Nat} {s : Sys T (List O)}
    (hs : RInvW A (geoD N lb rb) fl fr ψ (rb - 1) s) :
    Does N N (dStepL A w N rb rb) s (LInvW A (geoD N lb rb) fl fr (optL A N ψ rb) (rb - 1)) := by
  obtain ⟨⟨m, l, r, reg, clk⟩, d⟩ := s
  obtain ⟨e1, e2, e3, e4, hd⟩ := hs
  simp only at e1 e2 e3 e4 hd
  subst e1 e2 e3 e4
  have q3 := hd.r (N - 1 - rb)
  rw [if_pos (by simp only [geoD]; omega)] at q3
  have q2 := hd.l (rb - 1)
  rw [if_pos (by simp only [geoD]; omega)] at q2
  have hd1 := hd.trim (by simp only [geoD]; omega)
  rw [show rb - 1 + (geoD N lb rb).h = rb + 1 by simp only [geoD]; omega, show rb - 1 = rb - 2 + 1 by omega] at hd1
  have hd2 := (hd1.delL (by simp only [geoD]; omega) (by simp only [geoD]; omega)).widen (e := rb - 1) (e' := rb + 1) (by omega)
    (by simp only [geoD]; omega)
  unfold dStepL dLoadL
  rw [if_pos rfl, List.append_assoc, List.cons_append, List.cons_append, List.nil_append, List.cons_append, List.cons_append, List.nil_append]
  refine .ldM (by omega) (hd.m _ (by simp only [geoD]; omega) (by simp only [geoD]; omega)) <| .ldR (by omega) q3 <|
    .ldL (by omega) q2 <| .rmL <| workLD H D h1 h2 h1 (Nat.le_refl _) ⟨?_, ?_, ?_, rfl, ?_⟩
  · simp only [geoD]
    rw [show rb - 1 + 2 - 1 = rb by omega, wnd_addHi (by omega), show rb + 1 - 2 = rb - 1 by omega]
  · simp only [geoD]
    funext j
    rw [show rb + 1 - 2 = rb - 1 by omega]
    by_cases hj : j = rb - 1
    · subst hj; simp [one]
    · simp [hj, one]
  · simp only [geoD]; rw [show N - (rb + 1) = N - 1 - rb by omega]; exact one_set
  · simp only [geoD]
    rw [show rb + 1 - 2 = rb - 1 by omega, show rb - 1 = rb - 2 + 1 by omega]
    rw [show rb - 1 = rb - 2 + 1 by omega] at hd2
    exact hd2

theorem dStepL_next (H : A.Legs) (D : A.Dims w N) (h1 : lb + 2 ≤ rb) (h2 : rb < N) {i : Nat} (hi : lb + 2 ≤ i) (hi' : i < rb)
    {ψ : (Nat → T) × Nat} {s : Sys T (List O)} (hs : LInvW A (geoD N lb rb) fl fr ψ i s) :
    Does N N (dStepL A w N rb i) s (LInvW A (geoD N lb rb) fl fr (optL A N ψ i) (i - 1)) := by
  obtain ⟨⟨m, l, r, reg, clk⟩, d⟩ := s
  obtain ⟨e1, e2, e3, e4, hd⟩ := hs
  simp only at e1 e2 e3 e4 hd
  subst e1 e2 e3 e4
  have q2 := hd.l (i - 1)
  rw [if_pos (by simp only [geoD]; omega)] at q2
  rw [show i + 1 - (geoD N lb rb).h = i - 2 + 1 by simp only [geoD]; omega] at hd
  have hd2 := (hd.delL (by simp only [geoD]; omega) (by simp only [geoD]; omega)).widen (e := i - 1) (e' := i + 1)
    (by simp only [geoD]; omega) (by omega)
  unfold dStepL dLoadL
  rw [if_neg (by omega), List.append_assoc, List.cons_append, List.nil_append, List.cons_append, List.cons_append, List.nil_append]
  refine .ldM (by omega) (hd.m _ (by simp only [geoD]; omega) (by simp only [geoD]; omega)) <|
    .ldL (by omega) q2 <| .rmL <| workLD H D h1 h2 hi (by omega) ⟨?_, ?_, rfl, rfl, ?_⟩
  · simp only [geoD]
    rw [show i + 2 - 2 = i - 1 + 1 by omega, wnd_addLo (by omega), show i + 1 - 2 = i - 1 by omega]
  · simp only [geoD]; rw [show i + 1 - 2 = i - 1 by omega]; exact one_set
  · simp only [geoD]
    rw [show i + 1 - 2 = i - 1 by omega]
    rw [show i - 2 + 1 = i - 1 by omega] at hd2
    exact hd2

/-! ### Numbers of components -/

theorem dStepR_ty (D : A.Dims w N) {a i : Nat} : Ty w N a (dStepR A w N lb i) a := by
  unfold dStepR dLoadR dDumpR
  have hc : ∀ s s', Good w N a s → dUpdR A w N i s = .ok s' → Good w N a s' := fun s s' g h => by
    unfold dUpdR at h
    split at h
    · cases he : s.l i with
      | none => rw [he] at h; simp [use, bind, Except.bind] at h
      | some e =>
        rw [he] at h
        cases hf : s.r (N - (i + 2)) with
        | none => rw [hf] at h; simp [use, bind, Except.bind] at h
        | some f =>
          rw [hf] at h
          cases ht : s.m i with
          | none => rw [ht] at h; simp [use, bind, Except.bind] at h
          | some t =>
            rw [ht] at h
            cases hu : s.m (i + 1) with
            | none => rw [hu] at h; simp [use, bind, Except.bind] at h
            | some u =>
              rw [hu] at h
              simp only [use, bind, Except.bind, pure, Except.pure, g.l i e he, if_true, Except.ok.injEq] at h
              subst h
              have g1 := (g.setR (k := N - (i + 2)) (x := none) (by simp)).setL (k := i + 1)
                (x := some (A.growL i e (A.opt s.clk .r i e f t u).1)) (fun e' x => by
                  injection x with x; rw [← x]; exact D.gl _ _ _ (g.l i e he))
              exact ⟨g1.l, g1.r, g1.reg⟩
    · simp at h
  split
  · exact .op rfl <| .op rfl <| .op rfl <| .op rfl <| .calc hc <| .op rfl <| .op rfl <| .op rfl <| .op rfl .nil
  · exact .op rfl <| .op rfl <| .op rfl <| .calc hc <| .op rfl <| .op rfl <| .op rfl <| .op rfl .nil

theorem dStepL_ty (D : A.Dims w N) {a i : Nat} (hi : 1 ≤ i) : Ty w N a (dStepL A w N rb i) a := by
  unfold dStepL dLoadL dDumpL
  have hc : ∀ s s', Good w N a s → dUpdL A w N i s = .ok s' → Good w N a s' := fun s s' g h => by
    unfold dUpdL at h
    split at h
    · rename_i hN
      cases he : s.l (i - 1) with
      | none => rw [he] at h; simp [use, bind, Except.bind] at h
      | some e =>
        rw [he] at h
        cases hf : s.r (N - 1 - i) with
        | none => rw [hf] at h; simp [use, bind, Except.bind] at h
        | some f =>
          rw [hf] at h
          cases ht : s.m (i - 1) with
          | none => rw [ht] at h; simp [use, bind, Except.bind] at h
          | some t =>
            rw [ht] at h
            cases hu : s.m i with
            | none => rw [hu] at h; simp [use, bind, Except.bind] at h
            | some u =>
              rw [hu] at h
              have hl : f.length = w (i + 1) := by rw [g.r _ f hf, show N - (N - 1 - i) = i + 1 by omega]
              simp only [use, bind, Except.bind, pure, Except.pure, hl, if_true, Except.ok.injEq] at h
              subst h
              have g1 := (g.setL (k := i - 1) (x := none) (by simp)).setR (k := N - i)
                (x := some (A.growR i f (A.opt s.clk .l i e f t u).2)) (fun e' x => by
                  injection x with x; rw [← x, D.gr _ _ _ hl, show N - (N - i) = i by omega])
              exact ⟨g1.l, g1.r, g1.reg⟩
    · simp at h
  split
  · exact .op rfl <| .op rfl <| .op rfl <| .op rfl <| .calc hc <| .op rfl <| .op rfl <| .op rfl <| .op rfl .nil
  · exact .op rfl <| .op rfl <| .op rfl <| .calc hc <| .op rfl <| .op rfl <| .op rfl <| .op rfl .nil

end Verif.Disk
