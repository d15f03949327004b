import Verif.Disk.TwoSite
import Verif.Disk.Wp
/-
Invariants of the two-site sweep on disk.
-/
namespace Verif.Disk

variable {T E : Type}

/-- Exactly one slot holds something. -/
def one {α : Type} (i : Nat) (v : α) : Nat → Option α := fun j => if j = i then some v else none

/-- What the disk looks like while site `c` is only in memory, the left files `lb … a` and the right files
`N-1-rb … N-2-b` are current, and the other files the sweep uses are removed. `fl`, `fr` are the files at the start. -/
structure DskInv (A : Alg T E) (N lb rb : Nat) (fl fr : Nat → File E) (ψ : Nat → T) (c a b : Nat) (d : Dsk T E) : Prop where
  m : ∀ j, j < N → j ≠ c → d.m j = .whole (ψ j)
  c : ∃ t, d.m c = .whole t
  l : ∀ j, d.l j = if lb ≤ j ∧ j ≤ a then .whole (A.lenv ψ j) else fl j
  r : ∀ j, d.r j = if N ≤ j + 1 + rb ∧ j + b + 2 ≤ N then .whole (A.renv N ψ j)
        else if N ≤ j + 1 + rb ∧ j + lb + 2 ≤ N then .gone else fr j

/-- Between two steps of the right-moving half: site `i` and left environment `i` are in memory. -/
structure RInv (A : Alg T E) (N lb rb : Nat) (fl fr : Nat → File E) (ψ : (Nat → T) × Nat) (i : Nat) (s : Sys T E) : Prop where
  m : s.mem.m = one i (ψ.1 i)
  l : s.mem.l = one i (A.lenv ψ.1 i)
  r : s.mem.r = fun _ => none
  clk : s.mem.clk = ψ.2
  d : DskInv A N lb rb fl fr ψ.1 i i i s.dsk

theorem optR_at (A : Alg T E) (N : Nat) (ψ : (Nat → T) × Nat) (i j : Nat) (h1 : j ≠ i) (h2 : j ≠ i + 1) :
    (optR A N ψ i).1 j = ψ.1 j := by
  simp [optR, Function.update, h1, h2]

theorem optL_at (A : Alg T E) (N : Nat) (ψ : (Nat → T) × Nat) (i j : Nat) (h1 : j ≠ i) (h2 : j ≠ i - 1) :
    (optL A N ψ i).1 j = ψ.1 j := by
  simp [optL, Function.update, h1, h2]

theorem optR_trivL {A : Alg T E} (H : A.Legs) (N : Nat) (ψ : (Nat → T) × Nat) (i : Nat) :
    A.trivL ((optR A N ψ i).1 0) = A.trivL (ψ.1 0) := by
  by_cases h : i = 0
  · subst h; simp [optR, Function.update, H.left]
  · simp [optR, Function.update, show ¬ 0 = i by omega]

theorem optR_trivR {A : Alg T E} (H : A.Legs) (N : Nat) (ψ : (Nat → T) × Nat) (i : Nat) (hi : i + 1 < N) :
    A.trivR ((optR A N ψ i).1 (N - 1)) = A.trivR (ψ.1 (N - 1)) := by
  by_cases h : N - 1 = i + 1
  · rw [h]; simp [optR, Function.update, H.right]
  · simp [optR, Function.update, show ¬ N - 1 = i by omega, h]

theorem optL_trivL {A : Alg T E} (H : A.Legs) (N : Nat) (ψ : (Nat → T) × Nat) (i : Nat) (hi : 1 ≤ i) :
    A.trivL ((optL A N ψ i).1 0) = A.trivL (ψ.1 0) := by
  by_cases h : i = 1
  · subst h; simp [optL, Function.update, H.left]
  · simp [optL, Function.update, show ¬ 0 = i by omega, show ¬ 0 = i - 1 by omega]

theorem optL_trivR {A : Alg T E} (H : A.Legs) (N : Nat) (ψ : (Nat → T) × Nat) (i : Nat) (hi : i < N) :
    A.trivR ((optL A N ψ i).1 (N - 1)) = A.trivR (ψ.1 (N - 1)) := by
  by_cases h : N - 1 = i
  · rw [h]; simp [optL, Function.update, H.right]
  · simp [optL, Function.update, h, show ¬ N - 1 = i - 1 by omega]

/-- What the environments look like after a right-moving optimisation. -/
theorem lenv_optR {A : Alg T E} (H : A.Legs) (N : Nat) (ψ : (Nat → T) × Nat) (i j : Nat) (h : j ≤ i) :
    A.lenv (optR A N ψ i).1 j = A.lenv ψ.1 j :=
  lenv_congr A (optR_trivL H N ψ i) j (fun k hk => optR_at A N ψ i k (by omega) (by omega))

theorem renv_optR {A : Alg T E} (H : A.Legs) (N : Nat) (ψ : (Nat → T) × Nat) (i j : Nat) (h : j + i + 2 ≤ N) :
    A.renv N (optR A N ψ i).1 j = A.renv N ψ.1 j :=
  renv_congr A (optR_trivR H N ψ i (by omega)) j (fun k hk _ => optR_at A N ψ i k (by omega) (by omega)) (by omega)

theorem lenv_optL {A : Alg T E} (H : A.Legs) (N : Nat) (ψ : (Nat → T) × Nat) (i j : Nat) (h1 : 1 ≤ i) (h : j ≤ i - 1) :
    A.lenv (optL A N ψ i).1 j = A.lenv ψ.1 j :=
  lenv_congr A (optL_trivL H N ψ i h1) j (fun k hk => optL_at A N ψ i k (by omega) (by omega))

theorem renv_optL {A : Alg T E} (H : A.Legs) (N : Nat) (ψ : (Nat → T) × Nat) (i j : Nat) (h : j + i + 1 ≤ N) :
    A.renv N (optL A N ψ i).1 j = A.renv N ψ.1 j :=
  renv_congr A (optL_trivR H N ψ i (by omega)) j (fun k hk _ => optL_at A N ψ i k (by omega) (by omega)) (by omega)

/-- The state at the beginning of a sweep (and of its first step): site `lb+1` in memory. -/
structure Start (A : Alg T E) (N lb rb : Nat) (fl fr : Nat → File E) (ψ : (Nat → T) × Nat) (s : Sys T E) : Prop where
  m : s.mem.m = one (lb + 1) (ψ.1 (lb + 1))
  l : s.mem.l = fun _ => none
  r : s.mem.r = fun _ => none
  clk : s.mem.clk = ψ.2
  d : DskInv A N lb rb fl fr ψ.1 (lb + 1) lb lb s.dsk

theorem lenv_optR_succ {A : Alg T E} (H : A.Legs) (N : Nat) (ψ : (Nat → T) × Nat) (i : Nat) :
    A.lenv (optR A N ψ i).1 (i + 1) = A.growL i (A.lenv ψ.1 i)
      (A.opt ψ.2 .r i (A.lenv ψ.1 i) (A.renv N ψ.1 (N - (i + 2))) (ψ.1 i) (ψ.1 (i + 1))).1 := by
  rw [Alg.lenv, lenv_optR H N ψ i i (Nat.le_refl _)]
  simp [optR, Function.update]

theorem renv_optL_succ {A : Alg T E} (H : A.Legs) (N : Nat) (ψ : (Nat → T) × Nat) (i : Nat) (hi : i < N) :
    A.renv N (optL A N ψ i).1 (N - i) = A.growR i (A.renv N ψ.1 (N - (i + 1)))
      (A.opt ψ.2 .l i (A.lenv ψ.1 (i - 1)) (A.renv N ψ.1 (N - (i + 1))) (ψ.1 (i - 1)) (ψ.1 i)).2 := by
  rw [show N - i = (N - (i + 1)) + 1 by omega, Alg.renv, renv_optL H N ψ i _ (by omega), show N - 1 - (N - (i + 1)) = i by omega]
  simp [optL]

theorem upd2R_ok {A : Alg T E} {N n i : Nat} {s : Mem T E} {e f : E} {t u : T} (h1 : i + 2 ≤ N) (h2 : i + 1 < n)
    (h3 : N - (i + 2) < n) (he : s.l i = some e) (hf : s.r (N - (i + 2)) = some f) (ht : s.m i = some t)
    (hu : s.m (i + 1) = some u) : upd2R A N n i s = .ok { s with
      m := Function.update (Function.update s.m i (some (A.opt s.clk .r i e f t u).1)) (i + 1) (some (A.opt s.clk .r i e f t u).2)
      l := Function.update s.l (i + 1) (some (A.growL i e (A.opt s.clk .r i e f t u).1))
      clk := s.clk + 1 } := by
  simp [upd2R, h1, h2, h3, he, hf, ht, hu, use, bind, Except.bind, pure, Except.pure]

theorem upd2L_ok {A : Alg T E} {N n i : Nat} {s : Mem T E} {e f : E} {t u : T} (h1 : 1 ≤ i) (h2 : i < N) (h3 : i - 1 < n)
    (h4 : N - i < n) (he : s.l (i - 1) = some e) (hf : s.r (N - i - 1) = some f) (ht : s.m (i - 1) = some t)
    (hu : s.m i = some u) : upd2L A N n i s = .ok { s with
      m := Function.update (Function.update s.m (i - 1) (some (A.opt s.clk .l i e f t u).1)) i (some (A.opt s.clk .l i e f t u).2)
      r := Function.update s.r (N - i) (some (A.growR i f (A.opt s.clk .l i e f t u).2))
      clk := s.clk + 1 } := by
  simp [upd2L, h1, h2, h3, h4, he, hf, ht, hu, use, bind, Except.bind, pure, Except.pure]

theorem stepR2_first {A : Alg T E} (H : A.Legs) {N lb rb : Nat} (h1 : lb + 2 ≤ rb) (h2 : rb < N) {fl fr : Nat → File E}
    {ψ : (Nat → T) × Nat} {s : Sys T E} (hs : Start A N lb rb fl fr ψ s) :
    Does N (N - 1) (stepR2 A N lb lb) s (RInv A N lb rb fl fr (optR A N ψ lb) (lb + 1)) := by
  obtain ⟨⟨m, l, r, reg, clk⟩, ⟨dm, dl, dr⟩⟩ := s
  obtain ⟨e1, e2, e3, e4, ⟨d1, d2, d3, d4⟩⟩ := hs
  simp only at e1 e2 e3 e4 d1 d2 d3 d4
  subst e1 e2 e3 e4
  have q1 := d1 lb (by omega) (by omega)
  have q2 := d3 lb
  rw [if_pos (by omega)] at q2
  have q3 := d4 (N - (lb + 2))
  rw [if_pos (by omega)] at q3
  unfold stepR2 loadR2
  rw [if_pos rfl]
  refine .ldM (by omega) q1 <| .ldR (by omega) q3 <| .rmR <| .ldL (by omega) q2 <|
    .calc (upd2R_ok (by omega) (by omega) (by omega) (Function.update_self ..) (Function.update_self ..) (Function.update_self ..)
      (u := ψ.1 (lb + 1)) (by simp [one])) <| .frL (by omega) <| .frR (by omega) <| .dpM (by omega)
      (t := (optR A N ψ lb).1 lb) (by simp [Function.update, optR]) <| .dpL (by omega)
      (t := A.lenv (optR A N ψ lb).1 (lb + 1)) ?_ <| .nil ?_
  · rw [lenv_optR_succ H]; simp [Function.update]
  · refine ⟨?_, ?_, ?_, rfl, ?_, ?_, ?_, ?_⟩
    · funext j
      simp only [Function.update, one, optR]
      by_cases a : j = lb + 1 <;> by_cases b : j = lb <;> simp [a, b]
    · funext j
      rw [lenv_optR_succ H]
      simp only [Function.update, one]
      by_cases a : j = lb + 1 <;> by_cases b : j = lb <;> simp [a, b]
    · funext j
      simp only [Function.update]
      by_cases a : j = N - (lb + 2) <;> simp [a]
    · intro j hj hj'
      by_cases a : j = lb
      · subst a; simp
      · simp only [Function.update_of_ne a]
        rw [optR_at A N ψ lb j a hj']; exact d1 j hj hj'
    · simp only; rw [Function.update_of_ne (by omega)]; exact d2
    · intro j
      by_cases a : j = lb + 1
      · subst a; simp
      · simp only [Function.update_of_ne a]
        rw [d3 j]
        by_cases b : lb ≤ j ∧ j ≤ lb
        · rw [if_pos b, if_pos (by omega), lenv_optR H N ψ lb j (by omega)]
        · rw [if_neg b, if_neg (by omega)]
    · intro j
      by_cases a : j = N - (lb + 2)
      · subst a; simp only [Function.update_self]
        rw [if_neg (by omega), if_pos (by omega)]
      · simp only [Function.update_of_ne a]
        rw [d4 j]
        by_cases b : N ≤ j + 1 + rb ∧ j + lb + 2 ≤ N
        · rw [if_pos b, if_pos (by omega), renv_optR H N ψ lb j (by omega)]
        · rw [if_neg b, if_neg (show ¬ (N ≤ j + 1 + rb ∧ j + (lb + 1) + 2 ≤ N) by omega)]

theorem stepR2_next {A : Alg T E} (H : A.Legs) {N lb rb i : Nat} (h0 : lb < i) (h1 : i + 2 ≤ rb) (h2 : rb < N) {fl fr : Nat → File E}
    {ψ : (Nat → T) × Nat} {s : Sys T E} (hs : RInv A N lb rb fl fr ψ i s) :
    Does N (N - 1) (stepR2 A N lb i) s (RInv A N lb rb fl fr (optR A N ψ i) (i + 1)) := by
  obtain ⟨⟨m, l, r, reg, clk⟩, ⟨dm, dl, dr⟩⟩ := s
  obtain ⟨e1, e2, e3, e4, ⟨d1, d2, d3, d4⟩⟩ := hs
  simp only at e1 e2 e3 e4 d1 d2 d3 d4
  subst e1 e2 e3 e4
  have q1 := d1 (i + 1) (by omega) (by omega)
  have q3 := d4 (N - (i + 2))
  rw [if_pos (by omega)] at q3
  unfold stepR2 loadR2
  rw [if_neg (by omega)]
  refine .ldM (by omega) q1 <| .ldR (by omega) q3 <| .rmR <|
    .calc (upd2R_ok (e := A.lenv ψ.1 i) (t := ψ.1 i) (by omega) (by omega) (by omega) (by simp [one]) (Function.update_self ..)
      (by simp [one]) (Function.update_self ..)) <| .frL (by omega) <| .frR (by omega) <| .dpM (by omega)
      (t := (optR A N ψ i).1 i) (by simp [Function.update, optR]) <| .dpL (by omega)
      (t := A.lenv (optR A N ψ i).1 (i + 1)) ?_ <| .nil ?_
  · rw [lenv_optR_succ H]; simp [Function.update]
  · refine ⟨?_, ?_, ?_, rfl, ?_, ?_, ?_, ?_⟩
    · funext j
      simp only [Function.update, one, optR]
      by_cases a : j = i + 1 <;> by_cases b : j = i <;> simp [a, b]
    · funext j
      rw [lenv_optR_succ H]
      simp only [Function.update, one]
      by_cases a : j = i + 1 <;> by_cases b : j = i <;> simp [a, b]
    · funext j
      simp only [Function.update]
      by_cases a : j = N - (i + 2) <;> simp [a]
    · intro j hj hj'
      by_cases a : j = i
      · subst a; simp
      · simp only [Function.update_of_ne a]
        rw [optR_at A N ψ i j a hj']; exact d1 j hj a
    · simp only; rw [Function.update_of_ne (by omega)]; exact ⟨_, q1⟩
    · intro j
      by_cases a : j = i + 1
      · subst a; simp only [Function.update_self]; rw [if_pos (by omega)]
      · simp only [Function.update_of_ne a]
        rw [d3 j]
        by_cases b : lb ≤ j ∧ j ≤ i
        · rw [if_pos b, if_pos (by omega), lenv_optR H N ψ i j (by omega)]
        · rw [if_neg b, if_neg (by omega)]
    · intro j
      by_cases a : j = N - (i + 2)
      · subst a; simp only [Function.update_self]
        rw [if_neg (by omega), if_pos (by omega)]
      · simp only [Function.update_of_ne a]
        rw [d4 j]
        by_cases b : N ≤ j + 1 + rb ∧ j + i + 2 ≤ N
        · rw [if_pos b, if_pos (by omega), renv_optR H N ψ i j (by omega)]
        · rw [if_neg b, if_neg (show ¬ (N ≤ j + 1 + rb ∧ j + (i + 1) + 2 ≤ N) by omega)]

/-- The left files strictly inside the sweep range removed. -/
def trim (lb rb : Nat) (fl : Nat → File E) : Nat → File E := fun j => if lb ≤ j ∧ j < rb then .gone else fl j

theorem trim_trim (lb rb : Nat) (fl : Nat → File E) : trim lb rb (trim lb rb fl) = trim lb rb fl := by
  funext j; unfold trim; by_cases h : lb ≤ j ∧ j < rb <;> simp [h]

/-- Between two steps of the left-moving half: site `i` and right environment `N-i-1` are in memory. -/
structure LInv (A : Alg T E) (N lb rb : Nat) (fl fr : Nat → File E) (ψ : (Nat → T) × Nat) (i : Nat) (s : Sys T E) : Prop where
  m : s.mem.m = one i (ψ.1 i)
  l : s.mem.l = fun _ => none
  r : s.mem.r = one (N - i - 1) (A.renv N ψ.1 (N - i - 1))
  clk : s.mem.clk = ψ.2
  d : DskInv A N lb rb (trim lb rb fl) fr ψ.1 i (i - 1) (i - 1) s.dsk

theorem stepL2_first {A : Alg T E} (H : A.Legs) {N lb rb : Nat} (h1 : lb + 2 ≤ rb) (h2 : rb < N) {fl fr : Nat → File E}
    {ψ : (Nat → T) × Nat} {s : Sys T E} (hs : RInv A N lb rb fl fr ψ (rb - 1) s) :
    Does N (N - 1) (stepL2 A N rb rb) s (LInv A N lb rb fl fr (optL A N ψ rb) (rb - 1)) := by
  obtain ⟨⟨m, l, r, reg, clk⟩, ⟨dm, dl, dr⟩⟩ := s
  obtain ⟨e1, e2, e3, e4, ⟨d1, d2, d3, d4⟩⟩ := hs
  simp only at e1 e2 e3 e4 d1 d2 d3 d4
  subst e1 e2 e3 e4
  have q1 := d1 rb (by omega) (by omega)
  have q3 := d4 (N - 1 - rb)
  rw [if_pos (by omega)] at q3
  unfold stepL2 loadL2
  rw [if_pos rfl]
  refine .ldM (by omega) q1 <| .ldR (by omega) q3 <| .rmL <|
    .calc (upd2L_ok (e := A.lenv ψ.1 (rb - 1)) (f := A.renv N ψ.1 (N - (rb + 1))) (t := ψ.1 (rb - 1)) (u := ψ.1 rb) (by omega) h2 (by omega) (by omega) (by simp [one])
      (by rw [show N - rb - 1 = N - 1 - rb by omega, show N - (rb + 1) = N - 1 - rb by omega]; exact Function.update_self ..)
      (by show Function.update _ rb _ (rb - 1) = _; rw [Function.update_of_ne (by omega)]; simp [one]) (Function.update_self ..)) <|
      .frL (by omega) <| .frR (by omega) <| .dpM (by omega)
      (t := (optL A N ψ rb).1 rb) (by simp [Function.update, optL]) <| .dpR (by omega)
      (t := A.renv N (optL A N ψ rb).1 (N - rb)) ?_ <| .nil ?_
  · rw [renv_optL_succ H N ψ rb h2]
    simp only [Function.update_of_ne (show N - rb ≠ N - (rb + 1) by omega), Function.update_self]
  · refine ⟨?_, ?_, ?_, rfl, ?_, ?_, ?_, ?_⟩
    · funext j
      simp only [Function.update, one, optL]
      by_cases b : j = rb
      · simp [b, show ¬ rb = rb - 1 by omega]
      · by_cases a : j = rb - 1
        · simp [a, show ¬ rb - 1 = rb by omega]
        · simp [a, b]
    · funext j
      simp only [Function.update, one]
      by_cases a : j = rb - 1 <;> simp [a]
    · rw [show N - (rb - 1) - 1 = N - rb by omega, renv_optL_succ H N ψ rb h2]
      funext j
      simp only [Function.update, one]
      by_cases a : j = N - rb
      · simp [a]; omega
      · by_cases b : j = N - (rb + 1)
        · simp [b, show ¬ N - (rb + 1) = N - rb by omega]
        · simp [a, b, show ¬ j = N - 1 - rb by omega]
    · intro j hj hj'
      by_cases a : j = rb
      · subst a; simp
      · simp only [Function.update_of_ne a]
        rw [optL_at A N ψ rb j a hj']; exact d1 j hj hj'
    · simp only; rw [Function.update_of_ne (by omega)]; exact d2
    · intro j
      by_cases a : j = rb - 1
      · subst a; simp only [Function.update_self]; rw [if_neg (by omega)]; unfold trim; rw [if_pos (by omega)]
      · simp only [Function.update_of_ne a]
        rw [d3 j]
        by_cases b : lb ≤ j ∧ j ≤ rb - 1
        · rw [if_pos b, if_pos (by omega), lenv_optL H N ψ rb j (by omega) (by omega)]
        · rw [if_neg b, if_neg (by omega)]; unfold trim; rw [if_neg (by omega)]
    · intro j
      by_cases a : j = N - rb
      · subst a; simp only [Function.update_self]
        rw [if_pos (by omega)]
      · simp only [Function.update_of_ne a]
        rw [d4 j]
        by_cases b : N ≤ j + 1 + rb ∧ j + (rb - 1) + 2 ≤ N
        · rw [if_pos b, if_pos (by omega), renv_optL H N ψ rb j (by omega)]
        · rw [if_neg b, if_neg (show ¬ (N ≤ j + 1 + rb ∧ j + (rb - 1 - 1) + 2 ≤ N) by omega)]

theorem stepL2_next {A : Alg T E} (H : A.Legs) {N lb rb i : Nat} (h0 : lb + 2 ≤ i) (h1 : i < rb) (h2 : rb < N) {fl fr : Nat → File E}
    {ψ : (Nat → T) × Nat} {s : Sys T E} (hs : LInv A N lb rb fl fr ψ i s) :
    Does N (N - 1) (stepL2 A N rb i) s (LInv A N lb rb fl fr (optL A N ψ i) (i - 1)) := by
  obtain ⟨⟨m, l, r, reg, clk⟩, ⟨dm, dl, dr⟩⟩ := s
  obtain ⟨e1, e2, e3, e4, ⟨d1, d2, d3, d4⟩⟩ := hs
  simp only at e1 e2 e3 e4 d1 d2 d3 d4
  subst e1 e2 e3 e4
  have q1 := d1 (i - 1) (by omega) (by omega)
  have q3 := d3 (i - 1)
  rw [if_pos (by omega)] at q3
  unfold stepL2 loadL2
  rw [if_neg (by omega)]
  refine .ldM (by omega) q1 <| .ldL (by omega) q3 <| .rmL <|
    .calc (upd2L_ok (e := A.lenv ψ.1 (i - 1)) (f := A.renv N ψ.1 (N - (i + 1))) (t := ψ.1 (i - 1)) (u := ψ.1 i) (by omega) (by omega) (by omega) (by omega)
      (Function.update_self ..)
      (by rw [show N - (i + 1) = N - i - 1 by omega]; simp [one])
      (Function.update_self ..) (by show Function.update _ (i - 1) _ i = _; rw [Function.update_of_ne (by omega)]; simp [one])) <|
      .frL (by omega) <| .frR (by omega) <| .dpM (by omega)
      (t := (optL A N ψ i).1 i) (by simp [Function.update, optL]) <| .dpR (by omega)
      (t := A.renv N (optL A N ψ i).1 (N - i)) ?_ <| .nil ?_
  · rw [renv_optL_succ H N ψ i (by omega)]
    simp only [Function.update_of_ne (show N - i ≠ N - (i + 1) by omega), Function.update_self]
  · refine ⟨?_, ?_, ?_, rfl, ?_, ?_, ?_, ?_⟩
    · funext j
      simp only [Function.update, one, optL]
      by_cases b : j = i
      · simp [b, show ¬ i = i - 1 by omega]
      · by_cases a : j = i - 1
        · simp [a, show ¬ i - 1 = i by omega]
        · simp [a, b]
    · funext j
      simp only [Function.update]
      by_cases a : j = i - 1 <;> simp [a]
    · rw [show N - (i - 1) - 1 = N - i by omega, renv_optL_succ H N ψ i (by omega)]
      funext j
      simp only [Function.update, one]
      by_cases a : j = N - i
      · simp [a]; omega
      · by_cases b : j = N - (i + 1)
        · simp [b, show ¬ N - (i + 1) = N - i by omega]
        · simp [a, b, show ¬ j = N - i - 1 by omega]
    · intro j hj hj'
      by_cases a : j = i
      · subst a; simp
      · simp only [Function.update_of_ne a]
        rw [optL_at A N ψ i j a hj']; exact d1 j hj a
    · simp only; rw [Function.update_of_ne (by omega)]; exact ⟨_, q1⟩
    · intro j
      by_cases a : j = i - 1
      · subst a; simp only [Function.update_self]; rw [if_neg (by omega)]; unfold trim; rw [if_pos (by omega)]
      · simp only [Function.update_of_ne a]
        rw [d3 j]
        by_cases b : lb ≤ j ∧ j ≤ i - 1
        · rw [if_pos b, if_pos (by omega), lenv_optL H N ψ i j (by omega) (by omega)]
        · rw [if_neg b, if_neg (by omega)]
    · intro j
      by_cases a : j = N - i
      · subst a; simp only [Function.update_self]
        rw [if_pos (by omega)]
      · simp only [Function.update_of_ne a]
        rw [d4 j]
        by_cases b : N ≤ j + 1 + rb ∧ j + (i - 1) + 2 ≤ N
        · rw [if_pos b, if_pos (by omega), renv_optL H N ψ i j (by omega)]
        · rw [if_neg b, if_neg (show ¬ (N ≤ j + 1 + rb ∧ j + (i - 1 - 1) + 2 ≤ N) by omega)]

theorem loopR2 {A : Alg T E} (H : A.Legs) {N lb rb : Nat} (h2 : rb < N) {fl fr : Nat → File E} :
    ∀ (n : Nat) {i : Nat} {ψ : (Nat → T) × Nat} {s : Sys T E}, lb < i → i + n + 1 = rb → RInv A N lb rb fl fr ψ i s →
    Does N (N - 1) ((List.range' i n).flatMap (stepR2 A N lb)) s
      (RInv A N lb rb fl fr ((List.range' i n).foldl (optR A N) ψ) (rb - 1))
  | 0, i, ψ, s, _, hb, hs => .nil (by rw [show rb - 1 = i by omega]; exact hs)
  | n + 1, i, ψ, s, h0, hb, hs => by
    rw [List.range'_succ, List.flatMap_cons]
    exact (stepR2_next H h0 (by omega) h2 hs).append fun s' hs' => loopR2 H h2 n (by omega) (by omega) hs'

theorem loopL2 {A : Alg T E} (H : A.Legs) {N lb rb : Nat} (h2 : rb < N) {fl fr : Nat → File E} :
    ∀ (n : Nat) {ψ : (Nat → T) × Nat} {s : Sys T E}, lb + 1 + n < rb → LInv A N lb rb fl fr ψ (lb + 1 + n) s →
    Does N (N - 1) ((List.range' (lb + 2) n).reverse.flatMap (stepL2 A N rb)) s
      (LInv A N lb rb fl fr ((List.range' (lb + 2) n).reverse.foldl (optL A N) ψ) (lb + 1))
  | 0, ψ, s, _, hs => .nil hs
  | n + 1, ψ, s, hb, hs => by
    rw [List.range'_1_concat, List.reverse_append]
    simp only [List.reverse_cons, List.reverse_nil, List.nil_append, List.cons_append, List.flatMap_cons, List.foldl_cons]
    rw [show lb + 2 + n = lb + 1 + (n + 1) by omega]
    refine (stepL2_next H (i := lb + 1 + (n + 1)) (by omega) hb h2 hs).append fun s' hs' => ?_
    exact loopL2 H h2 n (by omega) (by rw [show lb + 1 + n = lb + 1 + (n + 1) - 1 by omega]; exact hs')

theorem sweep2_ok {A : Alg T E} (H : A.Legs) {N lb rb : Nat} (h1 : lb + 2 ≤ rb) (h2 : rb < N) {fl fr : Nat → File E}
    {ψ : (Nat → T) × Nat} {s : Sys T E} (hs : Start A N lb rb fl fr ψ s) :
    Does N (N - 1) (sweep2 A N lb rb) s (Start A N lb rb (trim lb rb fl) fr (optSweep A N lb rb ψ)) := by
  unfold sweep2
  refine .calc rfl ?_
  have hs' : Start A N lb rb fl fr ψ ⟨{ s.mem with l := fun _ => none, r := fun _ => none }, s.dsk⟩ :=
    ⟨hs.m, rfl, rfl, hs.clk, hs.d⟩
  obtain ⟨n, hn⟩ : ∃ n, rb - 1 - lb = n + 1 := ⟨rb - 2 - lb, by omega⟩
  unfold optSweep sitesR sitesL
  rw [hn, List.range'_succ, List.flatMap_cons, List.append_assoc, List.foldl_cons]
  refine (stepR2_first H h1 h2 hs').append fun s1 i1 => ?_
  refine (loopR2 H h2 n (by omega) (by omega) i1).append fun s2 i2 => ?_
  rw [List.range'_1_concat, List.reverse_append]
  simp only [List.reverse_cons, List.reverse_nil, List.nil_append, List.cons_append, List.flatMap_cons, List.foldl_cons]
  rw [List.append_assoc, show lb + 2 + n = rb by omega]
  refine (stepL2_first H h1 h2 i2).append fun s3 i3 => ?_
  refine (loopL2 H h2 n (by omega) (by rw [show lb + 1 + n = rb - 1 by omega]; exact i3)).append fun s4 i4 => ?_
  refine .calc rfl (.nil ?_)
  exact ⟨i4.m, rfl, rfl, i4.clk, i4.d⟩

theorem sweepsLoop_ok {A : Alg T E} (H : A.Legs) {N lb rb : Nat} (h1 : lb + 2 ≤ rb) (h2 : rb < N) :
    ∀ (k : Nat) {fl fr : Nat → File E} {ψ : (Nat → T) × Nat} {s : Sys T E}, Start A N lb rb fl fr ψ s →
    Does N (N - 1) (List.replicate k (sweep2 A N lb rb)).flatten s
      (Start A N lb rb (if k = 0 then fl else trim lb rb fl) fr (optSweeps A N lb rb k ψ))
  | 0, fl, fr, ψ, s, hs => .nil hs
  | k + 1, fl, fr, ψ, s, hs => by
    rw [List.replicate_succ, List.flatten_cons]
    refine (sweep2_ok H h1 h2 hs).append fun s1 i1 => (sweepsLoop_ok H h1 h2 k i1).mono fun s2 i2 => ?_
    rw [if_neg (by omega)]
    rw [trim_trim] at i2
    by_cases h : k = 0
    · rw [if_pos h] at i2; exact i2
    · rw [if_neg h] at i2; exact i2

/-- The state inside `InitEnvs` before iteration `i`. -/
structure InitInv (A : Alg T E) (N : Nat) (ψ : Nat → T) (s0 : Sys T E) (i : Nat) (s : Sys T E) : Prop where
  m : s.mem.m = if i = 1 then one (N - 1) (ψ (N - 1)) else fun _ => none
  l : s.mem.l = s0.mem.l
  r : s.mem.r = s0.mem.r
  reg : s.mem.reg = some (A.renv N ψ (i - 1))
  clk : s.mem.clk = s0.mem.clk
  dm : s.dsk.m = s0.dsk.m
  dl : s.dsk.l = s0.dsk.l
  dr : s.dsk.r = fun j => if j < i then .whole (A.renv N ψ j) else s0.dsk.r j

theorem initStep_ok {A : Alg T E} {N n : Nat} {ψ : Nat → T} {s0 s : Sys T E} (hd : ∀ j, j < N → s0.dsk.m j = .whole (ψ j)) {i : Nat}
    (h1 : 1 ≤ i) (h2 : i ≤ N) (hs : InitInv A N ψ s0 i s) :
    Does N n (initStep A N i) s (InitInv A N ψ s0 (i + 1)) := by
  obtain ⟨⟨m, l, r, reg, clk⟩, ⟨dm, dl, dr⟩⟩ := s
  obtain ⟨e1, e2, e3, e4, e5, e6, e7, e8⟩ := hs
  simp only at e1 e2 e3 e4 e5 e6 e7 e8
  subst e1 e2 e3 e4 e5 e6 e7 e8
  have fin : InitInv A N ψ s0 (i + 1) ⟨⟨fun _ => none, s0.mem.l, s0.mem.r, some (A.renv N ψ i), s0.mem.clk⟩,
      ⟨s0.dsk.m, s0.dsk.l, Function.update (fun j => if j < i then .whole (A.renv N ψ j) else s0.dsk.r j) i
        (.whole (A.renv N ψ i))⟩⟩ := by
    refine ⟨?_, rfl, rfl, rfl, rfl, rfl, rfl, ?_⟩
    · rw [if_neg (by omega)]
    · funext j
      by_cases a : j = i
      · subst a; simp
      · simp only [Function.update_of_ne a]
        by_cases b : j < i
        · rw [if_pos b, if_pos (by omega)]
        · rw [if_neg b, if_neg (by omega)]
  have grow : A.growR (N - i) (A.renv N ψ (i - 1)) (ψ (N - i)) = A.renv N ψ i := by
    obtain ⟨k, rfl⟩ : ∃ k, i = k + 1 := ⟨i - 1, by omega⟩
    rw [Alg.renv, show N - 1 - k = N - (k + 1) by omega, Nat.add_sub_cancel]
  unfold initStep
  by_cases a : i = 1
  · rw [if_neg (by omega), if_pos a]
    refine .calc (m' := ⟨one (N - 1) (ψ (N - 1)), s0.mem.l, s0.mem.r, some (A.renv N ψ i), s0.mem.clk⟩) ?_ <| .wrR rfl <| .frM (by omega) <| .nil ?_
    · simp only [pushR, use, one, bind, Except.bind, pure, Except.pure]
      rw [if_pos (by omega)]
      simp only
      rw [← grow, show N - i = N - 1 by omega]
    · have em : Function.update (one (N - 1) (ψ (N - 1))) (N - i) none = fun _ => none := by
        funext j
        simp only [Function.update, one]
        by_cases b : j = N - 1
        · simp [b]; omega
        · simp [b]
      show InitInv A N ψ s0 (i + 1) ⟨⟨Function.update (one (N - 1) (ψ (N - 1))) (N - i) none, _, _, _, _⟩, _⟩
      rw [em]; exact fin
  · rw [if_pos (by omega), if_neg a]
    refine .ldM (by omega) (hd (N - i) (by omega)) <|
      .calc (m' := ⟨Function.update (fun _ => none) (N - i) (some (ψ (N - i))), s0.mem.l, s0.mem.r, some (A.renv N ψ i), s0.mem.clk⟩) ?_ <| .wrR rfl <| .frM (by omega) <| .nil ?_
    · simp only [pushR, use, Function.update_self, bind, Except.bind, pure, Except.pure, grow]
    · have em : Function.update (Function.update (fun _ => none) (N - i) (some (ψ (N - i)))) (N - i) none = fun _ => none := by
        funext j
        simp only [Function.update]
        by_cases b : j = N - i <;> simp [b]
      show InitInv A N ψ s0 (i + 1) ⟨⟨Function.update (Function.update (fun _ => none) (N - i) (some (ψ (N - i)))) (N - i) none, _, _, _, _⟩, _⟩
      rw [em]; exact fin

theorem initLoop_ok {A : Alg T E} {N n : Nat} {ψ : Nat → T} {s0 : Sys T E} (hd : ∀ j, j < N → s0.dsk.m j = .whole (ψ j)) :
    ∀ (k : Nat) {i : Nat} {s : Sys T E}, 1 ≤ i → i + k ≤ N + 1 → InitInv A N ψ s0 i s →
    Does N n ((List.range' i k).flatMap (initStep A N)) s (InitInv A N ψ s0 (i + k))
  | 0, i, s, _, _, hs => .nil hs
  | k + 1, i, s, h1, h2, hs => by
    rw [List.range'_succ, List.flatMap_cons]
    exact (initStep_ok hd h1 (by omega) hs).append fun s1 i1 => by
      rw [show i + (k + 1) = i + 1 + k by omega]
      exact initLoop_ok hd k (by omega) (by omega) i1

theorem initEnvs_ok {A : Alg T E} {N n usn : Nat} {ψ : Nat → T} {s0 : Sys T E} (hd : ∀ j, j < N → s0.dsk.m j = .whole (ψ j))
    (hm : s0.mem.m = fun _ => none) (h : usn < N) :
    Does N n (initEnvs A N usn) s0 (fun s => s.mem.m = (fun _ => none) ∧ s.mem.l = s0.mem.l ∧ s.mem.r = s0.mem.r ∧
      s.mem.clk = s0.mem.clk ∧ s.dsk = ⟨s0.dsk.m, Function.update s0.dsk.l 0 (.whole (A.lenv ψ 0)),
        fun j => if j ≤ N - usn then .whole (A.renv N ψ j) else s0.dsk.r j⟩) := by
  unfold initEnvs
  refine .ldM (by omega) (hd (N - 1) (by omega)) <| .calc (f := startR A N) (m' := ⟨one (N - 1) (ψ (N - 1)), s0.mem.l, s0.mem.r,
    some (A.renv N ψ 0), s0.mem.clk⟩) ?_ <| .wrR rfl ?_
  · simp only [startR, use, Function.update_self, bind, Except.bind, pure, Except.pure, Alg.renv, hm, Except.ok.injEq, Mem.mk.injEq,
      and_true]
    funext j; simp [Function.update, one]
  · refine Does.append (Q := InitInv A N ψ s0 (1 + (N - usn))) ?_ ?_
    · refine initLoop_ok (A := A) (s0 := s0) hd (N - usn) (i := 1) (Nat.le_refl _) (by omega) ⟨rfl, rfl, rfl, rfl, rfl, rfl, rfl, ?_⟩
      funext j
      by_cases a : j = 0
      · subst a; simp
      · simp only [Function.update_of_ne a]; rw [if_neg (by omega)]
    · rintro ⟨⟨m, l, r, reg, clk⟩, ⟨dm, dl, dr⟩⟩ ⟨e1, e2, e3, e4, e5, e6, e7, e8⟩
      rw [if_neg (by omega)] at e1
      simp only at e1 e2 e3 e4 e5 e6 e7 e8
      subst e1 e2 e3 e4 e5 e6 e7 e8
      have em : Function.update (Function.update (fun _ => none) 0 (some (ψ 0))) 0 none = fun _ => (none : Option T) := by
        funext j; simp only [Function.update]; by_cases b : j = 0 <;> simp [b]
      refine .ldM (by omega) (hd 0 (by omega)) <| .calc (m' := ⟨Function.update (fun _ => none) 0 (some (ψ 0)), s0.mem.l, s0.mem.r,
        some (A.lenv ψ 0), s0.mem.clk⟩) (by simp [startL, use, bind, Except.bind, pure, Except.pure, Alg.lenv]) <| .wrL rfl <|
        .frM (by omega) <| .calc (m' := ⟨fun _ => none, s0.mem.l, s0.mem.r, some (A.lenv ψ 0), s0.mem.clk⟩) ?_ <| .nil ?_
      · simp only [em, assertEmpty]
        rw [if_pos (by simp)]
      · refine ⟨rfl, rfl, rfl, rfl, ?_⟩
        simp only [Dsk.mk.injEq, true_and]
        funext j
        by_cases a : j ≤ N - usn
        · rw [if_pos a, if_pos (by omega)]
        · rw [if_neg a, if_neg (by omega)]

end Verif.Disk
