import Verif.Disk.CrashFacts
/-
The common shape of the disk-based sweeps. A local step at site `i` works with the environments of `h` neighbouring
sites and changes the tensors of `w` neighbouring sites (`w = h` or `w = h + 1`):

* two-site sweep (and TDVP): `h = 2`, `w = 2`
* single-site sweep: `h = 1`, `w = 2`
* two-site sweep with subspace expansion: `h = 2`, `w = 3`

This module proves the file protocol once for all of them. The functions of the code are modelled in TwoSite.lean,
SingleSite.lean, Noised.lean and Tdvp.lean, where the programs are shown to have this shape.
-/
namespace Verif.Disk

variable {T E : Type}

/-- The chain length `N`, the size `n` of the environment vectors, the swept range `lb … rb`, and the two numbers of
sites. -/
structure Geo where
  N : Nat
  n : Nat
  lb : Nat
  rb : Nat
  h : Nat
  w : Nat

/-- The numbers fit together. -/
structure Geo.OK (g : Geo) : Prop where
  h1 : 1 ≤ g.h
  hw : g.h ≤ g.w
  wh : g.w ≤ g.h + 1
  lo : g.lb + g.h ≤ g.rb
  hi : g.rb < g.N
  nl : g.rb + 1 < g.n + g.h
  nr : g.N < g.n + g.lb + g.h

/-- The work in memory of a step in either direction (`cR`, `cL`), and what it does to an MPS (`oR`, `oL`). -/
structure Kern (T E : Type) where
  cR : Nat → Mem T E → Except Err (Mem T E)
  cL : Nat → Mem T E → Except Err (Mem T E)
  oR : (Nat → T) × Nat → Nat → (Nat → T) × Nat
  oL : (Nat → T) × Nat → Nat → (Nat → T) × Nat

/-- The sites `a … b-1` of `ψ` are in memory. -/
def wnd (a b : Nat) (ψ : Nat → T) : Nat → Option T := fun j => if a ≤ j ∧ j < b then some (ψ j) else none

/-- The work in memory does `oR` and `oL`: given the tensors of the window and the two exact environments it
succeeds and leaves the new tensors and the grown environment; it changes only tensors of the window and keeps the
outer legs. -/
structure KernOK (A : Alg T E) (g : Geo) (K : Kern T E) : Prop where
  locR : ∀ ψ i j, g.lb ≤ i → i + g.h ≤ g.rb → (j < i ∨ i + g.w ≤ j) → (K.oR ψ i).1 j = ψ.1 j
  tlR : ∀ ψ i, g.lb ≤ i → i + g.h ≤ g.rb → A.trivL ((K.oR ψ i).1 0) = A.trivL (ψ.1 0)
  trR : ∀ ψ i, g.lb ≤ i → i + g.h ≤ g.rb → A.trivR ((K.oR ψ i).1 (g.N - 1)) = A.trivR (ψ.1 (g.N - 1))
  doR : ∀ ψ i reg, g.lb ≤ i → i + g.h ≤ g.rb →
    K.cR i ⟨wnd i (i + g.w) ψ.1, one i (A.lenv ψ.1 i), one (g.N - (i + g.h)) (A.renv g.N ψ.1 (g.N - (i + g.h))), reg, ψ.2⟩ =
    .ok ⟨wnd i (i + g.w) (K.oR ψ i).1, Function.update (one i (A.lenv ψ.1 i)) (i + 1) (some (A.lenv (K.oR ψ i).1 (i + 1))),
      one (g.N - (i + g.h)) (A.renv g.N ψ.1 (g.N - (i + g.h))), reg, (K.oR ψ i).2⟩
  locL : ∀ ψ i j, g.lb + g.h ≤ i → i ≤ g.rb → (j + g.w ≤ i ∨ i < j) → (K.oL ψ i).1 j = ψ.1 j
  tlL : ∀ ψ i, g.lb + g.h ≤ i → i ≤ g.rb → A.trivL ((K.oL ψ i).1 0) = A.trivL (ψ.1 0)
  trL : ∀ ψ i, g.lb + g.h ≤ i → i ≤ g.rb → A.trivR ((K.oL ψ i).1 (g.N - 1)) = A.trivR (ψ.1 (g.N - 1))
  doL : ∀ ψ i reg, g.lb + g.h ≤ i → i ≤ g.rb →
    K.cL i ⟨wnd (i + 1 - g.w) (i + 1) ψ.1, one (i + 1 - g.h) (A.lenv ψ.1 (i + 1 - g.h)),
      one (g.N - (i + 1)) (A.renv g.N ψ.1 (g.N - (i + 1))), reg, ψ.2⟩ =
    .ok ⟨wnd (i + 1 - g.w) (i + 1) (K.oL ψ i).1, one (i + 1 - g.h) (A.lenv ψ.1 (i + 1 - g.h)),
      Function.update (one (g.N - (i + 1)) (A.renv g.N ψ.1 (g.N - (i + 1)))) (g.N - i) (some (A.renv g.N (K.oL ψ i).1 (g.N - i))),
      reg, (K.oL ψ i).2⟩

section
variable (g : Geo) (K : Kern T E)

/-- The tensor that is loaded for step `i` of the right-moving half. -/
def Geo.xR (i : Nat) : Nat := if i = g.lb ∧ g.w = g.h then g.lb else i + g.w - 1

/-- The tensor that is loaded for step `i` of the left-moving half. -/
def Geo.xL (i : Nat) : Nat := if i = g.rb ∧ g.w = g.h then g.rb else i + 1 - g.w

/-- A right-moving step. -/
def stepRW (i : Nat) : List (Op T E) :=
  .ldM (g.xR i) :: .ldR (g.N - (i + g.h)) :: .rmR (g.N - (i + g.h)) :: ((if i = g.lb then [.ldL i] else []) ++
    [.calc (K.cR i), .frL i, .frR (g.N - (i + g.h)), .dpM i true, .dpL (i + 1)])

/-- A left-moving step. -/
def stepLW (i : Nat) : List (Op T E) :=
  .ldM (g.xL i) :: (if i = g.rb then .ldR (g.N - (i + 1)) else .ldL (i + 1 - g.h)) :: .rmL (i + 1 - g.h) ::
    [.calc (K.cL i), .frL (i + 1 - g.h), .frR (g.N - (i + 1)), .dpM i true, .dpR (g.N - i)]

/-- The sites of the right-moving half: `lb … rb-h`. -/
def Geo.sitesR : List Nat := List.range' g.lb (g.rb + 1 - g.h - g.lb)
/-- The sites of the left-moving half: `rb … lb+h`. -/
def Geo.sitesL : List Nat := (List.range' (g.lb + g.h) (g.rb + 1 - g.h - g.lb)).reverse

/-- A sweep. -/
def sweepW : List (Op T E) :=
  .calc freshEnvs :: (g.sitesR.flatMap (stepRW g K) ++ (g.sitesL.flatMap (stepLW g K) ++ [.calc freshEnvs]))

/-- **Specification**: a sweep on an MPS without files. -/
def optSweepW (ψ : (Nat → T) × Nat) : (Nat → T) × Nat := g.sitesL.foldl K.oL (g.sitesR.foldl K.oR ψ)

/-- **Specification**: `k` sweeps. -/
def optSweepsW : Nat → (Nat → T) × Nat → (Nat → T) × Nat
  | 0, ψ => ψ
  | k + 1, ψ => optSweepsW k (optSweepW g K ψ)

end

/-- **Specification**: the temporary directory holds the environments a sweep starts with. -/
structure EnvReadyW (A : Alg T E) (g : Geo) (ψ : Nat → T) (d : Dsk T E) : Prop where
  l : d.l g.lb = .whole (A.lenv ψ g.lb)
  r : ∀ k, g.N ≤ k + 1 + g.rb → k + g.lb + g.h ≤ g.N → d.r k = .whole (A.renv g.N ψ k)

/-! ### Stepping with crash points -/

section
variable {N n : Nat} {ops : List (Op T E)} {s : Sys T E} {P : Sys T E → Prop} {I : Dsk T E → Prop}

theorem Thru.cons {o : Op T E} {s1 : Sys T E} (e : exec N n o s = .ok s1) (hI : I s.dsk) (hT : I (tear s.dsk o))
    (k : Thru N n ops s1 I P) : Thru N n (o :: ops) s I P := by
  refine ⟨Does.cons e k.1, fun d hd => ?_⟩
  rcases hd.cons_inv with rfl | rfl | ⟨s2, e2, hd⟩
  · exact hI
  · exact hT
  · rw [e] at e2; injection e2 with e2; subst e2; exact k.2 d hd

theorem Thru.ldM {i : Nat} {t : T} (hi : i < N) (h : s.dsk.m i = .whole t) (hI : I s.dsk)
    (k : Thru N n ops ⟨{ s.mem with m := Function.update s.mem.m i (some t) }, s.dsk⟩ I P) : Thru N n (.ldM i :: ops) s I P :=
  Thru.cons (by simp [exec, hi, h, File.get, bind, Except.bind, pure, Except.pure]) hI hI k

theorem Thru.ldL {i : Nat} {t : E} (hi : i < n) (h : s.dsk.l i = .whole t) (hI : I s.dsk)
    (k : Thru N n ops ⟨{ s.mem with l := Function.update s.mem.l i (some t) }, s.dsk⟩ I P) : Thru N n (.ldL i :: ops) s I P :=
  Thru.cons (by simp [exec, hi, h, File.get, bind, Except.bind, pure, Except.pure]) hI hI k

theorem Thru.ldR {i : Nat} {t : E} (hi : i < n) (h : s.dsk.r i = .whole t) (hI : I s.dsk)
    (k : Thru N n ops ⟨{ s.mem with r := Function.update s.mem.r i (some t) }, s.dsk⟩ I P) : Thru N n (.ldR i :: ops) s I P :=
  Thru.cons (by simp [exec, hi, h, File.get, bind, Except.bind, pure, Except.pure]) hI hI k

theorem Thru.dpM {i : Nat} {t : T} (hi : i < N) (h : s.mem.m i = some t) (hI : I s.dsk)
    (hT : I { s.dsk with m := Function.update s.dsk.m i .junk })
    (k : Thru N n ops ⟨{ s.mem with m := Function.update s.mem.m i none },
      { s.dsk with m := Function.update s.dsk.m i (.whole t) }⟩ I P) : Thru N n (.dpM i true :: ops) s I P :=
  Thru.cons (by simp [exec, hi, h, dumped]) hI hT k

theorem Thru.dpL {i : Nat} {t : E} (hi : i < n) (h : s.mem.l i = some t) (hI : I s.dsk)
    (hT : I { s.dsk with l := Function.update s.dsk.l i .junk })
    (k : Thru N n ops ⟨s.mem, { s.dsk with l := Function.update s.dsk.l i (.whole t) }⟩ I P) : Thru N n (.dpL i :: ops) s I P :=
  Thru.cons (by simp [exec, hi, h, dumped]) hI hT k

theorem Thru.dpR {i : Nat} {t : E} (hi : i < n) (h : s.mem.r i = some t) (hI : I s.dsk)
    (hT : I { s.dsk with r := Function.update s.dsk.r i .junk })
    (k : Thru N n ops ⟨s.mem, { s.dsk with r := Function.update s.dsk.r i (.whole t) }⟩ I P) : Thru N n (.dpR i :: ops) s I P :=
  Thru.cons (by simp [exec, hi, h, dumped]) hI hT k

theorem Thru.rmL {i : Nat} (hI : I s.dsk)
    (k : Thru N n ops ⟨s.mem, { s.dsk with l := Function.update s.dsk.l i .gone }⟩ I P) : Thru N n (.rmL i :: ops) s I P :=
  Thru.cons rfl hI hI k

theorem Thru.rmR {i : Nat} (hI : I s.dsk)
    (k : Thru N n ops ⟨s.mem, { s.dsk with r := Function.update s.dsk.r i .gone }⟩ I P) : Thru N n (.rmR i :: ops) s I P :=
  Thru.cons rfl hI hI k

theorem Thru.frM {i : Nat} (hi : i < N) (hI : I s.dsk)
    (k : Thru N n ops ⟨{ s.mem with m := Function.update s.mem.m i none }, s.dsk⟩ I P) : Thru N n (.frM i :: ops) s I P :=
  Thru.cons (by simp [exec, hi]) hI hI k

theorem Thru.frL {i : Nat} (hi : i < n) (hI : I s.dsk)
    (k : Thru N n ops ⟨{ s.mem with l := Function.update s.mem.l i none }, s.dsk⟩ I P) : Thru N n (.frL i :: ops) s I P :=
  Thru.cons (by simp [exec, hi]) hI hI k

theorem Thru.frR {i : Nat} (hi : i < n) (hI : I s.dsk)
    (k : Thru N n ops ⟨{ s.mem with r := Function.update s.mem.r i none }, s.dsk⟩ I P) : Thru N n (.frR i :: ops) s I P :=
  Thru.cons (by simp [exec, hi]) hI hI k

theorem Thru.calc {f : Mem T E → Except Err (Mem T E)} {m' : Mem T E} (h : f s.mem = .ok m') (hI : I s.dsk)
    (k : Thru N n ops ⟨m', s.dsk⟩ I P) : Thru N n (.calc f :: ops) s I P :=
  Thru.cons (by simp [exec, h, bind, Except.bind, pure, Except.pure]) hI hI k

end

/-! ### Invariants -/

/-- The files while the sites `c … c'-1` may be newer in memory, the left files `lb … a` and the right files whose
block begins at `b` or later are current, and the other files of the sweep are removed. -/
structure DskW (A : Alg T E) (g : Geo) (fl fr : Nat → File E) (ψ : Nat → T) (c c' a b : Nat) (d : Dsk T E) : Prop where
  m : ∀ j, j < g.N → (j < c ∨ c' ≤ j) → d.m j = .whole (ψ j)
  c : ∀ j, j < g.N → ∃ t, d.m j = .whole t ∧ (j = 0 → A.trivL t = A.trivL (ψ 0)) ∧
        (j = g.N - 1 → A.trivR t = A.trivR (ψ (g.N - 1)))
  l : ∀ j, d.l j = if g.lb ≤ j ∧ j ≤ a then .whole (A.lenv ψ j) else fl j
  r : ∀ j, d.r j = if g.N ≤ j + 1 + g.rb ∧ j + b ≤ g.N then .whole (A.renv g.N ψ j)
        else if g.N ≤ j + 1 + g.rb ∧ j + g.lb + g.h ≤ g.N then .gone else fr j

/-- In the middle of a sweep: only the sites `lb … b-1` may differ from `ψ`, and the complete right environments
do not cover them. -/
structure MidW (A : Alg T E) (g : Geo) (ψ : Nat → T) (b : Nat) (d : Dsk T E) : Prop where
  left : ∀ j, j < g.lb → d.m j = .whole (ψ j)
  right : ∀ j, b ≤ j → j < g.N → d.m j = .whole (ψ j)
  tl : ∀ t, d.m 0 = .whole t → A.trivL t = A.trivL (ψ 0)
  tr : ∀ t, d.m (g.N - 1) = .whole t → A.trivR t = A.trivR (ψ (g.N - 1))
  env : d.l g.lb = .whole (A.lenv ψ g.lb)
  r : ∀ k e, g.N ≤ k + 1 + g.rb → k + g.lb + g.h ≤ g.N → d.r k = .whole e → k + b ≤ g.N ∧ e = A.renv g.N ψ k

/-- What a crash leaves: the middle of a sweep, files from which the program can go on, or an incomplete file of
one of the tensors that the program loads first. -/
def AfterW (A : Alg T E) (g : Geo) (d : Dsk T E) : Prop :=
  (∃ ψ b, g.lb + g.h + 1 ≤ b ∧ b ≤ g.rb + 1 ∧ MidW A g ψ b d) ∨ (∃ ψ, OnDisk g.N ψ d ∧ EnvReadyW A g ψ d) ∨
    (∃ c, g.lb + g.h + 1 ≤ c + g.w ∧ c < g.lb + g.h ∧ d.m c = .junk)

section
variable {A : Alg T E} {g : Geo} {K : Kern T E} {ψ ψ' : Nat → T} {fl fr : Nat → File E} {c c' a b : Nat} {d : Dsk T E}

theorem MidW.setM (h : MidW A g ψ b d) {i : Nat} (h1 : g.lb ≤ i) (h2 : i < b) : MidW A g ψ b { d with m := Function.update d.m i .junk } := by
  refine ⟨fun j hj => ?_, fun j hj hj' => ?_, fun t ht => ?_, fun t ht => ?_, h.env, h.r⟩
  · simp only [Function.update_of_ne (show j ≠ i by omega)]; exact h.left j hj
  · simp only [Function.update_of_ne (show j ≠ i by omega)]; exact h.right j hj hj'
  · by_cases h0 : i = 0
    · subst h0; simp at ht
    · simp only [Function.update_of_ne (show 0 ≠ i by omega)] at ht; exact h.tl t ht
  · by_cases h0 : i = g.N - 1
    · subst h0; simp at ht
    · simp only [Function.update_of_ne (show g.N - 1 ≠ i by omega)] at ht; exact h.tr t ht

theorem MidW.setL (h : MidW A g ψ b d) {k : Nat} (h1 : k ≠ g.lb) {x : File E} :
    MidW A g ψ b { d with l := Function.update d.l k x } :=
  ⟨h.left, h.right, h.tl, h.tr, by simp only [Function.update_of_ne (show g.lb ≠ k by omega)]; exact h.env, h.r⟩

theorem MidW.setR (h : MidW A g ψ b d) {k : Nat} : MidW A g ψ b { d with r := Function.update d.r k .junk } := by
  refine ⟨h.left, h.right, h.tl, h.tr, h.env, fun j e h1 h2 h3 => ?_⟩
  by_cases hj : j = k
  · subst hj; simp at h3
  · simp only [Function.update_of_ne hj] at h3; exact h.r j e h1 h2 h3

theorem DskW.mid (ok : g.OK) (hd : DskW A g fl fr ψ c c' a b d) (h0 : g.lb ≤ c) (h1 : c' ≤ b) (h3 : g.lb ≤ a)
    (h4 : g.lb < g.N) : MidW A g ψ b d := by
  refine ⟨fun j hj => hd.m j (by omega) (by omega), fun j hj hj' => hd.m j hj' (by omega), fun t ht => ?_, fun t ht => ?_, ?_,
    fun k e g1 g2 g3 => ?_⟩
  · obtain ⟨t', e, h, -⟩ := hd.c 0 (by omega)
    rw [e] at ht; injection ht with ht; rw [← ht]; exact h rfl
  · obtain ⟨t', e, -, h⟩ := hd.c (g.N - 1) (by omega)
    rw [e] at ht; injection ht with ht; rw [← ht]; exact h rfl
  · rw [hd.l g.lb, if_pos (by omega)]
  · have := hd.r k
    rw [g3] at this
    split at this
    · injection this with this; exact ⟨by omega, this⟩
    · rw [if_pos (by omega)] at this; exact absurd this (by simp)

/-- The tensors in the window change. -/
theorem DskW.change (hd : DskW A g fl fr ψ c c' a b d) (hloc : ∀ j, j < c ∨ c' ≤ j → ψ' j = ψ j)
    (htl : A.trivL (ψ' 0) = A.trivL (ψ 0)) (htr : A.trivR (ψ' (g.N - 1)) = A.trivR (ψ (g.N - 1))) (h1 : a ≤ c) (h2 : c' ≤ b) :
    DskW A g fl fr ψ' c c' a b d := by
  refine ⟨fun j hj hj' => ?_, fun j hj => ?_, fun j => ?_, fun j => ?_⟩
  · rw [hloc j hj']; exact hd.m j hj hj'
  · obtain ⟨t, e, h, h'⟩ := hd.c j hj
    exact ⟨t, e, fun x => by rw [htl]; exact h x, fun x => by rw [htr]; exact h' x⟩
  · rw [hd.l j]
    split
    · rw [lenv_congr A htl j (fun k hk => hloc k (by omega))]
    · rfl
  · rw [hd.r j]
    split
    · rw [renv_congr A htr j (fun k hk hk' => hloc k (by omega)) (by omega)]
    · rfl

/-- A tensor of the window, at its left end, is written. -/
theorem DskW.putLo (hd : DskW A g fl fr ψ c c' a b d) : DskW A g fl fr ψ (c + 1) c' a b
    { d with m := Function.update d.m c (.whole (ψ c)) } := by
  refine ⟨fun j hj hj' => ?_, fun j hj => ?_, hd.l, hd.r⟩
  · by_cases h : j = c
    · subst h; simp
    · simp only [Function.update_of_ne h]; exact hd.m j hj (by omega)
  · by_cases h : j = c
    · subst h; exact ⟨ψ j, by simp, fun x => by rw [x], fun x => by rw [x]⟩
    · simp only [Function.update_of_ne h]; exact hd.c j hj

/-- A tensor of the window, at its right end, is written. -/
theorem DskW.putHi (hd : DskW A g fl fr ψ c (c' + 1) a b d) : DskW A g fl fr ψ c c' a b
    { d with m := Function.update d.m c' (.whole (ψ c')) } := by
  refine ⟨fun j hj hj' => ?_, fun j hj => ?_, hd.l, hd.r⟩
  · by_cases h : j = c'
    · subst h; simp
    · simp only [Function.update_of_ne h]; exact hd.m j hj (by omega)
  · by_cases h : j = c'
    · subst h; exact ⟨ψ j, by simp, fun x => by rw [x], fun x => by rw [x]⟩
    · simp only [Function.update_of_ne h]; exact hd.c j hj

theorem DskW.widen (hd : DskW A g fl fr ψ c c' a b d) {e e' : Nat} (h1 : e ≤ c) (h2 : c' ≤ e') :
    DskW A g fl fr ψ e e' a b d :=
  ⟨fun j hj hj' => hd.m j hj (by omega), hd.c, hd.l, hd.r⟩

theorem DskW.addL (hd : DskW A g fl fr ψ c c' a b d) (h : g.lb ≤ a + 1) : DskW A g fl fr ψ c c' (a + 1) b
    { d with l := Function.update d.l (a + 1) (.whole (A.lenv ψ (a + 1))) } := by
  refine ⟨hd.m, hd.c, fun j => ?_, hd.r⟩
  by_cases hj : j = a + 1
  · subst hj; simp only [Function.update_self]; rw [if_pos (by omega)]
  · simp only [Function.update_of_ne hj, hd.l j]
    by_cases h' : g.lb ≤ j ∧ j ≤ a
    · rw [if_pos h', if_pos (by omega)]
    · rw [if_neg h', if_neg (by omega)]

theorem DskW.addR (hd : DskW A g fl fr ψ c c' a (b + 1) d) (h1 : b ≤ g.rb + 1) (h2 : b ≤ g.N) : DskW A g fl fr ψ c c' a b
    { d with r := Function.update d.r (g.N - b) (.whole (A.renv g.N ψ (g.N - b))) } := by
  refine ⟨hd.m, hd.c, hd.l, fun j => ?_⟩
  by_cases hj : j = g.N - b
  · subst hj; simp only [Function.update_self]; rw [if_pos (by omega)]
  · simp only [Function.update_of_ne hj, hd.r j]
    by_cases h' : g.N ≤ j + 1 + g.rb ∧ j + (b + 1) ≤ g.N
    · rw [if_pos h', if_pos (by omega)]
    · rw [if_neg h', if_neg (show ¬ (g.N ≤ j + 1 + g.rb ∧ j + b ≤ g.N) by omega)]

theorem DskW.delR (hd : DskW A g fl fr ψ c c' a b d) (h0 : g.lb + g.h ≤ b) (h1 : b ≤ g.rb + 1) (h2 : b ≤ g.N) :
    DskW A g fl fr ψ c c' a (b + 1) { d with r := Function.update d.r (g.N - b) .gone } := by
  refine ⟨hd.m, hd.c, hd.l, fun j => ?_⟩
  by_cases hj : j = g.N - b
  · subst hj; simp only [Function.update_self]; rw [if_neg (by omega), if_pos (by omega)]
  · simp only [Function.update_of_ne hj, hd.r j]
    by_cases h' : g.N ≤ j + 1 + g.rb ∧ j + (b + 1) ≤ g.N
    · rw [if_pos (by omega), if_pos h']
    · rw [if_neg (show ¬ (g.N ≤ j + 1 + g.rb ∧ j + b ≤ g.N) by omega), if_neg h']

/-- The left files of the sweep removed. -/
def trimW (g : Geo) (fl : Nat → File E) : Nat → File E := fun j => if g.lb ≤ j ∧ j + g.h ≤ g.rb + 1 then .gone else fl j

theorem trimW_trimW (g : Geo) (fl : Nat → File E) : trimW g (trimW g fl) = trimW g fl := by
  funext j; unfold trimW; by_cases h : g.lb ≤ j ∧ j + g.h ≤ g.rb + 1 <;> simp [h]

theorem DskW.delL (hd : DskW A g (trimW g fl) fr ψ c c' (a + 1) b d) (h1 : a + 1 + g.h ≤ g.rb + 1) (h2 : g.lb ≤ a + 1) :
    DskW A g (trimW g fl) fr ψ c c' a b { d with l := Function.update d.l (a + 1) .gone } := by
  refine ⟨hd.m, hd.c, fun j => ?_, hd.r⟩
  by_cases hj : j = a + 1
  · subst hj; simp only [Function.update_self]; rw [if_neg (by omega), trimW, if_pos (by omega)]
  · simp only [Function.update_of_ne hj, hd.l j]
    by_cases h' : g.lb ≤ j ∧ j ≤ a
    · rw [if_pos (by omega), if_pos h']
    · rw [if_neg (by omega), if_neg h']

theorem DskW.trim (hd : DskW A g fl fr ψ c c' a b d) (h1 : a + g.h = g.rb + 1) : DskW A g (trimW g fl) fr ψ c c' a b d := by
  refine ⟨hd.m, hd.c, fun j => ?_, hd.r⟩
  rw [hd.l j]
  split
  · rfl
  · rw [trimW, if_neg (by omega)]

/-- The files at the beginning of a sweep. -/
theorem DskW.after (ok : g.OK) (hd : DskW A g fl fr ψ (g.lb + g.h + 1 - g.w) (g.lb + g.h) g.lb (g.lb + g.h) d) : AfterW A g d := by
  have h1 := ok.h1; have h2 := ok.hw; have h3 := ok.wh; have h4 := ok.lo; have h5 := ok.hi
  right; left
  have hex : ∀ j, ∃ t, (j < g.N → d.m j = .whole t ∧ (j = 0 → A.trivL t = A.trivL (ψ 0)) ∧
      (j = g.N - 1 → A.trivR t = A.trivR (ψ (g.N - 1)))) := fun j => by
    by_cases hj : j < g.N
    · obtain ⟨t, e⟩ := hd.c j hj; exact ⟨t, fun _ => e⟩
    · exact ⟨ψ j, fun x => absurd x hj⟩
  obtain ⟨φ, hφ⟩ := Classical.axiomOfChoice hex
  have heq : ∀ j, j < g.N → (j < g.lb + g.h + 1 - g.w ∨ g.lb + g.h ≤ j) → ψ j = φ j := fun j hj hj' => by
    have := (hφ j hj).1
    rw [hd.m j hj hj'] at this
    injection this
  refine ⟨φ, fun j hj => (hφ j hj).1, ?_, fun k g1 g2 => ?_⟩
  · rw [hd.l g.lb, if_pos (by omega)]
    exact congrArg _ (lenv_congr A ((hφ 0 (by omega)).2.1 rfl).symm g.lb fun j hj => heq j (by omega) (by omega))
  · rw [hd.r k, if_pos (by omega)]
    exact congrArg _ (renv_congr A ((hφ (g.N - 1) (by omega)).2.2 rfl).symm k (fun j hj hj' => heq j hj' (by omega)) (by omega))

end

/-- The state at the beginning of a sweep. -/
structure StartW (A : Alg T E) (g : Geo) (fl fr : Nat → File E) (ψ : (Nat → T) × Nat) (s : Sys T E) : Prop where
  m : s.mem.m = wnd (g.lb + g.h + 1 - g.w) (g.lb + g.h) ψ.1
  l : s.mem.l = fun _ => none
  r : s.mem.r = fun _ => none
  clk : s.mem.clk = ψ.2
  d : DskW A g fl fr ψ.1 (g.lb + g.h + 1 - g.w) (g.lb + g.h) g.lb (g.lb + g.h) s.dsk

/-- Between two steps of the right-moving half. -/
structure RInvW (A : Alg T E) (g : Geo) (fl fr : Nat → File E) (ψ : (Nat → T) × Nat) (i : Nat) (s : Sys T E) : Prop where
  m : s.mem.m = wnd i (i + g.w - 1) ψ.1
  l : s.mem.l = one i (A.lenv ψ.1 i)
  r : s.mem.r = fun _ => none
  clk : s.mem.clk = ψ.2
  d : DskW A g fl fr ψ.1 i (i + g.w - 1) i (i + g.h) s.dsk

/-- Between two steps of the left-moving half. -/
structure LInvW (A : Alg T E) (g : Geo) (fl fr : Nat → File E) (ψ : (Nat → T) × Nat) (i : Nat) (s : Sys T E) : Prop where
  m : s.mem.m = wnd (i + 2 - g.w) (i + 1) ψ.1
  l : s.mem.l = fun _ => none
  r : s.mem.r = one (g.N - (i + 1)) (A.renv g.N ψ.1 (g.N - (i + 1)))
  clk : s.mem.clk = ψ.2
  d : DskW A g (trimW g fl) fr ψ.1 (i + 2 - g.w) (i + 1) (i + 1 - g.h) (i + 1) s.dsk

end Verif.Disk
