import Verif.Disk.Window
/-
The file protocol of the common shape.
-/
namespace Verif.Disk

variable {T E : Type} {A : Alg T E} {g : Geo} {K : Kern T E} {fl fr : Nat → File E}

theorem wnd_in {ψ : Nat → T} {a b j : Nat} (h1 : a ≤ j) (h2 : j < b) : wnd a b ψ j = some (ψ j) := if_pos ⟨h1, h2⟩

theorem wnd_out {ψ : Nat → T} {a b j : Nat} (h : j < a ∨ b ≤ j) : wnd a b ψ j = none := if_neg (by omega)

theorem wnd_cutLo {ψ : Nat → T} {a b : Nat} : Function.update (wnd a b ψ) a none = wnd (a + 1) b ψ := by
  funext j
  by_cases h : j = a
  · subst h; rw [Function.update_self, wnd_out (by omega)]
  · rw [Function.update_of_ne h]; unfold wnd
    by_cases h' : a ≤ j ∧ j < b
    · rw [if_pos h', if_pos (by omega)]
    · rw [if_neg h', if_neg (by omega)]

theorem wnd_cutHi {ψ : Nat → T} {a b : Nat} : Function.update (wnd a (b + 1) ψ) b none = wnd a b ψ := by
  funext j
  by_cases h : j = b
  · subst h; rw [Function.update_self, wnd_out (by omega)]
  · rw [Function.update_of_ne h]; unfold wnd
    by_cases h' : a ≤ j ∧ j < b
    · rw [if_pos h', if_pos (by omega)]
    · rw [if_neg h', if_neg (by omega)]

theorem wnd_addLo {ψ : Nat → T} {a b : Nat} (h : a < b) : Function.update (wnd (a + 1) b ψ) a (some (ψ a)) = wnd a b ψ := by
  funext j
  by_cases h : j = a
  · subst h; rw [Function.update_self, wnd_in (by omega) (by omega)]
  · rw [Function.update_of_ne h]; unfold wnd
    by_cases h' : a ≤ j ∧ j < b
    · rw [if_pos h', if_pos (by omega)]
    · rw [if_neg h', if_neg (by omega)]

theorem wnd_addHi {ψ : Nat → T} {a b : Nat} (h : a ≤ b) : Function.update (wnd a b ψ) b (some (ψ b)) = wnd a (b + 1) ψ := by
  funext j
  by_cases h : j = b
  · subst h; rw [Function.update_self, wnd_in (by omega) (by omega)]
  · rw [Function.update_of_ne h]; unfold wnd
    by_cases h' : a ≤ j ∧ j < b
    · rw [if_pos h', if_pos (by omega)]
    · rw [if_neg h', if_neg (by omega)]

theorem one_set {α : Type} {i : Nat} {v : α} : Function.update (fun _ => none) i (some v) = one i v := by
  funext j; unfold one; by_cases h : j = i <;> simp [Function.update, h]

theorem one_cut {α : Type} {i : Nat} {v : α} : Function.update (one i v) i none = fun _ => none := by
  funext j; unfold one; by_cases h : j = i <;> simp [Function.update, h]

theorem one_move {α : Type} {i k : Nat} {v u : α} (h : k ≠ i) :
    Function.update (Function.update (one i v) k (some u)) i none = one k u := by
  funext j; unfold one
  by_cases h1 : j = i
  · subst h1; simp [h.symm]
  · by_cases h2 : j = k
    · subst h2; simp [Function.update, h]
    · simp [Function.update, h1, h2]

/-- Just before the work of a right-moving step. -/
structure LoadR (A : Alg T E) (g : Geo) (fl fr : Nat → File E) (ψ : (Nat → T) × Nat) (i : Nat) (s : Sys T E) : Prop where
  m : s.mem.m = wnd i (i + g.w) ψ.1
  l : s.mem.l = one i (A.lenv ψ.1 i)
  r : s.mem.r = one (g.N - (i + g.h)) (A.renv g.N ψ.1 (g.N - (i + g.h)))
  clk : s.mem.clk = ψ.2
  d : DskW A g fl fr ψ.1 i (i + g.w) i (i + g.h + 1) s.dsk

/-- Just before the work of a left-moving step. -/
structure LoadL (A : Alg T E) (g : Geo) (fl fr : Nat → File E) (ψ : (Nat → T) × Nat) (i : Nat) (s : Sys T E) : Prop where
  m : s.mem.m = wnd (i + 1 - g.w) (i + 1) ψ.1
  l : s.mem.l = one (i + 1 - g.h) (A.lenv ψ.1 (i + 1 - g.h))
  r : s.mem.r = one (g.N - (i + 1)) (A.renv g.N ψ.1 (g.N - (i + 1)))
  clk : s.mem.clk = ψ.2
  d : DskW A g (trimW g fl) fr ψ.1 (i + 1 - g.w) (i + 1) (i - g.h) (i + 1) s.dsk

theorem workR (ok : g.OK) (hk : KernOK A g K) {i : Nat} (h0 : g.lb ≤ i) (h1 : i + g.h ≤ g.rb) {ψ : (Nat → T) × Nat} {s : Sys T E}
    (hs : LoadR A g fl fr ψ i s) :
    Thru g.N g.n [.calc (K.cR i), .frL i, .frR (g.N - (i + g.h)), .dpM i true, .dpL (i + 1)] s (AfterW A g)
      (RInvW A g fl fr (K.oR ψ i) (i + 1)) := by
  obtain ⟨k1, k2, k3, k4, k5, k6, k7⟩ := ok
  obtain ⟨⟨m, l, r, reg, clk⟩, d⟩ := s
  obtain ⟨e1, e2, e3, e4, hd⟩ := hs
  simp only at e1 e2 e3 e4 hd
  subst e1 e2 e3 e4
  have ok : g.OK := ⟨k1, k2, k3, k4, k5, k6, k7⟩
  have mid : ∀ {χ c c' a d}, DskW A g fl fr χ c c' a (i + g.h + 1) d → g.lb ≤ c → c' ≤ i + g.h + 1 → g.lb ≤ a → MidW A g χ (i + g.h + 1) d :=
    fun h a b c => DskW.mid ok h a b c (by omega)
  have aft : ∀ {χ d}, MidW A g χ (i + g.h + 1) d → AfterW A g d := fun h => Or.inl ⟨_, _, by omega, by omega, h⟩
  have g1 := mid hd h0 (by omega) (by omega)
  have hd' := hd.change (ψ' := (K.oR ψ i).1) (fun j hj => hk.locR ψ i j h0 h1 hj) (hk.tlR ψ i h0 h1) (hk.trR ψ i h0 h1)
    (Nat.le_refl _) (by omega)
  have g2 := mid hd' h0 (by omega) (by omega)
  have hd2 := hd'.putLo
  have g3 := mid hd2 (by omega) (by omega) (by omega)
  refine .calc (hk.doR ψ i reg h0 h1) (aft g1) <| .frL (by omega) (aft g1) <| .frR (by omega) (aft g1) <|
    .dpM (t := (K.oR ψ i).1 i) (by omega) (wnd_in (by omega) (by omega)) (aft g1) (aft (g2.setM h0 (by omega))) <|
    .dpL (t := A.lenv (K.oR ψ i).1 (i + 1)) (by omega) ?_ (aft g3) (aft (g3.setL (by omega))) <| .nil ?_ ?_
  · simp only [one_move (show i + 1 ≠ i by omega)]; simp [one]
  · refine ⟨?_, one_move (by omega), one_cut, rfl, ?_⟩
    · rw [show i + 1 + g.w - 1 = i + g.w by omega]; exact wnd_cutLo
    · rw [show i + 1 + g.w - 1 = i + g.w by omega, show i + 1 + g.h = i + g.h + 1 by omega]; exact hd2.addL (by omega)
  · exact aft (mid (hd2.addL (by omega)) (by omega) (by omega) (by omega))

theorem stepRW_first (ok : g.OK) (hk : KernOK A g K) {ψ : (Nat → T) × Nat} {s : Sys T E} (hs : StartW A g fl fr ψ s) :
    Thru g.N g.n (stepRW g K g.lb) s (AfterW A g) (RInvW A g fl fr (K.oR ψ g.lb) (g.lb + 1)) := by
  obtain ⟨k1, k2, k3, k4, k5, k6, k7⟩ := ok
  obtain ⟨⟨m, l, r, reg, clk⟩, d⟩ := s
  obtain ⟨e1, e2, e3, e4, hd⟩ := hs
  simp only at e1 e2 e3 e4 hd
  subst e1 e2 e3 e4
  have ok : g.OK := ⟨k1, k2, k3, k4, k5, k6, k7⟩
  have a0 := hd.after ok
  have q3 := hd.r (g.N - (g.lb + g.h))
  rw [if_pos (by omega)] at q3
  have q2 := hd.l g.lb
  rw [if_pos (by omega)] at q2
  have hd1 := hd.delR (Nat.le_refl _) (by omega) (by omega)
  have hd2 := hd1.widen (e := g.lb) (e' := g.lb + g.w) (by omega) (by omega)
  have a1 : AfterW A g _ := Or.inl ⟨_, _, by omega, by omega, DskW.mid ok hd2 (Nat.le_refl _) (by omega) (Nat.le_refl _) (by omega)⟩
  have q1 : d.m (g.xR g.lb) = .whole (ψ.1 (g.xR g.lb)) := by
    unfold Geo.xR
    split
    · exact hd.m _ (by omega) (by omega)
    · exact hd.m _ (by omega) (by omega)
  have hx : g.xR g.lb < g.N := by unfold Geo.xR; split <;> omega
  have hm : Function.update (wnd (g.lb + g.h + 1 - g.w) (g.lb + g.h) ψ.1) (g.xR g.lb) (some (ψ.1 (g.xR g.lb))) =
      wnd g.lb (g.lb + g.w) ψ.1 := by
    unfold Geo.xR
    by_cases c : g.w = g.h
    · rw [if_pos ⟨rfl, c⟩, show g.lb + g.h + 1 - g.w = g.lb + 1 by omega, c]; exact wnd_addLo (by omega)
    · rw [if_neg (by omega), show g.lb + g.h + 1 - g.w = g.lb by omega, show g.lb + g.h = g.lb + g.w - 1 by omega,
        wnd_addHi (by omega), show g.lb + g.w - 1 + 1 = g.lb + g.w by omega]
  unfold stepRW
  rw [if_pos rfl, List.cons_append, List.nil_append]
  refine .ldM hx q1 a0 <| .ldR (by omega) q3 a0 <| .rmR a0 <| .ldL (by omega) q2 a1 <| workR ok hk (Nat.le_refl _) k4 ?_
  exact ⟨hm, one_set, one_set, rfl, hd2⟩

theorem stepRW_next (ok : g.OK) (hk : KernOK A g K) {i : Nat} (h0 : g.lb < i) (h1 : i + g.h ≤ g.rb) {ψ : (Nat → T) × Nat}
    {s : Sys T E} (hs : RInvW A g fl fr ψ i s) :
    Thru g.N g.n (stepRW g K i) s (AfterW A g) (RInvW A g fl fr (K.oR ψ i) (i + 1)) := by
  obtain ⟨k1, k2, k3, k4, k5, k6, k7⟩ := ok
  obtain ⟨⟨m, l, r, reg, clk⟩, d⟩ := s
  obtain ⟨e1, e2, e3, e4, hd⟩ := hs
  simp only at e1 e2 e3 e4 hd
  subst e1 e2 e3 e4
  have ok : g.OK := ⟨k1, k2, k3, k4, k5, k6, k7⟩
  have a0 : AfterW A g d := Or.inl ⟨_, _, by omega, by omega, DskW.mid ok hd (by omega) (by omega) (by omega) (by omega)⟩
  have q3 := hd.r (g.N - (i + g.h))
  rw [if_pos (by omega)] at q3
  have hd1 := hd.delR (by omega) (by omega) (by omega)
  have hd2 := hd1.widen (e := i) (e' := i + g.w) (by omega) (by omega)
  have q1 : d.m (i + g.w - 1) = .whole (ψ.1 (i + g.w - 1)) := hd.m _ (by omega) (by omega)
  unfold stepRW Geo.xR
  rw [if_neg (by omega), if_neg (by omega), List.nil_append]
  refine .ldM (by omega) q1 a0 <| .ldR (by omega) q3 a0 <| .rmR a0 <| workR ok hk (by omega) h1 ?_
  refine ⟨?_, rfl, one_set, rfl, hd2⟩
  show Function.update (wnd i (i + g.w - 1) ψ.1) (i + g.w - 1) _ = _
  rw [wnd_addHi (by omega), show i + g.w - 1 + 1 = i + g.w by omega]

theorem loopRW (ok : g.OK) (hk : KernOK A g K) : ∀ (n : Nat) {i : Nat} {ψ : (Nat → T) × Nat} {s : Sys T E}, g.lb < i →
    i + n + g.h = g.rb + 1 → RInvW A g fl fr ψ i s →
    Thru g.N g.n ((List.range' i n).flatMap (stepRW g K)) s (AfterW A g)
      (RInvW A g fl fr ((List.range' i n).foldl K.oR ψ) (g.rb + 1 - g.h))
  | 0, i, ψ, s, h0, hb, hs => .nil (by rw [show g.rb + 1 - g.h = i by omega]; exact hs)
      (Or.inl ⟨_, i + g.h, by omega, by omega, DskW.mid ok hs.d (by omega) (by have := ok.wh; omega) (by omega) (by have := ok.hi; have := ok.lo; omega)⟩)
  | n + 1, i, ψ, s, h0, hb, hs => by
    rw [List.range'_succ, List.flatMap_cons]
    exact (stepRW_next ok hk h0 (by omega) hs).append fun s' hs' => loopRW ok hk n (by omega) (by omega) hs'

theorem LInvW.after (ok : g.OK) {i : Nat} (h0 : g.lb + g.h ≤ i + 1) (h1 : i < g.rb) {ψ : (Nat → T) × Nat} {s : Sys T E}
    (hs : LInvW A g fl fr ψ i s) : AfterW A g s.dsk := by
  obtain ⟨k1, k2, k3, k4, k5, k6, k7⟩ := ok
  have ok : g.OK := ⟨k1, k2, k3, k4, k5, k6, k7⟩
  have hd := hs.d
  by_cases h : i + 1 = g.lb + g.h
  · rw [show i + 2 - g.w = g.lb + g.h + 1 - g.w by omega, h, show g.lb + g.h - g.h = g.lb by omega] at hd
    exact hd.after ok
  · exact Or.inl ⟨_, i + 1, by omega, by omega, DskW.mid ok hd (by omega) (Nat.le_refl _) (by omega) (by omega)⟩

theorem workL (ok : g.OK) (hk : KernOK A g K) {i : Nat} (h0 : g.lb + g.h ≤ i) (h1 : i ≤ g.rb) {ψ : (Nat → T) × Nat} {s : Sys T E}
    (hs : LoadL A g fl fr ψ i s) :
    Thru g.N g.n [.calc (K.cL i), .frL (i + 1 - g.h), .frR (g.N - (i + 1)), .dpM i true, .dpR (g.N - i)] s (AfterW A g)
      (LInvW A g fl fr (K.oL ψ i) (i - 1)) := by
  obtain ⟨k1, k2, k3, k4, k5, k6, k7⟩ := ok
  obtain ⟨⟨m, l, r, reg, clk⟩, d⟩ := s
  obtain ⟨e1, e2, e3, e4, hd⟩ := hs
  simp only at e1 e2 e3 e4 hd
  subst e1 e2 e3 e4
  have ok : g.OK := ⟨k1, k2, k3, k4, k5, k6, k7⟩
  have mid : ∀ {χ c c' a d}, DskW A g (trimW g fl) fr χ c c' a (i + 1) d → g.lb ≤ c → c' ≤ i + 1 → g.lb ≤ a → MidW A g χ (i + 1) d :=
    fun h a b c => DskW.mid ok h a b c (by omega)
  have aft : ∀ {χ d}, MidW A g χ (i + 1) d → AfterW A g d := fun h => Or.inl ⟨_, _, by omega, by omega, h⟩
  have g1 := mid hd (by omega) (by omega) (by omega)
  have hd' := hd.change (ψ' := (K.oL ψ i).1) (fun j hj => hk.locL ψ i j h0 h1 (by omega)) (hk.tlL ψ i h0 h1) (hk.trL ψ i h0 h1)
    (by omega) (by omega)
  have g2 := mid hd' (by omega) (by omega) (by omega)
  have hd2 := hd'.putHi
  have g3 := mid hd2 (by omega) (by omega) (by omega)
  refine .calc (hk.doL ψ i reg h0 h1) (aft g1) <| .frL (by omega) (aft g1) <| .frR (by omega) (aft g1) <|
    .dpM (t := (K.oL ψ i).1 i) (by omega) (wnd_in (by omega) (by omega)) (aft g1) (aft (g2.setM (by omega) (by omega))) <|
    .dpR (t := A.renv g.N (K.oL ψ i).1 (g.N - i)) (by omega) ?_ (aft g3) (aft g3.setR) ?_
  · simp only [one_move (show g.N - i ≠ g.N - (i + 1) by omega)]; simp [one]
  · have fin : LInvW A g fl fr (K.oL ψ i) (i - 1) ⟨⟨wnd (i + 1 - g.w) i (K.oL ψ i).1, fun _ => none,
        one (g.N - i) (A.renv g.N (K.oL ψ i).1 (g.N - i)), reg, (K.oL ψ i).2⟩, _⟩ :=
      ⟨by rw [show i - 1 + 2 - g.w = i + 1 - g.w by omega, show i - 1 + 1 = i by omega], rfl,
        by rw [show g.N - (i - 1 + 1) = g.N - i by omega], rfl,
        by rw [show i - 1 + 2 - g.w = i + 1 - g.w by omega, show i - 1 + 1 = i by omega]
           exact hd2.addR (by omega) (by omega)⟩
    have e1 : Function.update (wnd (i + 1 - g.w) (i + 1) (K.oL ψ i).1) i none = wnd (i + 1 - g.w) i (K.oL ψ i).1 := wnd_cutHi
    have e2 := one_cut (i := i + 1 - g.h) (v := A.lenv ψ.1 (i + 1 - g.h))
    have e3 := one_move (v := A.renv g.N ψ.1 (g.N - (i + 1))) (u := A.renv g.N (K.oL ψ i).1 (g.N - i))
      (show g.N - i ≠ g.N - (i + 1) by omega)
    simp only [e1, e2, e3]
    exact .nil fin (fin.after ok (by omega) (by omega))

theorem stepLW_first (ok : g.OK) (hk : KernOK A g K) {ψ : (Nat → T) × Nat} {s : Sys T E}
    (hs : RInvW A g fl fr ψ (g.rb + 1 - g.h) s) :
    Thru g.N g.n (stepLW g K g.rb) s (AfterW A g) (LInvW A g fl fr (K.oL ψ g.rb) (g.rb - 1)) := by
  obtain ⟨k1, k2, k3, k4, k5, k6, k7⟩ := ok
  obtain ⟨⟨m, l, r, reg, clk⟩, d⟩ := s
  obtain ⟨e1, e2, e3, e4, hd⟩ := hs
  simp only at e1 e2 e3 e4 hd
  subst e1 e2 e3 e4
  have ok : g.OK := ⟨k1, k2, k3, k4, k5, k6, k7⟩
  rw [show g.rb + 1 - g.h + g.h = g.rb + 1 by omega] at hd
  have a0 : AfterW A g d := Or.inl ⟨_, _, by omega, by omega, DskW.mid ok hd (by omega) (by omega) (by omega) (by omega)⟩
  have q3 := hd.r (g.N - (g.rb + 1))
  rw [if_pos (by omega)] at q3
  have hd1 := hd.trim (by omega)
  rw [show g.rb + 1 - g.h = g.rb - g.h + 1 by omega] at hd1
  have hd2 := (hd1.delL (by omega) (by omega)).widen (e := g.rb + 1 - g.w) (e' := g.rb + 1) (by omega) (by omega)
  have q1 : d.m (g.xL g.rb) = .whole (ψ.1 (g.xL g.rb)) := by
    unfold Geo.xL
    split
    · exact hd.m _ (by omega) (by omega)
    · exact hd.m _ (by omega) (by omega)
  have hx : g.xL g.rb < g.N := by unfold Geo.xL; split <;> omega
  have hm : Function.update (wnd (g.rb + 1 - g.h) (g.rb + 1 - g.h + g.w - 1) ψ.1) (g.xL g.rb) (some (ψ.1 (g.xL g.rb))) =
      wnd (g.rb + 1 - g.w) (g.rb + 1) ψ.1 := by
    unfold Geo.xL
    by_cases c : g.w = g.h
    · rw [if_pos ⟨rfl, c⟩, c, show g.rb + 1 - g.h + g.h - 1 = g.rb by omega]; exact wnd_addHi (by omega)
    · rw [if_neg (by omega), show g.rb + 1 - g.h = g.rb + 1 - g.w + 1 by omega,
        show g.rb + 1 - g.w + 1 + g.w - 1 = g.rb + 1 by omega, wnd_addLo (by omega)]
  unfold stepLW
  rw [if_pos rfl]
  refine .ldM hx q1 a0 <| .ldR (by omega) q3 a0 <| .rmL a0 <| workL ok hk k4 (Nat.le_refl _) ?_
  refine ⟨hm, rfl, one_set, rfl, ?_⟩
  rw [show g.rb + 1 - g.h = g.rb - g.h + 1 by omega]; exact hd2

theorem stepLW_next (ok : g.OK) (hk : KernOK A g K) {i : Nat} (h0 : g.lb + g.h ≤ i) (h1 : i < g.rb) {ψ : (Nat → T) × Nat}
    {s : Sys T E} (hs : LInvW A g fl fr ψ i s) :
    Thru g.N g.n (stepLW g K i) s (AfterW A g) (LInvW A g fl fr (K.oL ψ i) (i - 1)) := by
  have a0 := hs.after ok (by omega) h1
  obtain ⟨k1, k2, k3, k4, k5, k6, k7⟩ := ok
  obtain ⟨⟨m, l, r, reg, clk⟩, d⟩ := s
  obtain ⟨e1, e2, e3, e4, hd⟩ := hs
  simp only at e1 e2 e3 e4 hd
  subst e1 e2 e3 e4
  have ok : g.OK := ⟨k1, k2, k3, k4, k5, k6, k7⟩
  have q3 := hd.l (i + 1 - g.h)
  rw [if_pos (by omega)] at q3
  rw [show i + 1 - g.h = i - g.h + 1 by omega] at hd
  have hd2 := (hd.delL (by omega) (by omega)).widen (e := i + 1 - g.w) (e' := i + 1) (by omega) (by omega)
  have q1 : d.m (i + 1 - g.w) = .whole (ψ.1 (i + 1 - g.w)) := hd.m _ (by omega) (by omega)
  unfold stepLW Geo.xL
  rw [if_neg (by omega), if_neg (by omega)]
  refine .ldM (by omega) q1 a0 <| .ldL (by omega) q3 a0 <| .rmL a0 <| workL ok hk h0 (by omega) ?_
  refine ⟨?_, one_set, rfl, rfl, ?_⟩
  · show Function.update (wnd (i + 2 - g.w) (i + 1) ψ.1) (i + 1 - g.w) _ = _
    rw [show i + 2 - g.w = i + 1 - g.w + 1 by omega, wnd_addLo (by omega)]
  · rw [show i + 1 - g.h = i - g.h + 1 by omega]; exact hd2

theorem loopLW (ok : g.OK) (hk : KernOK A g K) : ∀ (n : Nat) {ψ : (Nat → T) × Nat} {s : Sys T E}, g.lb + g.h + n ≤ g.rb →
    LInvW A g fl fr ψ (g.lb + g.h + n - 1) s →
    Thru g.N g.n ((List.range' (g.lb + g.h) n).reverse.flatMap (stepLW g K)) s (AfterW A g)
      (LInvW A g fl fr ((List.range' (g.lb + g.h) n).reverse.foldl K.oL ψ) (g.lb + g.h - 1))
  | 0, ψ, s, hb, hs => .nil hs (hs.after ok (by omega) (by have := ok.h1; omega))
  | n + 1, ψ, s, hb, hs => by
    rw [List.range'_1_concat, List.reverse_append]
    simp only [List.reverse_cons, List.reverse_nil, List.nil_append, List.cons_append, List.flatMap_cons, List.foldl_cons]
    refine (stepLW_next ok hk (i := g.lb + g.h + n) (by omega) (by omega)
      (by rw [show g.lb + g.h + n = g.lb + g.h + (n + 1) - 1 by omega]; exact hs)).append fun s' hs' => ?_
    exact loopLW ok hk n (by omega) hs'

/-- The two loops. -/
theorem loopsW_thru (ok : g.OK) (hk : KernOK A g K) {ψ : (Nat → T) × Nat} {s : Sys T E} (hs : StartW A g fl fr ψ s) {ops : List (Op T E)}
    {I : Dsk T E → Prop} (hI : ∀ d, AfterW A g d → I d) {P : Sys T E → Prop}
    (k : ∀ s', LInvW A g fl fr (optSweepW g K ψ) (g.lb + g.h - 1) s' → Thru g.N g.n ops s' I P) :
    Thru g.N g.n (g.sitesR.flatMap (stepRW g K) ++ (g.sitesL.flatMap (stepLW g K) ++ ops)) s I P := by
  have h1 := ok.h1; have h4 := ok.lo; have h5 := ok.hi
  obtain ⟨n, hn⟩ : ∃ n, g.rb + 1 - g.h - g.lb = n + 1 := ⟨g.rb - g.h - g.lb, by omega⟩
  unfold optSweepW Geo.sitesR Geo.sitesL at *
  rw [hn, List.range'_succ, List.foldl_cons] at k
  rw [hn, List.range'_succ, List.flatMap_cons, List.append_assoc]
  refine ((stepRW_first ok hk hs).mono hI fun _ h => h).append fun s1 i1 => ?_
  refine ((loopRW ok hk n (by omega) (by omega) i1).mono hI fun _ h => h).append fun s2 i2 => ?_
  rw [List.range'_1_concat, List.reverse_append] at k
  rw [List.range'_1_concat, List.reverse_append]
  simp only [List.reverse_cons, List.reverse_nil, List.nil_append, List.cons_append, List.foldl_cons] at k
  simp only [List.reverse_cons, List.reverse_nil, List.nil_append, List.cons_append, List.flatMap_cons]
  rw [show g.lb + g.h + n = g.rb by omega] at k
  rw [List.append_assoc, show g.lb + g.h + n = g.rb by omega]
  refine ((stepLW_first ok hk i2).mono hI fun _ h => h).append fun s3 i3 => ?_
  exact ((loopLW ok hk n (by omega) (by rw [show g.lb + g.h + n - 1 = g.rb - 1 by omega]; exact i3)).mono hI fun _ h => h).append k

theorem sweepW_thru (ok : g.OK) (hk : KernOK A g K) {ψ : (Nat → T) × Nat} {s : Sys T E} (hs : StartW A g fl fr ψ s) :
    Thru g.N g.n (sweepW g K) s (AfterW A g) (StartW A g (trimW g fl) fr (optSweepW g K ψ)) := by
  unfold sweepW
  have h1 := ok.h1
  rw [← List.singleton_append]
  refine Thru.append (Q := StartW A g fl fr ψ) (freshEnvs_thru (hs.d.after ok) ⟨hs.m, rfl, rfl, hs.clk, hs.d⟩) fun s0 hs' => ?_
  refine loopsW_thru ok hk hs' (fun _ h => h) fun s4 i4 => ?_
  have hd := i4.d
  have hm := i4.m
  rw [show g.lb + g.h - 1 + 2 - g.w = g.lb + g.h + 1 - g.w by omega, show g.lb + g.h - 1 + 1 = g.lb + g.h by omega] at hm
  rw [show g.lb + g.h - 1 + 2 - g.w = g.lb + g.h + 1 - g.w by omega, show g.lb + g.h - 1 + 1 = g.lb + g.h by omega,
    show g.lb + g.h - g.h = g.lb by omega] at hd
  exact freshEnvs_thru (hd.after ok) ⟨hm, rfl, rfl, i4.clk, hd⟩

theorem sweepsLoopW (ok : g.OK) (hk : KernOK A g K) :
    ∀ (k : Nat) {fl fr : Nat → File E} {ψ : (Nat → T) × Nat} {s : Sys T E}, StartW A g fl fr ψ s →
    Thru g.N g.n (List.replicate k (sweepW g K)).flatten s (AfterW A g)
      (StartW A g (if k = 0 then fl else trimW g fl) fr (optSweepsW g K k ψ))
  | 0, fl, fr, ψ, s, hs => .nil hs (hs.d.after ok)
  | k + 1, fl, fr, ψ, s, hs => by
    rw [List.replicate_succ, List.flatten_cons]
    refine (sweepW_thru ok hk hs).append fun s1 i1 => (sweepsLoopW ok hk k i1).mono (fun _ h => h) fun s2 i2 => ?_
    rw [if_neg (by omega)]
    rw [trimW_trimW] at i2
    by_cases h : k = 0
    · rw [if_pos h] at i2; exact i2
    · rw [if_neg h] at i2; exact i2

/-- The state from which sweeps can begin. -/
theorem startW_of (ok : g.OK) {ψ : Nat → T} {d : Dsk T E} (hm : OnDisk g.N ψ d) (he : EnvReadyW A g ψ d) {reg : Option E}
    {clk : Nat} : StartW A g d.l d.r (ψ, clk)
      ⟨⟨wnd (g.lb + g.h + 1 - g.w) (g.lb + g.h) ψ, fun _ => none, fun _ => none, reg, clk⟩, d⟩ := by
  refine ⟨rfl, rfl, rfl, rfl, fun j hj _ => hm j hj, fun j hj => ⟨_, hm j hj, fun x => by rw [x], fun x => by rw [x]⟩, fun j => ?_,
    fun j => ?_⟩
  · by_cases h : j = g.lb
    · subst h; rw [if_pos (by omega)]; exact he.l
    · rw [if_neg (by omega)]
  · simp only
    by_cases h : g.N ≤ j + 1 + g.rb ∧ j + (g.lb + g.h) ≤ g.N
    · rw [if_pos h]; exact he.r j h.1 (by omega)
    · rw [if_neg h, if_neg (by omega)]

/-- If the files left by a crash make up an MPS, the complete environments belong to it. -/
theorem AfterW.consistent (ok : g.OK) {d : Dsk T E} (h : AfterW A g d) {ψ : Nat → T} (hm : OnDisk g.N ψ d) :
    d.l g.lb = .whole (A.lenv ψ g.lb) ∧
      ∀ k e, g.N ≤ k + 1 + g.rb → k + g.lb + g.h ≤ g.N → d.r k = .whole e → e = A.renv g.N ψ k := by
  have h4 := ok.lo; have h5 := ok.hi; have h1 := ok.h1; have h6 := ok.hw
  rcases h with ⟨ψ', b, hb, hb', h⟩ | ⟨ψ', h, h'⟩ | ⟨c, c1, c2, h⟩
  · refine ⟨?_, fun k e g1 g2 g3 => ?_⟩
    · rw [h.env]
      refine congrArg _ (lenv_congr A (h.tl _ (hm 0 (by omega))).symm g.lb fun j hj => ?_)
      have := hm j (by omega)
      rw [h.left j hj] at this
      injection this
    · obtain ⟨g4, rfl⟩ := h.r k e g1 g2 g3
      refine renv_congr A (h.tr _ (hm (g.N - 1) (by omega))).symm k (fun j hj hj' => ?_) (by omega)
      have := hm j hj'
      rw [h.right j (by omega) hj'] at this
      injection this
  · have e : ∀ j, j < g.N → ψ' j = ψ j := fun j hj => by
      have := h j hj
      rw [hm j hj] at this
      injection this with this
      exact this.symm
    refine ⟨?_, fun k e' g1 g2 g3 => ?_⟩
    · rw [h'.l]; exact congrArg _ (lenv_congr A (by rw [e 0 (by omega)]) g.lb fun j hj => e j (by omega))
    · rw [h'.r k g1 g2] at g3
      injection g3 with g3
      rw [← g3]
      exact renv_congr A (by rw [e (g.N - 1) (by omega)]) k (fun j _ hj => e j hj) (by omega)
  · rw [hm c (by omega)] at h
    exact absurd h (by simp)

end Verif.Disk
