import Mathlib.Tactic.Ring
import Verif.Disk.TdvpFacts
import Verif.Props.TwoSite
/-
Properties C29 (the TDVP schedule) and C30 (the TDVP sweep on disk).
-/
namespace Verif.Props
open Verif.Disk

variable {T E : Type}

/-! ### C29 -/

/-- **Specification**: the total time by which the bond `(b, b+1)` is evolved. -/
def bondTime (b : Nat) (as : List Act) : Rat :=
  (as.map fun a => match a with | .bond _ c dt => if c = b then dt else 0 | .site _ _ => 0).sum

/-- **Specification**: the total time by which the site `s` is evolved. -/
def siteTime (s : Nat) (as : List Act) : Rat :=
  (as.map fun a => match a with | .bond _ _ _ => 0 | .site c dt => if c = s then dt else 0).sum

/-- An evolution without the direction in which the centre moves afterwards. -/
def Act.undirected : Act → (Nat ⊕ Nat) × Rat
  | .bond _ b dt => (.inl b, dt)
  | .site s dt => (.inr s, dt)

theorem sum_pick (l : List Nat) (h : l.Nodup) (b : Nat) (x : Rat) :
    (l.map fun i => if i = b then x else 0).sum = if b ∈ l then x else 0 := by
  induction l with
  | nil => simp
  | cons a l ih =>
    rw [List.nodup_cons] at h
    rw [List.map_cons, List.sum_cons, ih h.2]
    by_cases hb : a = b
    · subst hb; simp [h.1]
    · simp [hb, show ¬ b = a from fun e => hb e.symm]

theorem sum_flat (l : List Nat) (f : Nat → List Act) (g : Act → Rat) :
    ((l.flatMap f).map g).sum = (l.map fun i => ((f i).map g).sum).sum := by
  induction l with
  | nil => rfl
  | cons a l ih => simp [List.flatMap_cons, ih]

/-- The two loops of the schedule in the same order. -/
theorem schedule_left (N : Nat) (tau : Rat) (hN : 3 ≤ N) :
    ((List.range' 2 (N - 2)).reverse.flatMap fun i =>
      [Act.bond .l (i - 1) (if i = N - 1 then tau else tau / 2), .site (i - 1) (-tau / 2)]) =
    (List.range' 1 (N - 2)).reverse.flatMap fun b => [Act.bond .l b (if b = N - 2 then tau else tau / 2), .site b (-tau / 2)] := by
  have : List.range' 2 (N - 2) = (List.range' 1 (N - 2)).map (· + 1) := by
    rw [show (fun x => x + 1) = (fun x => 1 + x) from funext fun x => Nat.add_comm x 1, List.map_add_range']
  rw [this, ← List.map_reverse, List.flatMap_map]
  simp only [Nat.add_sub_cancel]
  refine congrArg (fun f => List.flatMap f _) (funext fun b => ?_)
  by_cases h : b + 1 = N - 1
  · rw [if_pos h, if_pos (by omega)]
  · rw [if_neg h, if_neg (by omega)]

/-- **C29** (times). One TDVP sweep of at least three sites evolves every bond by exactly the time step `tau`, every
interior site by exactly `-tau` and the two end sites not at all. -/
theorem C29_times {N : Nat} (hN : 3 ≤ N) (tau : Rat) :
    (∀ b, b + 1 < N → bondTime b (tdvpSchedule N tau) = tau) ∧
    (∀ b, N ≤ b + 1 → bondTime b (tdvpSchedule N tau) = 0) ∧
    (∀ s, 0 < s → s + 1 < N → siteTime s (tdvpSchedule N tau) = -tau) ∧
    (∀ s, s = 0 ∨ N ≤ s + 1 → siteTime s (tdvpSchedule N tau) = 0) := by
  have hb : ∀ b, bondTime b (tdvpSchedule N tau) =
      (if b < N - 2 then tau / 2 else 0) + ((if 1 ≤ b ∧ b + 2 < N then tau / 2 else 0) + (if b = N - 2 then tau else 0)) +
        (if b = 0 then tau / 2 else 0) := by
    intro b
    unfold bondTime tdvpSchedule
    rw [schedule_left N tau hN, List.map_append, List.map_append, List.sum_append, List.sum_append, sum_flat, sum_flat]
    simp only [List.map_cons, List.map_nil, List.sum_cons, List.sum_nil, add_zero]
    rw [sum_pick _ List.nodup_range]
    congr 2
    · simp
    · have : (fun i => if i = b then (if i = N - 2 then tau else tau / 2) else 0) =
          fun i => if i = b then (if b = N - 2 then tau else tau / 2) else (0 : Rat) := by
        funext i; by_cases h : i = b <;> simp [h]
      rw [this, sum_pick _ ((List.reverse_perm _).nodup_iff.mpr List.nodup_range')]
      simp only [List.mem_reverse, List.mem_range'_1]
      by_cases h : b = N - 2
      · rw [if_pos (by omega), if_pos h, if_neg (by omega), if_pos h, zero_add]
      · rw [if_neg h, if_neg h, add_zero]
        by_cases h' : 1 ≤ b ∧ b + 2 < N
        · rw [if_pos (by omega), if_pos h']
        · rw [if_neg (by omega), if_neg h']
    · by_cases h : b = 0
      · subst h; simp
      · simp [h, show ¬ 0 = b by omega]
  have hs : ∀ s, siteTime s (tdvpSchedule N tau) =
      (if 1 ≤ s ∧ s + 1 < N then -tau / 2 else 0) + (if 1 ≤ s ∧ s + 1 < N then -tau / 2 else 0) := by
    intro s
    unfold siteTime tdvpSchedule
    rw [schedule_left N tau hN, List.map_append, List.map_append, List.sum_append, List.sum_append, sum_flat, sum_flat]
    simp only [List.map_cons, List.map_nil, List.sum_cons, List.sum_nil, add_zero, zero_add]
    rw [sum_pick _ ((List.reverse_perm _).nodup_iff.mpr List.nodup_range')]
    simp only [List.mem_reverse, List.mem_range'_1]
    congr 1
    · have : (List.range (N - 2)).map (fun i => if i + 1 = s then -tau / 2 else 0) =
          (List.range' 1 (N - 2)).map fun i => if i = s then -tau / 2 else 0 := by
        rw [show List.range' 1 (N - 2) = (List.range (N - 2)).map (· + 1) by
          rw [List.range_eq_range', show (fun x => x + 1) = (fun x => 1 + x) from funext fun x => Nat.add_comm x 1,
            List.map_add_range'], List.map_map]
        rfl
      rw [this, sum_pick _ List.nodup_range']
      simp only [List.mem_range'_1]
      by_cases h : 1 ≤ s ∧ s + 1 < N
      · rw [if_pos h, if_pos (by omega)]
      · rw [if_neg h, if_neg (by omega)]
    · by_cases h : 1 ≤ s ∧ s + 1 < N
      · rw [if_pos h, if_pos (by omega)]
      · rw [if_neg h, if_neg (by omega)]
  refine ⟨fun b h => ?_, fun b h => ?_, fun s h0 h => ?_, fun s h => ?_⟩
  · rw [hb]
    by_cases h1 : b = N - 2
    · rw [if_neg (by omega), if_neg (by omega), if_pos h1, if_neg (by omega)]; ring
    · by_cases h2 : b = 0
      · rw [if_pos (by omega), if_neg (by omega), if_neg h1, if_pos h2]; ring
      · rw [if_pos (by omega), if_pos (by omega), if_neg h1, if_neg h2]; ring
  · rw [hb, if_neg (by omega), if_neg (by omega), if_neg (by omega), if_neg (by omega)]; ring
  · rw [hs, if_pos (by omega)]; ring
  · rw [hs, if_neg (by omega)]; ring

theorem flatMap_rev_pairs {α : Type} (x y : Nat → α) (n : Nat) :
    ((List.range' 1 n).flatMap fun i => [x i, y i]) ++ [x (n + 1)] = x 1 :: ((List.range' 1 n).flatMap fun i => [y i, x (i + 1)]) := by
  induction n with
  | zero => rfl
  | succ n ih =>
    rw [List.range'_1_concat, List.flatMap_append, List.flatMap_append]
    simp only [List.flatMap_cons, List.flatMap_nil, List.append_nil, Nat.add_comm 1 n]
    have h2 : x 1 :: ((List.range' 1 n).flatMap (fun i => [y i, x (i + 1)]) ++ [y (n + 1), x (n + 1 + 1)]) =
      (((List.range' 1 n).flatMap fun i => [x i, y i]) ++ [x (n + 1)]) ++ [y (n + 1), x (n + 1 + 1)] := by rw [ih]; rfl
    rw [h2]
    simp [List.append_assoc]

/-- **C29** (symmetry). The sequence of evolutions of a sweep reads the same backwards. -/
theorem C29_symmetric {N : Nat} (hN : 3 ≤ N) (tau : Rat) :
    ((tdvpSchedule N tau).map Act.undirected).reverse = (tdvpSchedule N tau).map Act.undirected := by
  unfold tdvpSchedule
  rw [schedule_left N tau hN]
  obtain ⟨n, rfl⟩ : ∃ n, N = n + 3 := ⟨N - 3, by omega⟩
  simp only [show n + 3 - 2 = n + 1 by omega]
  let B : Nat → (Nat ⊕ Nat) × Rat := fun b => (.inl b, tau / 2)
  let S : Nat → (Nat ⊕ Nat) × Rat := fun s => (.inr s, -tau / 2)
  let C : (Nat ⊕ Nat) × Rat := (.inl (n + 1), tau)
  -- the first half without its first and last elements
  let M := (List.range' 1 n).flatMap fun i => [S i, B i]
  have e1 : (((List.range (n + 1)).flatMap fun i => [Act.bond .r i (tau / 2), .site (i + 1) (-tau / 2)]).map Act.undirected) =
      B 0 :: (M ++ [S (n + 1)]) := by
    rw [List.map_flatMap, List.range_eq_range', List.range'_succ, List.flatMap_cons]
    show B 0 :: S 1 :: ((List.range' 1 n).flatMap fun i => [B i, S (i + 1)]) = _
    have := flatMap_rev_pairs S B n
    exact congrArg (B 0 :: ·) this.symm
  have e2 : (((List.range' 1 (n + 1)).reverse.flatMap fun b =>
      [Act.bond .l b (if b = n + 1 then tau else tau / 2), .site b (-tau / 2)]).map Act.undirected) = C :: S (n + 1) :: M.reverse := by
    rw [List.map_flatMap, List.range'_1_concat, List.reverse_append, List.flatMap_append]
    simp only [List.reverse_cons, List.reverse_nil, List.nil_append, List.flatMap_cons, List.flatMap_nil, List.append_nil,
      Nat.add_comm 1 n, if_pos, List.map_cons, List.map_nil, List.cons_append]
    refine congrArg (C :: S (n + 1) :: ·) ?_
    show _ = ((List.range' 1 n).flatMap fun i => [S i, B i]).reverse
    rw [List.reverse_flatMap]
    refine congrArg List.flatten (List.map_congr_left fun b hb => ?_)
    rw [List.mem_reverse, List.mem_range'_1] at hb
    simp [Act.undirected, B, S, show ¬ b = n + 1 by omega]
  rw [List.map_append, List.map_append, e1, e2]
  show (((B 0 :: (M ++ [S (n + 1)])) ++ (C :: S (n + 1) :: M.reverse)) ++ [B 0]).reverse = _
  simp [List.reverse_append, List.append_assoc, Act.undirected, B]

example : (tdvpSchedule 4 1).map Act.undirected =
    [(.inl 0, 1/2), (.inr 1, -1/2), (.inl 1, 1/2), (.inr 2, -1/2), (.inl 2, 1), (.inr 2, -1/2), (.inl 1, 1/2), (.inr 1, -1/2),
      (.inl 0, 1/2)] := by decide +kernel

/-! ### C30 -/

/-- What a crash during the sweep leaves: as in the other sweeps, or an incomplete file of the first site. -/
def AfterT (A : Alg T E) (N : Nat) (d : Dsk T E) : Prop := AfterW A (geoT N) d ∨ d.m 0 = .junk

/-- **Specification**: the environments the TDVP sweep starts with: the left one of no sites and the right ones of
`0 … N-2` sites. -/
structure EnvReadyT (A : Alg T E) (N : Nat) (ψ : Nat → T) (d : Dsk T E) : Prop where
  l : d.l 0 = .whole (A.lenv ψ 0)
  r : ∀ k, k + 2 ≤ N → d.r k = .whole (A.renv N ψ k)

theorem EnvReadyT.geo {A : Alg T E} {N : Nat} {ψ : Nat → T} {d : Dsk T E} (h : EnvReadyT A N ψ d) :
    EnvReadyW A (geoT N) ψ d := ⟨h.l, fun k _ h2 => h.r k (by simp only [geoT] at h2; omega)⟩

/-- One sweep, with its crash points. -/
theorem sweepTM_thru {A : Alg T E} {B B' : Evo T E} (H : B.Legs A) (H' : B'.Legs A) {N : Nat} (hN : 3 ≤ N) (tau : Rat) {ψ : Nat → T} {d : Dsk T E}
    {mem : Mem T E} (hm : OnDisk N ψ d) (he : EnvReadyT A N ψ d) :
    Thru N (N - 1) (sweepTM A B N B' tau) ⟨mem, d⟩ (AfterT A N) (fun s' =>
      OnDisk N (stepM A B B' N tau ψ) s'.dsk ∧ NoTensors s'.mem mem.clk ∧
      EnvReadyT A N (stepM A B B' N tau ψ) s'.dsk ∧
      (∀ j, 0 < j → s'.dsk.l j = if j + 2 ≤ N then .gone else d.l j) ∧ (∀ j, N ≤ j + 1 → s'.dsk.r j = d.r j)) := by
  have ok := geoT_ok hN
  have hA : AfterW A (geoT N) d := Or.inr (Or.inl ⟨ψ, hm, he.geo⟩)
  rw [sweepT_eq hN, stepM, tdvp_all hN (ψ, mem.clk)]
  refine Thru.calc rfl (Or.inl hA) (Thru.ldM (t := ψ 1) (by omega) (hm 1 (by omega)) (Or.inl hA) ?_)
  refine loopsW_thru ok (kernT_ok H hN) (ψ := (ψ, mem.clk)) (fl := d.l) (fr := d.r) ?_ (fun d h => Or.inl h) fun s1 i1 => ?_
  · have hst := startW_of ok (A := A) (g := geoT N) hm he.geo (reg := mem.reg) (clk := mem.clk)
    refine ⟨?_, rfl, rfl, rfl, hst.d⟩
    simp only [geoT]
    funext j
    by_cases h : j = 1
    · subst h; rw [wnd_in (by omega) (by omega)]; simp
    · rw [wnd_out (by omega)]; simp [h]
  · have hc : (optSweepW (geoT N) (kernT A B N tau) (ψ, mem.clk)).2 = mem.clk := optSweepT_clk _
    generalize optSweepW (geoT N) (kernT A B N tau) (ψ, mem.clk) = φ at i1 hc ⊢
    have i1m : s1.mem.m = wnd 1 2 φ.1 := i1.m
    have i1r : s1.mem.r = one (N - 2) (A.renv N φ.1 (N - 2)) := i1.r
    have i1d : DskW A (geoT N) (trimW (geoT N) d.l) d.r φ.1 1 2 0 2 s1.dsk := i1.d
    have i1A : AfterT A N s1.dsk := Or.inl (i1d.after ok)
    refine Thru.ldM (t := φ.1 0) (by simp only [geoT]; omega) (i1d.m 0 (by simp only [geoT]; omega) (by omega)) i1A ?_
    refine Thru.ldL (t := A.lenv φ.1 0) (by simp only [geoT]; omega)
      ((i1d.l 0).trans (if_pos (by simp only [geoT]; omega))) i1A ?_
    rw [i1m, wnd_addLo (by omega)]
    generalize hχ : (Act.bond .r 0 (tau / 2)).apply A B' N φ.1 = χ
    refine Thru.calc (tdvp2R_ok (B := B') (e := A.lenv φ.1 0) (f := A.renv N φ.1 (N - 2)) (t := φ.1 0) (u := φ.1 1) (by omega) (by omega)
      (by omega) (by simp) (by simp only [i1r]; simp [one]) (wnd_in (a := 0) (b := 2) (j := 0) (by omega) (by omega))
      (wnd_in (a := 0) (b := 2) (j := 1) (by omega) (by omega))) i1A ?_
    have hw := wnd_bond (A := A) (B := B') (N := N) φ.1 .r 0 (tau / 2)
    rw [hχ] at hw
    simp only [Nat.zero_add] at hw ⊢
    rw [hw]
    -- the files as those of the new MPS
    have d1 : DskW A (geoT N) (trimW (geoT N) d.l) d.r χ 0 2 0 2 s1.dsk := by
      refine (i1d.widen (e := 0) (e' := 2) (by omega) (by omega)).change (fun j hj => ?_) ?_ ?_ (by omega) (by omega)
      · rw [← hχ]; exact bond_at _ _ _ _ _ (by omega) (by omega)
      · rw [← hχ]; exact bond_tl H' _ _ _ _
      · rw [← hχ]; exact bond_tr H' _ _ _ _ (by omega)
    have d2 := d1.putLo
    have d3 := DskW.putHi (c' := 1) d2
    refine Thru.dpM (t := χ 0) (by simp only [geoT]; omega) (wnd_in (a := 0) (b := 2) (j := 0) (by omega) (by omega)) i1A (Or.inr (by simp)) ?_
    refine Thru.dpM (t := χ 1) (by simp only [geoT]; omega) (by simp only [wnd_cutLo]; exact wnd_in (a := 1) (b := 2) (j := 1) (by omega) (by omega))
      (Or.inl (d2.after ok)) (Or.inl (Or.inr (Or.inr ⟨1, by simp [geoT], by simp [geoT], by simp⟩))) ?_
    have d4 : DskW A (geoT N) (trimW (geoT N) d.l) d.r χ 1 2 0 2 _ := d3.widen (by omega) (by omega)
    refine Thru.frL (by simp only [geoT]; omega) (Or.inl (d4.after ok)) (Thru.frL (by simp only [geoT]; omega) (Or.inl (d4.after ok))
      (Thru.frR (by simp only [geoT]; omega) (Or.inl (d4.after ok)) (Thru.calc rfl (Or.inl (d4.after ok))
      (Thru.nil ?_ (Or.inl (d4.after ok))))))
    refine ⟨fun j hj => d3.m j hj (by omega), ⟨rfl, rfl, rfl, ?_⟩, ⟨?_, fun k hk => ?_⟩, fun j hj => ?_, fun j hj => ?_⟩
    · exact i1.clk.trans hc
    · exact (d3.l 0).trans (if_pos (by simp only [geoT]; omega))
    · exact (d3.r k).trans (if_pos (by simp only [geoT]; omega))
    · refine (d3.l j).trans ?_
      rw [if_neg (by simp only [geoT]; omega), trimW]
      by_cases h : j + 2 ≤ N
      · rw [if_pos (by simp only [geoT]; omega), if_pos h]
      · rw [if_neg (by simp only [geoT]; omega), if_neg h]
    · refine (d3.r j).trans ?_
      rw [if_neg (by simp only [geoT]; omega), if_neg (by simp only [geoT]; omega)]

/-- One sweep of the serial version. -/
theorem sweepT_thru {A : Alg T E} {B : Evo T E} (H : B.Legs A) {N : Nat} (hN : 3 ≤ N) (tau : Rat) {ψ : Nat → T} {d : Dsk T E}
    {mem : Mem T E} (hm : OnDisk N ψ d) (he : EnvReadyT A N ψ d) :
    Thru N (N - 1) (sweepT A B N tau) ⟨mem, d⟩ (AfterT A N) (fun s' =>
      OnDisk N (Act.all A B N ψ (tdvpSchedule N tau)) s'.dsk ∧ NoTensors s'.mem mem.clk ∧
      EnvReadyT A N (Act.all A B N ψ (tdvpSchedule N tau)) s'.dsk ∧
      (∀ j, 0 < j → s'.dsk.l j = if j + 2 ≤ N then .gone else d.l j) ∧ (∀ j, N ≤ j + 1 → s'.dsk.r j = d.r j)) := by
  have := sweepTM_thru H H hN tau (mem := mem) hm he
  rw [stepM_self] at this
  exact this

/-- Any number of sweeps. -/
theorem sweepsTM_thru {A : Alg T E} {B B' : Evo T E} (H : B.Legs A) (H' : B'.Legs A) {N : Nat} (hN : 3 ≤ N) (tau : Rat) (clk : Nat) :
    ∀ (k : Nat) {ψ : Nat → T} {d : Dsk T E} {mem : Mem T E}, NoTensors mem clk → OnDisk N ψ d → EnvReadyT A N ψ d →
    Thru N (N - 1) (List.replicate k (sweepTM A B N B' tau)).flatten ⟨mem, d⟩ (AfterT A N) (fun s' =>
      OnDisk N (stepsM A B B' N tau k ψ) s'.dsk ∧ NoTensors s'.mem clk ∧ EnvReadyT A N (stepsM A B B' N tau k ψ) s'.dsk ∧
      (∀ j, 0 < j → s'.dsk.l j = if k ≠ 0 ∧ j + 2 ≤ N then .gone else d.l j) ∧ (∀ j, N ≤ j + 1 → s'.dsk.r j = d.r j))
  | 0, ψ, d, mem, hn, hm, he => .nil ⟨hm, hn, he, fun j _ => by simp, fun _ _ => rfl⟩ (Or.inl (Or.inr (Or.inl ⟨ψ, hm, he.geo⟩)))
  | k + 1, ψ, d, mem, hn, hm, he => by
    rw [List.replicate_succ, List.flatten_cons]
    refine (sweepTM_thru H H' hN tau hm he).append fun s1 ⟨h1, h2, h3, h4, h5⟩ => ?_
    refine (sweepsTM_thru H H' hN tau clk k (d := s1.dsk) (by rw [hn.clk] at h2; exact h2) h1 h3).mono (fun _ h => h)
      fun s2 ⟨g1, g2, g3, g4, g5⟩ => ⟨g1, g2, g3, fun j hj => ?_, fun j hj => ?_⟩
    · rw [g4 j hj, h4 j hj]
      by_cases h : j + 2 ≤ N
      · rw [if_pos h, if_pos (show k + 1 ≠ 0 ∧ j + 2 ≤ N from ⟨by omega, h⟩)]; simp
      · rw [if_neg (fun x => h x.2), if_neg h, if_neg (fun x => h x.2)]
    · rw [g5 j hj, h5 j hj]

theorem initEnvsT {A : Alg T E} {N : Nat} (hN : 3 ≤ N) {clk : Nat} {ψ : Nat → T} {d : Dsk T E} (hm : OnDisk N ψ d) :
    ∃ s', run N (N - 1) (initEnvs A N 1) ⟨Mem.blank clk, d⟩ = .ok s' ∧ NoTensors s'.mem clk ∧ OnDisk N ψ s'.dsk ∧
      EnvReadyT A N ψ s'.dsk ∧ (∀ j, j ≠ 0 → s'.dsk.l j = d.l j) ∧ (∀ j, N ≤ j → s'.dsk.r j = d.r j) ∧
      s'.dsk.r (N - 1) = .whole (A.renv N ψ (N - 1)) := by
  obtain ⟨s', hr, e1, e2, e3, e4, e5⟩ := initEnvs_ok (A := A) (n := N - 1) (s0 := ⟨Mem.blank clk, d⟩) hm rfl (show 1 < N by omega)
  refine ⟨s', hr, ⟨e1, e2, e3, e4⟩, ?_, ⟨?_, fun k g1 => ?_⟩, fun j hj => ?_, fun j hj => ?_, ?_⟩
  · rw [e5]; exact hm
  · rw [e5]; simp
  · rw [e5]; simp only []; rw [if_pos (by omega)]
  · rw [e5]; simp only [Function.update_of_ne hj]
  · rw [e5]; simp only []; rw [if_neg (by omega)]
  · rw [e5]; simp only []; rw [if_pos (by omega)]

/-- **C30** (MPI). As `C30_tdvp` below for the master of the MPI version, whose evolutions are `B`, except the last of each step, which is `B'`: `TwoSiteFiniteTDVP` on at least three sites, after the initial operator, for any number of time steps: no
load misses its file, no null pointer is used and no index is out of range. The files of all sites are then those of the
MPS obtained by the evolutions of the schedule in order, each in the exact environments of the current MPS; nothing is
left in memory. The right environments of `0 … N-2` sites and the left one of no sites are those of the new MPS, the left
environments of `1 … N-2` sites are removed. The initialisation also leaves the right environment of `N-1` sites of the
initial MPS, which is never updated or removed. -/
theorem C30_tdvp_mpi {A : Alg T E} {B B' : Evo T E} (H : B.Legs A) (H' : B'.Legs A) {N : Nat} (hN : 3 ≤ N) (tau : Rat) (k clk : Nat) {ψ : Nat → T}
    {d : Dsk T E} (hm : OnDisk N ψ d) :
    ∃ s', run N (N - 1) (tdvpM A B N B' tau k) ⟨Mem.blank clk, d⟩ = .ok s' ∧
      OnDisk N (stepsM A B B' N tau k ψ) s'.dsk ∧ NoTensors s'.mem clk ∧ EnvReadyT A N (stepsM A B B' N tau k ψ) s'.dsk ∧
      (∀ j, 0 < j → j + 2 ≤ N → s'.dsk.l j = if k = 0 then d.l j else .gone) ∧
      s'.dsk.r (N - 1) = .whole (A.renv N ψ (N - 1)) ∧ (∀ j, N ≤ j → s'.dsk.r j = d.r j) ∧
      (∀ j, N ≤ j + 1 → s'.dsk.l j = d.l j) := by
  obtain ⟨s1, r1, h1, h2, h3, h4, h5, h6⟩ := initEnvsT (A := A) hN (clk := clk) hm
  obtain ⟨⟨s2, r2, g1, g2, g3, g4, g5⟩, -⟩ := sweepsTM_thru H H' hN tau clk k h1 h2 h3
  refine ⟨s2, by rw [tdvpM, run_append, r1]; exact r2, g1, g2, g3, fun j hj hj' => ?_, ?_, fun j hj => ?_, fun j hj => ?_⟩
  · rw [g4 j hj]
    by_cases hk : k = 0
    · rw [if_neg (by omega), if_pos hk, h4 j (by omega)]
    · rw [if_pos ⟨hk, hj'⟩, if_neg hk]
  · rw [g5 _ (by omega), h6]
  · rw [g5 _ (by omega), h5 j hj]
  · rw [g4 j (by omega), if_neg (by omega), h4 j (by omega)]

/-- **C30** (crash, MPI). Whenever a run of time steps is killed, if the tensor files are all complete then every complete
right environment on disk is that of the tensors on disk. -/
theorem C30_no_stale_environment_mpi {A : Alg T E} {B B' : Evo T E} (H : B.Legs A) (H' : B'.Legs A) {N : Nat} (hN : 3 ≤ N) (tau : Rat) (k clk : Nat)
    {ψ : Nat → T} {d d' : Dsk T E} (hm : OnDisk N ψ d) (he : EnvReadyT A N ψ d)
    (hc : Crash N (N - 1) (List.replicate k (sweepTM A B N B' tau)).flatten ⟨Mem.blank clk, d⟩ d') {ψ' : Nat → T} (hm' : OnDisk N ψ' d') :
    d'.l 0 = .whole (A.lenv ψ' 0) ∧ ∀ j e, j + 2 ≤ N → d'.r j = .whole e → e = A.renv N ψ' j := by
  rcases (sweepsTM_thru H H' hN tau clk k (blank_noTensors clk) hm he).2 _ hc with h | h
  · obtain ⟨h1, h2⟩ := h.consistent (geoT_ok hN) (ψ := ψ') hm'
    exact ⟨h1, fun k e hk he => h2 k e (by simp only [geoT]; omega) (by simp only [geoT]; omega) he⟩
  · rw [hm' 0 (by omega)] at h
    exact absurd h (by simp)

/-- **C30**. `TwoSiteFiniteTDVP` on at least three sites, after the initial operator, for any number of time steps: no
load misses its file, no null pointer is used and no index is out of range. The files of all sites are then those of the
MPS obtained by the evolutions of the schedule in order, each in the exact environments of the current MPS; nothing is
left in memory. The right environments of `0 … N-2` sites and the left one of no sites are those of the new MPS, the left
environments of `1 … N-2` sites are removed. The initialisation also leaves the right environment of `N-1` sites of the
initial MPS, which is never updated or removed. -/
theorem C30_tdvp {A : Alg T E} {B : Evo T E} (H : B.Legs A) {N : Nat} (hN : 3 ≤ N) (tau : Rat) (k clk : Nat) {ψ : Nat → T}
    {d : Dsk T E} (hm : OnDisk N ψ d) :
    ∃ s', run N (N - 1) (tdvp A B N tau k) ⟨Mem.blank clk, d⟩ = .ok s' ∧
      OnDisk N (tdvpSteps A B N tau k ψ) s'.dsk ∧ NoTensors s'.mem clk ∧ EnvReadyT A N (tdvpSteps A B N tau k ψ) s'.dsk ∧
      (∀ j, 0 < j → j + 2 ≤ N → s'.dsk.l j = if k = 0 then d.l j else .gone) ∧
      s'.dsk.r (N - 1) = .whole (A.renv N ψ (N - 1)) ∧ (∀ j, N ≤ j → s'.dsk.r j = d.r j) ∧
      (∀ j, N ≤ j + 1 → s'.dsk.l j = d.l j) := by
  have := C30_tdvp_mpi H H hN tau k clk hm
  rw [stepsM_self] at this
  exact this

/-- **C30** (crash). Whenever a run of time steps is killed, if the tensor files are all complete then every complete
right environment on disk is that of the tensors on disk. -/
theorem C30_no_stale_environment {A : Alg T E} {B : Evo T E} (H : B.Legs A) {N : Nat} (hN : 3 ≤ N) (tau : Rat) (k clk : Nat)
    {ψ : Nat → T} {d d' : Dsk T E} (hm : OnDisk N ψ d) (he : EnvReadyT A N ψ d)
    (hc : Crash N (N - 1) (List.replicate k (sweepT A B N tau)).flatten ⟨Mem.blank clk, d⟩ d') {ψ' : Nat → T} (hm' : OnDisk N ψ' d') :
    d'.l 0 = .whole (A.lenv ψ' 0) ∧ ∀ j e, j + 2 ≤ N → d'.r j = .whole e → e = A.renv N ψ' j :=
  C30_no_stale_environment_mpi H H hN tau k clk hm he hc hm'

/-- **C30** (two sites). With two sites the sweep uses a null pointer. -/
theorem C30_two_sites_violation (A : Alg T E) (B : Evo T E) (tau : Rat) (clk : Nat) {ψ : Nat → T} {d : Dsk T E} (hm : OnDisk 2 ψ d)
    (he : EnvReadyT A 2 ψ d) : run 2 1 (sweepT A B 2 tau) ⟨Mem.blank clk, d⟩ = .error .ub := by
  have h0 := hm 0 (by omega)
  have h1 := hm 1 (by omega)
  have hl := he.l
  simp [sweepT, run, exec, freshAll, lastT, h0, h1, hl, File.get, bind, Except.bind, pure, Except.pure, tdvp2R]

/-- A concrete evolution: the versions record the position and, in half steps, the duration. -/
def exEvo : Evo Nat (List Nat) where
  ev2 _ dt i _ _ t u := (t + 100 + (2 * dt).num.toNat, u + 100 * (i + 2) + (2 * dt).num.toNat)
  ev1 _ _ _ _ t := t + 1000

theorem exEvo_legs : exEvo.Legs exAlg := ⟨fun _ _ _ _ _ _ _ => rfl, fun _ _ _ _ _ _ _ => rfl⟩

/-- Concretely: three sites, one time step. -/
example : ((List.range 3).map (tdvpSteps exAlg exEvo 3 1 1 (fun j => j)) = [202, 2505, 304]) ∧
    (run 3 2 (tdvp exAlg exEvo 3 1 1) ⟨Mem.blank 0, exDsk⟩).toOption.map (fun s => shot s.dsk 4) =
      some ([.whole 202, .whole 2505, .whole 304, .whole 3], [.whole [], .gone, .gone, .gone],
        [.whole [], .whole [304], .whole [1, 2], .gone]) := by decide +kernel

end Verif.Props
