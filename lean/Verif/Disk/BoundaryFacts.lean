import Mathlib.Data.List.Nodup
import Verif.Disk.Boundary
import Verif.Disk.TwoSiteFacts
/-
Facts about `FiniteVMPSInit`.
-/
namespace Verif.Disk

variable {T E : Type}

/-! ### The boundary sites -/

theorem lbOf_lt (brk : Nat → Bool) {N : Nat} (hN : 3 ≤ N) : lbOf brk N < midL N := by
  have h : 1 ≤ midL N := by unfold midL; split <;> omega
  unfold lbOf
  cases hf : (List.range (midL N)).find? brk with
  | none => simp only [Option.getD_none]; omega
  | some i => simpa using List.mem_of_find?_eq_some hf

theorem rightSites_ne {N : Nat} (hN : 3 ≤ N) : rightSites N ≠ [] := by
  unfold rightSites midR
  obtain ⟨n, hn⟩ : ∃ n, N - 1 - N / 2 = n + 1 := ⟨N - 2 - N / 2, by omega⟩
  rw [hn, List.range'_succ]
  simp

theorem mem_rightSites {N i : Nat} : i ∈ rightSites N ↔ midR N < i ∧ i < N := by
  unfold rightSites midR
  rw [List.mem_reverse, List.mem_range'_1]
  omega

theorem rbOf_mem (brk : Nat → Bool) {N : Nat} (hN : 3 ≤ N) : midR N < rbOf brk N ∧ rbOf brk N < N := by
  unfold rbOf
  rw [if_neg (rightSites_ne hN)]
  cases hf : (rightSites N).find? brk with
  | none => simp only [Option.getD_none, midR]; omega
  | some i => exact mem_rightSites.mp (List.mem_of_find?_eq_some hf)

theorem bounds_ok (bl br : Nat → Bool) {N : Nat} (hN : 3 ≤ N) :
    lbOf bl N + 2 ≤ rbOf br N ∧ rbOf br N < N := by
  have h1 := lbOf_lt bl hN
  have h2 := rbOf_mem br hN
  unfold midL at h1
  unfold midR at h2
  split at h1 <;> omega

/-! ### The check of the boundary tensors -/

theorem Does.assertEmpty {N n : Nat} {ops : List (Op T E)} {s : Sys T E} {P : Sys T E → Prop} (h : s.mem.m = fun _ => none)
    (k : Does N n ops s P) : Does N n (.calc (Disk.assertEmpty N) :: ops) s P :=
  .calc (by unfold Disk.assertEmpty; rw [if_pos (by simp [h])]) k

theorem dumpAll_ok {N n : Nat} {φ : Nat → T} : ∀ (js : List Nat) {s : Sys T E}, js.Nodup → (∀ j, j ∈ js → j < N) →
    (∀ j, j ∈ js → s.mem.m j = some (φ j)) →
    Does N n (js.map fun j => .dpM j true) s (fun s' =>
      s' = ⟨{ s.mem with m := fun j => if j ∈ js then none else s.mem.m j },
        { s.dsk with m := fun j => if j ∈ js then .whole (φ j) else s.dsk.m j }⟩)
  | [], s, _, _, _ => .nil (by simp)
  | j :: js, s, hn, hN, hm => by
    obtain ⟨hj, hn⟩ := List.nodup_cons.mp hn
    refine .dpM (hN j (by simp)) (hm j (by simp)) ?_
    refine (dumpAll_ok (φ := φ) js hn (fun i hi => hN i (by simp [hi])) (fun i hi => ?_)).mono fun s' hs' => ?_
    · have : i ≠ j := fun h => hj (h ▸ hi)
      simp only [Function.update_of_ne this]
      exact hm i (by simp [hi])
    · rw [hs']
      simp only [Sys.mk.injEq, Mem.mk.injEq, Dsk.mk.injEq, and_true]
      refine ⟨?_, ?_⟩ <;> funext i
      · by_cases h : i = j
        · subst h; simp
        · simp [h]
      · by_cases h : i = j
        · subst h; simp [hj]
        · simp [h]

theorem gaugeL_at (G : Gauge T) (ψ : Nat → T) {i j : Nat} (h1 : j ≠ i) (h2 : j ≠ i + 1) : gaugeL G ψ i j = ψ j := by
  simp [gaugeL, Function.update, h1, h2]

theorem gaugeR_at (G : Gauge T) (ψ : Nat → T) {i j : Nat} (h1 : j ≠ i) (h2 : j ≠ i - 1) : gaugeR G ψ i j = ψ j := by
  simp [gaugeR, Function.update, h1, h2]

theorem loopL_ok {N n : Nat} (G : Gauge T) {ψ : Nat → T} {d : Dsk T E} (hd : ∀ j, j < N → d.m j = .whole (ψ j)) :
    ∀ (k : Nat) {i : Nat} {φ : Nat → T} {m0 : Mem T E}, i + k < N → (∀ j, i < j → φ j = ψ j) →
    m0.m = (fun j => if j ≤ i then some (φ j) else none) →
    Does N n ((List.range' i k).flatMap (fun i => [.ldM (i + 1), .calc (canL G i)])) ⟨m0, d⟩ (fun s' =>
      s' = ⟨{ m0 with m := fun j => if j ≤ i + k then some ((List.range' i k).foldl (gaugeL G) φ j) else none }, d⟩)
  | 0, i, φ, ⟨m, l, r, reg, clk⟩, _, _, hm => .nil (by simp only at hm; subst hm; simp)
  | k + 1, i, φ, m0, hN, hφ, hm => by
    rw [List.range'_succ, List.flatMap_cons]
    simp only [List.cons_append, List.nil_append, List.foldl_cons]
    refine .ldM (by omega) (hd (i + 1) (by omega)) ?_
    have hc : canL G i { m0 with m := Function.update m0.m (i + 1) (some (ψ (i + 1))) } =
        .ok { m0 with m := fun j => if j ≤ i + 1 then some (gaugeL G φ i j) else none } := by
      simp only [canL, hm, Function.update_self, Function.update_of_ne (show i ≠ i + 1 by omega), use, bind, Except.bind, pure,
        Except.pure, if_pos (Nat.le_refl i), Except.ok.injEq, Mem.mk.injEq, and_true]
      funext j
      simp only [gaugeL, Function.update, hφ (i + 1) (by omega)]
      by_cases h1 : j = i + 1
      · subst h1; simp
      · by_cases h2 : j = i
        · subst h2; simp
        · simp only [h1, h2, dite_false]
          by_cases h3 : j ≤ i
          · rw [if_pos h3, if_pos (by omega)]
          · rw [if_neg h3, if_neg (by omega)]
    refine .calc hc ?_
    refine (loopL_ok G hd k (i := i + 1) (φ := gaugeL G φ i) (by omega) (fun j hj => ?_) rfl).mono fun s' hs' => ?_
    · rw [gaugeL_at G φ (by omega) (by omega)]; exact hφ j (by omega)
    · rw [hs', show i + 1 + k = i + (k + 1) by omega]

theorem foldL_at (G : Gauge T) {lb : Nat} : ∀ (k : Nat) {i : Nat} {φ : Nat → T} {j : Nat}, i + k < j →
    (List.range' i k).foldl (gaugeL G) φ j = φ j
  | 0, _, _, _, _ => rfl
  | k + 1, i, φ, j, h => by
    rw [List.range'_succ, List.foldl_cons, foldL_at G (lb := lb) k (by omega), gaugeL_at G φ (by omega) (by omega)]

/-- The left half. -/
theorem checkL_ok {N n lb : Nat} (G : Gauge T) {ψ : Nat → T} {s : Sys T E} (h : lb + 1 < N)
    (hd : ∀ j, j < N → s.dsk.m j = .whole (ψ j)) (hm : s.mem.m = fun _ => none) :
    Does N n (checkL G (lb + 1) lb) s (fun s' => s'.mem = s.mem ∧ s'.dsk.l = s.dsk.l ∧ s'.dsk.r = s.dsk.r ∧
      ∀ j, j < N → s'.dsk.m j = .whole ((List.range (lb + 1)).foldl (gaugeL G) ψ j)) := by
  unfold checkL
  rw [List.range_eq_range']
  refine .ldM (by omega) (hd 0 (by omega)) ?_
  refine Does.append (loopL_ok G hd (lb + 1) (i := 0) (φ := ψ) (by omega) (fun _ _ => rfl) ?_) fun s1 h1 => ?_
  · funext j; simp only [hm, Function.update]
    by_cases hj : j = 0
    · subst hj; simp
    · simp [hj]
  subst h1
  refine (dumpAll_ok (φ := (List.range' 0 (lb + 1)).foldl (gaugeL G) ψ) (List.range (lb + 2)) List.nodup_range
    (fun j hj => ?_) (fun j hj => ?_)).mono fun s' hs' => ?_
  · rw [List.mem_range] at hj; omega
  · rw [List.mem_range] at hj; simp only []; rw [if_pos (by omega)]
  subst hs'
  refine ⟨?_, rfl, rfl, fun j hj => ?_⟩
  · obtain ⟨⟨m, l, r, reg, clk⟩, ds⟩ := s
    simp only at hm
    subst hm
    simp only [Mem.mk.injEq, and_true]
    funext j
    by_cases hj : j ∈ List.range (lb + 2)
    · rw [if_pos hj]
    · rw [if_neg hj, if_neg (by rw [List.mem_range] at hj; omega)]
  · simp only []
    by_cases h1 : j ∈ List.range (lb + 2)
    · rw [if_pos h1]
    · rw [if_neg h1, hd j hj, foldL_at G (lb := lb) (lb + 1) (by rw [List.mem_range] at h1; omega)]

theorem loopR_ok {N n : Nat} (G : Gauge T) {ψ : Nat → T} {d : Dsk T E} (hd : ∀ j, j < N → d.m j = .whole (ψ j)) :
    ∀ (k : Nat) {i : Nat} {φ : Nat → T} {m0 : Mem T E}, 1 ≤ i → i + k < N + 1 → (∀ j, j + 1 < i + k → φ j = ψ j) →
    m0.m = (fun j => if i + k ≤ j + 1 ∧ j < N then some (φ j) else none) →
    Does N n ((List.range' i k).reverse.flatMap (fun i => [.ldM (i - 1), .calc (canR G i)])) ⟨m0, d⟩ (fun s' =>
      s' = ⟨{ m0 with m := fun j => if i ≤ j + 1 ∧ j < N then some ((List.range' i k).reverse.foldl (gaugeR G) φ j) else none }, d⟩)
  | 0, i, φ, ⟨m, l, r, reg, clk⟩, _, _, _, hm => .nil (by simp only at hm; subst hm; simp)
  | k + 1, i, φ, m0, hi, hN, hφ, hm => by
    rw [List.range'_1_concat, List.reverse_append]
    simp only [List.reverse_cons, List.reverse_nil, List.nil_append, List.cons_append, List.flatMap_cons, List.foldl_cons]
    refine .ldM (by omega) (hd (i + k - 1) (by omega)) ?_
    have hc : canR G (i + k) { m0 with m := Function.update m0.m (i + k - 1) (some (ψ (i + k - 1))) } =
        .ok { m0 with m := fun j => if i + k ≤ j + 1 ∧ j < N then some (gaugeR G φ (i + k) j) else none } := by
      simp only [canR, hm, Function.update_self, Function.update_of_ne (show i + k ≠ i + k - 1 by omega), use, bind, Except.bind, pure,
        Except.pure]
      rw [if_pos (by omega)]
      simp only [Except.ok.injEq, Mem.mk.injEq, and_true]
      funext j
      simp only [gaugeR, Function.update, hφ (i + k - 1) (by omega)]
      by_cases h1 : j = i + k
      · subst h1; simp; omega
      · by_cases h2 : j = i + k - 1
        · subst h2
          simp only [h1, dite_false, dite_true]; rw [if_pos (by omega)]
        · simp only [h1, h2, dite_false]
          by_cases h3 : i + (k + 1) ≤ j + 1 ∧ j < N
          · rw [if_pos h3, if_pos (by omega)]
          · rw [if_neg h3, if_neg (by omega)]
    refine .calc hc ?_
    refine (loopR_ok G hd k (i := i) (φ := gaugeR G φ (i + k)) hi (by omega) (fun j hj => ?_) rfl).mono fun s' hs' => ?_
    · rw [gaugeR_at G φ (by omega) (by omega)]; exact hφ j (by omega)
    · rw [hs']

theorem foldR_at (G : Gauge T) : ∀ (k : Nat) {i : Nat} {φ : Nat → T} {j : Nat}, j + 1 < i →
    (List.range' i k).reverse.foldl (gaugeR G) φ j = φ j
  | 0, _, _, _, _ => rfl
  | k + 1, i, φ, j, h => by
    rw [List.range'_1_concat, List.reverse_append]
    simp only [List.reverse_cons, List.reverse_nil, List.nil_append, List.cons_append, List.foldl_cons]
    rw [foldR_at G k h, gaugeR_at G φ (by omega) (by omega)]

/-- The right half. -/
theorem checkR_ok {N n rb : Nat} (G : Gauge T) {ψ : Nat → T} {s : Sys T E} (h0 : 1 ≤ rb) (h : rb < N)
    (hd : ∀ j, j < N → s.dsk.m j = .whole (ψ j)) (hm : s.mem.m = fun _ => none) :
    Does N n (checkR G N rb) s (fun s' => s'.mem = s.mem ∧ s'.dsk.l = s.dsk.l ∧ s'.dsk.r = s.dsk.r ∧
      ∀ j, j < N → s'.dsk.m j = .whole ((List.range' rb (N - rb)).reverse.foldl (gaugeR G) ψ j)) := by
  unfold checkR
  rw [if_neg (by omega), if_neg (by omega)]
  refine .ldM (by omega) (hd (N - 1) (by omega)) ?_
  refine Does.append (loopR_ok G hd (N - rb) (i := rb) (φ := ψ) h0 (by omega) (fun _ _ => rfl) ?_) fun s1 h1 => ?_
  · funext j; simp only [hm, Function.update]
    by_cases hj : j = N - 1
    · subst hj; simp; omega
    · simp [hj]; omega
  subst h1
  refine (dumpAll_ok (φ := (List.range' rb (N - rb)).reverse.foldl (gaugeR G) ψ) (List.range' (rb - 1) (N + 1 - rb)).reverse
    (List.nodup_reverse.mpr (List.nodup_range' ..)) (fun j hj => ?_) (fun j hj => ?_)).mono fun s' hs' => ?_
  · rw [List.mem_reverse, List.mem_range'_1] at hj; omega
  · rw [List.mem_reverse, List.mem_range'_1] at hj; simp only []; rw [if_pos (by omega)]
  subst hs'
  refine ⟨?_, rfl, rfl, fun j hj => ?_⟩
  · obtain ⟨⟨m, l, r, reg, clk⟩, ds⟩ := s
    simp only at hm
    subst hm
    simp only [Mem.mk.injEq, and_true]
    funext j
    by_cases hj : j ∈ (List.range' (rb - 1) (N + 1 - rb)).reverse
    · rw [if_pos hj]
    · rw [if_neg hj, if_neg (by rw [List.mem_reverse, List.mem_range'_1] at hj; omega)]
  · simp only []
    by_cases h1 : j ∈ (List.range' (rb - 1) (N + 1 - rb)).reverse
    · rw [if_pos h1]
    · rw [if_neg h1, hd j hj, foldR_at G (N - rb) (by rw [List.mem_reverse, List.mem_range'_1] at h1; omega)]

theorem checkBoundary_ok {N n : Nat} (G : Gauge T) (bl br : Nat → Bool) (hN : 3 ≤ N) {ψ : Nat → T} {s : Sys T E}
    (hd : ∀ j, j < N → s.dsk.m j = .whole (ψ j)) (hm : s.mem.m = fun _ => none) :
    Does N n (checkBoundary G bl br N) s (fun s' => s'.mem = s.mem ∧ s'.dsk.l = s.dsk.l ∧ s'.dsk.r = s.dsk.r ∧
      ∀ j, j < N → s'.dsk.m j = .whole (gauged G N (lbOf bl N) (rbOf br N) ψ j)) := by
  obtain ⟨b1, b2⟩ := bounds_ok bl br hN
  have b3 := lbOf_lt bl hN
  unfold checkBoundary
  rw [if_neg (by omega)]
  refine .assertEmpty hm (Does.append (checkL_ok G (by omega) hd hm) fun s1 ⟨e1, e2, e3, e4⟩ => ?_)
  refine Does.append (checkR_ok G (by omega) b2 e4 (by rw [e1]; exact hm)) fun s2 ⟨f1, f2, f3, f4⟩ => ?_
  exact .assertEmpty (by rw [f1, e1]; exact hm) (.nil ⟨f1.trans e1, f2.trans e2, f3.trans e3, f4⟩)

/-! ### The boundary environments -/

/-- The state between two iterations of a loop of `UpdateBoundaryEnvs`. -/
structure Growing (s0 : Sys T E) (e : E) (s : Sys T E) : Prop where
  m : s.mem.m = fun _ => none
  l : s.mem.l = s0.mem.l
  r : s.mem.r = s0.mem.r
  reg : s.mem.reg = some e
  clk : s.mem.clk = s0.mem.clk
  d : s.dsk = s0.dsk

theorem update_update_none (i : Nat) (t : Option T) :
    Function.update (Function.update (fun _ => none) i t) i none = fun _ => (none : Option T) := by
  funext j; simp only [Function.update]; by_cases b : j = i <;> simp [b]

theorem boundR_step {A : Alg T E} {N n : Nat} {ψ : Nat → T} {s0 s : Sys T E} (hd : ∀ j, j < N → s0.dsk.m j = .whole (ψ j)) {k : Nat}
    (h1 : k < N) (hs : Growing s0 (A.renv N ψ k) s) :
    Does N n [.ldM (N - 1 - k), .calc (pushR A (N - 1 - k)), .frM (N - 1 - k)] s (Growing s0 (A.renv N ψ (k + 1))) := by
  obtain ⟨⟨m, l, r, reg, clk⟩, d⟩ := s
  obtain ⟨e1, e2, e3, e4, e5, e6⟩ := hs
  simp only at e1 e2 e3 e4 e5 e6
  subst e1 e2 e3 e4 e5 e6
  refine .ldM (by omega) (hd _ (by omega)) <| .calc (m' := ⟨Function.update (fun _ => none) (N - 1 - k) (some (ψ (N - 1 - k))), s0.mem.l,
    s0.mem.r, some (A.renv N ψ (k + 1)), s0.mem.clk⟩) ?_ <| .frM (by omega) <| .nil ⟨?_, rfl, rfl, rfl, rfl, rfl⟩
  · simp [pushR, use, bind, Except.bind, pure, Except.pure, Alg.renv]
  · exact update_update_none _ _

theorem boundR_loop {A : Alg T E} {N n : Nat} {ψ : Nat → T} {s0 : Sys T E} (hd : ∀ j, j < N → s0.dsk.m j = .whole (ψ j)) :
    ∀ (k : Nat) {i : Nat} {s : Sys T E}, i + k ≤ N → Growing s0 (A.renv N ψ i) s →
    Does N n ((List.range' (i + 1) k).flatMap (boundR A N)) s (Growing s0 (A.renv N ψ (i + k)))
  | 0, i, s, _, hs => .nil hs
  | k + 1, i, s, h, hs => by
    rw [List.range'_succ, List.flatMap_cons]
    refine Does.append (Q := Growing s0 (A.renv N ψ (i + 1))) ?_ fun s1 i1 => ?_
    · unfold boundR
      rw [show N - (i + 1) = N - 1 - i by omega]
      exact boundR_step hd (by omega) hs
    · rw [show i + (k + 1) = i + 1 + k by omega]
      exact boundR_loop hd k (by omega) i1

theorem boundL_loop {A : Alg T E} {N n : Nat} {ψ : Nat → T} {s0 : Sys T E} (hd : ∀ j, j < N → s0.dsk.m j = .whole (ψ j)) :
    ∀ (k : Nat) {i : Nat} {s : Sys T E}, i + k ≤ N → Growing s0 (A.lenv ψ i) s →
    Does N n ((List.range' i k).flatMap (boundL A)) s (Growing s0 (A.lenv ψ (i + k)))
  | 0, i, s, _, hs => .nil hs
  | k + 1, i, s, h, hs => by
    rw [List.range'_succ, List.flatMap_cons]
    refine Does.append (Q := Growing s0 (A.lenv ψ (i + 1))) ?_ fun s1 i1 => ?_
    · obtain ⟨⟨m, l, r, reg, clk⟩, d⟩ := s
      obtain ⟨e1, e2, e3, e4, e5, e6⟩ := hs
      simp only at e1 e2 e3 e4 e5 e6
      subst e1 e2 e3 e4 e5 e6
      refine .ldM (by omega) (hd _ (by omega)) <| .calc (m' := ⟨Function.update (fun _ => none) i (some (ψ i)), s0.mem.l,
        s0.mem.r, some (A.lenv ψ (i + 1)), s0.mem.clk⟩) ?_ <| .frM (by omega) <| .nil ⟨?_, rfl, rfl, rfl, rfl, rfl⟩
      · simp [pushL, use, bind, Except.bind, pure, Except.pure, Alg.lenv]
      · exact update_update_none _ _
    · rw [show i + (k + 1) = i + 1 + k by omega]
      exact boundL_loop hd k (by omega) i1

theorem updateBoundary_ok {A : Alg T E} {N n lb rb : Nat} {ψ : Nat → T} {s0 : Sys T E} (h1 : lb < N) (h2 : rb < N)
    (hd : ∀ j, j < N → s0.dsk.m j = .whole (ψ j)) (hm : s0.mem.m = fun _ => none) :
    Does N n (updateBoundary A N lb rb) s0 (fun s => s.mem.m = (fun _ => none) ∧ s.mem.l = s0.mem.l ∧ s.mem.r = s0.mem.r ∧
      s.mem.clk = s0.mem.clk ∧ s.dsk = ⟨s0.dsk.m, Function.update s0.dsk.l lb (.whole (A.lenv ψ lb)),
        fun j => if N ≤ j + rb + 1 ∧ j + rb ≤ N then .whole (A.renv N ψ j) else s0.dsk.r j⟩) := by
  unfold updateBoundary
  refine .assertEmpty hm ?_
  refine .ldM (by omega) (hd (N - 1) (by omega)) <| .calc (f := startR A N) (m' := ⟨Function.update (fun _ => none) (N - 1)
    (some (ψ (N - 1))), s0.mem.l, s0.mem.r, some (A.renv N ψ 0), s0.mem.clk⟩) ?_ <| .frM (by omega) ?_
  · simp [startR, use, bind, Except.bind, pure, Except.pure, Alg.renv, hm]
  refine Does.append (boundR_loop hd (N - rb - 1) (i := 0) (by omega) ⟨update_update_none _ _, rfl, rfl, rfl, rfl, rfl⟩) fun s1 i1 => ?_
  obtain ⟨⟨m, l, r, reg, clk⟩, d⟩ := s1
  obtain ⟨e1, e2, e3, e4, e5, e6⟩ := i1
  simp only at e1 e2 e3 e4 e5 e6
  subst e1 e2 e3 e4 e5 e6
  rw [Nat.zero_add]
  refine .wrR rfl ?_
  have grow : A.growR rb (A.renv N ψ (N - rb - 1)) (ψ rb) = A.renv N ψ (N - rb) := by
    rw [show N - rb = N - rb - 1 + 1 by omega, Alg.renv, show N - 1 - (N - rb - 1) = rb by omega, Nat.add_sub_cancel]
  refine .ldM (by omega) (hd rb (by omega)) <| .calc (f := pushR A rb) (m' := ⟨Function.update (fun _ => none) rb
    (some (ψ rb)), s0.mem.l, s0.mem.r, some (A.renv N ψ (N - rb)), s0.mem.clk⟩) ?_ <| .frM (by omega) <| .wrR rfl ?_
  · simp [pushR, use, bind, Except.bind, pure, Except.pure, grow]
  simp only [update_update_none]
  refine .ldM (by omega) (hd 0 (by omega)) <| .calc (f := startL A) (m' := ⟨Function.update (fun _ => none) 0
    (some (ψ 0)), s0.mem.l, s0.mem.r, some (A.lenv ψ 0), s0.mem.clk⟩) ?_ <| .frM (by omega) ?_
  · simp [startL, use, bind, Except.bind, pure, Except.pure, Alg.lenv]
  rw [List.range_eq_range']
  refine Does.append (boundL_loop (s0 := ⟨s0.mem, ⟨s0.dsk.m, s0.dsk.l, Function.update (Function.update s0.dsk.r (N - rb - 1)
      (.whole (A.renv N ψ (N - rb - 1)))) (N - rb) (.whole (A.renv N ψ (N - rb)))⟩⟩) hd lb (i := 0) (by omega)
      ⟨update_update_none _ _, rfl, rfl, rfl, rfl, rfl⟩) fun s3 i3 => ?_
  obtain ⟨⟨m, l, r, reg, clk⟩, d⟩ := s3
  obtain ⟨e1, e2, e3, e4, e5, e6⟩ := i3
  simp only at e1 e2 e3 e4 e5 e6
  subst e1 e2 e3 e4 e5 e6
  rw [Nat.zero_add]
  refine .wrL rfl (.assertEmpty rfl (.nil ⟨rfl, rfl, rfl, rfl, ?_⟩))
  simp only [Dsk.mk.injEq, true_and]
  funext j
  by_cases a : j = N - rb
  · subst a; rw [Function.update_self, if_pos (by omega)]
  · rw [Function.update_of_ne a]
    by_cases b : j = N - rb - 1
    · subst b; rw [Function.update_self, if_pos (by omega)]
    · rw [Function.update_of_ne b, if_neg (by omega)]

end Verif.Disk
