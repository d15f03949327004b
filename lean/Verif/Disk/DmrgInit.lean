import Verif.Disk.DmrgFacts
import Verif.Disk.BoundaryFacts
/-
The DMRG executor: initialisation and post-processing.
-/
namespace Verif.Disk

variable {T O : Type} {A : Alg T (List O)} {w : Nat → Nat} {N lb rb : Nat}

/-! ### Numbers of components -/

theorem good_empty {a : Nat} : ∀ s s' : Mem T (List O), Good w N a s → assertEmpty N s = .ok s' → Good w N a s' := by
  intro s s' h e
  unfold assertEmpty at e
  split at e
  · injection e with e; exact e ▸ h
  · simp at e

theorem good_canL {G : Gauge T} {a i : Nat} : ∀ s s' : Mem T (List O), Good w N a s → canL G i s = .ok s' → Good w N a s' := by
  intro s s' h e
  unfold canL at e
  cases h1 : use (s.m i) with
  | error x => simp [h1, bind, Except.bind] at e
  | ok t =>
    cases h2 : use (s.m (i + 1)) with
    | error x => simp [h1, h2, bind, Except.bind] at e
    | ok u =>
      simp only [h1, h2, bind, Except.bind, pure, Except.pure, Except.ok.injEq] at e
      exact e ▸ h.setM

theorem good_canR {G : Gauge T} {a i : Nat} : ∀ s s' : Mem T (List O), Good w N a s → canR G i s = .ok s' → Good w N a s' := by
  intro s s' h e
  unfold canR at e
  cases h1 : use (s.m (i - 1)) with
  | error x => simp [h1, bind, Except.bind] at e
  | ok t =>
    cases h2 : use (s.m i) with
    | error x => simp [h1, h2, bind, Except.bind] at e
    | ok u =>
      simp only [h1, h2, bind, Except.bind, pure, Except.pure, Except.ok.injEq] at e
      exact e ▸ h.setM

theorem good_startR (D : A.Dims w N) {a : Nat} : ∀ s s' : Mem T (List O), Good w N a s → startR A N s = .ok s' → Good w N (w N) s' := by
  intro s s' h e
  unfold startR at e
  cases h1 : use (s.m (N - 1)) with
  | error x => simp [h1, bind, Except.bind] at e
  | ok t =>
    simp only [h1, bind, Except.bind, pure, Except.pure, Except.ok.injEq] at e
    subst e
    exact ⟨h.l, h.r, fun e he => by injection he with he; rw [← he]; exact D.tr t⟩

theorem good_startL (D : A.Dims w N) {a : Nat} : ∀ s s' : Mem T (List O), Good w N a s → startL A s = .ok s' → Good w N (w 0) s' := by
  intro s s' h e
  unfold startL at e
  cases h1 : use (s.m 0) with
  | error x => simp [h1, bind, Except.bind] at e
  | ok t =>
    simp only [h1, bind, Except.bind, pure, Except.pure, Except.ok.injEq] at e
    subst e
    exact ⟨h.l, h.r, fun e he => by injection he with he; rw [← he]; exact D.tl t⟩

theorem good_pushR (D : A.Dims w N) {i : Nat} : ∀ s s' : Mem T (List O), Good w N (w (i + 1)) s → pushR A i s = .ok s' → Good w N (w i) s' := by
  intro s s' h e
  unfold pushR at e
  cases h0 : use s.reg with
  | error x => simp [h0, bind, Except.bind] at e
  | ok g =>
    cases h1 : use (s.m i) with
    | error x => simp [h0, h1, bind, Except.bind] at e
    | ok t =>
      simp only [h0, h1, bind, Except.bind, pure, Except.pure, Except.ok.injEq] at e
      subst e
      exact ⟨h.l, h.r, fun e he => by injection he with he; rw [← he]; exact D.gr i g t (h.reg g (use_ok h0))⟩

theorem good_pushL (D : A.Dims w N) {i : Nat} : ∀ s s' : Mem T (List O), Good w N (w i) s → pushL A i s = .ok s' → Good w N (w (i + 1)) s' := by
  intro s s' h e
  unfold pushL at e
  cases h0 : use s.reg with
  | error x => simp [h0, bind, Except.bind] at e
  | ok g =>
    cases h1 : use (s.m i) with
    | error x => simp [h0, h1, bind, Except.bind] at e
    | ok t =>
      simp only [h0, h1, bind, Except.bind, pure, Except.pure, Except.ok.injEq] at e
      subst e
      exact ⟨h.l, h.r, fun e he => by injection he with he; rw [← he]; exact D.gl i g t (h.reg g (use_ok h0))⟩

theorem ty_plain {a : Nat} : ∀ {ops : List (Op T (List O))}, (∀ o, o ∈ ops → plain o = true) → Ty w N a ops a
  | [], _ => .nil
  | o :: ops, h => .op (h o (by simp)) (ty_plain fun x hx => h x (by simp [hx]))

theorem checkBoundary_ty (G : Gauge T) (bl br : Nat → Bool) {a : Nat} : Ty (T := T) (O := O) w N a (checkBoundary G bl br N) a := by
  unfold checkBoundary checkL checkR
  refine .calc good_empty (Ty.append (b := a) (.op rfl (Ty.append (Ty.flatMap fun i _ => .op rfl (.calc good_canL .nil)) ?_))
    (Ty.append (b := a) (.op rfl (Ty.append (Ty.flatMap fun i _ => .op rfl (.calc good_canR .nil)) ?_)) (.calc good_empty .nil)))
  all_goals
    apply ty_plain
    intro o ho
    rw [List.mem_map] at ho
    obtain ⟨j, -, rfl⟩ := ho
    rfl

theorem initStep_ty (D : A.Dims w N) {i : Nat} (h1 : 1 ≤ i) (h2 : i ≤ N) :
    Ty w N (w (N - (i - 1))) (initStep A N i) (w (N - i)) := by
  unfold initStep
  refine Ty.append (b := w (N - (i - 1))) (ty_plain fun o ho => ?_) ?_
  · split at ho
    · rw [List.mem_singleton] at ho; subst ho; rfl
    · simp at ho
  · refine .calc (c := w (N - i)) ?_ (.wrR rfl (.op rfl .nil))
    rw [show N - (i - 1) = N - i + 1 by omega]
    exact good_pushR D

theorem bndR_ty (D : A.Dims w N) {i : Nat} (h1 : 1 ≤ i) (h2 : i ≤ N) :
    Ty w N (w (N - (i - 1))) (bndR A N i) (w (N - i)) := by
  unfold bndR
  refine Ty.append (b := w (N - (i - 1))) (ty_plain fun o ho => ?_) ?_
  · split at ho
    · rw [List.mem_singleton] at ho; subst ho; rfl
    · simp at ho
  · refine .calc (c := w (N - i)) ?_ (.op rfl .nil)
    rw [show N - (i - 1) = N - i + 1 by omega]
    exact good_pushR D

theorem bndL_ty (D : A.Dims w N) {i : Nat} : Ty w N (w i) (bndL A i) (w (i + 1)) := by
  unfold bndL
  refine Ty.append (b := w i) (ty_plain fun o ho => ?_) (.calc (good_pushL D) (.op rfl .nil))
  split at ho
  · rw [List.mem_singleton] at ho; subst ho; rfl
  · simp at ho

theorem loop_ty {f : Nat → List (Op T (List O))} {v : Nat → Nat} : ∀ (k i : Nat),
    (∀ j, i ≤ j → j < i + k → Ty w N (v j) (f j) (v (j + 1))) → Ty w N (v i) ((List.range' i k).flatMap f) (v (i + k))
  | 0, _, _ => .nil
  | k + 1, i, h => by
    rw [List.range'_succ, List.flatMap_cons]
    refine (h i (Nat.le_refl i) (by omega)).append ?_
    rw [show i + (k + 1) = i + 1 + k by omega]
    exact loop_ty k (i + 1) fun j h1 h2 => h j (by omega) (by omega)

theorem initOps_ty (D : A.Dims w N) (h : lb + 2 ≤ N) {a : Nat} : Ty w N a (initOps A N lb) (w (lb + 2)) := by
  unfold initOps
  refine .op rfl (.calc (good_startR D) (.wrR rfl ?_))
  have := loop_ty (w := w) (N := N) (f := initStep A N) (v := fun i => w (N - (i - 1))) (N - (lb + 2)) 1 (fun j h1 h2 => by
    have := initStep_ty D (i := j) h1 (by omega)
    rwa [show j = j + 1 - 1 by omega] at this)
  simp only [Nat.sub_self, Nat.sub_zero, Nat.add_sub_cancel_left] at this
  rwa [show N - (N - (lb + 2)) = lb + 2 by omega] at this

theorem boundOps_ty (D : A.Dims w N) (h2 : rb < N) {a : Nat} : Ty w N a (boundOps A N lb rb) (w lb) := by
  unfold boundOps
  refine .op rfl (.calc (good_startR D) ?_)
  have hl := loop_ty (w := w) (N := N) (f := bndR A N) (v := fun i => w (N - (i - 1))) (N - rb - 1) 1 (fun j h1 h2 => by
    have := bndR_ty D (i := j) h1 (by omega)
    rwa [show j = j + 1 - 1 by omega] at this)
  simp only [Nat.sub_self, Nat.sub_zero, Nat.add_sub_cancel_left] at hl
  rw [show N - (N - rb - 1) = rb + 1 by omega] at hl
  refine hl.append (.wrR (by rw [show N - (N - 1 - rb) = rb + 1 by omega]) (.op rfl (.calc (good_pushR D) (.op rfl
    (.wrR (by rw [show N - (N - rb) = rb by omega]) (.op rfl (.calc (good_startL D) (Ty.append (b := w lb) ?_ (.wrL rfl
      (.calc good_empty .nil)))))))))) 
  by_cases h : 0 < lb
  · rw [if_pos h, List.range_eq_range']
    have := loop_ty (w := w) (N := N) (f := bndL A) (v := w) lb 0 (fun j _ _ => bndL_ty D)
    rwa [Nat.zero_add] at this
  · rw [if_neg h, show lb = 0 by omega]
    exact .op rfl .nil

theorem post_ty (P : Gauge T) {a : Nat} : Ty (T := T) (O := O) w N a (.dpM (lb + 1) true :: dmrgPost P lb) a := by
  unfold dmrgPost
  exact .op rfl (.op rfl (Ty.append (Ty.flatMap fun i _ => .op rfl (.calc good_canR (.op rfl .nil))) (.op rfl .nil)))

/-! ### What they do -/

theorem initOps_ok {ψ : Nat → T} {s0 : Sys T (List O)} (h : lb + 2 < N) (hd : OnDisk N ψ s0.dsk) (hm : s0.mem.m = fun _ => none) :
    Does N N (initOps A N lb) s0 (fun s => s.mem.m = (fun _ => none) ∧ s.mem.l = s0.mem.l ∧ s.mem.r = s0.mem.r ∧
      s.mem.clk = s0.mem.clk ∧ s.dsk = ⟨s0.dsk.m, s0.dsk.l, fun j => if j + lb + 2 ≤ N then .whole (A.renv N ψ j) else s0.dsk.r j⟩) := by
  unfold initOps
  refine .ldM (by omega) (hd (N - 1) (by omega)) <| .calc (f := startR A N) (m' := ⟨one (N - 1) (ψ (N - 1)), s0.mem.l, s0.mem.r,
    some (A.renv N ψ 0), s0.mem.clk⟩) ?_ <| .wrR rfl ?_
  · have : Function.update (fun _ => none) (N - 1) (some (ψ (N - 1))) = one (N - 1) (ψ (N - 1)) := by
      funext j; simp only [Function.update, one]; by_cases b : j = N - 1 <;> simp [b]
    simp [startR, use, bind, Except.bind, pure, Except.pure, Alg.renv, hm, this]
  refine Does.mono (P := InitInv A N ψ s0 (1 + (N - (lb + 2)))) (initLoop_ok (A := A) (s0 := s0) hd (N - (lb + 2)) (i := 1)
    (Nat.le_refl _) (by omega) ⟨rfl, rfl, rfl, rfl, rfl, rfl, rfl, ?_⟩) fun s hs => ⟨?_, hs.l, hs.r, hs.clk, ?_⟩
  · funext j
    by_cases a : j = 0
    · subst a; simp
    · simp only [Function.update_of_ne a]; rw [if_neg (by omega)]
  · rw [hs.m, if_neg (by omega)]
  · obtain ⟨mem, ⟨dm, dl, dr⟩⟩ := s
    have e1 := hs.dm
    have e2 := hs.dl
    have e3 := hs.dr
    simp only at e1 e2 e3
    rw [e1, e2, e3]
    simp only [Dsk.mk.injEq, true_and]
    funext j
    by_cases a : j < 1 + (N - (lb + 2))
    · rw [if_pos a, if_pos (by omega)]
    · rw [if_neg a, if_neg (by omega)]

/-- Between two iterations of the first loop of `UpdateBoundaryBlockOps`: the last tensor is loaded before it. -/
structure GrowR (A : Alg T (List O)) (N : Nat) (ψ : Nat → T) (s0 : Sys T (List O)) (i : Nat) (s : Sys T (List O)) : Prop where
  m : s.mem.m = if i = 1 then one (N - 1) (ψ (N - 1)) else fun _ => none
  l : s.mem.l = s0.mem.l
  r : s.mem.r = s0.mem.r
  reg : s.mem.reg = some (A.renv N ψ (i - 1))
  clk : s.mem.clk = s0.mem.clk
  d : s.dsk = s0.dsk

theorem bndR_ok {ψ : Nat → T} {s0 s : Sys T (List O)} (hd : OnDisk N ψ s0.dsk) {i : Nat} (h1 : 1 ≤ i) (h2 : i ≤ N)
    (hs : GrowR A N ψ s0 i s) : Does N N (bndR A N i) s (GrowR A N ψ s0 (i + 1)) := by
  obtain ⟨⟨m, l, r, reg, clk⟩, d⟩ := s
  obtain ⟨e1, e2, e3, e4, e5, e6⟩ := hs
  simp only at e1 e2 e3 e4 e5 e6
  subst e1 e2 e3 e4 e5 e6
  have grow : A.growR (N - i) (A.renv N ψ (i - 1)) (ψ (N - i)) = A.renv N ψ i := by
    obtain ⟨k, rfl⟩ : ∃ k, i = k + 1 := ⟨i - 1, by omega⟩
    rw [Alg.renv, show N - 1 - k = N - (k + 1) by omega, Nat.add_sub_cancel]
  have fin : GrowR A N ψ s0 (i + 1) ⟨⟨fun _ => none, s0.mem.l, s0.mem.r, some (A.renv N ψ i), s0.mem.clk⟩, s0.dsk⟩ :=
    ⟨by rw [if_neg (by omega)], rfl, rfl, rfl, rfl, rfl⟩
  unfold bndR
  by_cases a : i = 1
  · subst a
    rw [if_neg (by omega), if_pos rfl]
    refine .calc (m' := ⟨one (N - 1) (ψ (N - 1)), s0.mem.l, s0.mem.r, some (A.renv N ψ 1), s0.mem.clk⟩) ?_ <| .frM (by omega) <| .nil ?_
    · simp only [pushR, use, one, if_true, bind, Except.bind, pure, Except.pure, grow]
    · have em : Function.update (one (N - 1) (ψ (N - 1))) (N - 1) none = fun _ => none := by
        funext j; simp only [Function.update, one]; by_cases b : j = N - 1 <;> simp [b]
      show GrowR A N ψ s0 (1 + 1) ⟨⟨Function.update (one (N - 1) (ψ (N - 1))) (N - 1) none, _, _, _, _⟩, _⟩
      rw [em]; exact fin
  · rw [if_pos (by omega), if_neg a]
    refine .ldM (by omega) (hd (N - i) (by omega)) <|
      .calc (m' := ⟨Function.update (fun _ => none) (N - i) (some (ψ (N - i))), s0.mem.l, s0.mem.r, some (A.renv N ψ i), s0.mem.clk⟩) ?_ <|
      .frM (by omega) <| .nil ?_
    · simp only [pushR, use, Function.update_self, bind, Except.bind, pure, Except.pure, grow]
    · show GrowR A N ψ s0 (i + 1) ⟨⟨Function.update (Function.update (fun _ => none) (N - i) (some (ψ (N - i)))) (N - i) none, _, _, _, _⟩, _⟩
      rw [update_update_none]; exact fin

theorem bndR_loop {ψ : Nat → T} {s0 : Sys T (List O)} (hd : OnDisk N ψ s0.dsk) :
    ∀ (k : Nat) {i : Nat} {s : Sys T (List O)}, 1 ≤ i → i + k ≤ N + 1 → GrowR A N ψ s0 i s →
    Does N N ((List.range' i k).flatMap (bndR A N)) s (GrowR A N ψ s0 (i + k))
  | 0, i, s, _, _, hs => .nil hs
  | k + 1, i, s, h1, h2, hs => by
    rw [List.range'_succ, List.flatMap_cons]
    exact (bndR_ok hd h1 (by omega) hs).append fun s1 i1 => by
      rw [show i + (k + 1) = i + 1 + k by omega]
      exact bndR_loop hd k (by omega) (by omega) i1

/-- The same for the second loop. -/
structure GrowL (A : Alg T (List O)) (ψ : Nat → T) (s0 : Sys T (List O)) (i : Nat) (s : Sys T (List O)) : Prop where
  m : s.mem.m = if i = 0 then one 0 (ψ 0) else fun _ => none
  l : s.mem.l = s0.mem.l
  r : s.mem.r = s0.mem.r
  reg : s.mem.reg = some (A.lenv ψ i)
  clk : s.mem.clk = s0.mem.clk
  d : s.dsk = s0.dsk

theorem bndL_ok {ψ : Nat → T} {s0 s : Sys T (List O)} (hd : OnDisk N ψ s0.dsk) {i : Nat} (h2 : i < N)
    (hs : GrowL A ψ s0 i s) : Does N N (bndL A i) s (GrowL A ψ s0 (i + 1)) := by
  obtain ⟨⟨m, l, r, reg, clk⟩, d⟩ := s
  obtain ⟨e1, e2, e3, e4, e5, e6⟩ := hs
  simp only at e1 e2 e3 e4 e5 e6
  subst e1 e2 e3 e4 e5 e6
  have fin : GrowL A ψ s0 (i + 1) ⟨⟨fun _ => none, s0.mem.l, s0.mem.r, some (A.lenv ψ (i + 1)), s0.mem.clk⟩, s0.dsk⟩ :=
    ⟨by rw [if_neg (by omega)], rfl, rfl, rfl, rfl, rfl⟩
  unfold bndL
  by_cases a : i = 0
  · subst a
    rw [if_neg (by omega), if_pos rfl]
    refine .calc (m' := ⟨one 0 (ψ 0), s0.mem.l, s0.mem.r, some (A.lenv ψ 1), s0.mem.clk⟩) ?_ <| .frM (by omega) <| .nil ?_
    · simp only [pushL, use, one, if_true, bind, Except.bind, pure, Except.pure, Alg.lenv]
    · have em : Function.update (one 0 (ψ 0)) 0 none = fun _ => none := by
        funext j; simp only [Function.update, one]; by_cases b : j = 0 <;> simp [b]
      show GrowL A ψ s0 (0 + 1) ⟨⟨Function.update (one 0 (ψ 0)) 0 none, _, _, _, _⟩, _⟩
      rw [em]; exact fin
  · rw [if_pos (by omega), if_neg a]
    refine .ldM (by omega) (hd i (by omega)) <|
      .calc (m' := ⟨Function.update (fun _ => none) i (some (ψ i)), s0.mem.l, s0.mem.r, some (A.lenv ψ (i + 1)), s0.mem.clk⟩) ?_ <|
      .frM (by omega) <| .nil ?_
    · simp only [pushL, use, Function.update_self, bind, Except.bind, pure, Except.pure, Alg.lenv]
    · show GrowL A ψ s0 (i + 1) ⟨⟨Function.update (Function.update (fun _ => none) i (some (ψ i))) i none, _, _, _, _⟩, _⟩
      rw [update_update_none]; exact fin

theorem bndL_loop {ψ : Nat → T} {s0 : Sys T (List O)} (hd : OnDisk N ψ s0.dsk) :
    ∀ (k : Nat) {i : Nat} {s : Sys T (List O)}, i + k ≤ N → GrowL A ψ s0 i s →
    Does N N ((List.range' i k).flatMap (bndL A)) s (GrowL A ψ s0 (i + k))
  | 0, i, s, _, hs => .nil hs
  | k + 1, i, s, h2, hs => by
    rw [List.range'_succ, List.flatMap_cons]
    exact (bndL_ok hd (by omega) hs).append fun s1 i1 => by
      rw [show i + (k + 1) = i + 1 + k by omega]
      exact bndL_loop hd k (by omega) i1

theorem boundOps_ok {ψ : Nat → T} {s0 : Sys T (List O)} (h1 : lb < N) (h2 : rb < N) (hd : OnDisk N ψ s0.dsk)
    (hm : s0.mem.m = fun _ => none) :
    Does N N (boundOps A N lb rb) s0 (fun s => s.mem.m = (fun _ => none) ∧ s.mem.l = s0.mem.l ∧ s.mem.r = s0.mem.r ∧
      s.mem.clk = s0.mem.clk ∧ s.dsk = ⟨s0.dsk.m, Function.update s0.dsk.l lb (.whole (A.lenv ψ lb)),
        fun j => if N ≤ j + rb + 1 ∧ j + rb ≤ N then .whole (A.renv N ψ j) else s0.dsk.r j⟩) := by
  unfold boundOps
  have one0 : ∀ (i : Nat) (t : T), Function.update (fun _ => none) i (some t) = one i t := fun i t => by
    funext j; simp only [Function.update, one]; by_cases b : j = i <;> simp [b]
  refine .ldM (by omega) (hd (N - 1) (by omega)) <| .calc (f := startR A N) (m' := ⟨one (N - 1)
    (ψ (N - 1)), s0.mem.l, s0.mem.r, some (A.renv N ψ 0), s0.mem.clk⟩) ?_ ?_
  · simp [startR, use, bind, Except.bind, pure, Except.pure, Alg.renv, hm, one0]
  refine Does.append (bndR_loop (A := A) (s0 := s0) hd (N - rb - 1) (i := 1) (Nat.le_refl 1) (by omega)
    ⟨rfl, rfl, rfl, rfl, rfl, rfl⟩) fun s1 i1 => ?_
  obtain ⟨⟨m, l, r, reg, clk⟩, d⟩ := s1
  obtain ⟨e1, e2, e3, e4, e5, e6⟩ := i1
  simp only at e1 e2 e3 e4 e5 e6
  subst e2 e3 e4 e5 e6
  rw [show 1 + (N - rb - 1) - 1 = N - rb - 1 by omega]
  refine .wrR rfl ?_
  have grow : A.growR rb (A.renv N ψ (N - rb - 1)) (ψ rb) = A.renv N ψ (N - rb) := by
    rw [show N - rb = N - rb - 1 + 1 by omega, Alg.renv, show N - 1 - (N - rb - 1) = rb by omega, Nat.add_sub_cancel]
  have hmem : Function.update m rb (some (ψ rb)) = one rb (ψ rb) := by
    rw [e1]
    by_cases a : 1 + (N - rb - 1) = 1
    · rw [if_pos a, show N - 1 = rb by omega]
      funext j; simp only [Function.update, one]; by_cases b : j = rb <;> simp [b]
    · rw [if_neg a]; exact one0 rb _
  have hone : Function.update (one rb (ψ rb)) rb none = fun _ => none := by
    rw [← one0]; exact update_update_none _ _
  refine .ldM (by omega) (hd rb (by omega)) <| .calc (f := pushR A rb) (m' := ⟨one rb
    (ψ rb), s0.mem.l, s0.mem.r, some (A.renv N ψ (N - rb)), s0.mem.clk⟩) ?_ <| .frM (by omega) <| .wrR rfl ?_
  · simp only [hmem, pushR, use, one, if_true, bind, Except.bind, pure, Except.pure, grow]
  simp only [hone]
  refine .ldM (by omega) (hd 0 (by omega)) <| .calc (f := startL A) (m' := ⟨one 0
    (ψ 0), s0.mem.l, s0.mem.r, some (A.lenv ψ 0), s0.mem.clk⟩) ?_ ?_
  · simp only [one0, startL, use, one, if_true, bind, Except.bind, pure, Except.pure, Alg.lenv]
  obtain ⟨s2, hs2⟩ : ∃ s2 : Sys T (List O), s2 = ⟨s0.mem, ⟨s0.dsk.m, s0.dsk.l, Function.update (Function.update s0.dsk.r (N - 1 - rb)
      (.whole (A.renv N ψ (N - rb - 1)))) (N - rb) (.whole (A.renv N ψ (N - rb)))⟩⟩ := ⟨_, rfl⟩
  have hd2 : OnDisk N ψ s2.dsk := by rw [hs2]; exact hd
  refine Does.append (Q := fun s => s.mem.m = (fun _ => none) ∧ s.mem.l = s0.mem.l ∧ s.mem.r = s0.mem.r ∧
    s.mem.reg = some (A.lenv ψ lb) ∧ s.mem.clk = s0.mem.clk ∧ s.dsk = s2.dsk) ?_ ?_
  · by_cases h : 0 < lb
    · rw [if_pos h, List.range_eq_range']
      refine (bndL_loop (A := A) (s0 := s2) hd2 lb (i := 0) (by omega) ⟨rfl, by rw [hs2], by rw [hs2], rfl, by rw [hs2], by rw [hs2]⟩).mono
        fun s hs => ⟨?_, ?_, ?_, ?_, ?_, hs.d⟩
      · rw [hs.m, if_neg (by omega)]
      · rw [hs.l, hs2]
      · rw [hs.r, hs2]
      · rw [hs.reg, Nat.zero_add]
      · rw [hs.clk, hs2]
    · rw [if_neg h]
      have h0 : lb = 0 := by omega
      subst h0
      have hz : Function.update (one 0 (ψ 0)) 0 none = fun _ => none := by
        rw [← one0]; exact update_update_none _ _
      exact .frM (by omega) (.nil ⟨hz, rfl, rfl, rfl, rfl, by rw [hs2]⟩)
  · rintro ⟨⟨m', l', r', reg', clk'⟩, d'⟩ ⟨f1, f2, f3, f4, f5, f6⟩
    simp only at f1 f2 f3 f4 f5 f6
    subst f1 f2 f3 f4 f5 f6
    refine .wrL rfl (.assertEmpty rfl (.nil ⟨rfl, rfl, rfl, rfl, ?_⟩))
    rw [hs2]
    simp only [Dsk.mk.injEq, true_and]
    funext j
    by_cases a : j = N - rb
    · subst a; rw [Function.update_self, if_pos (by omega)]
    · rw [Function.update_of_ne a]
      by_cases b : j = N - 1 - rb
      · subst b; rw [Function.update_self, if_pos (by omega), show N - rb - 1 = N - 1 - rb by omega]
      · rw [Function.update_of_ne b, if_neg (by omega)]

/-- The post-processing moves the centre, and leaves the block operators alone. -/
theorem postLoop_ok {E : Type} {n : Nat} (P : Gauge T) : ∀ (k : Nat) {φ : Nat → T} {s : Sys T E}, k < N → s.mem.m k = some (φ k) →
    (∀ j, j < N → j ≠ k → s.dsk.m j = .whole (φ j)) →
    Does N n ((List.range' 1 k).reverse.flatMap (fun i => [.ldM (i - 1), .calc (canR P i), .dpM i false])) s (fun s' =>
      s'.mem.m 0 = some ((List.range' 1 k).reverse.foldl (gaugeR P) φ 0) ∧
      (∀ j, j < N → j ≠ 0 → s'.dsk.m j = .whole ((List.range' 1 k).reverse.foldl (gaugeR P) φ j)) ∧
      s'.dsk.l = s.dsk.l ∧ s'.dsk.r = s.dsk.r ∧ s'.mem.clk = s.mem.clk)
  | 0, φ, s, _, hm, hd => .nil ⟨hm, hd, rfl, rfl, rfl⟩
  | k + 1, φ, s, hk, hm, hd => by
    rw [List.range'_1_concat, List.reverse_append]
    simp only [List.reverse_cons, List.reverse_nil, List.nil_append, List.cons_append, List.flatMap_cons, List.foldl_cons]
    rw [show 1 + k - 1 = k by omega, show 1 + k = k + 1 by omega]
    refine .ldM (by omega) (hd k (by omega) (by omega)) ?_
    have hc : canR P (k + 1) { s.mem with m := Function.update s.mem.m k (some (φ k)) } =
        .ok { s.mem with m := Function.update (Function.update (Function.update s.mem.m k (some (φ k))) k
          (some (gaugeR P φ (k + 1) k))) (k + 1) (some (gaugeR P φ (k + 1) (k + 1))) } := by
      simp [canR, hm, use, bind, Except.bind, pure,
        Except.pure, gaugeR]
    refine .calc hc (.dpM' (t := gaugeR P φ (k + 1) (k + 1)) (by omega) (by simp) ?_)
    refine (postLoop_ok P k (φ := gaugeR P φ (k + 1)) (by omega) ?_ fun j hj hjk => ?_).mono fun s' h => h
    · simp
    · by_cases a : j = k + 1
      · subst a; simp
      · simp only [Function.update_of_ne a]
        rw [hd j hj a, gaugeR_at P φ a (by omega)]

theorem post_ok (P : Gauge T) {φ : Nat → T} {s : Sys T (List O)} (h : lb + 1 < N) (hm : s.mem.m (lb + 1) = some (φ (lb + 1)))
    (hd : ∀ j, j < N → j ≠ lb + 1 → s.dsk.m j = .whole (φ j)) :
    Does N N (.dpM (lb + 1) true :: dmrgPost P lb) s (fun s' => OnDisk N (centred P lb φ) s'.dsk ∧ s'.dsk.l = s.dsk.l ∧
      s'.dsk.r = s.dsk.r ∧ s'.mem.clk = s.mem.clk ∧ ∃ t, s'.mem.m 0 = some t) := by
  refine .dpM h hm (.ldM h (by simp; rfl) ?_)
  refine Does.append (postLoop_ok P (lb + 1) (φ := φ) h (by simp) fun j hj hj' => ?_) fun s1 ⟨e1, e2, e3, e4, e5⟩ => ?_
  · simp only [Function.update_of_ne hj']; exact hd j hj hj'
  · refine .dpM' (by omega) e1 (.nil ⟨fun j hj => ?_, e3, e4, e5, _, e1⟩)
    by_cases a : j = 0
    · subst a; simp [centred]
    · simp only [Function.update_of_ne a]; exact e2 j hj a

end Verif.Disk
