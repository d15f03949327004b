import Verif.Disk.Wp

/-!
# Programs with two helper threads

The parallel noised sweep loads and dumps tensors in two `std::thread`s while the main thread works
(algo_mpi/vmps/two_site_update_noised_finite_vmps_mpi_impl.h:175-247). The operations of the threads interleave in any way.

`FP` says what an operation reads and writes. `threads_ok` shows: if operations that may run at the same time never
touch the same thing (unless both read it), every interleaving does what the sequential program does.
-/
namespace Verif.Disk

variable {T E : Type}

/-- What an operation can read or write: a slot in memory, the local variables of the main thread, a file. -/
inductive Res
  | memM (i : Nat) | memL (k : Nat) | memR (k : Nat)
  | reg | clk
  | filM (i : Nat) | filL (k : Nat) | filR (k : Nat)
  deriving DecidableEq

/-- Two states have the same content there. -/
def Same (s t : Sys T E) : Res → Prop
  | .memM i => s.mem.m i = t.mem.m i
  | .memL k => s.mem.l k = t.mem.l k
  | .memR k => s.mem.r k = t.mem.r k
  | .reg => s.mem.reg = t.mem.reg
  | .clk => s.mem.clk = t.mem.clk
  | .filM i => s.dsk.m i = t.dsk.m i
  | .filL k => s.dsk.l k = t.dsk.l k
  | .filR k => s.dsk.r k = t.dsk.r k

theorem Same.refl (s : Sys T E) (x : Res) : Same s s x := by cases x <;> exact rfl

theorem Same.symm {s t : Sys T E} {x : Res} (h : Same s t x) : Same t s x := by
  cases x <;> exact Eq.symm h

theorem Same.trans {s t u : Sys T E} {x : Res} (h : Same s t x) (h' : Same t u x) : Same s u x := by
  cases x <;> exact Eq.trans h h'

theorem sys_ext {s t : Sys T E} (h : ∀ x, Same s t x) : s = t := by
  obtain ⟨⟨m, l, r, reg, clk⟩, ⟨dm, dl, dr⟩⟩ := s
  obtain ⟨⟨m', l', r', reg', clk'⟩, ⟨dm', dl', dr'⟩⟩ := t
  obtain rfl : m = m' := funext fun i => h (.memM i)
  obtain rfl : l = l' := funext fun i => h (.memL i)
  obtain rfl : r = r' := funext fun i => h (.memR i)
  obtain rfl : reg = reg' := h .reg
  obtain rfl : clk = clk' := h .clk
  obtain rfl : dm = dm' := funext fun i => h (.filM i)
  obtain rfl : dl = dl' := funext fun i => h (.filL i)
  obtain rfl : dr = dr' := funext fun i => h (.filR i)
  rfl

/-- The operation changes nothing outside `W`, and what it does (success, new content of `W`) depends on `R` only. -/
structure FP (N n : Nat) (o : Op T E) (R W : Res → Prop) : Prop where
  frame : ∀ s s', exec N n o s = .ok s' → ∀ x, ¬ W x → Same s s' x
  dep : ∀ s s' t, exec N n o s = .ok s' → (∀ x, R x → Same s t x) → ∃ t', exec N n o t = .ok t' ∧ ∀ x, W x → Same s' t' x

/-- Neither operation writes what the other reads or writes. -/
def Indep (N n : Nat) (o o' : Op T E) : Prop :=
  ∃ R W R' W' : Res → Prop, FP N n o R W ∧ FP N n o' R' W' ∧
    (∀ x, W x → ¬ R' x) ∧ (∀ x, W' x → ¬ R x) ∧ ∀ x, W x → ¬ W' x

theorem Indep.symm {N n : Nat} {o o' : Op T E} (h : Indep N n o o') : Indep N n o' o := by
  obtain ⟨R, W, R', W', h1, h2, h3, h4, h5⟩ := h
  exact ⟨R', W', R, W, h2, h1, h4, h3, fun x a b => h5 x b a⟩

theorem Indep.swap {N n : Nat} {o o' : Op T E} (h : Indep N n o o') {s s1 s2 : Sys T E} (e1 : exec N n o s = .ok s1)
    (e2 : exec N n o' s1 = .ok s2) : ∃ s1', exec N n o' s = .ok s1' ∧ exec N n o s1' = .ok s2 := by
  obtain ⟨R, W, R', W', f, f', h3, h4, h5⟩ := h
  have a1 := f.frame _ _ e1
  have a2 := f'.frame _ _ e2
  obtain ⟨s1', e3, b1⟩ := f'.dep _ _ s e2 fun x hx => (a1 x fun hw => h3 x hw hx).symm
  have a3 := f'.frame _ _ e3
  obtain ⟨u, e4, b2⟩ := f.dep _ _ s1' e1 fun x hx => a3 x fun hw => h4 x hw hx
  have a4 := f.frame _ _ e4
  refine ⟨s1', e3, ?_⟩
  have : u = s2 := sys_ext fun x => by
    by_cases hw : W x
    · exact (b2 x hw).symm.trans (a2 x (h5 x hw))
    · by_cases hw' : W' x
      · exact ((b1 x hw').trans (a4 x hw)).symm
      · exact (a4 x hw).symm.trans ((a3 x hw').symm.trans ((a1 x hw).trans (a2 x hw')))
  rw [← this]; exact e4

/-! ### Footprints of the primitive operations -/

/-- What an operation on files and slots reads. (`calc` is work of the main thread; its footprint is stated where it is used.) -/
def Op.rd : Op T E → Res → Prop
  | .ldM i => (· = .filM i)
  | .ldL k => (· = .filL k)
  | .ldR k => (· = .filR k)
  | .dpM i _ => (· = .memM i)
  | .dpL k => (· = .memL k)
  | .dpR k => (· = .memR k)
  | .wrL _ => (· = .reg)
  | .wrR _ => (· = .reg)
  | .calc _ => fun _ => True
  | _ => fun _ => False

/-- What it writes. -/
def Op.wr : Op T E → Res → Prop
  | .ldM i => (· = .memM i)
  | .ldL k => (· = .memL k)
  | .ldR k => (· = .memR k)
  | .dpM i _ => fun x => x = .memM i ∨ x = .filM i
  | .dpL k => (· = .filL k)
  | .dpR k => (· = .filR k)
  | .wrL k => (· = .filL k)
  | .wrR k => (· = .filR k)
  | .rmL k => (· = .filL k)
  | .rmR k => (· = .filR k)
  | .frM i => (· = .memM i)
  | .frL k => (· = .memL k)
  | .frR k => (· = .memR k)
  | .calc _ => fun _ => True

theorem FP.ops (N n : Nat) (o : Op T E) (ho : ∀ f, o ≠ .calc f) : FP N n o o.rd o.wr := by
  constructor
  · intro s s' h x hx
    cases o with
    | «calc» f => exact absurd rfl (ho f)
    | ldM i =>
      simp only [exec] at h
      split at h
      · cases hf : (s.dsk.m i).get with
        | error e => rw [hf] at h; cases h
        | ok t =>
          rw [hf] at h; cases h
          cases x <;> first
            | exact rfl
            | (rename_i j; exact (Function.update_of_ne (fun e => hx (by rw [e]; exact rfl)) _ _).symm)
      · cases h
    | ldL i =>
      simp only [exec] at h
      split at h
      · cases hf : (s.dsk.l i).get with
        | error e => rw [hf] at h; cases h
        | ok t =>
          rw [hf] at h; cases h
          cases x <;> first
            | exact rfl
            | (rename_i j; exact (Function.update_of_ne (fun e => hx (by rw [e]; exact rfl)) _ _).symm)
      · cases h
    | ldR i =>
      simp only [exec] at h
      split at h
      · cases hf : (s.dsk.r i).get with
        | error e => rw [hf] at h; cases h
        | ok t =>
          rw [hf] at h; cases h
          cases x <;> first
            | exact rfl
            | (rename_i j; exact (Function.update_of_ne (fun e => hx (by rw [e]; exact rfl)) _ _).symm)
      · cases h
    | dpM i rel =>
      simp only [exec] at h
      split at h
      · cases h
        cases x with
        | memM j =>
          have hj : j ≠ i := fun e => hx (by rw [e]; exact .inl rfl)
          show s.mem.m j = (if rel then Function.update s.mem.m i none else s.mem.m) j
          cases rel
          · rfl
          · exact (Function.update_of_ne hj _ _).symm
        | filM j =>
          have hj : j ≠ i := fun e => hx (by rw [e]; exact .inr rfl)
          exact (Function.update_of_ne hj _ _).symm
        | _ => exact rfl
      · cases h
    | dpL i =>
      simp only [exec] at h
      split at h
      · cases h
        cases x <;> first
          | exact rfl
          | (rename_i j; exact (Function.update_of_ne (fun e => hx (by rw [e]; exact rfl)) _ _).symm)
      · cases h
    | dpR i =>
      simp only [exec] at h
      split at h
      · cases h
        cases x <;> first
          | exact rfl
          | (rename_i j; exact (Function.update_of_ne (fun e => hx (by rw [e]; exact rfl)) _ _).symm)
      · cases h
    | frM i =>
      simp only [exec] at h
      split at h
      · cases h
        cases x <;> first
          | exact rfl
          | (rename_i j; exact (Function.update_of_ne (fun e => hx (by rw [e]; exact rfl)) _ _).symm)
      · cases h
    | frL i =>
      simp only [exec] at h
      split at h
      · cases h
        cases x <;> first
          | exact rfl
          | (rename_i j; exact (Function.update_of_ne (fun e => hx (by rw [e]; exact rfl)) _ _).symm)
      · cases h
    | frR i =>
      simp only [exec] at h
      split at h
      · cases h
        cases x <;> first
          | exact rfl
          | (rename_i j; exact (Function.update_of_ne (fun e => hx (by rw [e]; exact rfl)) _ _).symm)
      · cases h
    | wrL i =>
      cases h
      cases x <;> first
        | exact rfl
        | (rename_i j; exact (Function.update_of_ne (fun e => hx (by rw [e]; exact rfl)) _ _).symm)
    | wrR i =>
      cases h
      cases x <;> first
        | exact rfl
        | (rename_i j; exact (Function.update_of_ne (fun e => hx (by rw [e]; exact rfl)) _ _).symm)
    | rmL i =>
      cases h
      cases x <;> first
        | exact rfl
        | (rename_i j; exact (Function.update_of_ne (fun e => hx (by rw [e]; exact rfl)) _ _).symm)
    | rmR i =>
      cases h
      cases x <;> first
        | exact rfl
        | (rename_i j; exact (Function.update_of_ne (fun e => hx (by rw [e]; exact rfl)) _ _).symm)
  · intro s s' t h hR
    cases o with
    | «calc» f => exact absurd rfl (ho f)
    | ldM i =>
      have hR : s.dsk.m i = t.dsk.m i := hR (.filM i) rfl
      simp only [exec] at h ⊢
      split at h
      · rename_i hi
        rw [if_pos hi, ← hR]
        cases hf : (s.dsk.m i).get with
        | error e => rw [hf] at h; cases h
        | ok v =>
          rw [hf] at h; cases h
          refine ⟨_, rfl, fun x hx => ?_⟩
          obtain rfl : x = .memM i := hx
          simp [Same]
      · cases h
    | ldL i =>
      have hR : s.dsk.l i = t.dsk.l i := hR (.filL i) rfl
      simp only [exec] at h ⊢
      split at h
      · rename_i hi
        rw [if_pos hi, ← hR]
        cases hf : (s.dsk.l i).get with
        | error e => rw [hf] at h; cases h
        | ok v =>
          rw [hf] at h; cases h
          refine ⟨_, rfl, fun x hx => ?_⟩
          obtain rfl : x = .memL i := hx
          simp [Same]
      · cases h
    | ldR i =>
      have hR : s.dsk.r i = t.dsk.r i := hR (.filR i) rfl
      simp only [exec] at h ⊢
      split at h
      · rename_i hi
        rw [if_pos hi, ← hR]
        cases hf : (s.dsk.r i).get with
        | error e => rw [hf] at h; cases h
        | ok v =>
          rw [hf] at h; cases h
          refine ⟨_, rfl, fun x hx => ?_⟩
          obtain rfl : x = .memR i := hx
          simp [Same]
      · cases h
    | dpM i rel =>
      have hM : s.mem.m i = t.mem.m i := hR (.memM i) rfl
      simp only [exec] at h ⊢
      split at h
      · rename_i hi
        rw [if_pos hi]
        cases h
        refine ⟨_, rfl, fun x hx => ?_⟩
        rcases hx with rfl | rfl
        · cases rel <;> simp [Same, hM]
        · simp [Same, hM]
      · cases h
    | dpL i =>
      have hR : s.mem.l i = t.mem.l i := hR (.memL i) rfl
      simp only [exec] at h ⊢
      split at h
      · rename_i hi
        rw [if_pos hi]
        cases h
        refine ⟨_, rfl, fun x hx => ?_⟩
        obtain rfl : x = .filL i := hx
        simp [Same, hR]
      · cases h
    | dpR i =>
      have hR : s.mem.r i = t.mem.r i := hR (.memR i) rfl
      simp only [exec] at h ⊢
      split at h
      · rename_i hi
        rw [if_pos hi]
        cases h
        refine ⟨_, rfl, fun x hx => ?_⟩
        obtain rfl : x = .filR i := hx
        simp [Same, hR]
      · cases h
    | frM i =>
      simp only [exec] at h ⊢
      split at h
      · rename_i hi
        rw [if_pos hi]
        cases h
        refine ⟨_, rfl, fun x hx => ?_⟩
        obtain rfl : x = .memM i := hx
        simp [Same]
      · cases h
    | frL i =>
      simp only [exec] at h ⊢
      split at h
      · rename_i hi
        rw [if_pos hi]
        cases h
        refine ⟨_, rfl, fun x hx => ?_⟩
        obtain rfl : x = .memL i := hx
        simp [Same]
      · cases h
    | frR i =>
      simp only [exec] at h ⊢
      split at h
      · rename_i hi
        rw [if_pos hi]
        cases h
        refine ⟨_, rfl, fun x hx => ?_⟩
        obtain rfl : x = .memR i := hx
        simp [Same]
      · cases h
    | wrL i =>
      have hR : s.mem.reg = t.mem.reg := hR .reg rfl
      cases h
      refine ⟨_, rfl, fun x hx => ?_⟩
      obtain rfl : x = .filL i := hx
      simp [Same, hR]
    | wrR i =>
      have hR : s.mem.reg = t.mem.reg := hR .reg rfl
      cases h
      refine ⟨_, rfl, fun x hx => ?_⟩
      obtain rfl : x = .filR i := hx
      simp [Same, hR]
    | rmL i =>
      cases h
      refine ⟨_, rfl, fun x hx => ?_⟩
      obtain rfl : x = .filL i := hx
      simp [Same]
    | rmR i =>
      cases h
      refine ⟨_, rfl, fun x hx => ?_⟩
      obtain rfl : x = .filR i := hx
      simp [Same]

/-! ### Lists of operations that do not interfere -/

/-- Every operation of one list with every one of the other. -/
def IndepL (N n : Nat) (a b : List (Op T E)) : Prop := ∀ o ∈ a, ∀ o' ∈ b, Indep N n o o'

theorem run_swap1 {N n : Nat} {o : Op T E} : ∀ {a b : List (Op T E)} {s sf : Sys T E}, (∀ o' ∈ a, Indep N n o' o) →
    run N n (a ++ o :: b) s = .ok sf → run N n (o :: a ++ b) s = .ok sf
  | [], _, _, _, _, h => h
  | p :: a, b, s, sf, hi, h => by
    simp only [List.cons_append, run] at h
    cases e1 : exec N n p s with
    | error e => rw [e1] at h; cases h
    | ok s1 =>
      rw [e1] at h
      have h : run N n (a ++ o :: b) s1 = .ok sf := h
      have := run_swap1 (fun o' ho' => hi o' (List.mem_cons_of_mem _ ho')) h
      simp only [List.cons_append, run] at this
      cases e2 : exec N n o s1 with
      | error e => rw [e2] at this; cases this
      | ok s2 =>
        rw [e2] at this
        have this : run N n (a ++ b) s2 = .ok sf := this
        obtain ⟨s1', e3, e4⟩ := (hi p List.mem_cons_self).swap e1 e2
        simp only [List.cons_append, run, e3]
        show (do let s1 ← exec N n p s1'; run N n (a ++ b) s1) = _
        rw [e4]
        exact this

theorem run_swap {N n : Nat} : ∀ {a b c : List (Op T E)} {s sf : Sys T E}, IndepL N n a b →
    run N n (a ++ (b ++ c)) s = .ok sf → run N n (b ++ (a ++ c)) s = .ok sf
  | _, [], _, _, _, _, h => h
  | a, o :: b, c, s, sf, hi, h => by
    have := run_swap1 (fun o' ho' => hi o' ho' o List.mem_cons_self) (b := b ++ c) h
    simp only [List.cons_append, run] at this ⊢
    cases e : exec N n o s with
    | error e' => rw [e] at this; cases this
    | ok s1 =>
      rw [e] at this
      exact run_swap (fun p hp q hq => hi p hp q (List.mem_cons_of_mem _ hq)) this

/-! ### Threads -/

inductive Thr
  | ld | dp
  deriving DecidableEq

/-- What the main thread does: an operation of its own, starting a thread, waiting for a thread. -/
inductive Cmd (T E : Type)
  | op (o : Op T E)
  | spawn (t : Thr) (ops : List (Op T E))
  | join (t : Thr)

/-- The rest of the main thread, the rest of each thread that was started and not joined, the state. -/
structure Cfg (T E : Type) where
  main : List (Cmd T E)
  thr : Thr → Option (List (Op T E))
  s : Sys T E

/-- One step of one of the threads. -/
inductive CStep (N n : Nat) : Cfg T E → Cfg T E → Prop
  | op {o : Op T E} {c : List (Cmd T E)} {th : Thr → Option (List (Op T E))} {s s' : Sys T E} (h : exec N n o s = .ok s') : CStep N n ⟨.op o :: c, th, s⟩ ⟨c, th, s'⟩
  | thr {t : Thr} {o : Op T E} {os : List (Op T E)} {c : List (Cmd T E)} {th : Thr → Option (List (Op T E))} {s s' : Sys T E} (ht : th t = some (o :: os))
      (h : exec N n o s = .ok s') : CStep N n ⟨c, th, s⟩ ⟨c, Function.update th t (some os), s'⟩
  | spawn {t : Thr} {ops : List (Op T E)} {c : List (Cmd T E)} {th : Thr → Option (List (Op T E))} {s : Sys T E} (ht : th t = none) :
      CStep N n ⟨.spawn t ops :: c, th, s⟩ ⟨c, Function.update th t (some ops), s⟩
  | join {t : Thr} {c : List (Cmd T E)} {th : Thr → Option (List (Op T E))} {s : Sys T E} (ht : th t = some []) :
      CStep N n ⟨.join t :: c, th, s⟩ ⟨c, Function.update th t none, s⟩

inductive CSteps (N n : Nat) : Nat → Cfg T E → Cfg T E → Prop
  | nil {c : Cfg T E} : CSteps N n 0 c c
  | snoc {k : Nat} {c c' c'' : Cfg T E} (h : CSteps N n k c c') (hs : CStep N n c' c'') : CSteps N n (k + 1) c c''

/-- Something goes wrong in the next step: an operation fails; a thread object is overwritten or destroyed while it still
stands for a thread (`std::terminate`); `join` without thread (`std::system_error`). -/
inductive Bad (N n : Nat) : Cfg T E → Prop
  | op {o : Op T E} {c : List (Cmd T E)} {th : Thr → Option (List (Op T E))} {s : Sys T E} {e : Err} (h : exec N n o s = .error e) : Bad N n ⟨.op o :: c, th, s⟩
  | thr {t : Thr} {o : Op T E} {os : List (Op T E)} {c : List (Cmd T E)} {th : Thr → Option (List (Op T E))} {s : Sys T E} {e : Err} (ht : th t = some (o :: os))
      (h : exec N n o s = .error e) : Bad N n ⟨c, th, s⟩
  | spawn {t : Thr} {ops : List (Op T E)} {c : List (Cmd T E)} {th : Thr → Option (List (Op T E))} {s : Sys T E} (ht : th t ≠ none) : Bad N n ⟨.spawn t ops :: c, th, s⟩
  | join {t : Thr} {c : List (Cmd T E)} {th : Thr → Option (List (Op T E))} {s : Sys T E} (ht : th t = none) : Bad N n ⟨.join t :: c, th, s⟩
  | leave {t : Thr} {th : Thr → Option (List (Op T E))} {s : Sys T E} (ht : th t ≠ none) : Bad N n ⟨[], th, s⟩

/-- No data race: two threads that are about to do, or will do, operations before they synchronise never touch the same thing. -/
structure RaceFree (N n : Nat) (c : Cfg T E) : Prop where
  threads : ∀ a b, c.thr .ld = some a → c.thr .dp = some b → IndepL N n a b
  main : ∀ o c', c.main = .op o :: c' → ∀ t a, c.thr t = some a → IndepL N n [o] a

/-- The rest of a thread. -/
def ol (x : Option (List (Op T E))) : List (Op T E) := x.getD []

/-- All operations in the order of the sequential program: what is left of the load thread where it is joined, the dump
threads where they are started. -/
def inl : Option (List (Op T E)) → List (Cmd T E) → List (Op T E)
  | _, [] => []
  | ld, .op o :: c => o :: inl ld c
  | _, .spawn .ld ops :: c => inl (some ops) c
  | ld, .spawn .dp ops :: c => ops ++ inl ld c
  | ld, .join .ld :: c => ol ld ++ inl none c
  | ld, .join .dp :: c => inl ld c

/-- Nothing that may run at the same time interferes, and threads are started and joined alternately. -/
def Safe (N n : Nat) : Option (List (Op T E)) → Option (List (Op T E)) → List (Cmd T E) → Prop
  | ld, dp, [] => ld = none ∧ dp = none
  | ld, dp, .op o :: c => IndepL N n [o] (ol ld) ∧ IndepL N n [o] (ol dp) ∧ Safe N n ld dp c
  | ld, dp, .spawn .ld ops :: c => ld = none ∧ IndepL N n ops (ol dp) ∧ Safe N n (some ops) dp c
  | ld, dp, .spawn .dp ops :: c => dp = none ∧ IndepL N n (ol ld) ops ∧ Safe N n ld (some ops) c
  | ld, dp, .join .ld :: c => ld ≠ none ∧ Safe N n none dp c
  | ld, dp, .join .dp :: c => dp ≠ none ∧ Safe N n ld none c

/-- A thread further on. -/
def Less (a b : Option (List (Op T E))) : Prop := (a = none ↔ b = none) ∧ ∀ o ∈ ol a, o ∈ ol b

theorem Safe.mono {N n : Nat} : ∀ {c : List (Cmd T E)} {ld dp ld' dp' : Option (List (Op T E))}, Less ld' ld → Less dp' dp → Safe N n ld dp c → Safe N n ld' dp' c
  | [], _, _, _, _, h1, h2, h => ⟨h1.1.mpr h.1, h2.1.mpr h.2⟩
  | .op _ :: _, _, _, _, _, h1, h2, h =>
    ⟨fun p hp q hq => h.1 p hp q (h1.2 q hq), fun p hp q hq => h.2.1 p hp q (h2.2 q hq), Safe.mono h1 h2 h.2.2⟩
  | .spawn .ld _ :: _, _, _, _, _, h1, h2, h =>
    ⟨h1.1.mpr h.1, fun p hp q hq => h.2.1 p hp q (h2.2 q hq), Safe.mono ⟨Iff.rfl, fun _ h => h⟩ h2 h.2.2⟩
  | .spawn .dp _ :: _, _, _, _, _, h1, h2, h =>
    ⟨h2.1.mpr h.1, fun p hp q hq => h.2.1 p (h1.2 p hp) q hq, Safe.mono h1 ⟨Iff.rfl, fun _ h => h⟩ h.2.2⟩
  | .join .ld :: _, _, _, _, _, h1, h2, h => ⟨fun e => h.1 (h1.1.mp e), Safe.mono ⟨Iff.rfl, fun _ h => h⟩ h2 h.2⟩
  | .join .dp :: _, _, _, _, _, h1, h2, h => ⟨fun e => h.1 (h2.1.mp e), Safe.mono h1 ⟨Iff.rfl, fun _ h => h⟩ h.2⟩

/-- Safe programs one after another. -/
theorem Safe.append {N n : Nat} {b : List (Cmd T E)} (hb : Safe N n none none b) :
    ∀ {a : List (Cmd T E)} {ld dp : Option (List (Op T E))}, Safe N n ld dp a → Safe N n ld dp (a ++ b)
  | [], _, _, h => by obtain ⟨rfl, rfl⟩ := h; exact hb
  | .op _ :: _, _, _, h => ⟨h.1, h.2.1, Safe.append hb h.2.2⟩
  | .spawn .ld _ :: _, _, _, h => ⟨h.1, h.2.1, Safe.append hb h.2.2⟩
  | .spawn .dp _ :: _, _, _, h => ⟨h.1, h.2.1, Safe.append hb h.2.2⟩
  | .join .ld :: _, _, _, h => ⟨h.1, Safe.append hb h.2⟩
  | .join .dp :: _, _, _, h => ⟨h.1, Safe.append hb h.2⟩

theorem inl_append {N n : Nat} (b : List (Cmd T E)) :
    ∀ {a : List (Cmd T E)} {ld dp : Option (List (Op T E))}, Safe N n ld dp a → inl ld (a ++ b) = inl ld a ++ inl none b
  | [], _, _, h => by obtain ⟨rfl, rfl⟩ := h; rfl
  | .op o :: a, ld, dp, h => by simp only [List.cons_append, inl, inl_append b h.2.2]
  | .spawn .ld ops :: a, ld, dp, h => by simp only [List.cons_append, inl, inl_append b h.2.2]
  | .spawn .dp ops :: a, ld, dp, h => by simp only [List.cons_append, inl, inl_append b h.2.2, List.append_assoc]
  | .join .ld :: a, ld, dp, h => by simp only [List.cons_append, inl, inl_append b h.2, List.append_assoc]
  | .join .dp :: a, ld, dp, h => by simp only [List.cons_append, inl, inl_append b h.2]

theorem Safe.ops {N n : Nat} : ∀ l : List (Op T E), Safe N n none none (l.map .op)
  | [] => ⟨rfl, rfl⟩
  | _ :: l => ⟨fun _ _ q hq => by simp [ol] at hq, fun _ _ q hq => by simp [ol] at hq, Safe.ops l⟩

theorem inl_ops : ∀ (l : List (Op T E)) (ld : Option (List (Op T E))), inl ld (l.map .op) = l
  | [], _ => rfl
  | _ :: l, ld => by simp only [List.map_cons, inl, inl_ops l ld]

theorem run_ok_cons {N n : Nat} {o : Op T E} {os : List (Op T E)} {s sf : Sys T E} (h : run N n (o :: os) s = .ok sf) :
    ∃ s1, exec N n o s = .ok s1 ∧ run N n os s1 = .ok sf := by
  simp only [run] at h
  cases e : exec N n o s with
  | error e' => rw [e] at h; cases h
  | ok s1 => rw [e] at h; exact ⟨s1, rfl, h⟩

theorem run_cons_ok {N n : Nat} {o : Op T E} {os : List (Op T E)} {s s1 sf : Sys T E} (h : exec N n o s = .ok s1)
    (h' : run N n os s1 = .ok sf) : run N n (o :: os) s = .ok sf := by
  simp only [run, h]; exact h'

theorem run_app_ok {N n : Nat} {a b : List (Op T E)} {s s1 sf : Sys T E} (h : run N n a s = .ok s1) (h' : run N n b s1 = .ok sf) :
    run N n (a ++ b) s = .ok sf := by
  rw [run_append, h]; exact h'

theorem run_ok_app {N n : Nat} {a b : List (Op T E)} {s sf : Sys T E} (h : run N n (a ++ b) s = .ok sf) :
    ∃ s1, run N n a s = .ok s1 ∧ run N n b s1 = .ok sf := by
  rw [run_append] at h
  cases e : run N n a s with
  | error e' => rw [e] at h; cases h
  | ok s1 => rw [e] at h; exact ⟨s1, rfl, h⟩

/-- The next operation of the load thread can be done now. -/
theorem inl_front {N n : Nat} {o : Op T E} {os : List (Op T E)} : ∀ {c : List (Cmd T E)} {dp : Option (List (Op T E))} {s sf : Sys T E},
    Safe N n (some (o :: os)) dp c → run N n (inl (some (o :: os)) c) s = .ok sf → run N n (o :: inl (some os) c) s = .ok sf
  | [], _, _, _, h, _ => by cases h.1
  | .op p :: c, dp, s, sf, h, hr => by
    obtain ⟨s1, e1, e2⟩ := run_ok_cons hr
    obtain ⟨s2, e3, e4⟩ := run_ok_cons (inl_front h.2.2 e2)
    obtain ⟨s3, e5, e6⟩ := (h.1 p (by simp) o (by simp [ol])).swap e1 e3
    exact run_cons_ok e5 (run_cons_ok e6 e4)
  | .spawn .ld _ :: _, _, _, _, h, _ => by cases h.1
  | .spawn .dp ops :: c, dp, s, sf, h, hr => by
    obtain ⟨s1, e1, e2⟩ := run_ok_app hr
    have := run_app_ok e1 (inl_front h.2.2 e2)
    exact run_swap1 (fun o' ho' => (h.2.1 o (by simp [ol]) o' ho').symm) this
  | .join .ld :: c, dp, s, sf, _, hr => hr
  | .join .dp :: c, dp, s, sf, h, hr => inl_front (c := c) h.2 hr

/-- The invariant: the rest of the dump thread, then the rest in sequential order, lead to `sf`. -/
structure TInv (N n : Nat) (sf : Sys T E) (c : Cfg T E) : Prop where
  runs : run N n (ol (c.thr .dp) ++ inl (c.thr .ld) c.main) c.s = .ok sf
  apart : IndepL N n (ol (c.thr .ld)) (ol (c.thr .dp))
  safe : Safe N n (c.thr .ld) (c.thr .dp) c.main

theorem TInv.front_main {N n : Nat} {sf : Sys T E} {o : Op T E} {c : List (Cmd T E)} {th : Thr → Option (List (Op T E))} {s : Sys T E}
    (h : TInv N n sf ⟨.op o :: c, th, s⟩) : ∃ s1, exec N n o s = .ok s1 ∧ run N n (ol (th .dp) ++ inl (th .ld) c) s1 = .ok sf := by
  have h2 : IndepL N n [o] (ol (th .dp)) := h.safe.2.1
  have hr : run N n (ol (th .dp) ++ o :: inl (th .ld) c) s = .ok sf := h.runs
  exact run_ok_cons (run_swap1 (fun o' ho' => (h2 o (by simp) o' ho').symm) hr)

theorem TInv.front_ld {N n : Nat} {sf : Sys T E} {o : Op T E} {os : List (Op T E)} {c : List (Cmd T E)} {th : Thr → Option (List (Op T E))} {s : Sys T E}
    (h : TInv N n sf ⟨c, th, s⟩) (ht : th .ld = some (o :: os)) :
    ∃ s1, exec N n o s = .ok s1 ∧ run N n (ol (th .dp) ++ inl (some os) c) s1 = .ok sf := by
  have hr : run N n (ol (th .dp) ++ inl (th .ld) c) s = .ok sf := h.runs
  have ha : IndepL N n (ol (th .ld)) (ol (th .dp)) := h.apart
  have hs : Safe N n (th .ld) (th .dp) c := h.safe
  rw [ht] at hr ha hs
  obtain ⟨s1, e1, e2⟩ := run_ok_app hr
  exact run_ok_cons (run_swap1 (fun o' ho' => (ha o (by simp [ol]) o' ho').symm) (run_app_ok e1 (inl_front hs e2)))

theorem TInv.front_dp {N n : Nat} {sf : Sys T E} {o : Op T E} {os : List (Op T E)} {c : List (Cmd T E)} {th : Thr → Option (List (Op T E))} {s : Sys T E}
    (h : TInv N n sf ⟨c, th, s⟩) (ht : th .dp = some (o :: os)) :
    ∃ s1, exec N n o s = .ok s1 ∧ run N n (os ++ inl (th .ld) c) s1 = .ok sf := by
  have hr : run N n (ol (th .dp) ++ inl (th .ld) c) s = .ok sf := h.runs
  rw [ht] at hr
  exact run_ok_cons hr

theorem less_tail {o : Op T E} {os : List (Op T E)} {x : Option (List (Op T E))} (h : x = some (o :: os)) : Less (some os) x := by
  subst h
  exact ⟨by simp, fun p hp => List.mem_cons_of_mem _ hp⟩

theorem less_refl (x : Option (List (Op T E))) : Less x x := ⟨Iff.rfl, fun _ h => h⟩

theorem TInv.mk' {N n : Nat} {sf : Sys T E} {c : List (Cmd T E)} {th : Thr → Option (List (Op T E))} {s : Sys T E} {ld dp : Option (List (Op T E))}
    (h1 : th .ld = ld) (h2 : th .dp = dp) (hr : run N n (ol dp ++ inl ld c) s = .ok sf) (ha : IndepL N n (ol ld) (ol dp)) (hs : Safe N n ld dp c) :
    TInv N n sf ⟨c, th, s⟩ := by
  subst h1 h2
  exact ⟨hr, ha, hs⟩

theorem TInv.step {N n : Nat} {sf : Sys T E} {c c' : Cfg T E} (h : TInv N n sf c) (hs : CStep N n c c') : TInv N n sf c' := by
  cases hs with
  | @op o c th s s' he =>
    obtain ⟨s1, e1, e2⟩ := h.front_main
    rw [he] at e1; cases e1
    exact ⟨e2, h.apart, h.safe.2.2⟩
  | @thr t o os c th s s' ht he =>
    have hl := less_tail ht
    cases t with
    | ld =>
      obtain ⟨s1, e1, e2⟩ := h.front_ld ht
      rw [he] at e1; cases e1
      exact .mk' (Function.update_self ..) (Function.update_of_ne (by decide) ..) e2 (fun p hp q hq => h.apart p (hl.2 p hp) q hq)
        (h.safe.mono hl (less_refl _))
    | dp =>
      obtain ⟨s1, e1, e2⟩ := h.front_dp ht
      rw [he] at e1; cases e1
      exact .mk' (Function.update_of_ne (by decide) ..) (Function.update_self ..) e2 (fun p hp q hq => h.apart p hp q (hl.2 q hq))
        (h.safe.mono (less_refl _) hl)
  | @spawn t ops c th s ht =>
    have hr := h.runs
    cases t with
    | ld => exact .mk' (Function.update_self ..) (Function.update_of_ne (by decide) ..) hr h.safe.2.1 h.safe.2.2
    | dp =>
      simp only [ht] at hr
      exact .mk' (Function.update_of_ne (by decide) ..) (Function.update_self ..) hr h.safe.2.1 h.safe.2.2
  | @join t c th s ht =>
    have hr := h.runs
    cases t with
    | ld =>
      simp only [ht, inl] at hr
      exact .mk' (Function.update_self ..) (Function.update_of_ne (by decide) ..) hr (fun p hp => by simp [ol] at hp) h.safe.2
    | dp =>
      simp only [ht, inl] at hr
      exact .mk' (Function.update_of_ne (by decide) ..) (Function.update_self ..) hr (fun p _ q hq => by simp [ol] at hq) h.safe.2

theorem TInv.steps {N n : Nat} {sf : Sys T E} {k : Nat} {c c' : Cfg T E} (h : TInv N n sf c) (hs : CSteps N n k c c') : TInv N n sf c' := by
  induction hs with
  | nil => exact h
  | snoc _ hs ih => exact (ih h).step hs

theorem TInv.not_bad {N n : Nat} {sf : Sys T E} {c : Cfg T E} (h : TInv N n sf c) : ¬ Bad N n c := by
  intro hb
  cases hb with
  | op he => obtain ⟨s1, e1, -⟩ := h.front_main; rw [he] at e1; cases e1
  | @thr t o os c th s e ht he =>
    cases t with
    | ld => obtain ⟨s1, e1, -⟩ := h.front_ld ht; rw [he] at e1; cases e1
    | dp => obtain ⟨s1, e1, -⟩ := h.front_dp ht; rw [he] at e1; cases e1
  | @spawn t ops c th s ht =>
    cases t with
    | ld => exact ht h.safe.1
    | dp => exact ht h.safe.1
  | @join t c th s ht =>
    cases t with
    | ld => exact h.safe.1 ht
    | dp => exact h.safe.1 ht
  | @leave t th s ht =>
    cases t with
    | ld => exact ht h.safe.1
    | dp => exact ht h.safe.2

theorem TInv.raceFree {N n : Nat} {sf : Sys T E} {c : Cfg T E} (h : TInv N n sf c) : RaceFree N n c := by
  constructor
  · intro a b ha hb
    have := h.apart
    rw [ha, hb] at this
    exact this
  · intro o c' hm t a ht
    have hs := h.safe
    rw [hm] at hs
    cases t with
    | ld => have := hs.1; rw [ht] at this; exact this
    | dp => have := hs.2.1; rw [ht] at this; exact this

/-- The work of a command of the main thread and of the thread it starts. -/
def Cmd.cost : Cmd T E → Nat
  | .op _ => 1
  | .spawn _ ops => ops.length + 1
  | .join _ => 1

/-- The number of steps of a program. -/
def cost (c : List (Cmd T E)) : Nat := (c.map Cmd.cost).sum

/-- The operations and commands left. -/
def Cfg.size (c : Cfg T E) : Nat := (ol (c.thr .ld)).length + (ol (c.thr .dp)).length + cost c.main

theorem CStep.size {N n : Nat} {c c' : Cfg T E} (h : CStep N n c c') : c'.size + 1 = c.size := by
  cases h with
  | @op o c th s s' he => simp [Cfg.size, cost, Cmd.cost]; omega
  | @thr t o os c th s s' ht he =>
    cases t <;> simp [Cfg.size, ht, ol] <;> omega
  | @spawn t ops c th s ht =>
    cases t <;> simp [Cfg.size, ht, ol, cost, Cmd.cost] <;> omega
  | @join t c th s ht =>
    cases t <;> simp [Cfg.size, ht, ol, cost, Cmd.cost] <;> omega

theorem CSteps.size {N n k : Nat} {c c' : Cfg T E} (h : CSteps N n k c c') : k + c'.size = c.size := by
  induction h with
  | nil => omega
  | snoc _ hs ih => have := hs.size; omega

/-- A configuration without next step is the end. -/
theorem TInv.stuck {N n : Nat} {sf : Sys T E} {c : Cfg T E} (h : TInv N n sf c) (hst : ∀ c', ¬ CStep N n c c') :
    c.main = [] ∧ (∀ t, c.thr t = none) ∧ c.s = sf := by
  obtain ⟨main, th, s⟩ := c
  have hth : ∀ t a, th t = some a → a = [] := fun t a ha => by
    cases a with
    | nil => rfl
    | cons o os =>
      cases t with
      | ld => obtain ⟨s1, e1, -⟩ := h.front_ld ha; exact absurd (.thr ha e1) (hst _)
      | dp => obtain ⟨s1, e1, -⟩ := h.front_dp ha; exact absurd (.thr ha e1) (hst _)
  cases main with
  | nil =>
    have hs : th .ld = none ∧ th .dp = none := h.safe
    refine ⟨rfl, fun t => by cases t; exacts [hs.1, hs.2], ?_⟩
    have hr : run N n (ol (th .dp) ++ []) s = .ok sf := h.runs
    rw [hs.2] at hr
    cases hr
    rfl
  | cons m ms =>
    exfalso
    cases m with
    | op o => obtain ⟨s1, e1, -⟩ := h.front_main; exact hst _ (.op e1)
    | spawn t ops =>
      cases t with
      | ld => exact hst _ (.spawn (t := .ld) h.safe.1)
      | dp => exact hst _ (.spawn (t := .dp) h.safe.1)
    | join t =>
      have hne : th t ≠ none := by
        cases t with
        | ld => exact h.safe.1
        | dp => exact h.safe.1
      obtain ⟨a, ha⟩ := Option.ne_none_iff_exists'.mp hne
      have := hth t a ha
      subst this
      exact hst _ (.join ha)

/-- The beginning of a program with threads. -/
def Cfg.init (main : List (Cmd T E)) (s : Sys T E) : Cfg T E := ⟨main, fun _ => none, s⟩

/-- All executions. -/
theorem threads_ok {N n : Nat} {main : List (Cmd T E)} {s sf : Sys T E} (hs : Safe N n none none main) (hr : run N n (inl none main) s = .ok sf) {k : Nat}
    {c : Cfg T E} (h : CSteps N n k (.init main s) c) :
    k ≤ cost main ∧ ¬ Bad N n c ∧ RaceFree N n c ∧
    ((∀ c', ¬ CStep N n c c') → k = cost main ∧ c.main = [] ∧ (∀ t, c.thr t = none) ∧ c.s = sf) := by
  have h0 : TInv N n sf (.init main s) := ⟨hr, fun o ho => by simp [ol, Cfg.init] at ho, hs⟩
  have h1 := h0.steps h
  have := h.size
  simp only [Cfg.size, ol, Cfg.init, Option.getD_none, List.length_nil] at this
  refine ⟨by omega, h1.not_bad, h1.raceFree, fun hst => ?_⟩
  obtain ⟨g1, g2, g3⟩ := h1.stuck hst
  refine ⟨?_, g1, g2, g3⟩
  rw [g1, g2, g2] at this
  simp [cost] at this ⊢
  omega

/-! ### From an execution to its end back to the sequential program -/

theorem inl_back {N n : Nat} {o : Op T E} {os : List (Op T E)} : ∀ {c : List (Cmd T E)} {dp : Option (List (Op T E))} {s sf : Sys T E},
    Safe N n (some (o :: os)) dp c → run N n (o :: inl (some os) c) s = .ok sf → run N n (inl (some (o :: os)) c) s = .ok sf
  | [], _, _, _, h, _ => by cases h.1
  | .op p :: c, dp, s, sf, h, hr => by
    obtain ⟨s1, e1, e2⟩ := run_ok_cons hr
    obtain ⟨s2, e3, e4⟩ := run_ok_cons e2
    obtain ⟨s3, e5, e6⟩ := (h.1 p (by simp) o (by simp [ol])).symm.swap e1 e3
    exact run_cons_ok e5 (inl_back h.2.2 (run_cons_ok e6 e4))
  | .spawn .ld _ :: _, _, _, _, h, _ => by cases h.1
  | .spawn .dp ops :: c, dp, s, sf, h, hr => by
    have hi : IndepL N n [o] ops := fun p hp q hq => by
      rw [List.mem_singleton] at hp; subst hp
      exact h.2.1 p (by simp [ol]) q hq
    have := run_swap (a := [o]) (b := ops) (c := inl (some os) c) hi hr
    obtain ⟨s1, e1, e2⟩ := run_ok_app this
    exact run_app_ok e1 (inl_back (c := c) h.2.2 e2)
  | .join .ld :: c, dp, s, sf, _, hr => hr
  | .join .dp :: c, dp, s, sf, h, hr => inl_back (c := c) h.2 hr

/-- The part of the invariant that does not speak about results. -/
structure Apart (N n : Nat) (c : Cfg T E) : Prop where
  apart : IndepL N n (ol (c.thr .ld)) (ol (c.thr .dp))
  safe : Safe N n (c.thr .ld) (c.thr .dp) c.main

theorem Apart.mk' {N n : Nat} {c : List (Cmd T E)} {th : Thr → Option (List (Op T E))} {s : Sys T E} {ld dp : Option (List (Op T E))}
    (h1 : th .ld = ld) (h2 : th .dp = dp) (ha : IndepL N n (ol ld) (ol dp)) (hs : Safe N n ld dp c) : Apart N n ⟨c, th, s⟩ := by
  subst h1 h2
  exact ⟨ha, hs⟩

theorem Apart.step {N n : Nat} {c c' : Cfg T E} (h : Apart N n c) (hs : CStep N n c c') : Apart N n c' := by
  cases hs with
  | @op o c th s s' he => exact ⟨h.apart, h.safe.2.2⟩
  | @thr t o os c th s s' ht he =>
    have hl := less_tail ht
    cases t with
    | ld =>
      exact .mk' (Function.update_self ..) (Function.update_of_ne (by decide) ..) (fun p hp q hq => h.apart p (hl.2 p hp) q hq)
        (h.safe.mono hl (less_refl _))
    | dp =>
      exact .mk' (Function.update_of_ne (by decide) ..) (Function.update_self ..) (fun p hp q hq => h.apart p hp q (hl.2 q hq))
        (h.safe.mono (less_refl _) hl)
  | @spawn t ops c th s ht =>
    cases t with
    | ld => exact .mk' (Function.update_self ..) (Function.update_of_ne (by decide) ..) h.safe.2.1 h.safe.2.2
    | dp => exact .mk' (Function.update_of_ne (by decide) ..) (Function.update_self ..) h.safe.2.1 h.safe.2.2
  | @join t c th s ht =>
    cases t with
    | ld => exact .mk' (Function.update_self ..) (Function.update_of_ne (by decide) ..) (fun p hp => by simp [ol] at hp) h.safe.2
    | dp => exact .mk' (Function.update_of_ne (by decide) ..) (Function.update_self ..) (fun p _ q hq => by simp [ol] at hq) h.safe.2

theorem Apart.back {N n : Nat} {sf : Sys T E} {c c' : Cfg T E} (h : Apart N n c) (hs : CStep N n c c')
    (hr : run N n (ol (c'.thr .dp) ++ inl (c'.thr .ld) c'.main) c'.s = .ok sf) :
    run N n (ol (c.thr .dp) ++ inl (c.thr .ld) c.main) c.s = .ok sf := by
  cases hs with
  | @op o c th s s' he => exact run_swap (a := [o]) h.safe.2.1 (run_cons_ok he hr)
  | @thr t o os c th s s' ht he =>
    have ha : IndepL N n (ol (th .ld)) (ol (th .dp)) := h.apart
    have hsf : Safe N n (th .ld) (th .dp) c := h.safe
    cases t with
    | ld =>
      simp only [Function.update_self, Function.update_of_ne (show Thr.dp ≠ Thr.ld by decide)] at hr
      simp only [ht] at ha hsf ⊢
      have := run_swap (a := [o]) (b := ol (th .dp)) (c := inl (some os) c) (fun p hp q hq => by
        rw [List.mem_singleton] at hp; subst hp
        exact ha p (by simp [ol]) q hq) (run_cons_ok he hr)
      obtain ⟨s1, e1, e2⟩ := run_ok_app this
      exact run_app_ok e1 (inl_back hsf e2)
    | dp =>
      simp only [Function.update_self, Function.update_of_ne (show Thr.ld ≠ Thr.dp by decide)] at hr
      simp only [ht]
      exact run_cons_ok he hr
  | @spawn t ops c th s ht =>
    cases t with
    | ld =>
      simp only [Function.update_self, Function.update_of_ne (show Thr.dp ≠ Thr.ld by decide)] at hr
      exact hr
    | dp =>
      simp only [Function.update_self, Function.update_of_ne (show Thr.ld ≠ Thr.dp by decide)] at hr
      simp only [ht]
      exact hr
  | @join t c th s ht =>
    cases t with
    | ld =>
      simp only [Function.update_self, Function.update_of_ne (show Thr.dp ≠ Thr.ld by decide)] at hr
      simp only [ht]
      exact hr
    | dp =>
      simp only [Function.update_self, Function.update_of_ne (show Thr.ld ≠ Thr.dp by decide)] at hr
      simp only [ht]
      exact hr

/-- An execution that comes to its end ends where the sequential program ends. -/
theorem threads_back {N n : Nat} {main : List (Cmd T E)} {s : Sys T E} (hs : Safe N n none none main) {k : Nat} {c : Cfg T E}
    (h : CSteps N n k (.init main s) c) (hm : c.main = []) (ht : ∀ t, c.thr t = none) : run N n (inl none main) s = .ok c.s := by
  have h0 : Apart N n (.init main s) := ⟨fun o ho => by simp [ol, Cfg.init] at ho, hs⟩
  have key : ∀ {k : Nat} {c0 c : Cfg T E}, Apart N n c0 → CSteps N n k c0 c → Apart N n c ∧ ∀ sf,
      run N n (ol (c.thr .dp) ++ inl (c.thr .ld) c.main) c.s = .ok sf → run N n (ol (c0.thr .dp) ++ inl (c0.thr .ld) c0.main) c0.s = .ok sf := by
    intro k c0 c h0 h
    induction h with
    | nil => exact ⟨h0, fun _ h => h⟩
    | snoc _ hs ih => exact ⟨(ih h0).1.step hs, fun sf hr => (ih h0).2 sf ((ih h0).1.back hs hr)⟩
  refine (key h0 h).2 c.s ?_
  rw [hm, ht, ht]
  rfl

/-! ### Crashes -/

/-- What is on disk after a crash in the middle of an execution with threads: the files as they are, or one of them
incomplete because an operation of one of the threads was writing it. -/
def TCrash (c : Cfg T E) (d : Dsk T E) : Prop :=
  d = c.s.dsk ∨ (∃ o ms, c.main = .op o :: ms ∧ d = tear c.s.dsk o) ∨ ∃ t o os, c.thr t = some (o :: os) ∧ d = tear c.s.dsk o

/-- The same files, except that some right environments and some left environments other than the one of `lb` are removed. -/
structure Fewer (lb : Nat) (d d' : Dsk T E) : Prop where
  m : d'.m = d.m
  l : ∀ k, d'.l k = d.l k ∨ (k ≠ lb ∧ d'.l k = .gone)
  r : ∀ k, d'.r k = d.r k ∨ d'.r k = .gone

theorem Fewer.refl (lb : Nat) (d : Dsk T E) : Fewer lb d d := ⟨rfl, fun _ => .inl rfl, fun _ => .inl rfl⟩

theorem Fewer.trans {lb : Nat} {d d' d'' : Dsk T E} (h : Fewer lb d d') (h' : Fewer lb d' d'') : Fewer lb d d'' := by
  refine ⟨h'.m.trans h.m, fun k => ?_, fun k => ?_⟩
  · rcases h'.l k with e | e
    · rw [e]; exact h.l k
    · exact .inr e
  · rcases h'.r k with e | e
    · rw [e]; exact h.r k
    · exact .inr e

/-- An operation that writes no file and removes at most environments. -/
def Quiet (lb : Nat) : Op T E → Prop
  | .ldM _ | .ldL _ | .ldR _ | .frM _ | .frL _ | .frR _ | .calc _ | .rmR _ => True
  | .rmL k => k ≠ lb
  | _ => False

theorem Quiet.fewer {N n lb : Nat} {o : Op T E} (h : Quiet lb o) {s s' : Sys T E} (he : exec N n o s = .ok s') : Fewer lb s.dsk s'.dsk := by
  have same : s'.dsk = s.dsk → Fewer lb s.dsk s'.dsk := fun e => by rw [e]; exact Fewer.refl _ _
  cases o with
  | ldM i =>
    simp only [exec] at he
    split at he
    · cases hf : (s.dsk.m i).get with
      | error e => rw [hf] at he; cases he
      | ok t => rw [hf] at he; cases he; exact Fewer.refl _ _
    · cases he
  | ldL i =>
    simp only [exec] at he
    split at he
    · cases hf : (s.dsk.l i).get with
      | error e => rw [hf] at he; cases he
      | ok t => rw [hf] at he; cases he; exact Fewer.refl _ _
    · cases he
  | ldR i =>
    simp only [exec] at he
    split at he
    · cases hf : (s.dsk.r i).get with
      | error e => rw [hf] at he; cases he
      | ok t => rw [hf] at he; cases he; exact Fewer.refl _ _
    · cases he
  | frM i => simp only [exec] at he; split at he <;> cases he; exact Fewer.refl _ _
  | frL i => simp only [exec] at he; split at he <;> cases he; exact Fewer.refl _ _
  | frR i => simp only [exec] at he; split at he <;> cases he; exact Fewer.refl _ _
  | «calc» f =>
    simp only [exec] at he
    cases hf : f s.mem with
    | error e => rw [hf] at he; cases he
    | ok t => rw [hf] at he; cases he; exact Fewer.refl _ _
  | rmR i =>
    cases he
    refine ⟨rfl, fun _ => .inl rfl, fun k => ?_⟩
    by_cases h : k = i
    · subst h; exact .inr (Function.update_self ..)
    · exact .inl (Function.update_of_ne h ..)
  | rmL i =>
    cases he
    refine ⟨rfl, fun k => ?_, fun _ => .inl rfl⟩
    by_cases hk : k = i
    · subst hk; exact .inr ⟨h, Function.update_self ..⟩
    · exact .inl (Function.update_of_ne hk ..)
  | _ => exact h.elim

theorem fewer_run {N n lb : Nat} : ∀ {a : List (Op T E)} {s s' : Sys T E}, (∀ o ∈ a, Quiet lb o) → run N n a s = .ok s' → Fewer lb s.dsk s'.dsk
  | [], _, _, _, h => by cases h; exact Fewer.refl _ _
  | o :: a, s, s', hq, h => by
    obtain ⟨s1, e1, e2⟩ := run_ok_cons h
    exact ((hq o List.mem_cons_self).fewer e1).trans (fewer_run (fun p hp => hq p (List.mem_cons_of_mem _ hp)) e2)

theorem Quiet.tear {lb : Nat} {o : Op T E} (h : Quiet lb o) (d : Dsk T E) : tear d o = d := by
  cases o <;> first | rfl | exact h.elim

/-- Tearing a file after others were removed. -/
theorem Fewer.tear {lb : Nat} {d d' : Dsk T E} (h : Fewer lb d d') (o : Op T E) : Fewer lb (tear d o) (tear d' o) := by
  cases o with
  | dpM i rel => exact ⟨by simp only [Disk.tear, h.m], h.l, h.r⟩
  | dpL i =>
    refine ⟨h.m, fun k => ?_, h.r⟩
    by_cases hk : k = i
    · subst hk; left; simp [Disk.tear]
    · simpa [Disk.tear, Function.update_of_ne hk] using h.l k
  | dpR i =>
    refine ⟨h.m, h.l, fun k => ?_⟩
    by_cases hk : k = i
    · subst hk; left; simp [Disk.tear]
    · simpa [Disk.tear, Function.update_of_ne hk] using h.r k
  | wrL i =>
    refine ⟨h.m, fun k => ?_, h.r⟩
    by_cases hk : k = i
    · subst hk; left; simp [Disk.tear]
    · simpa [Disk.tear, Function.update_of_ne hk] using h.l k
  | wrR i =>
    refine ⟨h.m, h.l, fun k => ?_⟩
    by_cases hk : k = i
    · subst hk; left; simp [Disk.tear]
    · simpa [Disk.tear, Function.update_of_ne hk] using h.r k
  | _ => exact h

/-- The load threads and, while a dump thread is running, the main thread write no file. -/
def Calm (lb : Nat) : Bool → List (Cmd T E) → Prop
  | _, [] => True
  | dp, .op o :: c => (dp = true → Quiet lb o) ∧ Calm lb dp c
  | dp, .spawn .ld ops :: c => (∀ o ∈ ops, Quiet lb o) ∧ Calm lb dp c
  | _, .spawn .dp _ :: c => Calm lb true c
  | dp, .join .ld :: c => Calm lb dp c
  | _, .join .dp :: c => Calm lb false c

theorem Calm.append {N n lb : Nat} {b : List (Cmd T E)} (hb : Calm lb false b) :
    ∀ {a : List (Cmd T E)} {ld dp : Option (List (Op T E))}, Safe N n ld dp a → Calm lb dp.isSome a → Calm lb dp.isSome (a ++ b)
  | [], _, _, hs, _ => by obtain ⟨rfl, rfl⟩ := hs; exact hb
  | .op _ :: a, _, _, hs, h => ⟨h.1, Calm.append (a := a) hb hs.2.2 h.2⟩
  | .spawn .ld _ :: a, _, _, hs, h => ⟨h.1, Calm.append (a := a) hb hs.2.2 h.2⟩
  | .spawn .dp _ :: a, _, _, hs, h => Calm.append (a := a) hb hs.2.2 h
  | .join .ld :: a, _, _, hs, h => Calm.append (a := a) hb hs.2 h
  | .join .dp :: a, _, _, hs, h => Calm.append (a := a) hb hs.2 h

theorem Crash.rest {N n : Nat} {a b : List (Op T E)} {s s' : Sys T E} (h : run N n a s = .ok s') {d : Dsk T E} (hc : Crash N n b s' d) :
    Crash N n (a ++ b) s d := by
  obtain ⟨done, rest, s1, rfl, h2, h3⟩ := hc
  exact ⟨a ++ done, rest, s1, by simp, run_app_ok h h2, h3⟩

/-- The whole load thread, of which `a` is done. -/
def whole (a : List (Op T E)) (ld : Option (List (Op T E))) : Option (List (Op T E)) := ld.map (a ++ ·)

/-- The invariant for crashes. The sequential program has come to `sp`; the other threads are ahead of the dump thread by `aM`
(main thread, and load threads that were joined) and `aL` (the running load thread). -/
structure CrInv (N n lb : Nat) (P : Dsk T E → Prop) (c : Cfg T E) (sp : Sys T E) (aM aL : List (Op T E)) : Prop where
  ahead : run N n (aM ++ aL) sp = .ok c.s
  quiet : ∀ o ∈ aM ++ aL, Quiet lb o
  apartM : IndepL N n aM (ol (c.thr .dp))
  apartL : IndepL N n aL (ol (c.thr .dp))
  idle : c.thr .ld = none → aL = []
  done : ol (c.thr .dp) = [] → aM = []
  safe : Safe N n (whole aL (c.thr .ld)) (c.thr .dp) c.main
  calm : Calm lb (c.thr .dp).isSome c.main
  quietL : ∀ o ∈ ol (c.thr .ld), Quiet lb o
  apart : IndepL N n (ol (c.thr .ld)) (ol (c.thr .dp))
  crash : ∀ d, Crash N n (ol (c.thr .dp) ++ (aM ++ inl (whole aL (c.thr .ld)) c.main)) sp d → P d

theorem run_swap_end {N n : Nat} {a : List (Op T E)} {o : Op T E} {s s' sf : Sys T E} (hi : ∀ o' ∈ a, Indep N n o' o)
    (h : run N n a s = .ok s') (he : exec N n o s' = .ok sf) : ∃ s1, exec N n o s = .ok s1 ∧ run N n a s1 = .ok sf := by
  have := run_swap1 (b := []) hi (run_app_ok h (run_cons_ok he rfl))
  rw [List.append_nil] at this
  exact run_ok_cons this

/-- Dump thread at its end: what the others did ahead is now part of the sequential program. -/
theorem CrInv.settle {N n lb : Nat} {P : Dsk T E → Prop} {c : List (Cmd T E)} {th : Thr → Option (List (Op T E))} {s : Sys T E} {sp : Sys T E}
    {aM aL : List (Op T E)} {ld dp : Option (List (Op T E))} (h1 : th .ld = ld) (h2 : th .dp = dp)
    (ahead : run N n (aM ++ aL) sp = .ok s) (quiet : ∀ o ∈ aM ++ aL, Quiet lb o)
    (apartM : IndepL N n aM (ol dp)) (apartL : IndepL N n aL (ol dp)) (idle : ld = none → aL = [])
    (safe : Safe N n (whole aL ld) dp c) (calm : Calm lb dp.isSome c) (quietL : ∀ o ∈ ol ld, Quiet lb o) (apart : IndepL N n (ol ld) (ol dp))
    (crash : ∀ d, Crash N n (ol dp ++ (aM ++ inl (whole aL ld) c)) sp d → P d) : ∃ sp' aM', CrInv N n lb P ⟨c, th, s⟩ sp' aM' aL := by
  subst h1 h2
  by_cases h : ol (th .dp) = []
  · obtain ⟨s1, e1, e2⟩ := run_ok_app ahead
    refine ⟨s1, [], e2, fun o ho => quiet o (List.mem_append_right _ ho), fun o ho => by simp at ho, apartL, idle, fun _ => rfl, safe, calm, quietL, apart,
      fun d hd => crash d ?_⟩
    rw [h] at hd ⊢
    exact Crash.rest e1 hd
  · exact ⟨sp, aM, ahead, quiet, apartM, apartL, idle, fun e => absurd e h, safe, calm, quietL, apart, crash⟩

theorem CrInv.step {N n lb : Nat} {P : Dsk T E → Prop} {c c' : Cfg T E} {sp : Sys T E} {aM aL : List (Op T E)} (h : CrInv N n lb P c sp aM aL)
    (hs : CStep N n c c') : ∃ sp' aM' aL', CrInv N n lb P c' sp' aM' aL' := by
  cases hs with
  | @op o c th s s' he =>
    have hsafe : IndepL N n [o] (ol (whole aL (th .ld))) ∧ IndepL N n [o] (ol (th .dp)) ∧ Safe N n (whole aL (th .ld)) (th .dp) c := h.safe
    have hoL : ∀ o' ∈ aL, Indep N n o' o := fun o' ho' => by
      cases e : th .ld with
      | none => have := h.idle e; subst this; simp at ho'
      | some l => exact (hsafe.1 o (by simp) o' (by simp [whole, ol, e, ho'])).symm
    have hcr : ∀ d, Crash N n (ol (th .dp) ++ (aM ++ o :: inl (whole aL (th .ld)) c)) sp d → P d := h.crash
    by_cases hd : ol (th .dp) = []
    · have hM : aM = [] := h.done hd
      subst hM
      obtain ⟨s1, e1, e2⟩ := run_swap_end hoL h.ahead he
      refine ⟨s1, [], aL, e2, h.quiet, h.apartM, h.apartL, h.idle, h.done, hsafe.2.2, h.calm.2, h.quietL, h.apart, fun d g => hcr d ?_⟩
      have g : Crash N n (ol (th .dp) ++ ([] ++ inl (whole aL (th .ld)) c)) s1 d := g
      rw [hd] at g ⊢
      exact Crash.rest (a := [o]) (run_cons_ok e1 rfl) g
    · have hsome : (th .dp).isSome = true := by
        cases e : th .dp with
        | none => exact absurd (by rw [e]; rfl) hd
        | some x => rfl
      obtain ⟨s0, e0, e0'⟩ := run_ok_app h.ahead
      obtain ⟨s1, e1, e2⟩ := run_swap_end hoL e0' he
      refine ⟨sp, aM ++ [o], aL, run_app_ok (run_app_ok e0 (run_cons_ok e1 rfl)) e2, fun p hp => ?_, fun p hp => ?_, h.apartL, h.idle, fun e => absurd e hd, hsafe.2.2,
        h.calm.2, h.quietL, h.apart, fun d g => hcr d ?_⟩
      · rcases List.mem_append.mp hp with hp | hp
        · rcases List.mem_append.mp hp with hp | hp
          · exact h.quiet p (List.mem_append_left _ hp)
          · simp at hp; subst hp; exact h.calm.1 hsome
        · exact h.quiet p (List.mem_append_right _ hp)
      · rcases List.mem_append.mp hp with hp | hp
        · exact h.apartM p hp
        · exact hsafe.2.1 p hp
      · have g : Crash N n (ol (th .dp) ++ ((aM ++ [o]) ++ inl (whole aL (th .ld)) c)) sp d := g
        rw [List.append_assoc, List.singleton_append] at g
        exact g
  | @thr t o os c th s s' ht he =>
    have hl := less_tail ht
    cases t with
    | ld =>
      have hq := h.quietL
      have hap := h.apart
      have hsf := h.safe
      have hcr := h.crash
      simp only [ht] at hq hap hsf hcr
      obtain ⟨s0, e0, e0'⟩ := run_ok_app h.ahead
      have hw : whole (aL ++ [o]) (some os) = whole aL (some (o :: os)) := by simp [whole]
      obtain ⟨sp', aM', hh⟩ := CrInv.settle (lb := lb) (P := P) (c := c) (th := Function.update th .ld (some os)) (s := s') (sp := sp) (aM := aM) (aL := aL ++ [o])
        (Function.update_self ..) (Function.update_of_ne (by decide) ..) (run_app_ok e0 (run_app_ok e0' (run_cons_ok he rfl)))
        (fun p hp => by
          rcases List.mem_append.mp hp with hp | hp
          · exact h.quiet p (List.mem_append_left _ hp)
          · rcases List.mem_append.mp hp with hp | hp
            · exact h.quiet p (List.mem_append_right _ hp)
            · simp at hp; subst hp; exact hq _ (by simp [ol]))
        h.apartM (fun p hp => by
          rcases List.mem_append.mp hp with hp | hp
          · exact h.apartL p hp
          · simp at hp; subst hp; exact hap _ (by simp [ol]))
        (by simp) (by rw [hw]; exact hsf) h.calm (fun p hp => hq p (List.mem_cons_of_mem _ hp)) (fun p hp => hap p (List.mem_cons_of_mem _ hp))
        (by rw [hw]; exact hcr)
      exact ⟨sp', aM', _, hh⟩
    | dp =>
      have hM := h.apartM
      have hL := h.apartL
      have hap := h.apart
      have hsf := h.safe
      have hca := h.calm
      have hcr := h.crash
      simp only [ht] at hM hL hap hsf hcr hca
      obtain ⟨s1, e1, e2⟩ := run_swap_end (fun o' ho' => by
        rcases List.mem_append.mp ho' with hp | hp
        · exact hM o' hp o (by simp [ol])
        · exact hL o' hp o (by simp [ol])) h.ahead he
      obtain ⟨sp', aM', hh⟩ := CrInv.settle (lb := lb) (P := P) (c := c) (th := Function.update th .dp (some os)) (s := s') (sp := s1) (aM := aM) (aL := aL)
        (Function.update_of_ne (by decide) ..) (Function.update_self ..) e2 h.quiet
        (fun p hp q hq => hM p hp q (List.mem_cons_of_mem _ hq)) (fun p hp q hq => hL p hp q (List.mem_cons_of_mem _ hq)) h.idle
        (hsf.mono (less_refl _) (less_tail (o := o) rfl)) hca h.quietL (fun p hp q hq => hap p hp q (List.mem_cons_of_mem _ hq))
        (fun d g => hcr d (Crash.rest (a := [o]) (run_cons_ok e1 rfl) g))
      exact ⟨sp', aM', _, hh⟩
  | @spawn t ops c th s ht =>
    cases t with
    | ld =>
      have hL : aL = [] := h.idle ht
      subst hL
      have hsf : _ ∧ IndepL N n ops (ol (th .dp)) ∧ Safe N n (some ops) (th .dp) c := h.safe
      have hcr := h.crash
      obtain ⟨sp', aM', hh⟩ := CrInv.settle (lb := lb) (P := P) (c := c) (th := Function.update th .ld (some ops)) (s := s) (sp := sp) (aM := aM) (aL := [])
        (Function.update_self ..) (Function.update_of_ne (by decide) ..) h.ahead h.quiet h.apartM h.apartL (fun _ => rfl) hsf.2.2 h.calm.2 h.calm.1 hsf.2.1
        hcr
      exact ⟨sp', aM', _, hh⟩
    | dp =>
      have hM : aM = [] := h.done (by show ol (th .dp) = []; rw [ht]; rfl)
      subst hM
      have hsf : _ ∧ IndepL N n (ol (whole aL (th .ld))) ops ∧ Safe N n (whole aL (th .ld)) (some ops) c := h.safe
      have hcr := h.crash
      simp only [ht] at hcr
      have hw : ∀ o', (o' ∈ aL ∨ o' ∈ ol (th .ld)) → o' ∈ ol (whole aL (th .ld)) := fun o' ho' => by
        cases e : th .ld with
        | none =>
          have := h.idle e
          subst this
          rw [e] at ho'
          simp [ol] at ho'
        | some l =>
          rw [e] at ho'
          simpa [ol, whole] using ho'
      obtain ⟨sp', aM', hh⟩ := CrInv.settle (lb := lb) (P := P) (c := c) (th := Function.update th .dp (some ops)) (s := s) (sp := sp) (aM := []) (aL := aL)
        (Function.update_of_ne (by decide) ..) (Function.update_self ..) h.ahead h.quiet (fun p hp => by simp at hp)
        (fun p hp => hsf.2.1 p (hw p (.inl hp))) h.idle hsf.2.2 h.calm h.quietL (fun p hp => hsf.2.1 p (hw p (.inr hp)))
        hcr
      exact ⟨sp', aM', _, hh⟩
  | @join t c th s ht =>
    cases t with
    | ld =>
      have hsf := h.safe
      have hcr := h.crash
      simp only [ht] at hsf hcr
      have hsf : _ ∧ Safe N n none (th .dp) c := hsf
      obtain ⟨sp', aM', hh⟩ := CrInv.settle (lb := lb) (P := P) (c := c) (th := Function.update th .ld none) (s := s) (sp := sp) (aM := aM ++ aL) (aL := [])
        (Function.update_self ..) (Function.update_of_ne (by decide) ..) (by rw [List.append_nil]; exact h.ahead) (by rw [List.append_nil]; exact h.quiet)
        (fun p hp => by
          rcases List.mem_append.mp hp with hp | hp
          · exact h.apartM p hp
          · exact h.apartL p hp)
        (fun p hp => by simp at hp) (fun _ => rfl) hsf.2 h.calm (fun p hp => by simp [ol] at hp) (fun p hp => by simp [ol] at hp)
        (fun d g => hcr d (by
          have : inl (whole aL (some [])) (.join .ld :: c) = aL ++ inl none c := by simp [whole, inl, ol]
          rw [this, ← List.append_assoc aM]; exact g))
      exact ⟨sp', aM', _, hh⟩
    | dp =>
      have hM : aM = [] := h.done (by show ol (th .dp) = []; rw [ht]; rfl)
      subst hM
      have hsf := h.safe
      have hcr := h.crash
      simp only [ht] at hsf hcr
      have hsf : _ ∧ Safe N n (whole aL (th .ld)) none c := hsf
      obtain ⟨sp', aM', hh⟩ := CrInv.settle (lb := lb) (P := P) (c := c) (th := Function.update th .dp none) (s := s) (sp := sp) (aM := []) (aL := aL)
        (Function.update_of_ne (by decide) ..) (Function.update_self ..) h.ahead h.quiet (fun p hp => by simp at hp) (fun p _ q hq => by simp [ol] at hq) h.idle hsf.2
        h.calm h.quietL (fun p _ q hq => by simp [ol] at hq) hcr
      exact ⟨sp', aM', _, hh⟩

/-- A crash of the program with threads leaves what a crash of the sequential program leaves, except for some
environments that are already removed. -/
theorem threads_crash {N n lb : Nat} {main : List (Cmd T E)} {s : Sys T E} (hs : Safe N n none none main) (hc : Calm lb false main) {k : Nat}
    {c : Cfg T E} (h : CSteps N n k (.init main s) c) {d : Dsk T E} (hd : TCrash c d) :
    ∃ d0, Crash N n (inl none main) s d0 ∧ Fewer lb d0 d := by
  have h0 : CrInv N n lb (Crash N n (inl none main) s) (.init main s) s [] [] :=
    ⟨rfl, fun o ho => by simp at ho, fun o ho => by simp at ho, fun o ho => by simp at ho, fun _ => rfl, fun _ => rfl, hs, hc, fun o ho => by simp [ol, Cfg.init] at ho,
      fun o ho => by simp [ol, Cfg.init] at ho, fun d g => g⟩
  have h1 : ∃ sp aM aL, CrInv N n lb (Crash N n (inl none main) s) c sp aM aL := by
    generalize hP : Crash N n (inl none main) s = P at h0 ⊢
    clear hP hd hs hc
    generalize Cfg.init main s = c0 at h h0
    induction h with
    | nil => exact ⟨_, _, _, h0⟩
    | snoc _ hs ih =>
      obtain ⟨sp, aM, aL, hh⟩ := ih h0
      exact hh.step hs
  obtain ⟨sp, aM, aL, hi⟩ := h1
  have hf := fewer_run hi.quiet hi.ahead
  rcases hd with rfl | ⟨o, ms, hm, rfl⟩ | ⟨t, o, os, ht, rfl⟩
  · exact ⟨sp.dsk, hi.crash _ ⟨[], _, sp, rfl, rfl, .inl rfl⟩, hf⟩
  · by_cases hdp : ol (c.thr .dp) = []
    · refine ⟨tear sp.dsk o, hi.crash _ ⟨[], _, sp, rfl, rfl, .inr ⟨o, inl (whole aL (c.thr .ld)) ms, ?_, rfl⟩⟩, hf.tear o⟩
      rw [hdp, hi.done hdp, hm]; rfl
    · have hq : Quiet lb o := by
        have := hi.calm
        rw [hm] at this
        refine this.1 ?_
        cases e : c.thr .dp with
        | none => exact absurd (by rw [e]; rfl) hdp
        | some x => rfl
      rw [hq.tear]
      exact ⟨sp.dsk, hi.crash _ ⟨[], _, sp, rfl, rfl, .inl rfl⟩, hf⟩
  · cases t with
    | ld =>
      have hq : Quiet lb o := hi.quietL o (by rw [ht]; simp [ol])
      rw [hq.tear]
      exact ⟨sp.dsk, hi.crash _ ⟨[], _, sp, rfl, rfl, .inl rfl⟩, hf⟩
    | dp =>
      refine ⟨tear sp.dsk o, hi.crash _ ⟨[], _, sp, rfl, rfl, .inr ⟨o, os ++ (aM ++ inl (whole aL (c.thr .ld)) c.main), ?_, rfl⟩⟩, hf.tear o⟩
      rw [ht]; rfl

end Verif.Disk
