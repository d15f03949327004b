import Verif.Disk.Core
/-
Rules for stepping through a program.
-/
namespace Verif.Disk

variable {T E : Type}

theorem run_append (N n : Nat) : ∀ (a b : List (Op T E)) (s : Sys T E),
    run N n (a ++ b) s = (run N n a s >>= fun s1 => run N n b s1)
  | [], _, _ => rfl
  | o :: a, b, s => by
    simp only [List.cons_append, run]
    cases exec N n o s with
    | error e => rfl
    | ok s1 => exact run_append N n a b s1

/-- The program runs without error and ends in a state with `P`. -/
def Does (N n : Nat) (ops : List (Op T E)) (s : Sys T E) (P : Sys T E → Prop) : Prop :=
  ∃ s', run N n ops s = .ok s' ∧ P s'

variable {N n : Nat} {ops : List (Op T E)} {s : Sys T E} {P Q : Sys T E → Prop}

theorem Does.nil (h : P s) : Does N n [] s P := ⟨s, rfl, h⟩

theorem Does.mono (h : Does N n ops s P) (hq : ∀ s', P s' → Q s') : Does N n ops s Q := by
  obtain ⟨s', e, p⟩ := h; exact ⟨s', e, hq s' p⟩

theorem Does.cons {o : Op T E} {s1 : Sys T E} (e : exec N n o s = .ok s1) (h : Does N n ops s1 P) :
    Does N n (o :: ops) s P := by
  obtain ⟨s', e', p⟩ := h
  exact ⟨s', by simp only [run, e]; exact e', p⟩

theorem Does.append {os : List (Op T E)} (h : Does N n ops s Q) (h' : ∀ s', Q s' → Does N n os s' P) :
    Does N n (ops ++ os) s P := by
  obtain ⟨s1, e, q⟩ := h
  obtain ⟨s2, e', p⟩ := h' s1 q
  exact ⟨s2, by rw [run_append, e]; exact e', p⟩

theorem Does.ldM {i : Nat} {t : T} (hi : i < N) (h : s.dsk.m i = .whole t)
    (k : Does N n ops ⟨{ s.mem with m := Function.update s.mem.m i (some t) }, s.dsk⟩ P) : Does N n (.ldM i :: ops) s P :=
  Does.cons (by simp [exec, hi, h, File.get, bind, Except.bind, pure, Except.pure]) k

theorem Does.ldL {i : Nat} {t : E} (hi : i < n) (h : s.dsk.l i = .whole t)
    (k : Does N n ops ⟨{ s.mem with l := Function.update s.mem.l i (some t) }, s.dsk⟩ P) : Does N n (.ldL i :: ops) s P :=
  Does.cons (by simp [exec, hi, h, File.get, bind, Except.bind, pure, Except.pure]) k

theorem Does.ldR {i : Nat} {t : E} (hi : i < n) (h : s.dsk.r i = .whole t)
    (k : Does N n ops ⟨{ s.mem with r := Function.update s.mem.r i (some t) }, s.dsk⟩ P) : Does N n (.ldR i :: ops) s P :=
  Does.cons (by simp [exec, hi, h, File.get, bind, Except.bind, pure, Except.pure]) k

theorem Does.dpM {i : Nat} {t : T} (hi : i < N) (h : s.mem.m i = some t)
    (k : Does N n ops ⟨{ s.mem with m := Function.update s.mem.m i none },
      { s.dsk with m := Function.update s.dsk.m i (.whole t) }⟩ P) : Does N n (.dpM i true :: ops) s P :=
  Does.cons (by simp [exec, hi, h, dumped]) k

theorem Does.dpM' {i : Nat} {t : T} (hi : i < N) (h : s.mem.m i = some t)
    (k : Does N n ops ⟨s.mem, { s.dsk with m := Function.update s.dsk.m i (.whole t) }⟩ P) :
    Does N n (.dpM i false :: ops) s P :=
  Does.cons (by simp [exec, hi, h, dumped]) k

theorem Does.dpL {i : Nat} {t : E} (hi : i < n) (h : s.mem.l i = some t)
    (k : Does N n ops ⟨s.mem, { s.dsk with l := Function.update s.dsk.l i (.whole t) }⟩ P) : Does N n (.dpL i :: ops) s P :=
  Does.cons (by simp [exec, hi, h, dumped]) k

theorem Does.dpR {i : Nat} {t : E} (hi : i < n) (h : s.mem.r i = some t)
    (k : Does N n ops ⟨s.mem, { s.dsk with r := Function.update s.dsk.r i (.whole t) }⟩ P) : Does N n (.dpR i :: ops) s P :=
  Does.cons (by simp [exec, hi, h, dumped]) k

theorem Does.wrL {i : Nat} {t : E} (h : s.mem.reg = some t)
    (k : Does N n ops ⟨s.mem, { s.dsk with l := Function.update s.dsk.l i (.whole t) }⟩ P) : Does N n (.wrL i :: ops) s P :=
  Does.cons (by simp [exec, h, dumped]) k

theorem Does.wrR {i : Nat} {t : E} (h : s.mem.reg = some t)
    (k : Does N n ops ⟨s.mem, { s.dsk with r := Function.update s.dsk.r i (.whole t) }⟩ P) : Does N n (.wrR i :: ops) s P :=
  Does.cons (by simp [exec, h, dumped]) k

theorem Does.rmL {i : Nat}
    (k : Does N n ops ⟨s.mem, { s.dsk with l := Function.update s.dsk.l i .gone }⟩ P) : Does N n (.rmL i :: ops) s P :=
  Does.cons rfl k

theorem Does.rmR {i : Nat}
    (k : Does N n ops ⟨s.mem, { s.dsk with r := Function.update s.dsk.r i .gone }⟩ P) : Does N n (.rmR i :: ops) s P :=
  Does.cons rfl k

theorem Does.frM {i : Nat} (hi : i < N)
    (k : Does N n ops ⟨{ s.mem with m := Function.update s.mem.m i none }, s.dsk⟩ P) : Does N n (.frM i :: ops) s P :=
  Does.cons (by simp [exec, hi]) k

theorem Does.frL {i : Nat} (hi : i < n)
    (k : Does N n ops ⟨{ s.mem with l := Function.update s.mem.l i none }, s.dsk⟩ P) : Does N n (.frL i :: ops) s P :=
  Does.cons (by simp [exec, hi]) k

theorem Does.frR {i : Nat} (hi : i < n)
    (k : Does N n ops ⟨{ s.mem with r := Function.update s.mem.r i none }, s.dsk⟩ P) : Does N n (.frR i :: ops) s P :=
  Does.cons (by simp [exec, hi]) k

theorem Does.calc {f : Mem T E → Except Err (Mem T E)} {m' : Mem T E} (h : f s.mem = .ok m')
    (k : Does N n ops ⟨m', s.dsk⟩ P) : Does N n (.calc f :: ops) s P :=
  Does.cons (by simp [exec, h, bind, Except.bind, pure, Except.pure]) k

end Verif.Disk
