import Verif.Disk.CrashFacts
import Verif.Disk.Boundary
/-
Missing and incomplete files: a program behaves as on a completed directory until it loads one of them.
-/
namespace Verif.Disk

variable {T E : Type} {N n : Nat}

/-- A failed load. -/
def Stops (x : Except Err (Sys T E)) : Prop := x = .error .noFile ∨ x = .error .badFile

/-- Equal, or not complete. -/
def File.le {α : Type} (a b : File α) : Prop := a = b ∨ ∀ v, a ≠ .whole v

/-- The directory `d''` completes `d`. -/
structure Dsk.Le (d d'' : Dsk T E) : Prop where
  m : ∀ j, (d.m j).le (d''.m j)
  l : ∀ j, (d.l j).le (d''.l j)
  r : ∀ j, (d.r j).le (d''.r j)

theorem File.le_get {α : Type} {a b : File α} (h : a.le b) {v : α} (hb : b.get = .ok v) :
    (a.get = .error .noFile ∨ a.get = .error .badFile) ∨ a.get = .ok v := by
  rcases h with rfl | h
  · exact Or.inr hb
  · cases a with
    | gone => exact Or.inl (Or.inl rfl)
    | junk => exact Or.inl (Or.inr rfl)
    | whole v => exact absurd rfl (h v)

theorem le_update {α : Type} {f g : Nat → File α} (h : ∀ j, (f j).le (g j)) (i : Nat) (x : File α) :
    ∀ j, (Function.update f i x j).le (Function.update g i x j) := fun j => by
  by_cases hj : j = i
  · subst hj; simp [File.le]
  · simp only [Function.update_of_ne hj]; exact h j

theorem eq_update {α : Type} {f g : Nat → File α} {i j : Nat} {x : File α} (h : f j = g j) :
    Function.update f i x j = Function.update g i x j := by
  by_cases hj : j = i
  · subst hj; simp
  · simp only [Function.update_of_ne hj]; exact h

/-- What the two runs have in common. -/
structure Sim (s s'' : Sys T E) : Prop where
  mem : s.mem = s''.mem
  le : s.dsk.Le s''.dsk

theorem exec_sim {o : Op T E} {s s'' t'' : Sys T E} (h : Sim s s'') (e : exec N n o s'' = .ok t'') :
    Stops (exec N n o s) ∨ ∃ t, exec N n o s = .ok t ∧ Sim t t'' ∧ (∀ j, s.dsk.m j = s''.dsk.m j → t.dsk.m j = t''.dsk.m j) := by
  obtain ⟨mem, d⟩ := s
  obtain ⟨mem'', d''⟩ := s''
  obtain ⟨h1, h2⟩ := h
  simp only at h1 h2
  subst h1
  cases o with
  | ldM i =>
    rw [exec] at e ⊢
    by_cases hi : i < N
    · rw [if_pos hi] at e ⊢
      cases hg : (d''.m i).get with
      | error x => rw [hg] at e; exact absurd e (by simp [bind, Except.bind])
      | ok v =>
        rw [hg] at e
        injection e with e
        subst e
        rcases File.le_get (h2.m i) hg with (g | g) | g
        · rw [g]; exact Or.inl (Or.inl rfl)
        · rw [g]; exact Or.inl (Or.inr rfl)
        · rw [g]; exact Or.inr ⟨_, rfl, ⟨rfl, h2⟩, fun j hj => hj⟩
    · rw [if_neg hi] at e; exact absurd e (by simp)
  | ldL i =>
    rw [exec] at e ⊢
    by_cases hi : i < n
    · rw [if_pos hi] at e ⊢
      cases hg : (d''.l i).get with
      | error x => rw [hg] at e; exact absurd e (by simp [bind, Except.bind])
      | ok v =>
        rw [hg] at e
        injection e with e
        subst e
        rcases File.le_get (h2.l i) hg with (g | g) | g
        · rw [g]; exact Or.inl (Or.inl rfl)
        · rw [g]; exact Or.inl (Or.inr rfl)
        · rw [g]; exact Or.inr ⟨_, rfl, ⟨rfl, h2⟩, fun j hj => hj⟩
    · rw [if_neg hi] at e; exact absurd e (by simp)
  | ldR i =>
    rw [exec] at e ⊢
    by_cases hi : i < n
    · rw [if_pos hi] at e ⊢
      cases hg : (d''.r i).get with
      | error x => rw [hg] at e; exact absurd e (by simp [bind, Except.bind])
      | ok v =>
        rw [hg] at e
        injection e with e
        subst e
        rcases File.le_get (h2.r i) hg with (g | g) | g
        · rw [g]; exact Or.inl (Or.inl rfl)
        · rw [g]; exact Or.inl (Or.inr rfl)
        · rw [g]; exact Or.inr ⟨_, rfl, ⟨rfl, h2⟩, fun j hj => hj⟩
    · rw [if_neg hi] at e; exact absurd e (by simp)
  | dpM i rel =>
    rw [exec] at e ⊢
    by_cases hi : i < N
    · rw [if_pos hi] at e ⊢
      injection e with e
      subst e
      exact Or.inr ⟨_, rfl, ⟨rfl, ⟨le_update h2.m _ _, h2.l, h2.r⟩⟩, fun j hj => eq_update hj⟩
    · rw [if_neg hi] at e; exact absurd e (by simp)
  | dpL i =>
    rw [exec] at e ⊢
    by_cases hi : i < n
    · rw [if_pos hi] at e ⊢
      injection e with e
      subst e
      exact Or.inr ⟨_, rfl, ⟨rfl, ⟨h2.m, le_update h2.l _ _, h2.r⟩⟩, fun j hj => hj⟩
    · rw [if_neg hi] at e; exact absurd e (by simp)
  | dpR i =>
    rw [exec] at e ⊢
    by_cases hi : i < n
    · rw [if_pos hi] at e ⊢
      injection e with e
      subst e
      exact Or.inr ⟨_, rfl, ⟨rfl, ⟨h2.m, h2.l, le_update h2.r _ _⟩⟩, fun j hj => hj⟩
    · rw [if_neg hi] at e; exact absurd e (by simp)
  | wrL i =>
    rw [exec] at e ⊢
    injection e with e
    subst e
    exact Or.inr ⟨_, rfl, ⟨rfl, ⟨h2.m, le_update h2.l _ _, h2.r⟩⟩, fun j hj => hj⟩
  | wrR i =>
    rw [exec] at e ⊢
    injection e with e
    subst e
    exact Or.inr ⟨_, rfl, ⟨rfl, ⟨h2.m, h2.l, le_update h2.r _ _⟩⟩, fun j hj => hj⟩
  | rmL i =>
    rw [exec] at e ⊢
    injection e with e
    subst e
    exact Or.inr ⟨_, rfl, ⟨rfl, ⟨h2.m, le_update h2.l _ _, h2.r⟩⟩, fun j hj => hj⟩
  | rmR i =>
    rw [exec] at e ⊢
    injection e with e
    subst e
    exact Or.inr ⟨_, rfl, ⟨rfl, ⟨h2.m, h2.l, le_update h2.r _ _⟩⟩, fun j hj => hj⟩
  | frM i =>
    rw [exec] at e ⊢
    by_cases hi : i < N
    · rw [if_pos hi] at e ⊢
      injection e with e
      subst e
      exact Or.inr ⟨_, rfl, ⟨rfl, h2⟩, fun j hj => hj⟩
    · rw [if_neg hi] at e; exact absurd e (by simp)
  | frL i =>
    rw [exec] at e ⊢
    by_cases hi : i < n
    · rw [if_pos hi] at e ⊢
      injection e with e
      subst e
      exact Or.inr ⟨_, rfl, ⟨rfl, h2⟩, fun j hj => hj⟩
    · rw [if_neg hi] at e; exact absurd e (by simp)
  | frR i =>
    rw [exec] at e ⊢
    by_cases hi : i < n
    · rw [if_pos hi] at e ⊢
      injection e with e
      subst e
      exact Or.inr ⟨_, rfl, ⟨rfl, h2⟩, fun j hj => hj⟩
    · rw [if_neg hi] at e; exact absurd e (by simp)
  | «calc» f =>
    rw [exec] at e ⊢
    cases hf : f mem with
    | error x => simp only [hf] at e; exact absurd e (by simp [bind, Except.bind])
    | ok m =>
      simp only [hf] at e
      injection e with e
      subst e
      exact Or.inr ⟨_, rfl, ⟨rfl, h2⟩, fun j hj => hj⟩

/-- A program that succeeds on the completed directory either stops at a load or does the same. -/
theorem run_sim : ∀ {ops : List (Op T E)} {s s'' t'' : Sys T E}, Sim s s'' → run N n ops s'' = .ok t'' →
    Stops (run N n ops s) ∨ ∃ t, run N n ops s = .ok t ∧ Sim t t'' ∧ (∀ j, s.dsk.m j = s''.dsk.m j → t.dsk.m j = t''.dsk.m j)
  | [], s, s'', t'', h, e => by injection e with e; subst e; exact Or.inr ⟨s, rfl, h, fun _ hj => hj⟩
  | o :: ops, s, s'', t'', h, e => by
    rw [run] at e ⊢
    cases he : exec N n o s'' with
    | error x => rw [he] at e; exact absurd e (by simp [bind, Except.bind])
    | ok s1'' =>
      rw [he] at e
      rcases exec_sim h he with (g | g) | ⟨s1, g, h1, h2⟩
      · rw [g]; exact Or.inl (Or.inl rfl)
      · rw [g]; exact Or.inl (Or.inr rfl)
      · rw [g]
        rcases run_sim h1 e with h3 | ⟨t, g3, h3, h4⟩
        · exact Or.inl h3
        · exact Or.inr ⟨t, g3, h3, fun j hj => h4 j (h2 j hj)⟩

/-- Site `j` is loaded before it is written. -/
def Reads (j : Nat) (ops : List (Op T E)) : Prop :=
  ∃ a b, ops = a ++ .ldM j :: b ∧ ∀ o, o ∈ a → ∀ rel, o ≠ .dpM j rel

theorem Reads.prepend {j : Nat} {a b : List (Op T E)} (ha : ∀ o, o ∈ a → ∀ rel, o ≠ .dpM j rel) (h : Reads j b) : Reads j (a ++ b) := by
  obtain ⟨c, d, rfl, h⟩ := h
  refine ⟨a ++ c, d, by rw [List.append_assoc], fun o ho => ?_⟩
  rcases List.mem_append.mp ho with ho | ho
  · exact ha o ho
  · exact h o ho

theorem Reads.append {j : Nat} {a b : List (Op T E)} (h : Reads j a) : Reads j (a ++ b) := by
  obtain ⟨c, d, rfl, h⟩ := h
  exact ⟨c, d ++ b, by simp, h⟩

theorem Reads.mem {j : Nat} {a : List (Op T E)} (ha : ∀ o, o ∈ a → ∀ rel, o ≠ .dpM j rel) (h : .ldM j ∈ a) : Reads j a := by
  obtain ⟨c, d, rfl⟩ := List.append_of_mem h
  exact ⟨c, d, rfl, fun o ho => ha o (by simp [ho])⟩

theorem keep_m {j : Nat} : ∀ {ops : List (Op T E)} {s t : Sys T E}, (∀ o, o ∈ ops → ∀ rel, o ≠ .dpM j rel) → run N n ops s = .ok t →
    t.dsk.m j = s.dsk.m j
  | [], s, t, _, e => by injection e with e; subst e; rfl
  | o :: ops, s, t, h, e => by
    rw [run] at e
    cases he : exec N n o s with
    | error x => rw [he] at e; exact absurd e (by simp [bind, Except.bind])
    | ok s1 =>
      rw [he] at e
      rw [keep_m (fun o' ho => h o' (by simp [ho])) e, exec_dsk he]
      cases o <;> try rfl
      case dpM i rel =>
        have : i ≠ j := fun hij => h (.dpM i rel) (by simp) rel (by rw [hij])
        simp only [eff, Function.update_of_ne (Ne.symm this)]

/-- A successful run has found the file of a site that it loads before writing it. -/
theorem Reads.whole {j : Nat} {ops : List (Op T E)} (h : Reads j ops) {s t : Sys T E} (e : run N n ops s = .ok t) :
    ∃ v, s.dsk.m j = .whole v := by
  obtain ⟨a, b, rfl, h⟩ := h
  rw [run_append] at e
  cases ha : run N n a s with
  | error x => rw [ha] at e; exact absurd e (by simp [bind, Except.bind])
  | ok s1 =>
    rw [ha] at e
    replace e : run N n (.ldM j :: b) s1 = .ok t := e
    rw [run, exec] at e
    split at e
    · cases hg : (s1.dsk.m j).get with
      | error x => rw [hg] at e; exact absurd e (by simp [bind, Except.bind])
      | ok v => exact ⟨v, by rw [← keep_m h ha]; exact get_ok hg⟩
    · exact absurd e (by simp [bind, Except.bind])

theorem Stops.append {a b : List (Op T E)} {s : Sys T E} (h : Stops (run N n a s)) : Stops (run N n (a ++ b) s) := by
  rw [run_append]
  rcases h with h | h <;> rw [h]
  · exact Or.inl rfl
  · exact Or.inr rfl

end Verif.Disk
