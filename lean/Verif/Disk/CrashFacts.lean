import Verif.Disk.TwoSiteFacts
/-
Crash states of the two-site program.
-/
namespace Verif.Disk

variable {T E : Type} {N n : Nat}

theorem Crash.append_inv {a b : List (Op T E)} {s : Sys T E} {d : Dsk T E} (h : Crash N n (a ++ b) s d) :
    Crash N n a s d ∨ ∃ s1, run N n a s = .ok s1 ∧ Crash N n b s1 d := by
  obtain ⟨done, rest, s1, e, r, hd⟩ := h
  rcases List.append_eq_append_iff.mp e with ⟨c, h1, h2⟩ | ⟨c, h1, h2⟩
  · right
    subst h1 h2
    rw [run_append] at r
    cases ha : run N n a s with
    | error x => rw [ha] at r; exact absurd r (by simp [bind, Except.bind])
    | ok s0 =>
      rw [ha] at r
      exact ⟨s0, rfl, c, rest, s1, rfl, r, hd⟩
  · subst h1
    cases c with
    | nil =>
      right
      refine ⟨s1, by simpa using r, [], b, s1, rfl, rfl, ?_⟩
      rw [List.nil_append] at h2
      rw [← h2]; exact hd
    | cons o c =>
      left
      refine ⟨done, o :: c, s1, rfl, r, ?_⟩
      rcases hd with rfl | ⟨o', os, h3, h4⟩
      · exact Or.inl rfl
      · rw [h2] at h3
        simp only [List.cons_append, List.cons.injEq] at h3
        exact Or.inr ⟨o, c, rfl, by rw [h3.1]; exact h4⟩

theorem Crash.nil_inv {s : Sys T E} {d : Dsk T E} (h : Crash N n [] s d) : d = s.dsk := by
  obtain ⟨done, rest, s1, e, r, hd⟩ := h
  obtain ⟨rfl, rfl⟩ := List.append_eq_nil_iff.mp e.symm
  injection r with r
  subst r
  rcases hd with rfl | ⟨o, os, h, -⟩
  · rfl
  · exact absurd h (by simp)

theorem Crash.cons_inv {o : Op T E} {ops : List (Op T E)} {s : Sys T E} {d : Dsk T E} (h : Crash N n (o :: ops) s d) :
    d = s.dsk ∨ d = tear s.dsk o ∨ ∃ s1, exec N n o s = .ok s1 ∧ Crash N n ops s1 d := by
  obtain ⟨done, rest, s1, e, r, hd⟩ := h
  cases done with
  | nil =>
    rw [List.nil_append] at e
    subst e
    injection r with r
    subst r
    rcases hd with rfl | ⟨o', os, h, h'⟩
    · exact Or.inl rfl
    · injection h with h _
      exact Or.inr (Or.inl (by rw [h]; exact h'))
  | cons o' done =>
    rw [List.cons_append] at e
    injection e with e1 e2
    subst e1 e2
    right; right
    rw [run] at r
    cases ho : exec N n o s with
    | error x => rw [ho] at r; exact absurd r (by simp [bind, Except.bind])
    | ok s0 =>
      rw [ho] at r
      exact ⟨s0, rfl, done, rest, s1, rfl, r, hd⟩

/-- The files after an operation. -/
def eff (s : Sys T E) : Op T E → Dsk T E
  | .dpM i _ => { s.dsk with m := Function.update s.dsk.m i (dumped (s.mem.m i)) }
  | .dpL k => { s.dsk with l := Function.update s.dsk.l k (dumped (s.mem.l k)) }
  | .dpR k => { s.dsk with r := Function.update s.dsk.r k (dumped (s.mem.r k)) }
  | .wrL k => { s.dsk with l := Function.update s.dsk.l k (dumped s.mem.reg) }
  | .wrR k => { s.dsk with r := Function.update s.dsk.r k (dumped s.mem.reg) }
  | .rmL k => { s.dsk with l := Function.update s.dsk.l k .gone }
  | .rmR k => { s.dsk with r := Function.update s.dsk.r k .gone }
  | _ => s.dsk

theorem exec_dsk {o : Op T E} {s s1 : Sys T E} (he : exec N n o s = .ok s1) : s1.dsk = eff s o := by
  cases o <;> rw [exec] at he <;> first
    | (injection he with he; subst he; rfl)
    | (split at he
       · injection he with he; subst he; rfl
       · exact absurd he (by simp))
    | (split at he
       · rename_i i _
         cases hf : (s.dsk.m i).get with
         | error x => rw [hf] at he; exact absurd he (by simp [bind, Except.bind])
         | ok t => rw [hf] at he; injection he with he; subst he; rfl
       · exact absurd he (by simp))
    | (split at he
       · rename_i i _
         cases hf : (s.dsk.l i).get with
         | error x => rw [hf] at he; exact absurd he (by simp [bind, Except.bind])
         | ok t => rw [hf] at he; injection he with he; subst he; rfl
       · exact absurd he (by simp))
    | (split at he
       · rename_i i _
         cases hf : (s.dsk.r i).get with
         | error x => rw [hf] at he; exact absurd he (by simp [bind, Except.bind])
         | ok t => rw [hf] at he; injection he with he; subst he; rfl
       · exact absurd he (by simp))
    | (rename_i f
       cases hf : f s.mem with
       | error x => rw [hf] at he; exact absurd he (by simp [bind, Except.bind])
       | ok t => rw [hf] at he; injection he with he; subst he; rfl)

/-- The program runs without error to a state with `P`, and every crash leaves files with `I`. -/
def Thru (N n : Nat) (ops : List (Op T E)) (s : Sys T E) (I : Dsk T E → Prop) (P : Sys T E → Prop) : Prop :=
  Does N n ops s P ∧ ∀ d, Crash N n ops s d → I d

theorem Thru.append {a b : List (Op T E)} {s : Sys T E} {I : Dsk T E → Prop} {P Q : Sys T E → Prop}
    (h : Thru N n a s I Q) (h' : ∀ s', Q s' → Thru N n b s' I P) : Thru N n (a ++ b) s I P := by
  refine ⟨h.1.append fun s' hs' => (h' s' hs').1, fun d hd => ?_⟩
  rcases hd.append_inv with h1 | ⟨s1, r, h2⟩
  · exact h.2 d h1
  · obtain ⟨s', r', q⟩ := h.1
    rw [r] at r'
    injection r' with r'
    exact (h' s1 (r' ▸ q)).2 d h2

theorem Thru.nil {s : Sys T E} {I : Dsk T E → Prop} {P : Sys T E → Prop} (h : P s) (i : I s.dsk) : Thru N n [] s I P :=
  ⟨.nil h, fun _ hd => hd.nil_inv ▸ i⟩

theorem Thru.mono {ops : List (Op T E)} {s : Sys T E} {I I' : Dsk T E → Prop} {P P' : Sys T E → Prop} (h : Thru N n ops s I P)
    (hi : ∀ d, I d → I' d) (hp : ∀ s', P s' → P' s') : Thru N n ops s I' P' :=
  ⟨h.1.mono hp, fun d hd => hi d (h.2 d hd)⟩

/-- The outer legs of the end tensors in memory are those of `ψ`. -/
structure Ends (A : Alg T E) (N : Nat) (ψ : Nat → T) (m : Mem T E) : Prop where
  l : ∀ t, m.m 0 = some t → A.trivL t = A.trivL (ψ 0)
  r : ∀ t, m.m (N - 1) = some t → A.trivR t = A.trivR (ψ (N - 1))

/-- In the middle of a sweep: only the sites `lb … b-1` may differ from `ψ`, and the complete right environments
do not cover them. -/
structure Mid (A : Alg T E) (N lb rb : Nat) (ψ : Nat → T) (b : Nat) (d : Dsk T E) : Prop where
  left : ∀ j, j < lb → d.m j = .whole (ψ j)
  right : ∀ j, b ≤ j → j < N → d.m j = .whole (ψ j)
  tl : ∀ t, d.m 0 = .whole t → A.trivL t = A.trivL (ψ 0)
  tr : ∀ t, d.m (N - 1) = .whole t → A.trivR t = A.trivR (ψ (N - 1))
  env : d.l lb = .whole (A.lenv ψ lb)
  r : ∀ k e, N ≤ k + 1 + rb → k + lb + 2 ≤ N → d.r k = .whole e → k + b ≤ N ∧ e = A.renv N ψ k

/-- Operations that keep `Mid`. -/
def Foot (A : Alg T E) (N lb : Nat) (ψ : Nat → T) (b : Nat) : Op T E → Prop
  | .dpM i _ => lb ≤ i ∧ i < b
  | .dpL k => k ≠ lb
  | .dpR _ => False
  | .wrL k => k ≠ lb
  | .wrR _ => False
  | .rmL k => k ≠ lb
  | .calc f => ∀ m m', f m = .ok m' → Ends A N ψ m → Ends A N ψ m'
  | _ => True

theorem get_ok {α : Type} {f : File α} {a : α} (h : f.get = .ok a) : f = .whole a := by
  cases f <;> simp_all [File.get]

theorem dumped_whole {α : Type} {o : Option α} {a : α} (h : dumped o = .whole a) : o = some a := by
  cases o <;> simp_all [dumped]

section
variable {A : Alg T E} {lb rb b : Nat} {ψ : Nat → T}

theorem Mid.setM {d : Dsk T E} (h : Mid A N lb rb ψ b d) {i : Nat} (h1 : lb ≤ i) (h2 : i < b) {x : File T}
    (hl : ∀ t, x = .whole t → i = 0 → A.trivL t = A.trivL (ψ 0))
    (hr : ∀ t, x = .whole t → i = N - 1 → A.trivR t = A.trivR (ψ (N - 1))) :
    Mid A N lb rb ψ b { d with m := Function.update d.m i x } := by
  refine ⟨fun j hj => ?_, fun j hj hj' => ?_, fun t ht => ?_, fun t ht => ?_, h.env, h.r⟩
  · simp only [Function.update_of_ne (show j ≠ i by omega)]; exact h.left j hj
  · simp only [Function.update_of_ne (show j ≠ i by omega)]; exact h.right j hj hj'
  · by_cases h0 : i = 0
    · subst h0; simp only [Function.update_self] at ht; exact hl t ht rfl
    · simp only [Function.update_of_ne (show 0 ≠ i by omega)] at ht; exact h.tl t ht
  · by_cases h0 : i = N - 1
    · subst h0; simp only [Function.update_self] at ht; exact hr t ht rfl
    · simp only [Function.update_of_ne (show N - 1 ≠ i by omega)] at ht; exact h.tr t ht

theorem Mid.setL {d : Dsk T E} (h : Mid A N lb rb ψ b d) {k : Nat} (h1 : k ≠ lb) {x : File E} :
    Mid A N lb rb ψ b { d with l := Function.update d.l k x } :=
  ⟨h.left, h.right, h.tl, h.tr, by simp only [Function.update_of_ne (show lb ≠ k by omega)]; exact h.env, h.r⟩

theorem Mid.setR {d : Dsk T E} (h : Mid A N lb rb ψ b d) {k : Nat} {x : File E} (hx : ∀ e, x ≠ .whole e) :
    Mid A N lb rb ψ b { d with r := Function.update d.r k x } := by
  refine ⟨h.left, h.right, h.tl, h.tr, h.env, fun j e h1 h2 h3 => ?_⟩
  by_cases hj : j = k
  · subst hj; simp only [Function.update_self] at h3; exact absurd h3 (hx e)
  · simp only [Function.update_of_ne hj] at h3; exact h.r j e h1 h2 h3

theorem Mid.tear {d : Dsk T E} {o : Op T E} (ho : Foot A N lb ψ b o) (h : Mid A N lb rb ψ b d) :
    Mid A N lb rb ψ b (tear d o) := by
  cases o with
  | dpM i rel => exact h.setM ho.1 ho.2 (fun _ h => by simp at h) (fun _ h => by simp at h)
  | dpL k => exact h.setL ho
  | wrL k => exact h.setL ho
  | dpR k => exact absurd ho id
  | wrR k => exact absurd ho id
  | _ => exact h

theorem Mid.exec {o : Op T E} (ho : Foot A N lb ψ b o) {s s1 : Sys T E} (he : exec N n o s = .ok s1)
    (h : Mid A N lb rb ψ b s.dsk) (hm : Ends A N ψ s.mem) : Mid A N lb rb ψ b s1.dsk ∧ Ends A N ψ s1.mem := by
  cases o with
  | ldM i =>
    rw [Disk.exec] at he
    split at he
    · cases hf : (s.dsk.m i).get with
      | error x => rw [hf] at he; exact absurd he (by simp [bind, Except.bind])
      | ok t =>
        rw [hf] at he
        injection he with he
        subst he
        refine ⟨h, fun t' ht => ?_, fun t' ht => ?_⟩
        · by_cases h0 : i = 0
          · subst h0
            simp only [Function.update_self, Option.some.injEq] at ht
            exact h.tl t' (ht ▸ get_ok hf)
          · simp only [Function.update_of_ne (show 0 ≠ i by omega)] at ht
            exact hm.l t' ht
        · by_cases h0 : i = N - 1
          · subst h0
            simp only [Function.update_self, Option.some.injEq] at ht
            exact h.tr t' (ht ▸ get_ok hf)
          · simp only [Function.update_of_ne (show N - 1 ≠ i by omega)] at ht
            exact hm.r t' ht
    · exact absurd he (by simp)
  | ldL k =>
    rw [Disk.exec] at he
    split at he
    · cases hf : (s.dsk.l k).get with
      | error x => rw [hf] at he; exact absurd he (by simp [bind, Except.bind])
      | ok t => rw [hf] at he; injection he with he; subst he; exact ⟨h, hm.l, hm.r⟩
    · exact absurd he (by simp)
  | ldR k =>
    rw [Disk.exec] at he
    split at he
    · cases hf : (s.dsk.r k).get with
      | error x => rw [hf] at he; exact absurd he (by simp [bind, Except.bind])
      | ok t => rw [hf] at he; injection he with he; subst he; exact ⟨h, hm.l, hm.r⟩
    · exact absurd he (by simp)
  | dpM i rel =>
    rw [Disk.exec] at he
    split at he
    · injection he with he
      subst he
      refine ⟨h.setM ho.1 ho.2 (fun t ht hi => ?_) (fun t ht hi => ?_), fun t ht => ?_, fun t ht => ?_⟩
      · subst hi; exact hm.l t (dumped_whole ht)
      · subst hi; exact hm.r t (dumped_whole ht)
      · cases rel with
        | false => exact hm.l t ht
        | true =>
          by_cases h0 : i = 0
          · subst h0; simp at ht
          · simp only [if_true, Function.update_of_ne (show 0 ≠ i by omega)] at ht; exact hm.l t ht
      · cases rel with
        | false => exact hm.r t ht
        | true =>
          by_cases h0 : i = N - 1
          · subst h0; simp at ht
          · simp only [if_true, Function.update_of_ne (show N - 1 ≠ i by omega)] at ht; exact hm.r t ht
    · exact absurd he (by simp)
  | dpL k =>
    rw [Disk.exec] at he
    split at he
    · injection he with he; subst he; exact ⟨h.setL ho, hm⟩
    · exact absurd he (by simp)
  | dpR k => exact absurd ho id
  | wrL k => rw [Disk.exec] at he; injection he with he; subst he; exact ⟨h.setL ho, hm⟩
  | wrR k => exact absurd ho id
  | rmL k => rw [Disk.exec] at he; injection he with he; subst he; exact ⟨h.setL ho, hm⟩
  | rmR k => rw [Disk.exec] at he; injection he with he; subst he; exact ⟨h.setR (by simp), hm⟩
  | frM i =>
    rw [Disk.exec] at he
    split at he
    · injection he with he
      subst he
      refine ⟨h, fun t ht => ?_, fun t ht => ?_⟩
      · by_cases h0 : i = 0
        · subst h0; simp at ht
        · simp only [Function.update_of_ne (show 0 ≠ i by omega)] at ht; exact hm.l t ht
      · by_cases h0 : i = N - 1
        · subst h0; simp at ht
        · simp only [Function.update_of_ne (show N - 1 ≠ i by omega)] at ht; exact hm.r t ht
    · exact absurd he (by simp)
  | frL k =>
    rw [Disk.exec] at he
    split at he
    · injection he with he; subst he; exact ⟨h, hm.l, hm.r⟩
    · exact absurd he (by simp)
  | frR k =>
    rw [Disk.exec] at he
    split at he
    · injection he with he; subst he; exact ⟨h, hm.l, hm.r⟩
    · exact absurd he (by simp)
  | «calc» f =>
    rw [Disk.exec] at he
    cases hf : f s.mem with
    | error x => rw [hf] at he; exact absurd he (by simp [bind, Except.bind])
    | ok m => rw [hf] at he; injection he with he; subst he; exact ⟨h, ho _ _ hf hm⟩

theorem Mid.crash : ∀ {ops : List (Op T E)}, (∀ o, o ∈ ops → Foot A N lb ψ b o) → ∀ {s : Sys T E} {d : Dsk T E},
    Crash N n ops s d → Mid A N lb rb ψ b s.dsk → Ends A N ψ s.mem → Mid A N lb rb ψ b d
  | [], _, s, d, hc, h, _ => hc.nil_inv ▸ h
  | o :: ops, ho, s, d, hc, h, hm => by
    rcases hc.cons_inv with rfl | rfl | ⟨s1, he, hc'⟩
    · exact h
    · exact h.tear (ho o (by simp))
    · obtain ⟨h', hm'⟩ := Mid.exec (ho o (by simp)) he h hm
      exact Mid.crash (fun o' h' => ho o' (by simp [h'])) hc' h' hm'

theorem Mid.run : ∀ {ops : List (Op T E)}, (∀ o, o ∈ ops → Foot A N lb ψ b o) → ∀ {s s1 : Sys T E},
    run N n ops s = .ok s1 → Mid A N lb rb ψ b s.dsk → Ends A N ψ s.mem → Mid A N lb rb ψ b s1.dsk ∧ Ends A N ψ s1.mem
  | [], _, s, s1, hr, h, hm => by injection hr with hr; subst hr; exact ⟨h, hm⟩
  | o :: ops, ho, s, s1, hr, h, hm => by
    rw [Disk.run] at hr
    cases he : Disk.exec N n o s with
    | error x => rw [he] at hr; exact absurd hr (by simp [bind, Except.bind])
    | ok s2 =>
      rw [he] at hr
      obtain ⟨h', hm'⟩ := Mid.exec (ho o (by simp)) he h hm
      exact Mid.run (fun o' h' => ho o' (by simp [h'])) hr h' hm'

theorem use_ok {α : Type} {o : Option α} {a : α} (h : use o = .ok a) : o = some a := by
  cases o <;> simp_all [use]

theorem upd2R_ends (H : A.Legs) {i : Nat} : ∀ m m', upd2R A N n i m = .ok m' → Ends A N ψ m → Ends A N ψ m' := by
  intro m m' h hm
  unfold upd2R at h
  split at h
  · rename_i hg
    cases h1 : use (m.l i) with
    | error x => rw [h1] at h; exact absurd h (by simp [bind, Except.bind])
    | ok e =>
    cases h2 : use (m.r (N - (i + 2))) with
    | error x => rw [h1, h2] at h; exact absurd h (by simp [bind, Except.bind])
    | ok f =>
    cases h3 : use (m.m i) with
    | error x => rw [h1, h2, h3] at h; exact absurd h (by simp [bind, Except.bind])
    | ok t =>
    cases h4 : use (m.m (i + 1)) with
    | error x => rw [h1, h2, h3, h4] at h; exact absurd h (by simp [bind, Except.bind])
    | ok u =>
    rw [h1, h2, h3, h4] at h
    injection h with h
    subst h
    refine ⟨fun t' ht => ?_, fun t' ht => ?_⟩
    · simp only [Function.update_of_ne (show 0 ≠ i + 1 by omega)] at ht
      by_cases h0 : i = 0
      · subst h0
        simp only [Function.update_self, Option.some.injEq] at ht
        rw [← ht, H.left]; exact hm.l t (use_ok h3)
      · simp only [Function.update_of_ne (show 0 ≠ i by omega)] at ht; exact hm.l t' ht
    · by_cases h0 : i + 1 = N - 1
      · rw [h0] at ht
        simp only [Function.update_self, Option.some.injEq] at ht
        rw [← ht, H.right]; exact hm.r u (by rw [← h0]; exact use_ok h4)
      · simp only [Function.update_of_ne (show N - 1 ≠ i + 1 by omega), Function.update_of_ne (show N - 1 ≠ i by omega)] at ht
        exact hm.r t' ht
  · exact absurd h (by simp)

theorem upd2L_ends (H : A.Legs) {i : Nat} : ∀ m m', upd2L A N n i m = .ok m' → Ends A N ψ m → Ends A N ψ m' := by
  intro m m' h hm
  unfold upd2L at h
  split at h
  · rename_i hg
    cases h1 : use (m.l (i - 1)) with
    | error x => rw [h1] at h; exact absurd h (by simp [bind, Except.bind])
    | ok e =>
    cases h2 : use (m.r (N - i - 1)) with
    | error x => rw [h1, h2] at h; exact absurd h (by simp [bind, Except.bind])
    | ok f =>
    cases h3 : use (m.m (i - 1)) with
    | error x => rw [h1, h2, h3] at h; exact absurd h (by simp [bind, Except.bind])
    | ok t =>
    cases h4 : use (m.m i) with
    | error x => rw [h1, h2, h3, h4] at h; exact absurd h (by simp [bind, Except.bind])
    | ok u =>
    rw [h1, h2, h3, h4] at h
    injection h with h
    subst h
    refine ⟨fun t' ht => ?_, fun t' ht => ?_⟩
    · simp only [Function.update_of_ne (show 0 ≠ i by omega)] at ht
      by_cases h0 : i - 1 = 0
      · rw [h0] at ht
        simp only [Function.update_self, Option.some.injEq] at ht
        rw [← ht, H.left]; exact hm.l t (by rw [← h0]; exact use_ok h3)
      · simp only [Function.update_of_ne (show 0 ≠ i - 1 by omega)] at ht; exact hm.l t' ht
    · by_cases h0 : i = N - 1
      · rw [h0] at ht
        simp only [Function.update_self, Option.some.injEq] at ht
        rw [← ht, H.right]; exact hm.r u (by rw [← h0]; exact use_ok h4)
      · simp only [Function.update_of_ne (show N - 1 ≠ i by omega), Function.update_of_ne (show N - 1 ≠ i - 1 by omega)] at ht
        exact hm.r t' ht
  · exact absurd h (by simp)

/-- `Mid` from the invariant of the sweep. -/
theorem Mid.of_inv {fl fr : Nat → File E} {c a x : Nat} {d : Dsk T E} (hd : DskInv A N lb rb fl fr ψ c a x d) (h0 : lb ≤ c)
    (h1 : c < b) (h2 : b ≤ x + 2) (h3 : lb ≤ a) (h4 : lb < N)
    (tl : ∀ t, d.m 0 = .whole t → A.trivL t = A.trivL (ψ 0))
    (tr : ∀ t, d.m (N - 1) = .whole t → A.trivR t = A.trivR (ψ (N - 1))) : Mid A N lb rb ψ b d := by
  refine ⟨fun j hj => ?_, fun j hj hj' => hd.m j hj' (by omega), tl, tr, ?_, fun k e g1 g2 g3 => ?_⟩
  · exact hd.m j (by omega) (by omega)
  · rw [hd.l lb, if_pos (by omega)]
  · have := hd.r k
    rw [g3] at this
    split at this
    · injection this with this; exact ⟨by omega, this⟩
    · rw [if_pos (by omega)] at this; exact absurd this (by simp)

/-- What a crash leaves: the middle of a sweep, files from which the program can go on, or an incomplete file of
site `lb+1`. -/
def After (A : Alg T E) (N lb rb : Nat) (d : Dsk T E) : Prop :=
  (∃ ψ b, lb + 3 ≤ b ∧ b ≤ rb + 1 ∧ Mid A N lb rb ψ b d) ∨ (∃ ψ, OnDisk N ψ d ∧ EnvReady A N lb rb ψ d) ∨
    (d.m (lb + 1) = .junk ∧ ∃ ψ, (∀ j, j < N → j ≠ lb + 1 → d.m j = .whole (ψ j)) ∧ EnvReady A N lb rb ψ d)

theorem Start.after {fl fr : Nat → File E} {ψ : (Nat → T) × Nat} {s : Sys T E} (h1 : lb + 2 ≤ rb) (h2 : rb < N)
    (hs : Start A N lb rb fl fr ψ s) : After A N lb rb s.dsk := by
  right; left
  obtain ⟨t, ht⟩ := hs.d.c
  refine ⟨Function.update ψ.1 (lb + 1) t, fun j hj => ?_, ?_, fun k g1 g2 => ?_⟩
  · by_cases h : j = lb + 1
    · subst h; rw [Function.update_self]; exact ht
    · rw [Function.update_of_ne h]; exact hs.d.m j hj h
  · rw [hs.d.l lb, if_pos (by omega)]
    refine congrArg _ (lenv_congr A ?_ lb fun j hj => ?_)
    · rw [Function.update_of_ne (by omega)]
    · rw [Function.update_of_ne (by omega)]
  · rw [hs.d.r k, if_pos (by omega)]
    refine congrArg _ (renv_congr A ?_ k (fun j hj hj' => ?_) (by omega))
    · rw [Function.update_of_ne (by omega)]
    · rw [Function.update_of_ne (by omega)]

theorem one_ne {α : Type} {i j : Nat} {v t : α} (h : j ≠ i) : one i v j ≠ some t := by
  unfold one; rw [if_neg h]; simp

theorem RInv.mid {fl fr : Nat → File E} {ψ : (Nat → T) × Nat} {s : Sys T E} {i : Nat} (h0 : lb < i) (h1 : i < rb) (h2 : rb < N)
    (hs : RInv A N lb rb fl fr ψ i s) : Mid A N lb rb ψ.1 (i + 2) s.dsk ∧ Ends A N ψ.1 s.mem := by
  refine ⟨Mid.of_inv hs.d (by omega) (by omega) (by omega) (by omega) (by omega) (fun t ht => ?_) (fun t ht => ?_),
    fun t ht => ?_, fun t ht => ?_⟩
  · rw [hs.d.m 0 (by omega) (by omega)] at ht; injection ht with ht; rw [ht]
  · rw [hs.d.m (N - 1) (by omega) (by omega)] at ht; injection ht with ht; rw [ht]
  · rw [hs.m] at ht; exact absurd ht (one_ne (by omega))
  · rw [hs.m] at ht; exact absurd ht (one_ne (by omega))

theorem LInv.mid {fl fr : Nat → File E} {ψ : (Nat → T) × Nat} {s : Sys T E} {i : Nat} (h0 : lb < i) (h1 : i < rb) (h2 : rb < N)
    (hs : LInv A N lb rb fl fr ψ i s) : Mid A N lb rb ψ.1 (i + 1) s.dsk ∧ Ends A N ψ.1 s.mem := by
  refine ⟨Mid.of_inv hs.d (by omega) (by omega) (by omega) (by omega) (by omega) (fun t ht => ?_) (fun t ht => ?_),
    fun t ht => ?_, fun t ht => ?_⟩
  · rw [hs.d.m 0 (by omega) (by omega)] at ht; injection ht with ht; rw [ht]
  · rw [hs.d.m (N - 1) (by omega) (by omega)] at ht; injection ht with ht; rw [ht]
  · rw [hs.m] at ht; exact absurd ht (one_ne (by omega))
  · rw [hs.m] at ht; exact absurd ht (one_ne (by omega))

theorem stepR2_next_thru (H : A.Legs) {i : Nat} (h0 : lb < i) (h1 : i + 2 ≤ rb) (h2 : rb < N)
    {fl fr : Nat → File E} {ψ : (Nat → T) × Nat} {s : Sys T E} (hs : RInv A N lb rb fl fr ψ i s) :
    Thru N (N - 1) (stepR2 A N lb i) s (After A N lb rb) (RInv A N lb rb fl fr (optR A N ψ i) (i + 1)) := by
  refine ⟨stepR2_next H h0 h1 h2 hs, fun d hd => ?_⟩
  obtain ⟨g1, g2⟩ := hs.mid h0 (by omega) h2
  refine Or.inl ⟨ψ.1, i + 2, by omega, by omega, Mid.crash (fun o ho => ?_) hd g1 g2⟩
  unfold stepR2 loadR2 dumpR2 at ho
  rw [if_neg (by omega)] at ho
  simp only [List.cons_append, List.nil_append, List.mem_cons, List.not_mem_nil, or_false] at ho
  rcases ho with rfl | rfl | rfl | rfl | rfl | rfl | rfl | rfl <;> simp only [Foot]
  · exact upd2R_ends H
  · omega
  · omega

theorem stepR2_first_thru (H : A.Legs) (h1 : lb + 2 ≤ rb) (h2 : rb < N) {fl fr : Nat → File E}
    {ψ : (Nat → T) × Nat} {s : Sys T E} (hs : Start A N lb rb fl fr ψ s) :
    Thru N (N - 1) (stepR2 A N lb lb) s (After A N lb rb) (RInv A N lb rb fl fr (optR A N ψ lb) (lb + 1)) := by
  refine ⟨stepR2_first H h1 h2 hs, fun d hd => ?_⟩
  have hst := hs.after h1 h2
  have q1 := hs.d.m lb (by omega) (by omega)
  have q3 := hs.d.r (N - (lb + 2))
  rw [if_pos (by omega)] at q3
  unfold stepR2 loadR2 dumpR2 at hd
  rw [if_pos rfl, List.cons_append] at hd
  rcases hd.cons_inv with rfl | rfl | ⟨s1, e1, hd⟩
  · exact hst
  · exact hst
  rw [exec, if_pos (by omega), q1] at e1
  injection e1 with e1
  subst e1
  rw [List.cons_append] at hd
  rcases hd.cons_inv with rfl | rfl | ⟨s1, e1, hd⟩
  · exact hst
  · exact hst
  rw [exec, if_pos (by omega), q3] at e1
  injection e1 with e1
  subst e1
  rw [List.cons_append] at hd
  rcases hd.cons_inv with rfl | rfl | ⟨s1, e1, hd⟩
  · exact hst
  · exact hst
  injection e1 with e1
  subst e1
  refine Or.inl ⟨ψ.1, lb + 3, by omega, by omega, Mid.crash (fun o ho => ?_) hd ?_ ?_⟩
  · simp only [List.cons_append, List.nil_append, List.mem_cons, List.not_mem_nil, or_false] at ho
    rcases ho with rfl | rfl | rfl | rfl | rfl | rfl <;> simp only [Foot]
    · exact upd2R_ends H
    · omega
    · omega
  · refine ⟨fun j hj => hs.d.m j (by omega) (by omega), fun j hj hj' => hs.d.m j hj' (by omega), fun t ht => ?_, fun t ht => ?_,
      ?_, fun k e g1 g2 g3 => ?_⟩
    · simp only [hs.d.m 0 (by omega) (by omega), File.whole.injEq] at ht; rw [ht]
    · simp only [hs.d.m (N - 1) (by omega) (by omega), File.whole.injEq] at ht; rw [ht]
    · simp only [hs.d.l lb]; rw [if_pos (by omega)]
    · by_cases hk : k = N - (lb + 2)
      · subst hk; simp at g3
      · simp only [Function.update_of_ne hk, hs.d.r k] at g3
        rw [if_pos (by omega)] at g3
        injection g3 with g3
        exact ⟨by omega, g3.symm⟩
  · refine ⟨fun t ht => ?_, fun t ht => ?_⟩
    · by_cases h0 : lb = 0
      · subst h0; simp only [Function.update_self, Option.some.injEq] at ht; rw [ht]
      · simp only [Function.update_of_ne (show 0 ≠ lb by omega), hs.m] at ht; exact absurd ht (one_ne (by omega))
    · simp only [Function.update_of_ne (show N - 1 ≠ lb by omega), hs.m] at ht; exact absurd ht (one_ne (by omega))

theorem loopR2_thru (H : A.Legs) (h2 : rb < N) {fl fr : Nat → File E} :
    ∀ (n : Nat) {i : Nat} {ψ : (Nat → T) × Nat} {s : Sys T E}, lb < i → i + n + 1 = rb → RInv A N lb rb fl fr ψ i s →
    Thru N (N - 1) ((List.range' i n).flatMap (stepR2 A N lb)) s (After A N lb rb)
      (RInv A N lb rb fl fr ((List.range' i n).foldl (optR A N) ψ) (rb - 1))
  | 0, i, ψ, s, h0, hb, hs => .nil (by rw [show rb - 1 = i by omega]; exact hs)
      (Or.inl ⟨ψ.1, i + 2, by omega, by omega, (hs.mid h0 (by omega) h2).1⟩)
  | n + 1, i, ψ, s, h0, hb, hs => by
    rw [List.range'_succ, List.flatMap_cons]
    exact (stepR2_next_thru H h0 (by omega) h2 hs).append fun s' hs' => loopR2_thru H h2 n (by omega) (by omega) hs'

theorem stepL2_crash (H : A.Legs) {i : Nat} (h0 : lb + 2 ≤ i) (h1 : i ≤ rb) {s : Sys T E} {P : Sys T E → Prop}
    {ψ : Nat → T} (g1 : Mid A N lb rb ψ (i + 1) s.dsk) (g2 : Ends A N ψ s.mem) (hp : Does N n (stepL2 A N rb i) s P)
    {d : Dsk T E} (hd : Crash N n (stepL2 A N rb i) s d) (hP : ∀ s', P s' → After A N lb rb s'.dsk) : After A N lb rb d := by
  have hspl : stepL2 A N rb i = (loadL2 N rb i ++ [.calc (upd2L A N (N - 1) i), .frL (i - 1), .frR (N - (i + 1)), .dpM i true]) ++
      [.dpR (N - i)] := by simp [stepL2, dumpL2]
  have hf : ∀ o, o ∈ loadL2 N rb i ++ [.calc (upd2L A N (N - 1) i), .frL (i - 1), .frR (N - (i + 1)), .dpM i true] →
      Foot A N lb ψ (i + 1) o := by
    intro o ho
    unfold loadL2 at ho
    split at ho
    · simp only [List.cons_append, List.nil_append, List.mem_cons, List.not_mem_nil, or_false] at ho
      rcases ho with rfl | rfl | rfl | rfl | rfl | rfl | rfl <;> simp only [Foot]
      · omega
      · exact upd2L_ends H
      · omega
    · simp only [List.cons_append, List.nil_append, List.mem_cons, List.not_mem_nil, or_false] at ho
      rcases ho with rfl | rfl | rfl | rfl | rfl | rfl | rfl <;> simp only [Foot]
      · omega
      · exact upd2L_ends H
      · omega
  have hm : ∀ d, Mid A N lb rb ψ (i + 1) d → After A N lb rb d := fun d h => Or.inl ⟨ψ, i + 1, by omega, by omega, h⟩
  obtain ⟨s', hr, hs'⟩ := hp
  rw [hspl] at hd hr
  rcases hd.append_inv with hd | ⟨s1, r1, hd⟩
  · exact hm d (Mid.crash hf hd g1 g2)
  · have m1 := Mid.run hf r1 g1 g2
    rw [run_append, r1] at hr
    rcases hd.cons_inv with rfl | rfl | ⟨s2, e2, hd⟩
    · exact hm _ m1.1
    · exact hm _ (m1.1.setR (by simp))
    · have : run N n [Op.dpR (N - i)] s1 = .ok s' := hr
      rw [run, e2] at this
      injection this with this
      subst this
      rw [hd.nil_inv]
      exact hP _ hs'

theorem LInv.after {fl fr : Nat → File E} {ψ : (Nat → T) × Nat} {s : Sys T E} {i : Nat} (h0 : lb < i) (h1 : i < rb) (h2 : rb < N)
    (hs : LInv A N lb rb fl fr ψ i s) : After A N lb rb s.dsk := by
  by_cases h : i = lb + 1
  · subst h
    exact Start.after (fl := trim lb rb fl) (fr := fr) (ψ := ψ) (s := ⟨{ s.mem with l := fun _ => none, r := fun _ => none }, s.dsk⟩)
      (by omega) h2 ⟨hs.m, rfl, rfl, hs.clk, hs.d⟩
  · exact Or.inl ⟨ψ.1, i + 1, by omega, by omega, (hs.mid h0 h1 h2).1⟩

theorem loopL2_thru (H : A.Legs) (h2 : rb < N) {fl fr : Nat → File E} :
    ∀ (n : Nat) {ψ : (Nat → T) × Nat} {s : Sys T E}, lb + 1 + n < rb → LInv A N lb rb fl fr ψ (lb + 1 + n) s →
    Thru N (N - 1) ((List.range' (lb + 2) n).reverse.flatMap (stepL2 A N rb)) s (After A N lb rb)
      (LInv A N lb rb fl fr ((List.range' (lb + 2) n).reverse.foldl (optL A N) ψ) (lb + 1))
  | 0, ψ, s, hb, hs => .nil hs (hs.after (by omega) (by omega) h2)
  | n + 1, ψ, s, hb, hs => by
    rw [List.range'_1_concat, List.reverse_append]
    simp only [List.reverse_cons, List.reverse_nil, List.nil_append, List.cons_append, List.flatMap_cons, List.foldl_cons]
    rw [show lb + 2 + n = lb + 1 + (n + 1) by omega]
    obtain ⟨g1, g2⟩ := hs.mid (by omega) (by omega) h2
    have hp := stepL2_next H (i := lb + 1 + (n + 1)) (by omega) hb h2 hs
    refine Thru.append (Q := LInv A N lb rb fl fr (optL A N ψ (lb + 1 + (n + 1))) (lb + 1 + (n + 1) - 1)) ⟨hp, fun d hd =>
      stepL2_crash H (by omega) (by omega) g1 g2 hp hd fun s' hs' => hs'.after (by omega) (by omega) h2⟩ fun s' hs' => ?_
    exact loopL2_thru H h2 n (by omega) (by rw [show lb + 1 + n = lb + 1 + (n + 1) - 1 by omega]; exact hs')

theorem freshEnvs_thru {s : Sys T E} {I : Dsk T E → Prop} {P : Sys T E → Prop} (hi : I s.dsk)
    (hp : P ⟨{ s.mem with l := fun _ => none, r := fun _ => none }, s.dsk⟩) :
    Thru N n [.calc freshEnvs] s I P := by
  refine ⟨.calc rfl (.nil hp), fun d hd => ?_⟩
  rcases hd.cons_inv with rfl | rfl | ⟨s1, e1, hd⟩
  · exact hi
  · exact hi
  · injection e1 with e1
    subst e1
    rw [hd.nil_inv]
    exact hi

theorem sweep2_thru (H : A.Legs) (h1 : lb + 2 ≤ rb) (h2 : rb < N) {fl fr : Nat → File E}
    {ψ : (Nat → T) × Nat} {s : Sys T E} (hs : Start A N lb rb fl fr ψ s) :
    Thru N (N - 1) (sweep2 A N lb rb) s (After A N lb rb) (Start A N lb rb (trim lb rb fl) fr (optSweep A N lb rb ψ)) := by
  unfold sweep2
  rw [← List.singleton_append]
  refine Thru.append (Q := Start A N lb rb fl fr ψ) (freshEnvs_thru (hs.after h1 h2) ⟨hs.m, rfl, rfl, hs.clk, hs.d⟩) fun s0 hs' => ?_
  obtain ⟨n, hn⟩ : ∃ n, rb - 1 - lb = n + 1 := ⟨rb - 2 - lb, by omega⟩
  unfold optSweep sitesR sitesL
  rw [hn, List.range'_succ, List.flatMap_cons, List.append_assoc, List.foldl_cons]
  refine (stepR2_first_thru H h1 h2 hs').append fun s1 i1 => ?_
  refine (loopR2_thru H h2 n (by omega) (by omega) i1).append fun s2 i2 => ?_
  rw [List.range'_1_concat, List.reverse_append]
  simp only [List.reverse_cons, List.reverse_nil, List.nil_append, List.cons_append, List.flatMap_cons, List.foldl_cons]
  rw [List.append_assoc, show lb + 2 + n = rb by omega]
  obtain ⟨g1, g2⟩ := i2.mid (by omega) (by omega) h2
  rw [show rb - 1 + 2 = rb + 1 by omega] at g1
  have hp := stepL2_first H h1 h2 i2
  refine Thru.append ⟨hp, fun d hd =>
      stepL2_crash H (by omega) (by omega) g1 g2 hp hd fun s' hs' => hs'.after (by omega) (by omega) h2⟩ fun s3 i3 => ?_
  refine (loopL2_thru H h2 n (by omega) (by rw [show lb + 1 + n = rb - 1 by omega]; exact i3)).append fun s4 i4 => ?_
  exact freshEnvs_thru (i4.after (by omega) (by omega) h2) ⟨i4.m, rfl, rfl, i4.clk, i4.d⟩

theorem sweepsLoop_thru (H : A.Legs) (h1 : lb + 2 ≤ rb) (h2 : rb < N) :
    ∀ (k : Nat) {fl fr : Nat → File E} {ψ : (Nat → T) × Nat} {s : Sys T E}, Start A N lb rb fl fr ψ s →
    Thru N (N - 1) (List.replicate k (sweep2 A N lb rb)).flatten s (After A N lb rb)
      (Start A N lb rb (if k = 0 then fl else trim lb rb fl) fr (optSweeps A N lb rb k ψ))
  | 0, fl, fr, ψ, s, hs => .nil hs (hs.after h1 h2)
  | k + 1, fl, fr, ψ, s, hs => by
    rw [List.replicate_succ, List.flatten_cons]
    refine (sweep2_thru H h1 h2 hs).append fun s1 i1 => (sweepsLoop_thru H h1 h2 k i1).mono (fun _ h => h) fun s2 i2 => ?_
    rw [if_neg (by omega)]
    rw [trim_trim] at i2
    by_cases h : k = 0
    · rw [if_pos h] at i2; exact i2
    · rw [if_neg h] at i2; exact i2

end
end Verif.Disk
