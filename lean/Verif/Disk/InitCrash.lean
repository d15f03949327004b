import Verif.Disk.CrashFacts
/-
Crash points of `InitEnvs`, for every program that begins with it.
-/
namespace Verif.Disk

variable {T E : Type} {N n : Nat}

/-- Operations that do not complete the left environment `0`. -/
def KeepL0 : Op T E → Prop
  | .dpL k => k ≠ 0
  | .wrL k => k ≠ 0
  | _ => True

theorem keepL0_exec {o : Op T E} (ho : KeepL0 o) {s s1 : Sys T E} (he : exec N n o s = .ok s1)
    (h : ∀ e, s.dsk.l 0 ≠ .whole e) : ∀ e, s1.dsk.l 0 ≠ .whole e := by
  rw [exec_dsk he]
  cases o <;> try exact h
  case dpL k => intro e; simp only [eff, Function.update_of_ne (Ne.symm ho)]; exact h e
  case wrL k => intro e; simp only [eff, Function.update_of_ne (Ne.symm ho)]; exact h e
  case rmL k =>
    intro e
    by_cases hk : k = 0
    · subst hk; simp [eff]
    · simp only [eff, Function.update_of_ne (Ne.symm hk)]; exact h e

theorem keepL0_crash : ∀ {ops : List (Op T E)}, (∀ o, o ∈ ops → KeepL0 o) → ∀ {s : Sys T E} {d : Dsk T E},
    Crash N n ops s d → (∀ e, s.dsk.l 0 ≠ .whole e) → ∀ e, d.l 0 ≠ .whole e
  | [], _, s, d, hc, h => hc.nil_inv ▸ h
  | o :: ops, ho, s, d, hc, h => by
    rcases hc.cons_inv with rfl | rfl | ⟨s1, he, hc'⟩
    · exact h
    · have := ho o (by simp)
      cases o <;> try exact h
      case dpL k => intro e; simp only [tear, Function.update_of_ne (Ne.symm this)]; exact h e
      case wrL k => intro e; simp only [tear, Function.update_of_ne (Ne.symm this)]; exact h e
    · exact keepL0_crash (fun o' h' => ho o' (by simp [h'])) hc' (keepL0_exec (ho o (by simp)) he h)

theorem keepL0_run : ∀ {ops : List (Op T E)}, (∀ o, o ∈ ops → KeepL0 o) → ∀ {s s1 : Sys T E},
    run N n ops s = .ok s1 → (∀ e, s.dsk.l 0 ≠ .whole e) → ∀ e, s1.dsk.l 0 ≠ .whole e
  | [], _, s, s1, hr, h => by injection hr with hr; subst hr; exact h
  | o :: ops, ho, s, s1, hr, h => by
    rw [run] at hr
    cases he : exec N n o s with
    | error x => rw [he] at hr; exact absurd hr (by simp [bind, Except.bind])
    | ok s2 =>
      rw [he] at hr
      exact keepL0_run (fun o' h' => ho o' (by simp [h'])) hr (keepL0_exec (ho o (by simp)) he h)

/-- Operations that change no file. -/
def NoFile : Op T E → Prop
  | .frM _ | .frL _ | .frR _ | .calc _ | .ldM _ | .ldL _ | .ldR _ => True
  | _ => False

theorem noFile_crash : ∀ {ops : List (Op T E)}, (∀ o, o ∈ ops → NoFile o) → ∀ {s : Sys T E} {d : Dsk T E},
    Crash N n ops s d → d = s.dsk
  | [], _, s, d, hc => hc.nil_inv
  | o :: ops, ho, s, d, hc => by
    have := ho o (by simp)
    rcases hc.cons_inv with rfl | rfl | ⟨s1, he, hc'⟩
    · rfl
    · cases o <;> first | rfl | exact absurd this id
    · rw [noFile_crash (fun o' h' => ho o' (by simp [h'])) hc', exec_dsk he]
      cases o <;> first | rfl | exact absurd this id

theorem noFile_run : ∀ {ops : List (Op T E)}, (∀ o, o ∈ ops → NoFile o) → ∀ {s s1 : Sys T E},
    run N n ops s = .ok s1 → s1.dsk = s.dsk
  | [], _, s, s1, hr => by injection hr with hr; subst hr; rfl
  | o :: ops, ho, s, s1, hr => by
    have := ho o (by simp)
    rw [run] at hr
    cases he : exec N n o s with
    | error x => rw [he] at hr; exact absurd hr (by simp [bind, Except.bind])
    | ok s2 =>
      rw [he] at hr
      rw [noFile_run (fun o' h' => ho o' (by simp [h'])) hr, exec_dsk he]
      cases o <;> first | rfl | exact absurd this id

/-- Killed during `InitEnvs`: either the left environment is not there, or all is. -/
theorem initEnvs_crash {A : Alg T E} {usn : Nat} (h : usn < N) {ψ : Nat → T} {s0 : Sys T E} {d' : Dsk T E}
    (hd : ∀ j, j < N → s0.dsk.m j = .whole (ψ j)) (hm : s0.mem.m = fun _ => none) (hl : ∀ e, s0.dsk.l 0 ≠ .whole e)
    (hc : Crash N n (initEnvs A N usn) s0 d') :
    (∀ e, d'.l 0 ≠ .whole e) ∨ d' = ⟨s0.dsk.m, Function.update s0.dsk.l 0 (.whole (A.lenv ψ 0)),
        fun j => if j ≤ N - usn then .whole (A.renv N ψ j) else s0.dsk.r j⟩ := by
  have hspl : (initEnvs A N usn : List (Op T E)) =
      (.ldM (N - 1) :: .calc (startR A N) :: .wrR 0 ::
        ((List.range' 1 (N - usn)).flatMap (initStep A N) ++ [.ldM 0, .calc (startL A)])) ++
      .wrL 0 :: [.frM 0, .calc (assertEmpty N)] := by simp [initEnvs]
  have hf : ∀ o, o ∈ (.ldM (N - 1) :: .calc (startR A N) :: .wrR 0 ::
        ((List.range' 1 (N - usn)).flatMap (initStep A N) ++ [.ldM 0, .calc (startL A)]) : List (Op T E)) → KeepL0 o := by
    intro o ho
    simp only [List.mem_cons, List.mem_append, List.mem_flatMap, List.not_mem_nil, or_false] at ho
    rcases ho with rfl | rfl | rfl | ⟨i, -, ho⟩ | rfl | rfl <;> try trivial
    unfold initStep at ho
    simp only [List.mem_append, List.mem_cons, List.not_mem_nil, or_false] at ho
    rcases ho with ho | rfl | rfl | rfl <;> try trivial
    split at ho
    · simp only [List.mem_cons, List.not_mem_nil, or_false] at ho; subst ho; trivial
    · exact absurd ho (by simp)
  have hn : ∀ o, o ∈ ([.frM 0, .calc (assertEmpty N)] : List (Op T E)) → NoFile o := by
    intro o ho
    simp only [List.mem_cons, List.not_mem_nil, or_false] at ho
    rcases ho with rfl | rfl <;> trivial
  obtain ⟨s', r', -, -, -, -, h5⟩ := initEnvs_ok (A := A) (n := n) hd hm h
  rw [hspl] at hc r'
  rcases hc.append_inv with hc | ⟨s1, r1, hc⟩
  · exact Or.inl (keepL0_crash hf hc hl)
  have hl1 := keepL0_run hf r1 hl
  rw [run_append, r1] at r'
  replace r' : run N n (.wrL 0 :: [.frM 0, .calc (assertEmpty N)]) s1 = .ok s' := r'
  rcases hc.cons_inv with rfl | rfl | ⟨s2, e2, hc⟩
  · exact Or.inl hl1
  · exact Or.inl fun e => by simp [tear]
  right
  rw [run, e2] at r'
  rw [noFile_crash hn hc, ← h5]
  exact (noFile_run hn r').symm

end Verif.Disk
