import Verif.Disk.Dmrg
import Verif.Disk.Wp
/-
Programs on component files and programs on whole groups.

A run in which a group is one file (the model of the other sweeps) is matched by the run on component files, if the
groups that are written have the right number of components.
-/
namespace Verif.Disk

variable {T O : Type} {w : Nat → Nat} {N : Nat}

/-- The component files `f` of `n` components are in the state of the group file. -/
def RelF (n : Nat) : File (List O) → (Nat → File O) → Prop
  | .gone, f => ∀ c, c < n → f c = .gone
  | .junk, _ => True
  | .whole es, f => es.length = n ∧ Holds f es

/-- The two disks agree. -/
structure Rel (w : Nat → Nat) (N : Nat) (d : Dsk T (List O)) (d' : CDsk T O) : Prop where
  m : d'.m = d.m
  l : ∀ k, RelF (w k) (d.l k) (d'.l k)
  r : ∀ k, RelF (w (N - k)) (d.r k) (d'.r k)

/-- The groups in memory have the right number of components, the register has `a`. -/
structure Good (w : Nat → Nat) (N a : Nat) (s : Mem T (List O)) : Prop where
  l : ∀ k e, s.l k = some e → e.length = w k
  r : ∀ k e, s.r k = some e → e.length = w (N - k)
  reg : ∀ e, s.reg = some e → e.length = a

/-- Operations that do not involve the register and no computation. -/
def plain : Op T (List O) → Bool
  | .calc _ => false
  | .wrL _ => false
  | .wrR _ => false
  | _ => true

/-- `Ty a ops b`: if the register has `a` components before, it has `b` after, and what is written in between has the
right number. -/
inductive Ty (w : Nat → Nat) (N : Nat) : Nat → List (Op T (List O)) → Nat → Prop
  | nil {a} : Ty w N a [] a
  | op {a b o os} : plain o = true → Ty w N a os b → Ty w N a (o :: os) b
  | wrL {a b k os} : a = w k → Ty w N a os b → Ty w N a (.wrL k :: os) b
  | wrR {a b k os} : a = w (N - k) → Ty w N a os b → Ty w N a (.wrR k :: os) b
  | «calc» {a b c f os} : (∀ s s', Good w N a s → f s = .ok s' → Good w N c s') → Ty w N c os b → Ty w N a (.calc f :: os) b

theorem Ty.append {a b c : Nat} {os os' : List (Op T (List O))} (h : Ty w N a os b) (h' : Ty w N b os' c) : Ty w N a (os ++ os') c := by
  induction h with
  | nil => exact h'
  | op hp _ ih => exact .op hp (ih h')
  | wrL e _ ih => exact .wrL e (ih h')
  | wrR e _ ih => exact .wrR e (ih h')
  | «calc» hf _ ih => exact .calc hf (ih h')

theorem Ty.flatMap {a : Nat} {f : Nat → List (Op T (List O))} : ∀ {is : List Nat}, (∀ i, i ∈ is → Ty w N a (f i) a) →
    Ty w N a (is.flatMap f) a
  | [], _ => .nil
  | i :: is, h => (h i (by simp)).append (Ty.flatMap fun j hj => h j (by simp [hj]))

theorem readGrp_holds {f : Nat → File O} {es : List O} (h : Holds f es) : readGrp f es.length = .ok es := by
  have key : ∀ (k : Nat) (g : Nat → Except Err O) (es : List O), (∀ c (hc : c < es.length), g (k + c) = .ok es[c]) →
      (List.range' k es.length).mapM g = .ok es := by
    intro k g es
    induction es generalizing k with
    | nil => intro _; rfl
    | cons e es ih =>
      intro h
      rw [List.length_cons, List.range'_succ, List.mapM_cons]
      have h0 := h 0 (by simp)
      simp only [Nat.add_zero, List.getElem_cons_zero] at h0
      rw [h0, ih (k + 1) (fun c hc => by
        have := h (c + 1) (by simp; omega)
        rw [show k + 1 + c = k + (c + 1) by omega, this]; simp)]
      rfl
  unfold readGrp
  rw [List.range_eq_range']
  refine key 0 _ es fun c hc => ?_
  rw [Nat.zero_add, h c hc]; rfl

theorem writeGrp_holds (f : Nat → File O) (es : List O) : Holds (writeGrp f es) es := fun c h => by
  simp [writeGrp, List.getElem?_eq_getElem h]

theorem RelF.write {n : Nat} {f : Nat → File O} {e : Option (List O)} (h : ∀ es, e = some es → es.length = n) :
    RelF n (dumped e) (writeGrp f (e.getD [])) := by
  cases e with
  | none => trivial
  | some es => exact ⟨h es rfl, writeGrp_holds f es⟩

theorem RelF.remove {n : Nat} {f : Nat → File O} : RelF n .gone (removeGrp f n) := fun c h => by simp [removeGrp, h]

theorem Rel.setL {d : Dsk T (List O)} {d' : CDsk T O} (h : Rel w N d d') {k : Nat} {x : File (List O)} {f : Nat → File O}
    (hx : RelF (w k) x f) : Rel w N { d with l := Function.update d.l k x } { d' with l := Function.update d'.l k f } := by
  refine ⟨h.m, fun j => ?_, h.r⟩
  by_cases hj : j = k
  · subst hj; simpa using hx
  · simpa [hj] using h.l j

theorem Rel.setR {d : Dsk T (List O)} {d' : CDsk T O} (h : Rel w N d d') {k : Nat} {x : File (List O)} {f : Nat → File O}
    (hx : RelF (w (N - k)) x f) : Rel w N { d with r := Function.update d.r k x } { d' with r := Function.update d'.r k f } := by
  refine ⟨h.m, h.l, fun j => ?_⟩
  by_cases hj : j = k
  · subst hj; simpa using hx
  · simpa [hj] using h.r j

theorem Good.setL {a : Nat} {s : Mem T (List O)} (h : Good w N a s) {k : Nat} {x : Option (List O)}
    (hx : ∀ e, x = some e → e.length = w k) : Good w N a { s with l := Function.update s.l k x } := by
  refine ⟨fun j e he => ?_, h.r, h.reg⟩
  by_cases hj : j = k
  · subst hj; exact hx e (by simpa using he)
  · exact h.l j e (by simpa [hj] using he)

theorem Good.setR {a : Nat} {s : Mem T (List O)} (h : Good w N a s) {k : Nat} {x : Option (List O)}
    (hx : ∀ e, x = some e → e.length = w (N - k)) : Good w N a { s with r := Function.update s.r k x } := by
  refine ⟨h.l, fun j e he => ?_, h.reg⟩
  by_cases hj : j = k
  · subst hj; exact hx e (by simpa using he)
  · exact h.r j e (by simpa [hj] using he)

theorem Good.setM {a : Nat} {s : Mem T (List O)} (h : Good w N a s) {x : Nat → Option T} : Good w N a { s with m := x } :=
  ⟨h.l, h.r, h.reg⟩

/-- A single operation that is not a computation. -/
theorem sim_op {a : Nat} {o : Op T (List O)} (ho : plain o = true) {s s1 : Sys T (List O)} {d : CDsk T O}
    (he : exec N N o s = .ok s1) (hg : Good w N a s.mem) (hr : Rel w N s.dsk d) :
    ∃ d1, cexec w N o ⟨s.mem, d⟩ = .ok ⟨s1.mem, d1⟩ ∧ Rel w N s1.dsk d1 ∧ Good w N a s1.mem := by
  have hm : ∀ i, d.m i = s.dsk.m i := fun i => by rw [hr.m]
  cases o with
  | ldM i =>
    simp only [exec] at he
    split at he
    · rename_i hi
      cases hf : s.dsk.m i with
      | whole t =>
        rw [hf] at he
        simp only [File.get, bind, Except.bind, pure, Except.pure, Except.ok.injEq] at he
        subst he
        exact ⟨d, by simp [cexec, hi, hm, hf, File.get, bind, Except.bind, pure, Except.pure], hr, hg.setM⟩
      | gone => rw [hf] at he; simp [File.get, bind, Except.bind] at he
      | junk => rw [hf] at he; simp [File.get, bind, Except.bind] at he
    · simp at he
  | ldL i =>
    simp only [exec] at he
    split at he
    · rename_i hi
      have hk := hr.l i
      cases hf : s.dsk.l i with
      | whole t =>
        rw [hf] at he hk
        simp only [File.get, bind, Except.bind, pure, Except.pure, Except.ok.injEq] at he
        subst he
        have := readGrp_holds hk.2
        rw [hk.1] at this
        exact ⟨d, by simp [cexec, hi, this, bind, Except.bind, pure, Except.pure], hr,
          hg.setL fun e x => by injection x with x; rw [← x]; exact hk.1⟩
      | gone => rw [hf] at he; simp [File.get, bind, Except.bind] at he
      | junk => rw [hf] at he; simp [File.get, bind, Except.bind] at he
    · simp at he
  | ldR i =>
    simp only [exec] at he
    split at he
    · rename_i hi
      have hk := hr.r i
      cases hf : s.dsk.r i with
      | whole t =>
        rw [hf] at he hk
        simp only [File.get, bind, Except.bind, pure, Except.pure, Except.ok.injEq] at he
        subst he
        have := readGrp_holds hk.2
        rw [hk.1] at this
        exact ⟨d, by simp [cexec, hi, this, bind, Except.bind, pure, Except.pure], hr,
          hg.setR fun e x => by injection x with x; rw [← x]; exact hk.1⟩
      | gone => rw [hf] at he; simp [File.get, bind, Except.bind] at he
      | junk => rw [hf] at he; simp [File.get, bind, Except.bind] at he
    · simp at he
  | dpM i rel =>
    simp only [exec] at he
    split at he
    · rename_i hi
      simp only [Except.ok.injEq] at he
      subst he
      exact ⟨⟨Function.update d.m i (dumped (s.mem.m i)), d.l, d.r⟩, by simp only [cexec, hi, if_true], ⟨by simp only [hr.m], hr.l, hr.r⟩,
        hg.setM⟩
    · simp at he
  | dpL i =>
    simp only [exec] at he
    split at he
    · rename_i hi
      simp only [Except.ok.injEq] at he
      subst he
      exact ⟨_, by simp only [cexec, hi, if_true]; rfl, hr.setL (RelF.write fun es h => hg.l i es h), hg⟩
    · simp at he
  | dpR i =>
    simp only [exec] at he
    split at he
    · rename_i hi
      simp only [Except.ok.injEq] at he
      subst he
      exact ⟨_, by simp only [cexec, hi, if_true]; rfl, hr.setR (RelF.write fun es h => hg.r i es h), hg⟩
    · simp at he
  | wrL i => simp [plain] at ho
  | wrR i => simp [plain] at ho
  | «calc» f => simp [plain] at ho
  | rmL i =>
    simp only [exec, Except.ok.injEq] at he
    subst he
    exact ⟨_, by simp only [cexec]; rfl, hr.setL RelF.remove, hg⟩
  | rmR i =>
    simp only [exec, Except.ok.injEq] at he
    subst he
    exact ⟨_, by simp only [cexec]; rfl, hr.setR RelF.remove, hg⟩
  | frM i =>
    simp only [exec] at he
    split at he
    · rename_i hi
      simp only [Except.ok.injEq] at he
      subst he
      exact ⟨d, by simp only [cexec, hi, if_true], hr, hg.setM⟩
    · simp at he
  | frL i =>
    simp only [exec] at he
    split at he
    · rename_i hi
      simp only [Except.ok.injEq] at he
      subst he
      exact ⟨d, by simp only [cexec, hi, if_true], hr, hg.setL (by simp)⟩
    · simp at he
  | frR i =>
    simp only [exec] at he
    split at he
    · rename_i hi
      simp only [Except.ok.injEq] at he
      subst he
      exact ⟨d, by simp only [cexec, hi, if_true], hr, hg.setR (by simp)⟩
    · simp at he

theorem sim_cons {o : Op T (List O)} {os : List (Op T (List O))} {cs c1 c2 : CSys T O} (h1 : cexec w N o cs = .ok c1)
    (h2 : crun w N os c1 = .ok c2) : crun w N (o :: os) cs = .ok c2 := by
  simp only [crun, h1]; exact h2

/-- The simulation. -/
theorem sim {a b : Nat} {ops : List (Op T (List O))} (ty : Ty w N a ops b) : ∀ {s s1 : Sys T (List O)} {d : CDsk T O},
    run N N ops s = .ok s1 → Good w N a s.mem → Rel w N s.dsk d →
    ∃ d1, crun w N ops ⟨s.mem, d⟩ = .ok ⟨s1.mem, d1⟩ ∧ Rel w N s1.dsk d1 ∧ Good w N b s1.mem := by
  induction ty with
  | nil =>
    intro s s1 d he hg hr
    simp only [run, Except.ok.injEq] at he
    subst he
    exact ⟨d, rfl, hr, hg⟩
  | op hp _ ih =>
    rename_i a b o os _
    intro s s1 d he hg hr
    simp only [run] at he
    cases h1 : exec N N o s with
    | error e => rw [h1] at he; simp [bind, Except.bind] at he
    | ok s2 =>
      rw [h1] at he
      obtain ⟨d2, e2, r2, g2⟩ := sim_op hp h1 hg hr
      obtain ⟨d3, e3, r3, g3⟩ := ih he g2 r2
      exact ⟨d3, sim_cons e2 e3, r3, g3⟩
  | wrL e _ ih =>
    intro s s1 d he hg hr
    obtain ⟨d3, e3, r3, g3⟩ := ih (s := ⟨s.mem, _⟩) he hg (hr.setL (RelF.write (f := d.l _) fun es h => (hg.reg es h).trans e))
    exact ⟨d3, sim_cons rfl e3, r3, g3⟩
  | wrR e _ ih =>
    intro s s1 d he hg hr
    obtain ⟨d3, e3, r3, g3⟩ := ih (s := ⟨s.mem, _⟩) he hg (hr.setR (RelF.write (f := d.r _) fun es h => (hg.reg es h).trans e))
    exact ⟨d3, sim_cons rfl e3, r3, g3⟩
  | «calc» hf _ ih =>
    rename_i a b c f os _
    intro s s1 d he hg hr
    simp only [run, exec] at he
    cases h1 : f s.mem with
    | error e => rw [h1] at he; simp [bind, Except.bind] at he
    | ok m =>
      rw [h1] at he
      obtain ⟨d3, e3, r3, g3⟩ := ih (s := ⟨m, s.dsk⟩) he (hf _ _ hg h1) hr
      exact ⟨d3, sim_cons (by simp [cexec, h1, bind, Except.bind, pure, Except.pure]) e3, r3, g3⟩

/-- The state on component files matches a state with `P` on group files. -/
def Lift (w : Nat → Nat) (N a : Nat) (P : Sys T (List O) → Prop) (cs : CSys T O) : Prop :=
  ∃ s, P s ∧ cs.mem = s.mem ∧ Rel w N s.dsk cs.dsk ∧ Good w N a s.mem

theorem Lift.step {a b : Nat} {ops : List (Op T (List O))} {P Q : Sys T (List O) → Prop} {cs : CSys T O} (h : Lift w N a P cs)
    (ty : Ty w N a ops b) (hd : ∀ s, P s → Does N N ops s Q) : ∃ cs', crun w N ops cs = .ok cs' ∧ Lift w N b Q cs' := by
  obtain ⟨s, p, e, r, g⟩ := h
  obtain ⟨s1, h1, q⟩ := hd s p
  obtain ⟨d1, e1, r1, g1⟩ := sim ty h1 g r
  obtain ⟨cm, cd⟩ := cs
  simp only at e r
  subst e
  exact ⟨⟨s1.mem, d1⟩, e1, s1, q, rfl, r1, g1⟩

theorem Lift.mono {a : Nat} {P Q : Sys T (List O) → Prop} {cs : CSys T O} (h : Lift w N a P cs) (hq : ∀ s, P s → Q s) :
    Lift w N a Q cs := by
  obtain ⟨s, p, rest⟩ := h; exact ⟨s, hq s p, rest⟩

end Verif.Disk
