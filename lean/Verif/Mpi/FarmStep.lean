import Verif.Mpi.FarmInv

/-!
# Every step keeps the invariant of the master/worker loops
-/
namespace Verif.Mpi
open Function Finset

variable {R O : Type} [AddCommMonoid O]

namespace Farm
variable {F : Farm} {f : Nat → R} {o : Nat → O} {m : Nat}

theorem ovOf_note (j : Nat) (d : List Nat) : ovOf o (F.note j d) = F.addOv o j (ovOf o d) := by
  unfold note addOv ovOf
  split <;> simp

/-- A worker moves from stage `stg r` to stage `x`; the master's local state stays. -/
theorem Inv.workerMove {s s' : St (Pc R O) (Pay R O)} {stg : Nat → Stage} {r : Nat} {x : Stage} (h : F.Inv f o m s stg)
    (h1 : 1 ≤ r) (h2 : r ≤ m) (hp0 : s'.proc 0 = s.proc 0)
    (hb0 : s'.blk 0 = true → s.blk 0 = true ∧ ((stg r).flagged = true → x.flagged = true))
    (hp : ∀ q, q ≠ r → q ≠ 0 → s'.proc q = s.proc q) (hb : ∀ q, q ≠ r → q ≠ 0 → s'.blk q = s.blk q)
    (hc : ∀ a b, ¬ (a = r ∧ b = 0) → ¬ (a = 0 ∧ b = r) → s'.chan a b = s.chan a b)
    (hv : V s' r = F.view f o r x)
    (hout : F.out x = F.out (stg r)) (hl : F.Live (stg r) → F.Live x) (ht : F.Term (stg r) → F.Term x)
    (hk : F.Clos (stg r) → F.Clos x) (hnp : ∀ d, stg r ≠ .pend d) (hno : ∀ d, stg r ≠ .over d)
    (hd : (x.did : Multiset Nat) + F.flight (stg r) = (stg r).did + F.flight x) (hw : x.weight < (stg r).weight) :
    ∃ stg', F.Inv f o m s' stg' ∧ F.weight m stg' (s'.proc 0) < F.weight m stg (s.proc 0) := by
  refine ⟨update stg r x, ⟨frame h.base h1 h2 hp hb hc hv, fun hb1 => ?_, ?_, ?_⟩, ?_⟩
  · obtain ⟨hb1, hfl⟩ := hb0 hb1
    obtain ⟨q, q1, q2, q3⟩ := h.blk0 hb1
    by_cases hqr : q = r
    · subst hqr
      exact ⟨q, q1, q2, by rw [update_self]; exact hfl q3⟩
    · exact ⟨q, q1, q2, by rw [update_of_ne hqr]; exact q3⟩
  · rw [hp0]; exact h.master.worker hout hl ht hk hnp hno
  · rw [hp0]
    have hD := h.dids
    unfold DInv at hD ⊢
    have e1 := sum_swap (m := m) (fun y : Stage => ((y.did : List Nat) : Multiset Nat)) stg h1 h2 x
    have e2 := sum_swap (m := m) F.flight stg h1 h2 x
    have : ∑ q ∈ Icc 1 m, (((update stg r x q).did : List Nat) : Multiset Nat) + ((stg r).did : Multiset Nat) + F.flight (stg r)
        = (((got (s.proc 0)).map Prod.fst).filter (· < F.tasks) : List Nat) + ∑ q ∈ Icc 1 m, F.flight (update stg r x q)
          + ((stg r).did : Multiset Nat) + F.flight (stg r) := by
      rw [e1, hD, add_assoc, hd]
      have : ((((got (s.proc 0)).map Prod.fst).filter (· < F.tasks) : List Nat) : Multiset Nat)
          + ∑ q ∈ Icc 1 m, F.flight (update stg r x q) + ((stg r).did : Multiset Nat) + F.flight (stg r)
          = (((got (s.proc 0)).map Prod.fst).filter (· < F.tasks) : List Nat) + ((stg r).did : Multiset Nat)
            + (∑ q ∈ Icc 1 m, F.flight (update stg r x q) + F.flight (stg r)) := by abel
      rw [this, e2]
      abel
    exact add_right_cancel (add_right_cancel this)
  · rw [hp0]
    have e := sum_swap (m := m) Stage.weight stg h1 h2 x
    simp only [weight]
    omega

theorem view_eqs {s : St (Pc R O) (Pay R O)} {r : Nat} {x : Stage} (h : V s r = F.view f o r x) :
    s.proc r = (F.view f o r x).1 ∧ s.blk r = (F.view f o r x).2.1 ∧ s.chan r 0 = (F.view f o r x).2.2.1
      ∧ s.chan 0 r = (F.view f o r x).2.2.2 := by
  rw [← h]; exact ⟨rfl, rfl, rfl, rfl⟩

/-- The first message a receive can take from a list of one message. -/
theorem single_split {V : Type} {l pre post : List (Msg V)} {a x : Msg V} (h : l = [a]) (h' : l = pre ++ x :: post) :
    pre = [] ∧ x = a ∧ post = [] := by
  rw [h] at h'
  cases pre with
  | nil => simp at h'; exact ⟨rfl, h'.1.symm, h'.2⟩
  | cons p ps => simp at h'

/-- The possible stages. -/
theorem MInv.classes {stg : Nat → Stage} {p : Pc R O} (h : F.MInv f o m stg p) {r : Nat} (h1 : 1 ≤ r) (h2 : r ≤ m) :
    F.Live (stg r) ∨ F.Term (stg r) ∨ (F.Clos (stg r) ∧ F.closing = true) ∨ Over (stg r) ∨ ∃ d, stg r = .pend d := by
  cases p with
  | hand i =>
    obtain ⟨a1, a2, a3, a4, a5⟩ := h
    by_cases hi : r ≤ i
    · exact Or.inl (a3 r h1 hi)
    · exact Or.inr (Or.inr (Or.inr (Or.inr ⟨_, a4 r (by omega) h2⟩)))
  | gather i got =>
    obtain ⟨a1, a2, a3, a4, a5⟩ := h
    exact (a3 r h1 h2).elim Or.inl fun h => Or.inr (Or.inl h)
  | reply i got w =>
    obtain ⟨a1, a2, a3, a4, ⟨d, a5⟩, a6, a7, a8⟩ := h
    by_cases hw : r = w
    · subst hw; exact Or.inr (Or.inr (Or.inr (Or.inr ⟨_, a5⟩)))
    · exact (a6 r h1 h2 hw).elim Or.inl fun h => Or.inr (Or.inl h)
  | close i got ov =>
    obtain ⟨a1, a2, a3, a4, a5, a6⟩ := h
    by_cases hi : r ≤ i
    · exact Or.inr (Or.inr (Or.inr (Or.inl (a3 r h1 hi))))
    · exact Or.inr (Or.inl (a4 r (by omega) h2))
  | closing i got ov =>
    obtain ⟨a1, a2, a3, a4, a5, a6, a7⟩ := h
    by_cases hi : r ≤ i
    · exact Or.inr (Or.inr (Or.inr (Or.inl (a3 r h1 hi))))
    · by_cases hi' : r = i + 1
      · subst hi'; exact Or.inr (Or.inr (Or.inl ⟨a4, a1⟩))
      · exact Or.inr (Or.inl (a5 r (by omega) h2))
  | done got ov =>
    have := h.1 r h1 h2
    split at this
    · exact Or.inr (Or.inr (Or.inr (Or.inl this)))
    · exact Or.inr (Or.inl this)
  | _ => exact h.elim

theorem Inv.worker_send {s : St (Pc R O) (Pay R O)} {stg : Nat → Stage} (h : F.Inv f o m s stg)
    {r d t : Nat} {v : Pay R O} {n : Pc R O} (b : Bool) (hr : r ≠ 0)
    (hact : F.act f o r (s.proc r) = .send d t v n) :
    ∃ stg', F.Inv f o m
        { proc := Function.update s.proc r n
          chan := setChan s.chan r d (s.chan r d ++ [⟨t, v, b⟩])
          blk := Function.update s.blk r b } stg' ∧
      F.weight m stg' (Function.update s.proc r n 0) < F.weight m stg (s.proc 0) := by
  by_cases hrm : 1 ≤ r ∧ r ≤ m
  swap
  · rw [(h.base.others r hr hrm).1] at hact
    simp [act] at hact
  obtain ⟨h1, h2⟩ := hrm
  obtain ⟨e1, e2, e3, e4⟩ := view_eqs (h.base.view r h1 h2)
  have hp0 : update s.proc r n 0 = s.proc 0 := update_of_ne (Ne.symm hr) _ _
  have hpq : ∀ q, q ≠ r → q ≠ 0 → update s.proc r n q = s.proc q := fun q hq _ => update_of_ne hq _ _
  have hbq : ∀ q, q ≠ r → q ≠ 0 → update s.blk r b q = s.blk q := fun q hq _ => update_of_ne hq _ _
  have hbz : update s.blk r b 0 = s.blk 0 := update_of_ne (Ne.symm hr) _ _
  rw [e1] at hact
  cases hst : stg r with
  | comp j did =>
    rw [hst] at hact e1 e2 e3 e4
    simp only [view, act, Act.send.injEq] at hact
    obtain ⟨rfl, rfl, rfl, rfl⟩ := hact
    refine h.workerMove (x := .sent j (F.note j did) b) h1 h2 hp0 (fun hb => ?_) hpq hbq ?_ ?_ ?_ ?_ ?_ ?_ ?_ ?_ ?_ ?_
    · exact ⟨by rw [← hbz]; exact hb, by rw [hst]; simp [Stage.flagged]⟩
    · intro a c hac _
      exact setChan_ne hac
    · simp only [V, view, update_self, setChan_same]
      rw [e3, setChan_ne (by omega), e4, ovOf_note]
      rfl
    · rw [hst]; rfl
    · intro; trivial
    · rw [hst]; simp [Term]
    · rw [hst]; simp [Clos]
    · rw [hst]; simp
    · rw [hst]; simp
    · rw [hst]
      simp only [Stage.did, flight, note]
      split
      · rw [← Multiset.coe_add, add_zero, ← Multiset.coe_singleton]
      · simp
    · rw [hst]; simp [Stage.weight]
  | ans did =>
    rw [hst] at hact e1 e2 e3 e4
    simp only [view, act, Act.send.injEq] at hact
    obtain ⟨rfl, rfl, rfl, rfl⟩ := hact
    refine h.workerMove (x := .ansSent did b) h1 h2 hp0 (fun hb => ?_) hpq hbq ?_ ?_ ?_ ?_ ?_ ?_ ?_ ?_ ?_ ?_
    · exact ⟨by rw [← hbz]; exact hb, by rw [hst]; simp [Stage.flagged]⟩
    · intro a c hac _
      exact setChan_ne hac
    · simp only [V, view, update_self, setChan_same]
      rw [e3, setChan_ne (by omega), e4]
      rfl
    · rw [hst]; rfl
    · rw [hst]; simp [Live]
    · rw [hst]; simp [Term]
    · intro; trivial
    · rw [hst]; simp
    · rw [hst]; simp
    · rw [hst]; rfl
    · rw [hst]; simp [Stage.weight]
  | _ => rw [hst] at hact; simp [view, act] at hact

theorem Inv.worker_recv {s : St (Pc R O) (Pay R O)} {stg : Nat → Stage} (h : F.Inv f o m s stg)
    {r q : Nat} {src tag : Option Nat} {k : Nat → Nat → Pay R O → Pc R O} {pre post : List (Msg (Pay R O))} {a : Msg (Pay R O)}
    (hr : r ≠ 0) (hact : F.act f o r (s.proc r) = .recv src tag k)
    (hsrc : fits src q) (_htag : fits tag a.tag)
    (hch : s.chan q r = pre ++ a :: post) (hpre : ∀ x ∈ pre, ¬ fits tag x.tag) :
    ∃ stg', F.Inv f o m
        { proc := Function.update s.proc r (k q a.tag a.val)
          chan := setChan s.chan q r (pre ++ post)
          blk := if a.sync then Function.update s.blk q false else s.blk } stg' ∧
      F.weight m stg' (Function.update s.proc r (k q a.tag a.val) 0) < F.weight m stg (s.proc 0) := by
  by_cases hrm : 1 ≤ r ∧ r ≤ m
  swap
  · rw [(h.base.others r hr hrm).1] at hact
    simp [act] at hact
  obtain ⟨h1, h2⟩ := hrm
  obtain ⟨e1, e2, e3, e4⟩ := view_eqs (h.base.view r h1 h2)
  rw [e1] at hact
  have hq0 : q = 0 := by
    by_contra hq
    have := h.base.empty q r (by omega)
    rw [this] at hch
    simp at hch
  subst hq0
  have hp0 : ∀ n, update s.proc r n 0 = s.proc 0 := fun n => update_of_ne (Ne.symm hr) _ _
  have hpq : ∀ n q, q ≠ r → q ≠ 0 → update s.proc r n q = s.proc q := fun n q hq _ => update_of_ne hq _ _
  have hbq : ∀ q, q ≠ r → q ≠ 0 → (if a.sync then update s.blk 0 false else s.blk) q = s.blk q := fun q _ hq => by
    split
    · exact update_of_ne hq _ _
    · rfl
  have hbr : (if a.sync then update s.blk 0 false else s.blk) r = s.blk r := by
    split
    · exact update_of_ne hr _ _
    · rfl
  have hbz : (if a.sync then update s.blk 0 false else s.blk) 0 = true → s.blk 0 = true ∧ a.sync = false := by
    split
    · intro h; simp at h
    · rename_i h; exact fun h' => ⟨h', by simpa using h⟩
  have hcc : ∀ l a b, ¬ (a = r ∧ b = 0) → ¬ (a = 0 ∧ b = r) → setChan s.chan 0 r l a b = s.chan a b :=
    fun l a b _ hab => setChan_ne hab
  cases hst : stg r with
  | rep j did b =>
    rw [hst] at hact e1 e2 e3 e4
    simp only [view] at e1 e2 e3 e4
    obtain ⟨rfl, rfl, rfl⟩ := single_split e4 hch
    simp only [view, act, Act.recv.injEq] at hact
    obtain ⟨rfl, rfl, rfl⟩ := hact
    have hgoal : ∀ x : Stage, V (⟨update s.proc r (F.took j did (ovOf o did)), setChan s.chan 0 r ([] ++ []),
          if b then update s.blk 0 false else s.blk⟩ : St (Pc R O) (Pay R O)) r = F.view f o r x →
        F.out x = F.out (.rep j did b) → (F.more j = true → F.Live x) → (F.more j = false → F.Term x) →
        x.did = did → F.flight x = 0 → x.weight < 2 → _ := fun x hv hout hl ht hd hfl hw =>
      h.workerMove (s' := ⟨update s.proc r (F.took j did (ovOf o did)), setChan s.chan 0 r ([] ++ []),
          if b then update s.blk 0 false else s.blk⟩) (x := x) h1 h2 (hp0 _)
        (fun hb => ⟨(hbz hb).1, by rw [hst]; intro hf; exact absurd ((hbz hb).2.symm.trans hf) (by simp)⟩) (hpq _) hbq (hcc _) hv
        (by rw [hst]; exact hout) (by rw [hst]; exact hl) (by rw [hst]; exact ht) (by rw [hst]; simp [Clos])
        (by rw [hst]; simp) (by rw [hst]; simp) (by rw [hst, hd, hfl]; rfl) (by rw [hst]; exact hw)
    show ∃ stg', F.Inv f o m (⟨update s.proc r (F.took j did (ovOf o did)), setChan s.chan 0 r ([] ++ []),
          if b then update s.blk 0 false else s.blk⟩ : St (Pc R O) (Pay R O)) stg' ∧ _
    have hV : ∀ p, V (⟨update s.proc r p, setChan s.chan 0 r ([] ++ []),
          if b then update s.blk 0 false else s.blk⟩ : St (Pc R O) (Pay R O)) r = (p, false, [], []) := fun p => by
      simp only [V, update_self, setChan_same]
      rw [hbr, e2, setChan_ne (by omega), e3]
      rfl
    cases hm : F.more j with
    | true =>
      refine hgoal (.comp j did) ?_ ?_ ?_ ?_ rfl rfl (by simp [Stage.weight])
      · rw [hV]; simp [took, hm, view]
      · simp [out, hm]
      · intro _; trivial
      · intro h'; rw [hm] at h'; simp at h'
    | false =>
      cases hcl : F.closing with
      | true =>
        refine hgoal (.fin did) ?_ ?_ ?_ ?_ rfl rfl (by simp [Stage.weight])
        · rw [hV]; simp [took, hm, hcl, view]
        · simp [out, hm]
        · intro h'; rw [hm] at h'; simp at h'
        · intro _; exact hcl
      | false =>
        refine hgoal (.over did) ?_ ?_ ?_ ?_ rfl rfl (by simp [Stage.weight])
        · rw [hV]; simp [took, hm, hcl, view]
        · simp [out, hm]
        · intro h'; rw [hm] at h'; simp at h'
        · intro _; exact hcl
  | repSig j did b c =>
    have hcl : F.more j = false ∧ F.closing = true := by
      have := h.master.classes h1 h2
      rw [hst] at this
      simpa [Live, Term, Clos, Over] using this
    rw [hst] at hact e1 e2 e3 e4
    simp only [view] at e1 e2 e3 e4
    simp only [view, act, Act.recv.injEq] at hact
    obtain ⟨rfl, rfl, rfl⟩ := hact
    have hpre0 : pre = [] := by
      cases pre with
      | nil => rfl
      | cons p ps =>
        rw [e4] at hch
        simp only [List.cons_append, List.cons.injEq] at hch
        exact absurd (Or.inr (by rw [← hch.1])) (hpre p (by simp))
    subst hpre0
    rw [e4] at hch
    simp only [List.nil_append, List.cons.injEq] at hch
    obtain ⟨rfl, rfl⟩ := hch
    show ∃ stg', F.Inv f o m (⟨update s.proc r (F.took j did (ovOf o did)), setChan s.chan 0 r ([] ++ _),
          if b then update s.blk 0 false else s.blk⟩ : St (Pc R O) (Pay R O)) stg' ∧ _
    refine h.workerMove (x := .finSig did c) h1 h2 (hp0 _) (fun hb => ?_) (hpq _) hbq (hcc _) ?_ ?_ ?_ ?_ ?_ ?_ ?_ ?_ ?_
    · refine ⟨(hbz hb).1, ?_⟩
      have hb' : b = false := (hbz hb).2
      rw [hst]; simp [Stage.flagged, hb']
    · simp only [V, update_self, setChan_same]
      rw [hbr, e2, setChan_ne (by omega), e3]
      simp [took, hcl.1, hcl.2, view]
    · rw [hst]; rfl
    · rw [hst]; simp [Live]
    · rw [hst]; simp [Term]
    · rw [hst]; intro _; trivial
    · rw [hst]; simp
    · rw [hst]; simp
    · rw [hst]; rfl
    · rw [hst]; simp [Stage.weight]
  | finSig did c =>
    rw [hst] at hact e1 e2 e3 e4
    simp only [view] at e1 e2 e3 e4
    obtain ⟨rfl, rfl, rfl⟩ := single_split e4 hch
    simp only [view, act, Act.recv.injEq] at hact
    obtain ⟨rfl, rfl, rfl⟩ := hact
    show ∃ stg', F.Inv f o m (⟨update s.proc r (if F.signal = F.signal then .ans did (ovOf o did) else .bad), setChan s.chan 0 r ([] ++ []),
          if c then update s.blk 0 false else s.blk⟩ : St (Pc R O) (Pay R O)) stg' ∧ _
    refine h.workerMove (x := .ans did) h1 h2 (hp0 _) (fun hb => ?_) (hpq _) hbq (hcc _) ?_ ?_ ?_ ?_ ?_ ?_ ?_ ?_ ?_
    · refine ⟨(hbz hb).1, ?_⟩
      have hb' : c = false := (hbz hb).2
      rw [hst]; simp [Stage.flagged, hb']
    · simp only [V, update_self, setChan_same]
      rw [hbr, e2, setChan_ne (by omega), e3]
      simp [view]
    · rw [hst]; rfl
    · rw [hst]; simp [Live]
    · rw [hst]; simp [Term]
    · rw [hst]; intro _; trivial
    · rw [hst]; simp
    · rw [hst]; simp
    · rw [hst]; rfl
    · rw [hst]; simp [Stage.weight]
  | sent j did b =>
    rw [hst] at e4
    rw [e4] at hch
    simp [view] at hch
  | pend did =>
    rw [hst] at e4
    rw [e4] at hch
    simp [view] at hch
  | fin did =>
    rw [hst] at e4
    rw [e4] at hch
    simp [view] at hch
  | _ => rw [hst] at hact; simp [view, act] at hact

end Farm
end Verif.Mpi
