import Verif.Mpi.FarmMaster

/-!
# All executions of the master/worker loops
-/
namespace Verif.Mpi
open Function Finset

variable {R O : Type} [AddCommMonoid O]

namespace Farm
variable {F : Farm} {f : Nat → R} {o : Nat → O} {m : Nat}

/-- The stages at the beginning. -/
def stage0 (F : Farm) (r : Nat) : Stage := if F.handout then .pend [] else .comp (F.start r) []

theorem init_inv (hF : F.WF m) : F.Inv f o m (F.init) F.stage0 := by
  have hm := hF.le
  have hin : ∀ r, 1 ≤ r → r ≤ m → F.start0 r = (if F.handout then .wait [] 0 else .comp (F.start r) [] 0 : Pc R O) := fun r r1 r2 => by
    unfold start0
    rw [if_pos ⟨r1, by omega, (hF.joins r r1 (by omega)).mpr r2⟩]
  have hsum0 : ∑ r ∈ Icc 1 m, (((F.stage0 r).did : List Nat) : Multiset Nat) = 0 := Finset.sum_eq_zero fun r _ => by
    unfold stage0; split <;> rfl
  have hfl0 : ∑ r ∈ Icc 1 m, F.flight (F.stage0 r) = 0 := Finset.sum_eq_zero fun r _ => by
    unfold stage0; split <;> rfl
  refine ⟨⟨fun r r1 r2 => ?_, fun r r0 hr => ?_, fun _ _ _ => rfl⟩, fun h => by simp [init] at h, ?_, ?_⟩
  · have hr0 : r ≠ 0 := by omega
    simp only [V, init, if_neg hr0, hin r r1 r2, stage0]
    split <;> simp [view, ovOf]
  · refine ⟨?_, rfl⟩
    simp only [init, if_neg r0, start0]
    rw [if_neg]
    rintro ⟨r1, r2, r3⟩
    exact hr ⟨r1, (hF.joins r r1 r2).mp r3⟩
  · show F.MInv f o m _ (if 0 = 0 then F.handAt 0 else F.start0 0)
    rw [if_pos rfl]
    unfold handAt
    split
    · rename_i h
      rw [hF.handouts h.1] at h
      refine ⟨h.2, h.1, fun r r1 r2 => by omega, fun r _ _ => by simp [stage0, h.1], ?_⟩
      have : F.outs m F.stage0 = 0 := Finset.sum_eq_zero fun r _ => by simp [stage0, h.1, out]
      rw [this, zero_add]
      rfl
    · rename_i h
      refine gatherAt_inv hF (Nat.zero_le _) rfl (fun r r1 r2 => ?_) ?_ (by simp)
      · refine Or.inl ?_
        by_cases hh : F.handout = true
        · rw [hF.handouts hh] at h
          exact absurd ⟨hh, by omega⟩ h
        · simp [stage0, hh, Live]
      · have : F.outs m F.stage0 = F.starts m := by
          refine Finset.sum_congr rfl fun r hr => ?_
          rw [Finset.mem_Icc] at hr
          by_cases hh : F.handout = true
          · rw [hF.handouts hh] at h
            exact absurd ⟨hh, by omega⟩ h
          · simp [stage0, hh, out]
        rw [this]
        simp [given]
  · show F.DInv m _ (if 0 = 0 then F.handAt 0 else F.start0 0)
    rw [if_pos rfl]
    unfold DInv
    rw [hsum0, hfl0, got_handAt]
    rfl

theorem step_inv (hF : F.WF m) {s s' : St (Pc R O) (Pay R O)} {stg : Nat → Stage} (h : F.Inv f o m s stg)
    (hs : Step (F.act f o) s s') : ∃ stg', F.Inv f o m s' stg' ∧ F.weight m stg' (s'.proc 0) < F.weight m stg (s.proc 0) := by
  cases hs with
  | @send r d t v n b hact hblk =>
    by_cases hr : r = 0
    · subst hr; exact h.master_send hF b hblk hact
    · exact h.worker_send b hr hact
  | @recv r q src tag k pre post a hact hblk hsrc htag hch hpre =>
    by_cases hr : r = 0
    · subst hr; exact h.master_recv hF hblk hact hsrc htag hch hpre
    · exact h.worker_recv hr hact hsrc htag hch hpre

/-! ### Some rank can always move unless everything is over -/

theorem can_take {s : St (Pc R O) (Pay R O)} {r j : Nat} {d : List Nat} {x : O} {b : Bool} {l : List (Msg (Pay R O))}
    (hp : s.proc r = .wait d x) (hb : s.blk r = false)
    (hc : s.chan 0 r = ⟨F.tag r, .job j, b⟩ :: l) : ¬ Stuck (F.act f o) s := fun h =>
  h _ (Step.recv (r := r) (q := 0) (pre := []) (post := l) (m := ⟨F.tag r, .job j, b⟩) (by rw [hp]; rfl) hb (Or.inr rfl) (Or.inr rfl)
    hc (by simp))

theorem can_sig {s : St (Pc R O) (Pay R O)} {r : Nat} {d : List Nat} {x : O} {b : Bool} {l : List (Msg (Pay R O))}
    (hp : s.proc r = .fin d x) (hb : s.blk r = false)
    (hc : s.chan 0 r = ⟨F.sigTag r, .sig F.signal, b⟩ :: l) : ¬ Stuck (F.act f o) s := fun h =>
  h _ (Step.recv (r := r) (q := 0) (pre := []) (post := l) (m := ⟨F.sigTag r, .sig F.signal, b⟩) (by rw [hp]; rfl) hb (Or.inr rfl)
    (Or.inr rfl) hc (by simp))

theorem flagged_moves {s : St (Pc R O) (Pay R O)} {stg : Nat → Stage} (h : F.Base f o m s stg) {r : Nat} (h1 : 1 ≤ r) (h2 : r ≤ m)
    (hf : (stg r).flagged = true) : ¬ Stuck (F.act f o) s := by
  obtain ⟨e1, e2, e3, e4⟩ := view_eqs (h.view r h1 h2)
  cases hst : stg r with
  | rep j d b => rw [hst] at e1 e2 e3 e4; exact can_take e1 e2 e4
  | repSig j d b c => rw [hst] at e1 e2 e3 e4; exact can_take e1 e2 e4
  | finSig d c => rw [hst] at e1 e2 e3 e4; exact can_sig e1 e2 e4
  | _ => rw [hst] at hf; simp [Stage.flagged] at hf

theorem progress (hF : F.WF m) {s : St (Pc R O) (Pay R O)} {stg : Nat → Stage} (h : F.Inv f o m s stg)
    (hs : Stuck (F.act f o) s) : (∃ g ov, s.proc 0 = .done g ov) ∧ s.blk 0 = false ∧ ∀ r, 1 ≤ r → r ≤ m → Over (stg r) := by
  have hb0 : s.blk 0 = false := by
    by_contra hb
    obtain ⟨r, h1, h2, h3⟩ := h.blk0 (by simpa using hb)
    exact flagged_moves h.base h1 h2 h3 hs
  have hM := h.master
  have hsend : ∀ {d t v n}, F.act f o 0 (s.proc 0) = .send d t v n → False := fun hact => hs _ (Step.send false hact hb0)
  cases hp : s.proc 0 with
  | hand i => exact (hsend (by rw [hp]; rfl)).elim
  | reply i g w => exact (hsend (by rw [hp]; rfl)).elim
  | close i g ov => exact (hsend (by rw [hp]; rfl)).elim
  | gather i g =>
    rw [hp] at hM
    obtain ⟨a1, a2, a3, a4, a5⟩ := hM
    exfalso
    have hcard := congrArg Multiset.card a4
    rw [Multiset.card_add, Multiset.card_add, card_starts, card_given, Multiset.coe_card, List.length_map, a2] at hcard
    have hm := hF.someone (by omega)
    have hne : F.outs m stg ≠ 0 := by
      rw [← Multiset.card_pos]
      omega
    obtain ⟨r, hr, hro⟩ := Finset.exists_ne_zero_of_sum_ne_zero hne
    rw [Finset.mem_Icc] at hr
    obtain ⟨e1, e2, e3, e4⟩ := view_eqs (h.base.view r hr.1 hr.2)
    cases hst : stg r with
    | comp j d =>
      rw [hst] at e1 e2 e3 e4
      exact hs _ (Step.send (r := r) false (by rw [e1]; rfl) e2)
    | sent j d b =>
      rw [hst] at e1 e2 e3 e4
      exact hs _ (Step.recv (r := 0) (q := r) (pre := []) (post := []) (m := (⟨j, .res (f j), b⟩ : Msg (Pay R O))) (by rw [hp]; rfl) hb0 (Or.inl rfl)
        (Or.inl rfl) e3 (by simp))
    | rep j d b => rw [hst] at e1 e2 e3 e4; exact can_take e1 e2 e4 hs
    | _ => rw [hst] at hro; exact hro rfl
  | closing i g ov =>
    rw [hp] at hM
    obtain ⟨a1, a2, a3, a4, a5, a6, a7⟩ := hM
    exfalso
    obtain ⟨e1, e2, e3, e4⟩ := view_eqs (h.base.view (i + 1) (by omega) (by omega))
    cases hst : stg (i + 1) with
    | repSig j d b c => rw [hst] at e1 e2 e3 e4; exact can_take e1 e2 e4 hs
    | finSig d c => rw [hst] at e1 e2 e3 e4; exact can_sig e1 e2 e4 hs
    | ans d =>
      rw [hst] at e1 e2 e3 e4
      exact hs _ (Step.send (r := i + 1) false (by rw [e1]; rfl) e2)
    | ansSent d b =>
      rw [hst] at e1 e2 e3 e4
      exact hs _ (Step.recv (r := 0) (q := i + 1) (pre := []) (post := []) (m := (⟨F.ovTag (i + 1), .ov (ovOf o d), b⟩ : Msg (Pay R O))) (by rw [hp]; rfl) hb0
        (Or.inr rfl) (Or.inr rfl) e3 (by simp))
    | _ => rw [hst] at a4; exact a4
  | done g ov =>
    rw [hp] at hM
    refine ⟨⟨g, ov, rfl⟩, hb0, fun r h1 h2 => ?_⟩
    have := hM.1 r h1 h2
    split at this
    · exact this
    · rename_i hc
      obtain ⟨e1, e2, e3, e4⟩ := view_eqs (h.base.view r h1 h2)
      cases hst : stg r with
      | rep j d b => rw [hst] at e1 e2 e3 e4; exact (can_take e1 e2 e4 hs).elim
      | fin d => rw [hst] at this; exact absurd this hc
      | over d => trivial
      | _ => rw [hst] at this; exact this.elim
  | _ => rw [hp] at hM; exact hM.elim

/-- An upper bound for the number of MPI calls. -/
def bound (F : Farm) (m : Nat) : Nat := 4 * F.total + 8 * m

/-- Every execution is finite; an execution that cannot go on has ended: every rank has returned, no
message is left, and the tasks executed by the workers and the results received by the master are the
first numbers and the answers with which a worker goes on. -/
theorem run_ok (hF : F.WF m) {n : Nat} {s : St (Pc R O) (Pay R O)} (h : Steps (F.act f o) n F.init s) :
    n ≤ F.bound m ∧ (Stuck (F.act f o) s → Final (F.act f o) s ∧
      ∃ (g : List (Nat × R)) (ov : O) (did : Nat → List Nat), s.proc 0 = .done g ov ∧
        (∀ r, 1 ≤ r → r ≤ m → s.proc r = .over (did r) ((did r).map o).sum) ∧ (∀ r, m < r → s.proc r = .idle) ∧
        ((g.map Prod.fst : List Nat) : Multiset Nat) = F.starts m + F.given m F.total ∧ (∀ x ∈ g, x.2 = f x.1) ∧
        ∑ r ∈ Icc 1 m, (did r : Multiset Nat) = ((g.map Prod.fst).filter (· < F.tasks) : List Nat) ∧
        ov = if F.closing = true then ∑ r ∈ Icc 1 m, ((did r).map o).sum else 0) := by
  obtain ⟨μ, ⟨stg, hI, hμ⟩, hle⟩ := Steps.measure (I := fun s μ => ∃ stg, F.Inv f o m s stg ∧ μ = F.weight m stg (s.proc 0))
    (fun s μ s' ⟨stg, hI, hμ⟩ hs => by
      obtain ⟨stg', hI', hlt⟩ := step_inv hF hI hs
      exact ⟨_, ⟨stg', hI', rfl⟩, by rw [hμ]; exact hlt⟩) ⟨F.stage0, init_inv hF, rfl⟩ h
  refine ⟨?_, fun hs => ?_⟩
  · have hw : F.weight m F.stage0 ((F.init : St (Pc R O) (Pay R O)).proc 0) ≤ F.bound m := by
      show F.mWeight m (if 0 = 0 then F.handAt 0 else F.start0 0) + ∑ r ∈ Icc 1 m, (F.stage0 r).weight ≤ _
      rw [if_pos rfl]
      by_cases hh : F.handout = true
      · have : ∑ r ∈ Icc 1 m, (F.stage0 r).weight = 0 := Finset.sum_eq_zero fun r _ => by simp [stage0, hh, Stage.weight]
        have := mWeight_handAt (F := F) (R := R) (O := O) (m := m) 0
        unfold bound
        omega
      · have : ∑ r ∈ Icc 1 m, (F.stage0 r).weight = ∑ r ∈ Icc 1 m, 1 := Finset.sum_congr rfl fun r _ => by
          simp [stage0, hh, Stage.weight]
        have hs1 : ∑ r ∈ Icc 1 m, 1 = m := by simp
        rw [this, hs1]
        have h0 : (F.handAt 0 : Pc R O) = F.gatherAt 0 [] := by
          unfold handAt; rw [if_neg (fun h => hh h.1)]
        rw [h0]
        have := mWeight_gatherAt (F := F) (R := R) (O := O) (m := m) 0 []
        unfold bound
        omega
    omega
  · obtain ⟨⟨g, ov, hp⟩, hb0, hover⟩ := progress hF hI hs
    have hview : ∀ r, 1 ≤ r → r ≤ m → V s r = F.view f o r (.over (stg r).did) := fun r h1 h2 => by
      rw [hI.base.view r h1 h2]
      have := hover r h1 h2
      cases hst : stg r with
      | over d => rfl
      | _ => rw [hst] at this; exact this.elim
    have hM := hI.master
    rw [hp] at hM
    obtain ⟨b1, ⟨b2, b3⟩, b4⟩ := hM
    refine ⟨⟨fun r => ?_, fun r => ?_, fun q r => ?_⟩, g, ov, fun r => (stg r).did, hp, fun r h1 h2 => ?_,
      fun r hr => (hI.base.others r (by omega) (by omega)).1, b2, b3, ?_, b4⟩
    · by_cases hr : r = 0
      · subst hr; rw [hp]; rfl
      · by_cases hrm : 1 ≤ r ∧ r ≤ m
        · rw [(view_eqs (hview r hrm.1 hrm.2)).1]; rfl
        · rw [(hI.base.others r hr hrm).1]; rfl
    · by_cases hr : r = 0
      · subst hr; exact hb0
      · by_cases hrm : 1 ≤ r ∧ r ≤ m
        · rw [(view_eqs (hview r hrm.1 hrm.2)).2.1]; rfl
        · exact (hI.base.others r hr hrm).2
    · by_cases hqr : (q = 0 ∧ 1 ≤ r ∧ r ≤ m) ∨ (r = 0 ∧ 1 ≤ q ∧ q ≤ m)
      · rcases hqr with ⟨rfl, h1, h2⟩ | ⟨rfl, h1, h2⟩
        · rw [(view_eqs (hview r h1 h2)).2.2.2]; rfl
        · rw [(view_eqs (hview q h1 h2)).2.2.1]; rfl
      · exact hI.base.empty q r hqr
    · exact (view_eqs (hview r h1 h2)).1
    · have hD := hI.dids
      rw [hp] at hD
      unfold DInv at hD
      have hfl : ∑ r ∈ Icc 1 m, F.flight (stg r) = 0 := Finset.sum_eq_zero fun r hr => by
        rw [Finset.mem_Icc] at hr
        have := hover r hr.1 hr.2
        cases hst : stg r with
        | over d => rfl
        | _ => rw [hst] at this; exact this.elim
      rw [hfl, add_zero] at hD
      exact hD

end Farm
end Verif.Mpi
