import Verif.Mpi.DmrgProg
import Mathlib.Data.Fintype.Pi
import Mathlib.Data.List.Permutation

/-!
# The phases of the parallel DMRG executor
-/
namespace Verif.Mpi
open Function Finset

section
variable {S V : Type} {act : Nat → S → Act S V}

/-- A property of local states that every call keeps holds in all reachable states. -/
theorem Steps.local {I : Nat → S → Prop} (hs : ∀ r s d t v nx, I r s → act r s = .send d t v nx → I r nx)
    (hr : ∀ r s src tag k, I r s → act r s = .recv src tag k → ∀ q t v, I r (k q t v)) {τ : Nat → S} (h0 : ∀ r, I r (τ r)) {n : Nat} {s : St S V}
    (h : Steps act n (fresh τ) s) : ∀ r, I r (s.proc r) := by
  generalize hf : (fresh τ : St S V) = s0 at h
  induction h with
  | nil => subst hf; exact h0
  | snoc h hst ih =>
    have ih := ih hf
    intro r
    cases hst with
    | @send r' d t v nx b hact hblk =>
      dsimp only
      by_cases h : r = r'
      · subst h; rw [update_self]; exact hs _ _ _ _ _ _ (ih r) hact
      · rw [update_of_ne h]; exact ih r
    | @recv r' q src tag k pre post m hact hblk hsrc htag hch hpre =>
      dsimp only
      by_cases h : r = r'
      · subst h; rw [update_self]; exact hr _ _ _ _ _ (ih r) hact _ _ _
      · rw [update_of_ne h]; exact ih r

theorem Ends.mono {s : St S V} {B B' : Nat} {Q : (Nat → S) → Prop} (h : Ends act s B Q) (hB : B ≤ B') : Ends act s B' Q :=
  ⟨fun n s' hs => le_trans (h.bound n s' hs) hB, h.good⟩

end

section
variable {T O SL VL H X : Type} [AddCommMonoid O] {lact : Nat → SL → Act SL VL} {body : Nat → H → Proc T O SL VL H X}
  {W : Nat} {Q : (Nat → Proc T O SL VL H X) → Prop}

/-! ### Distributions of the tasks -/

/-- The finitely many ways to distribute `n` tasks. -/
def splits (n : Nat) : Finset (List Nat) := ((List.range n).sublists.flatMap List.permutations).toFinset

theorem mem_splits {n : Nat} {l : List Nat} (h : (l : Multiset Nat) ≤ (List.range n : List Nat)) : l ∈ splits n := by
  unfold splits
  rw [List.mem_toFinset, List.mem_flatMap]
  obtain ⟨l', hp, hs⟩ := (Multiset.coe_le.mp h)
  exact ⟨l', List.mem_sublists.mpr hs, List.mem_permutations.mpr hp.symm⟩

theorem did_le {n W : Nat} {did : Nat → List Nat} (h : ∑ r ∈ Icc 1 W, (did r : Multiset Nat) = (List.range n : List Nat)) {r : Nat} (h1 : 1 ≤ r) (h2 : r ≤ W) :
    did r ∈ splits n := by
  refine mem_splits ?_
  rw [← h]
  exact Finset.single_le_sum (f := fun r => (did r : Multiset Nat)) (fun _ _ => Multiset.zero_le _) (by simp [h1, h2])

/-- One bound for all distributions of the tasks. -/
theorem good_unif {n : Nat} {M : Proc T O SL VL H X} {w : Nat → List Nat → Proc T O SL VL H X}
    (h : ∀ did : Nat → List Nat, ∑ r ∈ Icc 1 W, (did r : Multiset Nat) = (List.range n : List Nat) → Good lact body W Q M fun r => w r (did r)) :
    ∃ B, ∀ did : Nat → List Nat, ∑ r ∈ Icc 1 W, (did r : Multiset Nat) = (List.range n : List Nat) →
      Ends (pact lact body) (fresh (ranks W M fun r => w r (did r))) B Q := by
  classical
  let ext : (Fin W → List Nat) → Nat → List Nat := fun d r => if hr : 1 ≤ r ∧ r ≤ W then d ⟨r - 1, by omega⟩ else []
  have hB : ∀ d : Fin W → List Nat, ∃ B, ∑ r ∈ Icc 1 W, (ext d r : Multiset Nat) = (List.range n : List Nat) →
      Ends (pact lact body) (fresh (ranks W M fun r => w r (ext d r))) B Q := fun d => by
    by_cases hd : ∑ r ∈ Icc 1 W, (ext d r : Multiset Nat) = (List.range n : List Nat)
    · obtain ⟨B, hB⟩ := h _ hd
      exact ⟨B, fun _ => hB⟩
    · exact ⟨0, fun h => absurd h hd⟩
  choose b hb using hB
  refine ⟨(Fintype.piFinset fun _ : Fin W => splits n).sup b, fun did hdid => ?_⟩
  let d : Fin W → List Nat := fun i => did (i + 1)
  have he : ∀ r, 1 ≤ r → r ≤ W → ext d r = did r := fun r h1 h2 => by
    simp only [ext, d, dif_pos (show 1 ≤ r ∧ r ≤ W from ⟨h1, h2⟩)]
    congr 1
    omega
  have hs : ∑ r ∈ Icc 1 W, (ext d r : Multiset Nat) = (List.range n : List Nat) := by
    rw [← hdid]
    exact Finset.sum_congr rfl fun r hr => by
      rw [Finset.mem_Icc] at hr
      rw [he r hr.1 hr.2]
  have hd : d ∈ Fintype.piFinset fun _ : Fin W => splits n := Fintype.mem_piFinset.mpr fun i => did_le hdid (by omega) (by omega)
  have := (hb d hs).mono (Finset.le_sup (f := b) hd)
  rwa [ranks_congr (w' := fun r => w r (did r)) fun r h1 h2 => by rw [he r h1 h2]] at this

/-! ### Loops in which the workers only send -/

/-- Send the messages one after the other. -/
def sendAll (l : List (Nat × PV T O VL)) (next : Proc T O SL VL H X) : Proc T O SL VL H X :=
  l.foldr (fun p n => .send 0 (p.1 + 1) p.2 n) next

/-- A loop in which the workers only send as a phase. -/
theorem good_coll {Mm Vv : Type} {want : Mm → Option (Want Mm Vv)} {P : Mm → (Nat → List (Nat × Vv)) → Prop} (hC : Coll W want P)
    {msgs : Nat → List (Nat × Vv)} {m0 : Mm} (h0 : P m0 (fun r => if 1 ≤ r ∧ r ≤ W then msgs r else []))
    (ι : Vv → PV T O VL) (em : Mm → Proc T O SL VL H X) {cw : Nat → Proc T O SL VL H X} {M : Proc T O SL VL H X}
    (hem : ∀ m w, want m = some w → ∃ k', pact lact body 0 (em m) = .recv w.src (w.tag.map (· + 1)) k' ∧ ∀ q t v, k' q (t + 1) (ι v) = em (w.next q t v))
    (hM : ∀ m, want m = none → P m (fun _ => []) → em m = M)
    (hgate : ∀ r, 1 ≤ r → r ≤ W → ∃ tag k, pact lact body r (cw r) = .recv (some 0) tag k)
    (hg : Good lact body W Q M cw) :
    Good lact body W Q (em m0) fun r => sendAll ((msgs r).map fun p => (p.1, ι p.2)) (cw r) := by
  obtain ⟨B, hB⟩ := hg
  let E : Emb0 (CPc Mm Vv) Vv (Proc T O SL VL H X) (PV T O VL) :=
    { e := fun r p =>
        match p with
        | .wk l => sendAll (l.map fun p => (p.1, ι p.2)) (if r ≤ W then cw r else .off)
        | .ms m => em m
      ι := ι
      θ := fun t => t + 1
      θ' := fun t => t - 1
      θ_inv := fun t => by simp }
  have hstart : (fun r => E.e r ((cinit W msgs m0).proc r)) = ranks W (em m0) fun r => sendAll ((msgs r).map fun p => (p.1, ι p.2)) (cw r) := by
    funext r
    by_cases h0 : r = 0
    · subst h0; rfl
    · unfold ranks
      by_cases h1 : r ≤ W
      · simp only [E, cinit, if_neg h0, if_pos h1]
      · simp only [E, cinit, if_neg h0, if_neg h1]
        rfl
  refine ⟨∑ r ∈ Icc 1 W, 2 * (msgs r).length + B, ?_⟩
  rw [← hstart]
  have hloc : ∀ n s, Steps (cact want) n (fresh (cinit W msgs m0).proc) s → ∀ r, (∃ m, s.proc r = .ms m) ↔ r = 0 := fun n s h =>
    Steps.local (I := fun r p => (∃ m, p = .ms m) ↔ r = 0) (fun r p d t v nx hI hact => by
        cases p with
        | wk l =>
          cases l with
          | nil => cases hact
          | cons a l =>
            simp only [cact, Act.send.injEq] at hact
            rw [← hI, ← hact.2.2.2]
            simp
        | ms m =>
          simp only [cact] at hact
          split at hact <;> cases hact)
      (fun r p src tag k hI hact q t v => by
        cases p with
        | wk l =>
          cases l <;> cases hact
        | ms m =>
          simp only [cact] at hact
          split at hact
          · cases hact
          · simp only [Act.recv.injEq] at hact
            rw [← hact.2.2, ← hI]
            simp)
      (fun r => by
        by_cases h0 : r = 0
        · subst h0; simp [cinit]
        · simp only [cinit, if_neg h0]
          split <;> simp [h0]) h
  refine phase' (G := True) (E := E) (actB := cact want) (act := pact lact body) (τ := (cinit W msgs m0).proc) (ok := fun _ => True)
    (QB := fun β => (∃ m, β 0 = .ms m ∧ want m = none ∧ P m fun _ => []) ∧ ∀ r, r ≠ 0 → β r = .wk [])
    ⟨fun n s h => (hC.run_ok h0 h).1, fun n s h hs => ?_⟩ (fun _ _ _ _ _ _ _ _ _ => trivial) (fun n s h r hns => ?_) (fun n s h r src tag k hr => ?_)
    (fun _ β hβ r hr0 => ?_) (fun β hβ => ?_)
  · obtain ⟨hf, m, h1, h2, h3⟩ := (hC.run_ok h0 h).2 hs
    refine ⟨hf, ⟨m, h1, h2, h3⟩, fun r hr => ?_⟩
    have hst := hf.1 r
    cases hp : s.proc r with
    | ms m => exact absurd ((hloc n s h r).mp ⟨m, hp⟩) hr
    | wk l =>
      rw [hp] at hst
      cases l with
      | nil => rfl
      | cons a l => cases hst
  · cases hp : s.proc r with
    | wk l =>
      rw [hp] at hns
      cases l with
      | nil => exact absurd rfl hns
      | cons a l => rfl
    | ms m =>
      have hr := (hloc n s h r).mp ⟨m, hp⟩
      subst hr
      cases hw : want m with
      | none => rw [hp] at hns; exact absurd (by simp only [cact, hw]) hns
      | some w =>
        obtain ⟨k', e1, e2⟩ := hem m w hw
        have : cact want 0 (.ms m) = .recv w.src w.tag fun q t v => .ms (w.next q t v) := by simp only [cact, hw]
        rw [this]
        exact ⟨k', e1, fun q t v _ => e2 q t v⟩
  · by_cases h0 : r = 0
    · exact Or.inr ⟨h0, trivial⟩
    · exfalso
      cases hp : s.proc r with
      | ms m => exact h0 ((hloc n s h r).mp ⟨m, hp⟩)
      | wk l =>
        rw [hp] at hr
        cases l <;> cases hr
  · rw [hβ.2 r hr0]
    show pact lact body r (if r ≤ W then cw r else .off) = _ ∨ ∃ tag k, pact lact body r (if r ≤ W then cw r else .off) = _
    by_cases h1 : r ≤ W
    · right; rw [if_pos h1]; exact hgate r (by omega) h1
    · left; rw [if_neg h1]; rfl
  · have : (fun r => E.e r (β r)) = ranks W M cw := by
      funext r
      unfold ranks
      by_cases h0 : r = 0
      · subst h0
        obtain ⟨m, e1, e2, e3⟩ := hβ.1
        rw [e1]
        exact hM m e2 e3
      · rw [hβ.2 r h0, if_neg h0]
        rfl
    rw [this]
    exact hB

end

/-! ### The loops of the DMRG executor -/

section
variable {M B Hs St Cb Cs O L SL VL : Type} [AddCommMonoid O] [AddCommMonoid St] {lact : Nat → SL → Act SL VL}
  {E : DEng M B Hs St Cb Cs O L SL} {W : Nat} {Q : (Nat → DProc M B Hs St Cb Cs O SL VL) → Prop}

theorem wSend_eq (l : List (Nat × DPV M B Hs St O VL)) (next : DProc M B Hs St Cb Cs O SL VL) : wSend l next = sendAll l next := by
  induction l with
  | nil => rfl
  | cons a l ih => obtain ⟨t, v⟩ := a; exact congrArg _ ih

theorem mapM_some {α β : Type} {f : α → Option β} {g : α → β} {l : List α} (h : ∀ x ∈ l, f x = some (g x)) : l.mapM f = some (l.map g) := by
  induction l with
  | nil => rfl
  | cons a l ih =>
    rw [List.mapM_cons, h a (by simp), ih fun x hx => h x (by simp [hx])]
    rfl

/-- Position `i` of the answers of the first product. -/
theorem dynReplies_drop {n i : Nat} (hi : i < n + W) (bs : Nat → List (B × Hs)) (ss : Nat → List (Hs × B)) :
    (dynReplies W n bs ss : List (DPV M B Hs St O VL)).drop i =
      (if i < n then .ten (.task i (bs i) (ss i)) else .num (finalSignal n)) :: (dynReplies W n bs ss).drop (i + 1) := by
  have hl : i < (dynReplies W n bs ss : List (DPV M B Hs St O VL)).length := by simp [dynReplies]; omega
  rw [List.drop_eq_getElem_cons hl]
  congr 1
  by_cases h : i < n
  · simp [dynReplies, List.getElem_append, h]
  · simp [dynReplies, List.getElem_append, h]

theorem rowReplies_drop {n i : Nat} (hn : W < n) (hi : i < n) (ss : Nat → List (Hs × B)) :
    (rowReplies W n ss : List (DPV M B Hs St O VL)).drop i =
      (if i < n - W then .ten (.row (W + i) (ss (W + i))) else .num (finalSignal n)) :: (rowReplies W n ss).drop (i + 1) := by
  have hl : i < (rowReplies W n ss : List (DPV M B Hs St O VL)).length := by simp [rowReplies]; omega
  rw [List.drop_eq_getElem_cons hl]
  congr 1
  by_cases h : i < n - W
  · simp [rowReplies, List.getElem_append, h]
  · simp [rowReplies, List.getElem_append, h]

/-- Payloads of the loops: results are single tensors, task numbers are not `n`. -/
def okPay (n : Nat) : Pay (DT M B Hs St) O → Prop
  | .res x => x.isRes = true
  | .job j => j ≠ n
  | _ => True

/-- What each rank of the first product may be doing. -/
def DynLocal (n : Nat) (r : Nat) : Pc (DT M B Hs St) O → Prop
  | .comp _ _ _ | .wait _ _ | .over _ _ | .idle => r ≠ 0
  | .gather i _ | .reply i _ _ => r = 0 ∧ i < n + W
  | .done _ _ => r = 0
  | .bad => True
  | _ => False

/-- The first product, tasks given out on demand.  Afterwards the tasks are distributed in some way. -/
theorem good_dyn (hW : 1 ≤ W) {n : Nat} {bs : Nat → List (B × Hs)} {ss : Nat → List (Hs × B)} {v : St} {k : St → DProc M B Hs St Cb Cs O SL VL}
    (hg : ∀ did : Nat → List Nat, ∑ r ∈ Icc 1 W, (did r : Multiset Nat) = (List.range n : List Nat) →
      Good lact (wBodyD W E lact) W Q (k ((List.range n).map fun j => E.mul (E.mkB (bs j)) (E.mkS (ss j)) v).sum)
        fun r => .head (.lz ((did r).map fun j => (j, E.mkB (bs j), E.mkS (ss j))))) :
    Good lact (wBodyD W E lact) W Q
      (mGather (fun got =>
        match mSum n got with
        | some x => k x
        | none => .crash) (dynReplies W n bs ss) [])
      (fun _ => .send 0 (finalSignal n + 1) (.ten .empty) (.head (.dyn v n []))) := by
  set op : Nat → Nat × Cb × Cs := fun j => (j, E.mkB (bs j), E.mkS (ss j)) with hop
  set X : Nat → St := fun j => E.mul (E.mkB (bs j)) (E.mkS (ss j)) v with hX
  set kk : List (Nat × DT M B Hs St) → DProc M B Hs St Cb Cs O SL VL := fun got =>
    match mSum n got with
    | some x => k x
    | none => .crash with hkk
  obtain ⟨b, hB⟩ := good_unif (n := n) (w := fun _ l => .head (DHead.lz (l.map op))) hg
  let f : Nat → DT M B Hs St := fun j => if j < n then .state (X j) else .empty
  let F := dmrgFarm n W
  have hF : F.WF W := dmrgFarm_wf hW
  let D : Emb0 (Pc (DT M B Hs St) O) (Pay (DT M B Hs St) O) (DProc M B Hs St Cb Cs O SL VL) (DPV M B Hs St O VL) :=
    { e := fun r p =>
        match p with
        | .comp j did _ =>
          if j < n then .send 0 (j + 1) (.ten (.state (X j))) (.head (.dyn v n ((did ++ [j]).map op)))
          else .send 0 (j + 1) (.ten .empty) (.head (.dyn v n (did.map op)))
        | .wait did _ => .head (.dyn v n (did.map op))
        | .over did _ => .head (.lz (did.map op))
        | .gather i got => mGather kk ((dynReplies W n bs ss).drop i) got
        | .reply i got q => .send q (q + 1) (if i < n then .ten (.task i (bs i) (ss i)) else .num (finalSignal n))
            (mGather kk ((dynReplies W n bs ss).drop (i + 1)) got)
        | .done got _ => kk got
        | .bad => .crash
        | _ => .off
      ι := fun p =>
        match p with
        | .res x => .ten x
        | .job j => if j > n then .num j else .ten (.task j (bs j) (ss j))
        | p => .farm p
      θ := fun t => t + 1
      θ' := fun t => t - 1
      θ_inv := fun t => by simp }
  have hga : ∀ i got, D.e 0 (F.gatherAt i got) = mGather kk ((dynReplies W n bs ss).drop i) got := fun i got => by
    unfold Farm.gatherAt
    by_cases hi : i < n + W
    · rw [if_pos (show i < F.total from hi)]
    · rw [if_neg (show ¬ i < F.total from hi)]
      have : (dynReplies W n bs ss : List (DPV M B Hs St O VL)).drop i = [] := by
        rw [List.drop_eq_nil_iff]; simp [dynReplies]; omega
      rw [this]
      rfl
  have hstart : (fun r => D.e r ((F.init : Mpi.St (Pc (DT M B Hs St) O) (Pay (DT M B Hs St) O)).proc r)) =
      ranks W (mGather kk (dynReplies W n bs ss) []) (fun _ => .send 0 (finalSignal n + 1) (.ten .empty) (.head (.dyn v n []))) := by
    funext r
    unfold ranks
    by_cases h0 : r = 0
    · subst h0
      exact hga 0 []
    · rw [if_neg h0]
      by_cases h1 : r ≤ W
      · rw [if_pos h1]
        have : (F.start0 r : Pc (DT M B Hs St) O) = .comp (n + 10086) [] 0 := by
          unfold Farm.start0
          rw [if_pos ⟨by omega, h1, rfl⟩]
          rfl
        simp only [Farm.init, if_neg h0, this, D, if_neg (show ¬ n + 10086 < n by omega), finalSignal, List.map_nil]
      · rw [if_neg h1]
        have : (F.start0 r : Pc (DT M B Hs St) O) = .idle := by
          unfold Farm.start0
          rw [if_neg (by rintro ⟨-, h, -⟩; exact h1 h)]
        simp only [Farm.init, if_neg h0, this, D]
  have hlocga : ∀ i (got : List (Nat × DT M B Hs St)), DynLocal (W := W) n 0 (F.gatherAt i got : Pc (DT M B Hs St) O) := fun i got => by
    unfold Farm.gatherAt
    split
    · rename_i hi; exact ⟨rfl, hi⟩
    · exact rfl
  have hloc : ∀ m s, Steps (F.act f fun _ => (0 : O)) m F.init s → ∀ r, DynLocal (W := W) n r (s.proc r) := fun m s h =>
    Steps.local (I := fun r p => DynLocal (W := W) n r p) (fun r p d t v nx hI hact => by
        cases p <;> simp only [Farm.act, Act.send.injEq, reduceCtorEq] at hact
        · rw [← hact.2.2.2]; exact hI
        · exact hI.elim
        · exact hI.elim
        · rw [← hact.2.2.2, hI.1]; exact hlocga _ _
        · exact hI.elim)
      (fun r p src tag k hI hact q t v => by
        cases p <;> simp only [Farm.act, Act.recv.injEq, reduceCtorEq] at hact
        · rw [← hact.2.2]
          cases v with
          | job j =>
            show DynLocal n r (F.took j _ _)
            unfold Farm.took
            split
            · exact hI
            · exact hI
          | _ => exact trivial
        · exact hI.elim
        · rw [← hact.2.2]
          cases v with
          | res x => exact hI
          | _ => exact trivial
        · exact hI.elim)
      (fun r => by
        by_cases h0 : r = 0
        · subst h0; exact hlocga 0 []
        · simp only [Farm.init, if_neg h0]
          unfold Farm.start0
          split
          · exact h0
          · exact h0) (show Steps _ m (fresh F.init.proc) s from h)
  refine ⟨F.bound W + b, ?_⟩
  rw [← hstart]
  refine phase' (G := True) (E := D) (actB := F.act f fun _ => (0 : O)) (act := pact lact (wBodyD W E lact)) (τ := F.init.proc) (ok := okPay n) (B := F.bound W)
    (QB := fun β => ∃ (g : List (Nat × DT M B Hs St)) (ov : O) (did : Nat → List Nat), β 0 = .done g ov ∧
      (∀ r, 1 ≤ r → r ≤ W → β r = .over (did r) ((did r).map fun _ => (0 : O)).sum) ∧ (∀ r, W < r → β r = .idle) ∧
      kk g = k ((List.range n).map X).sum ∧ ∑ r ∈ Icc 1 W, (did r : Multiset Nat) = (List.range n : List Nat))
    ⟨fun m s h => (Farm.run_ok hF h).1, fun m s h hs => ?_⟩ (fun m s h r d t v nx hact => ?_) (fun m s h r hns => ?_) (fun m s h r src tag k hr => ?_)
    (fun _ β hβ r hr0 => ?_) (fun β hβ => ?_)
  · obtain ⟨hf, g, ov, did, a1, a2, a3, a4, a5, a6, -⟩ := (Farm.run_ok hF h).2 hs
    rw [show F.total = n + W from rfl, show F = dmrgFarm n W from rfl, dmrgFarm_tasks] at a4
    have hp := Multiset.coe_eq_coe.mp a4
    refine ⟨hf, g, ov, did, a1, a2, a3, ?_, ?_⟩
    · have hsl := slotsOf_eq n f g a5 fun t ht => hp.mem_iff.mpr (by simp [ht])
      have : mSum n g = some ((List.range n).map X).sum := by
        unfold mSum
        rw [mapM_some (g := X) fun t ht => ?_]
        · rfl
        · rw [List.mem_range] at ht
          rw [hsl t, if_pos ht]
          simp [f, ht, DT.unState]
      simp only [hkk, this]
    · rw [a6, show F.tasks = n from rfl]
      exact Multiset.coe_eq_coe.mpr ((hp.filter _).trans (by rw [filter_lt_range n _ (by omega)]))
  · have hl := hloc m s h r
    cases hp : s.proc r <;> rw [hp] at hact hl <;> simp only [Farm.act, Act.send.injEq, reduceCtorEq] at hact
    · rw [← hact.2.2.1]
      show (f _).isRes = true
      simp only [f]
      split <;> rfl
    · rw [← hact.2.2.1]; exact trivial
    · exact hl.elim
    · rw [← hact.2.2.1]
      show (if _ < n then _ else n + 10086) ≠ n
      split
      · omega
      · omega
    · rw [← hact.2.2.1]; exact trivial
  · have hl := hloc m s h r
    cases hp : s.proc r with
    | comp j did ov =>
      show pact lact (wBodyD W E lact) r (if j < n then _ else _) = .send 0 (j + 1) (.ten (f j)) (.head (.dyn v n ((F.note j did).map op)))
      by_cases hj : j < n
      · rw [if_pos hj]
        simp only [f, Farm.note, if_pos hj, if_pos (show j < F.tasks from hj)]
        rfl
      · rw [if_neg hj]
        simp only [f, Farm.note, if_neg hj, if_neg (show ¬ j < F.tasks from hj)]
        rfl
    | wait did ov =>
      refine ⟨_, rfl, fun q t v hv => ?_⟩
      cases v with
      | job j =>
        by_cases hj : j > n
        · simp only [D, if_pos hj, Farm.took, show F.more j = false by simp [F, dmrgFarm, hj], show F.closing = false from rfl]
          simp
        · have hj' : j < n := by
            have : j ≠ n := hv
            omega
          simp only [D, if_neg hj, Farm.took, show F.more j = true by simp [F, dmrgFarm]; omega, if_true, if_pos hj']
          simp [hop, hX]
      | res x =>
        have hx : x.isRes = true := hv
        cases x with
        | task j b s => cases hx
        | row j s => cases hx
        | grp s => cases hx
        | _ => rfl
      | _ => rfl
    | gather i got =>
      rw [hp] at hl
      refine ⟨_, by
        show pact lact (wBodyD W E lact) r (mGather kk ((dynReplies W n bs ss).drop i) got) = _
        rw [dynReplies_drop hl.2]
        rfl, fun q t v hv => ?_⟩
      cases v with
      | res x =>
        simp only [D, if_pos (show x.isRes = true from hv)]
        simp
      | job j =>
        by_cases hj : j > n
        · simp only [D, if_pos hj]
        · simp only [D, if_neg hj]
          rfl
      | _ => rfl
    | reply i got q =>
      rw [hp] at hl
      obtain ⟨rfl, hi⟩ := hl
      show Act.send q (q + 1) _ _ = .send q (q + 1) (D.ι (.job (if i < n then i else n + 10086))) (D.e 0 (F.gatherAt (i + 1) got))
      rw [hga]
      by_cases h : i < n
      · simp only [if_pos h, D, if_neg (show ¬ i > n by omega)]
      · simp only [if_neg h, D, if_pos (show n + 10086 > n by omega), finalSignal]
    | over did ov => rw [hp] at hns; exact absurd rfl hns
    | idle => rw [hp] at hns; exact absurd rfl hns
    | done got ov => rw [hp] at hns; exact absurd rfl hns
    | bad => rw [hp] at hns; exact absurd rfl hns
    | _ => rw [hp] at hl; exact hl.elim
  · by_cases h0 : r = 0
    · exact Or.inr ⟨h0, trivial⟩
    · have hpc := Farm.worker_pc hF h h0
      left
      generalize s.proc r = p at hpc hr
      cases p <;> first
        | exact hpc.elim
        | (simp only [Farm.act, Act.recv.injEq, reduceCtorEq] at hr)
      · exact ⟨_, hr.1.symm⟩
      · exact ⟨_, hr.1.symm⟩
  · obtain ⟨g, ov, did, -, h2, h3, -⟩ := hβ
    by_cases h1 : r ≤ W
    · right
      rw [h2 r (by omega) h1]
      exact ⟨_, _, rfl⟩
    · left
      rw [h3 r (by omega)]
      rfl
  · obtain ⟨g, ov, did, h1, h2, h3, h4, h5⟩ := hβ
    have : (fun r => D.e r (β r)) = ranks W (k ((List.range n).map X).sum) fun r => .head (.lz ((did r).map op)) := by
      funext r
      unfold ranks
      by_cases h0 : r = 0
      · subst h0
        rw [h1]
        exact h4
      · rw [if_neg h0]
        by_cases hr : r ≤ W
        · rw [if_pos hr, h2 r (by omega) hr]
        · rw [if_neg hr, h3 r (by omega)]
    rw [this]
    exact hB did h5

/-- The products with the terms the workers own. -/
theorem good_static {v : St} {ops : Nat → List (Nat × Cb × Cs)} {k : St → O → DProc M B Hs St Cb Cs O SL VL}
    (hg : Good lact (wBodyD W E lact) W Q (k (∑ r ∈ Icc 1 W, wSub E (ops r) v) (∑ r ∈ Icc 1 W, wOvl E (ops r) v)) fun r => .head (.lz (ops r))) :
    Good lact (wBodyD W E lact) W Q (mSubs W (fun got ov => k got.sum ov) W [])
      (fun r => wSend [(10085, .ten (.state (wSub E (ops r) v))), (10087, .real (wOvl E (ops r) v))] (.head (.lz (ops r)))) := by
  let K : List St → O → DProc M B Hs St Cb Cs O SL VL := fun got ov => k got.sum ov
  let em : SM St O → DProc M B Hs St Cb Cs O SL VL := fun m =>
    match m with
    | .sub i got => mSubs W K (W - i - 1 + 1) got
    | .ovl i got ov => mOvls (K got) (W - i - 1 + 1) ov
    | .fin got ov => K got ov
    | .bad => .crash
  let ι : SPay St O → DPV M B Hs St O VL := fun p =>
    match p with
    | .sub x => .ten (.state x)
    | .ovl y => .real y
  have hov : ∀ i got ov, em (ovAt W i got ov) = mOvls (K got) (W - i) ov := fun i got ov => by
    unfold ovAt
    by_cases hi : i < W
    · rw [if_pos hi]
      show mOvls (K got) (W - i - 1 + 1) ov = _
      rw [show W - i - 1 + 1 = W - i by omega]
    · rw [if_neg hi, show W - i = 0 by omega]
      rfl
  have hsub : ∀ i got, em (subAt W 0 i got) = mSubs W K (W - i) got := fun i got => by
    unfold subAt
    by_cases hi : i < W
    · rw [if_pos hi]
      show mSubs W K (W - i - 1 + 1) got = _
      rw [show W - i - 1 + 1 = W - i by omega]
    · rw [if_neg hi, hov, show W - i = 0 by omega]
      rfl
  have h0 : SInv W (0 : O) (fun r => wSub E (ops r) v) (fun r => wOvl E (ops r) v) (subAt W 0 0 [])
      (fun r => if 1 ≤ r ∧ r ≤ W then smsgs (fun r => wSub E (ops r) v) (fun r => wOvl E (ops r) v) r else []) :=
    sinv_subAt W 0 (S := ∅) (by simp) rfl (by simp) fun r => by simp
  have := good_coll (lact := lact) (body := wBodyD W E lact) (Q := Q) (scoll W (0 : O) _ _) h0 ι em (cw := fun r => .head (.lz (ops r))) (fun m w hw => ?_) (fun m hw hP => ?_)
    (fun r _ _ => ⟨_, _, rfl⟩) hg
  · rw [hsub] at this
    refine this.congr fun r _ _ => ?_
    rw [wSend_eq]
    rfl
  · cases m with
    | sub i got =>
      simp only [swant, Option.some.injEq] at hw
      subst hw
      refine ⟨_, rfl, fun q t p => ?_⟩
      cases p with
      | sub x => rw [hsub (i + 1), show W - (i + 1) = W - i - 1 by omega]
      | ovl y => rfl
    | ovl i got ov =>
      simp only [swant, Option.some.injEq] at hw
      subst hw
      refine ⟨_, rfl, fun q t p => ?_⟩
      cases p with
      | sub x => rfl
      | ovl y => rw [hov (i + 1), show W - (i + 1) = W - i - 1 by omega]
    | fin got ov => simp [swant] at hw
    | bad => simp [swant] at hw
  · cases m with
    | sub i got => simp [swant] at hw
    | ovl i got ov => simp [swant] at hw
    | bad => exact hP.elim
    | fin got ov =>
      obtain ⟨h1, h2, -⟩ := hP
      show k got.sum ov = _
      rw [h2, zero_add, ← Multiset.sum_coe, h1]
      rfl

/-- The operators of all workers together. -/
theorem allPairs_did {R : Type} {n : Nat} {did : Nat → List Nat} (hdid : ∑ r ∈ Icc 1 W, (did r : Multiset Nat) = (List.range n : List Nat)) (g : Nat → Nat × R) :
    allPairs W (fun r => (did r).map g) = ((List.range n).map g : List (Nat × R)) := by
  unfold allPairs
  rw [← Multiset.map_coe, ← hdid]
  exact (map_sum (Multiset.mapAddMonoidHom g) (fun r => (did r : Multiset Nat)) (Icc 1 W)).symm

/-- The growth of the block operators. -/
theorem good_growOps {n : Nat} {did : Nat → List Nat} (hdid : ∑ r ∈ Icc 1 W, (did r : Multiset Nat) = (List.range n : List Nat)) {c : Nat → Cb × Cs} {f : Cb × Cs → B}
    {k : List B → DProc M B Hs St Cb Cs O SL VL}
    (hg : Good lact (wBodyD W E lact) W Q (k ((List.range n).map fun j => f (c j))) fun r => .head (.main ((did r).map fun j => (j, c j)))) :
    Good lact (wBodyD W E lact) W Q (mGrow (fun got =>
        match mOpList n got with
        | some g => k g
        | none => .crash) n [])
      (fun r => wSend (wPairs r ((did r).map fun j => (j, c j)) f) (.head (.main ((did r).map fun j => (j, c j))))) := by
  let kk : List (Nat × DT M B Hs St) → DProc M B Hs St Cb Cs O SL VL := fun got =>
    match mOpList n got with
    | some g => k g
    | none => .crash
  let em : GM (DT M B Hs St) → DProc M B Hs St Cb Cs O SL VL := fun m =>
    match m with
    | .idx i got => mGrow kk (n - i - 1 + 1) got
    | .ten i got w j => .recv w (w + 1) fun y =>
        match y with
        | .ten z => mGrow kk (n - i - 1) (got ++ [(j, z)])
        | _ => .crash
    | .fin got => kk got
    | .bad => .crash
  let ι : GPay (DT M B Hs St) → DPV M B Hs St O VL := fun p =>
    match p with
    | .idx j => .num j
    | .ten x => .ten x
  have hidx : ∀ i got, em (idxAt n i got) = mGrow kk (n - i) got := fun i got => by
    unfold idxAt
    by_cases hi : i < n
    · rw [if_pos hi]
      show mGrow kk (n - i - 1 + 1) got = _
      rw [show n - i - 1 + 1 = n - i by omega]
    · rw [if_neg hi, show n - i = 0 by omega]
      rfl
  let pairs : Nat → List (Nat × DT M B Hs St) := fun r => (did r).map fun j => (j, .op (f (c j)))
  have hall : allPairs W pairs = ((List.range n).map fun j => (j, .op (f (c j))) : List (Nat × DT M B Hs St)) := allPairs_did hdid _
  have hn : (allPairs W pairs).card = n := by rw [hall]; simp
  have h0 : GInv W pairs n (idxAt n 0 []) (fun r => if 1 ≤ r ∧ r ≤ W then gmsgs r (pairs r) else []) :=
    ginv_idxAt W pairs hn rfl (by omega) pairs (by rw [Multiset.coe_nil, zero_add]; rfl) fun r => by simp
  have := good_coll (lact := lact) (body := wBodyD W E lact) (Q := Q) (gcoll W pairs hn) h0 ι em (cw := fun r => .head (.main ((did r).map fun j => (j, c j))))
    (fun m w hw => ?_) (fun m hw hP => ?_) (fun r _ _ => ⟨_, _, rfl⟩) hg
  · rw [hidx] at this
    refine this.congr fun r _ _ => ?_
    rw [wSend_eq]
    congr 1
    simp only [wPairs, gmsgs, pairs, List.map_flatMap, List.flatMap_map, List.map_cons, List.map_nil, ι]
  · cases m with
    | idx i got =>
      simp only [gwant, Option.some.injEq] at hw
      subst hw
      refine ⟨_, rfl, fun q t p => ?_⟩
      cases p <;> rfl
    | ten i got w j =>
      simp only [gwant, Option.some.injEq] at hw
      subst hw
      refine ⟨_, rfl, fun q t p => ?_⟩
      cases p with
      | idx j => rfl
      | ten x => rw [hidx (i + 1), show n - (i + 1) = n - i - 1 by omega]
    | fin got => simp [gwant] at hw
    | bad => simp [gwant] at hw
  · cases m with
    | idx i got => simp [gwant] at hw
    | ten i got w j => simp [gwant] at hw
    | bad => exact hP.elim
    | fin got =>
      have hp := Multiset.coe_eq_coe.mp (hP.1.trans hall)
      have hsl := slotsOf_eq n (fun j => .op (f (c j))) got (fun x hx => by
          obtain ⟨j, -, rfl⟩ := List.mem_map.mp (hp.mem_iff.mp hx)
          rfl) fun t ht => by
        refine List.mem_map.mpr ⟨(t, .op (f (c t))), hp.mem_iff.mpr (List.mem_map.mpr ⟨t, List.mem_range.mpr ht, rfl⟩), rfl⟩
      have : mOpList n got = some ((List.range n).map fun j => f (c j)) := by
        unfold mOpList
        refine mapM_some fun t ht => ?_
        rw [List.mem_range] at ht
        rw [hsl t, if_pos ht]
        rfl
      show kk got = _
      simp only [kk, this]

/-- What each rank of the distributed initialisation may be doing. -/
def RowLocal (n : Nat) (r : Nat) : Pc (DT M B Hs St) O → Prop
  | .comp _ _ _ | .wait _ _ | .over _ _ | .idle => r ≠ 0
  | .gather i _ | .reply i _ _ => r = 0 ∧ i < n
  | .hand i => r = 0 ∧ i < W
  | .done _ _ => r = 0
  | .bad => True
  | _ => False

/-- The growth of the right block operators in the initialisation, more tasks than workers. -/
theorem good_row (hW : 1 ≤ W) {n : Nat} (hn : W < n) {ss : Nat → List (Hs × B)} {t : M} {k : List B → DProc M B Hs St Cb Cs O SL VL}
    (hg : Good lact (wBodyD W E lact) W Q (k ((List.range n).map fun j => E.absR (E.mkS (ss j)) t)) fun _ => .head .init) :
    Good lact (wBodyD W E lact) W Q
      (mHand ss (mGather (fun got =>
        match mOpList n got with
        | some g => k g
        | none => .crash) (rowReplies W n ss) []) W 0)
      (fun _ => .head (.row t n)) := by
  set Y : Nat → B := fun j => E.absR (E.mkS (ss j)) t with hY
  set kk : List (Nat × DT M B Hs St) → DProc M B Hs St Cb Cs O SL VL := fun got =>
    match mOpList n got with
    | some g => k g
    | none => .crash with hkk
  obtain ⟨b, hB⟩ := hg
  let f : Nat → DT M B Hs St := fun j => .op (Y j)
  let F := dmrgInitFarm n W
  have hF : F.WF W := dmrgInitFarm_wf hW hn
  let D : Emb0 (Pc (DT M B Hs St) O) (Pay (DT M B Hs St) O) (DProc M B Hs St Cb Cs O SL VL) (DPV M B Hs St O VL) :=
    { e := fun r p =>
        match p with
        | .comp j _ _ => .send 0 (j + 1) (.ten (.op (Y j))) (.head (.row t n))
        | .wait _ _ => .head (.row t n)
        | .over _ _ => .head .init
        | .hand i => mHand ss (mGather kk (rowReplies W n ss) []) (W - i - 1 + 1) i
        | .gather i got => mGather kk ((rowReplies W n ss).drop i) got
        | .reply i got q => .send q (q + 1) (if i < n - W then .ten (.row (W + i) (ss (W + i))) else .num (finalSignal n))
            (mGather kk ((rowReplies W n ss).drop (i + 1)) got)
        | .done got _ => kk got
        | .bad => .crash
        | _ => .off
      ι := fun p =>
        match p with
        | .res x => .ten x
        | .job j => if j < n then .ten (.row j (ss j)) else .num j
        | p => .farm p
      θ := fun t => t + 1
      θ' := fun t => t - 1
      θ_inv := fun t => by simp }
  have hga : ∀ i got, D.e 0 (F.gatherAt i got) = mGather kk ((rowReplies W n ss).drop i) got := fun i got => by
    unfold Farm.gatherAt
    by_cases hi : i < n
    · rw [if_pos (show i < F.total from hi)]
    · rw [if_neg (show ¬ i < F.total from hi)]
      have : (rowReplies W n ss : List (DPV M B Hs St O VL)).drop i = [] := by
        rw [List.drop_eq_nil_iff]; simp [rowReplies]; omega
      rw [this]
      rfl
  have hha : ∀ i, D.e 0 (F.handAt i) = mHand ss (mGather kk (rowReplies W n ss) []) (W - i) i := fun i => by
    unfold Farm.handAt
    by_cases hi : i < W
    · rw [if_pos (show F.handout = true ∧ i < F.handouts from ⟨rfl, hi⟩)]
      show mHand ss _ (W - i - 1 + 1) i = _
      rw [show W - i - 1 + 1 = W - i by omega]
    · rw [if_neg (show ¬ (F.handout = true ∧ i < F.handouts) from fun h => hi h.2), hga, show W - i = 0 by omega]
      rfl
  have hstart : (fun r => D.e r ((F.init : Mpi.St (Pc (DT M B Hs St) O) (Pay (DT M B Hs St) O)).proc r)) =
      ranks W (mHand ss (mGather kk (rowReplies W n ss) []) W 0) (fun _ => .head (.row t n)) := by
    funext r
    unfold ranks
    by_cases h0 : r = 0
    · subst h0
      exact hha 0
    · rw [if_neg h0]
      by_cases h1 : r ≤ W
      · rw [if_pos h1]
        have : (F.start0 r : Pc (DT M B Hs St) O) = .wait [] 0 := by
          unfold Farm.start0
          rw [if_pos ⟨by omega, h1, rfl⟩]
          rfl
        simp only [Farm.init, if_neg h0, this, D]
      · rw [if_neg h1]
        have : (F.start0 r : Pc (DT M B Hs St) O) = .idle := by
          unfold Farm.start0
          rw [if_neg (by rintro ⟨-, h, -⟩; exact h1 h)]
        simp only [Farm.init, if_neg h0, this, D]
  have hlocga : ∀ i (got : List (Nat × DT M B Hs St)), RowLocal (W := W) n 0 (F.gatherAt i got : Pc (DT M B Hs St) O) := fun i got => by
    unfold Farm.gatherAt
    split
    · rename_i hi; exact ⟨rfl, hi⟩
    · exact rfl
  have hlocha : ∀ i, RowLocal (W := W) n 0 (F.handAt i : Pc (DT M B Hs St) O) := fun i => by
    unfold Farm.handAt
    split
    · rename_i hi; exact ⟨rfl, hi.2⟩
    · exact hlocga 0 []
  have hloc : ∀ m s, Steps (F.act f fun _ => (0 : O)) m F.init s → ∀ r, RowLocal (W := W) n r (s.proc r) := fun m s h =>
    Steps.local (I := fun r p => RowLocal (W := W) n r p) (fun r p d t v nx hI hact => by
        cases p <;> simp only [Farm.act, Act.send.injEq, reduceCtorEq] at hact
        · rw [← hact.2.2.2]; exact hI
        · exact hI.elim
        · rw [← hact.2.2.2, hI.1]; exact hlocha _
        · rw [← hact.2.2.2, hI.1]; exact hlocga _ _
        · exact hI.elim)
      (fun r p src tag k hI hact q t v => by
        cases p <;> simp only [Farm.act, Act.recv.injEq, reduceCtorEq] at hact
        · rw [← hact.2.2]
          cases v with
          | job j =>
            show RowLocal n r (F.took j _ _)
            unfold Farm.took
            split
            · exact hI
            · exact hI
          | _ => exact trivial
        · exact hI.elim
        · rw [← hact.2.2]
          cases v with
          | res x => exact hI
          | _ => exact trivial
        · exact hI.elim)
      (fun r => by
        by_cases h0 : r = 0
        · subst h0; exact hlocha 0
        · simp only [Farm.init, if_neg h0]
          unfold Farm.start0
          split
          · exact h0
          · exact h0) (show Steps _ m (fresh F.init.proc) s from h)
  refine ⟨F.bound W + b, ?_⟩
  rw [← hstart]
  refine phase' (G := True) (E := D) (actB := F.act f fun _ => (0 : O)) (act := pact lact (wBodyD W E lact)) (τ := F.init.proc)
    (ok := fun p => ∀ x, p = .res x → x.isRes = true) (B := F.bound W)
    (QB := fun β => (∃ (g : List (Nat × DT M B Hs St)) (ov : O), β 0 = .done g ov ∧ kk g = k ((List.range n).map Y)) ∧
      (∀ r, 1 ≤ r → r ≤ W → ∃ did ov, β r = .over did ov) ∧ (∀ r, W < r → β r = .idle))
    ⟨fun m s h => (Farm.run_ok hF h).1, fun m s h hs => ?_⟩ (fun m s h r d t v nx hact => ?_) (fun m s h r hns => ?_) (fun m s h r src tag k hr => ?_)
    (fun _ β hβ r hr0 => ?_) (fun β hβ => ?_)
  · obtain ⟨hf, g, ov, did, a1, a2, a3, a4, a5, a6, -⟩ := (Farm.run_ok hF h).2 hs
    rw [show F.total = n from rfl, show F = dmrgInitFarm n W from rfl, dmrgInitFarm_tasks hn] at a4
    have hp := Multiset.coe_eq_coe.mp a4
    refine ⟨hf, ⟨g, ov, a1, ?_⟩, fun r r1 r2 => ⟨_, _, a2 r r1 r2⟩, a3⟩
    have hsl := slotsOf_eq n f g a5 fun t ht => hp.mem_iff.mpr (by simp [ht])
    have : mOpList n g = some ((List.range n).map Y) := by
      unfold mOpList
      refine mapM_some fun t ht => ?_
      rw [List.mem_range] at ht
      rw [hsl t, if_pos ht]
      rfl
    simp only [hkk, this]
  · have hl := hloc m s h r
    intro x hx
    subst hx
    cases hp : s.proc r <;> rw [hp] at hact hl <;> simp only [Farm.act, Act.send.injEq, reduceCtorEq, Pay.res.injEq, false_and, and_false] at hact
    rw [← hact.2.2.1]
    rfl
  · have hl := hloc m s h r
    cases hp : s.proc r with
    | comp j did ov => rfl
    | wait did ov =>
      refine ⟨_, rfl, fun q t v hv => ?_⟩
      cases v with
      | job j =>
        by_cases hj : j < n
        · simp only [D, if_pos hj, Farm.took, show F.more j = true by simp [F, dmrgInitFarm, hj], if_true]
          rfl
        · simp only [D, if_neg hj, Farm.took, show F.more j = false by simp [F, dmrgInitFarm]; omega, show F.closing = false from rfl]
          simp
      | res x =>
        have hx : x.isRes = true := hv x rfl
        cases x with
        | task j b s => cases hx
        | row j s => cases hx
        | grp s => cases hx
        | _ => rfl
      | _ => rfl
    | hand i =>
      rw [hp] at hl
      obtain ⟨rfl, hi⟩ := hl
      show Act.send (i + 1) (i + 1 + 1) _ _ = .send (i + 1) (i + 1 + 1) (D.ι (.job (i + 1 - 1))) (D.e 0 (F.handAt (i + 1)))
      rw [hha, show W - (i + 1) = W - i - 1 by omega]
      simp only [D, Nat.add_sub_cancel, if_pos (show i < n by omega)]
    | gather i got =>
      rw [hp] at hl
      refine ⟨_, by
        show pact lact (wBodyD W E lact) r (mGather kk ((rowReplies W n ss).drop i) got) = _
        rw [rowReplies_drop hn hl.2]
        rfl, fun q t v hv => ?_⟩
      cases v with
      | res x =>
        simp only [D, if_pos (show x.isRes = true from hv x rfl)]
        simp
      | job j =>
        by_cases hj : j < n
        · simp only [D, if_pos hj]
          rfl
        · simp only [D, if_neg hj]
      | _ => rfl
    | reply i got q =>
      rw [hp] at hl
      obtain ⟨rfl, hi⟩ := hl
      show Act.send q (q + 1) _ _ = .send q (q + 1) (D.ι (.job (if i < n - W then W + i else n + 10086))) (D.e 0 (F.gatherAt (i + 1) got))
      rw [hga]
      by_cases h : i < n - W
      · simp only [if_pos h, D, if_pos (show W + i < n by omega)]
      · simp only [if_neg h, D, if_neg (show ¬ n + 10086 < n by omega), finalSignal]
    | over did ov => rw [hp] at hns; exact absurd rfl hns
    | idle => rw [hp] at hns; exact absurd rfl hns
    | done got ov => rw [hp] at hns; exact absurd rfl hns
    | bad => rw [hp] at hns; exact absurd rfl hns
    | _ => rw [hp] at hl; exact hl.elim
  · by_cases h0 : r = 0
    · exact Or.inr ⟨h0, trivial⟩
    · have hpc := Farm.worker_pc hF h h0
      left
      generalize s.proc r = p at hpc hr
      cases p <;> first
        | exact hpc.elim
        | (simp only [Farm.act, Act.recv.injEq, reduceCtorEq] at hr)
      · exact ⟨_, hr.1.symm⟩
      · exact ⟨_, hr.1.symm⟩
  · by_cases h1 : r ≤ W
    · right
      obtain ⟨did, ov, h2⟩ := hβ.2.1 r (by omega) h1
      rw [h2]
      exact ⟨_, _, rfl⟩
    · left
      rw [hβ.2.2 r (by omega)]
      rfl
  · have : (fun r => D.e r (β r)) = ranks W (k ((List.range n).map Y)) fun _ => .head .init := by
      funext r
      unfold ranks
      by_cases h0 : r = 0
      · subst h0
        obtain ⟨g, ov, h1, h2⟩ := hβ.1
        rw [h1]
        exact h2
      · rw [if_neg h0]
        by_cases hr : r ≤ W
        · obtain ⟨did, ov, h2⟩ := hβ.2.1 r (by omega) hr
          rw [if_pos hr, h2]
        · rw [if_neg hr, hβ.2.2 r (by omega)]
    rw [this]
    exact hB

/-- The same with at least as many workers as tasks: worker `r` gets task `r - 1`. -/
theorem sync_grps {body : Nat → DHead M St Cb Cs → DProc M B Hs St Cb Cs O SL VL} {ss : Nat → List (Hs × B)} {next : DProc M B Hs St Cb Cs O SL VL}
    {w w' : Nat → DProc M B Hs St Cb Cs O SL VL} :
    ∀ n i, n + i ≤ W →
    (∀ j, i ≤ j → j < n + i → ∃ k, pact lact body (j + 1) (w (j + 1)) = .recv (some 0) (some (2 * (j + 1) + 1)) k ∧ k 0 (2 * (j + 1) + 1) (.ten (.grp (ss j))) = w' (j + 1)) →
    (∀ r, 1 ≤ r → r ≤ W → r < i + 1 ∨ n + i < r → w r = w' r) →
    SyncRun (pact lact body) n (ranks W (mSendGrps ss next n i) w) (ranks W next w') := by
  intro n
  induction n generalizing w with
  | zero =>
    intro i h1 _ hd
    rw [show mSendGrps ss next 0 i = next from rfl, ranks_congr fun r r1 r2 => hd r r1 r2 (by omega)]
    exact .nil
  | succ n ih =>
    intro i h1 hr hd
    obtain ⟨k, hk1, hk2⟩ := hr i (le_refl i) (by omega)
    refine .comm (q := 0) (r := i + 1) (t := 2 * (i + 1) + 1) (v := .ten (.grp (ss i))) (n := mSendGrps ss next n (i + 1)) (k := k) (by omega) rfl
      (by rw [ranks_pos (by omega) (by omega)]; exact hk1) ?_
    rw [ranks_update (by omega) (by omega), hk2]
    refine ih (i + 1) (by omega) (fun j j1 j2 => ?_) fun r r1 r2 r3 => ?_
    · rw [update_of_ne (by omega)]; exact hr j (by omega) (by omega)
    · by_cases hri : r = i + 1
      · subst hri; rw [update_self]
      · rw [update_of_ne hri]; exact hd r r1 r2 (by omega)

theorem sync_ops {body : Nat → DHead M St Cb Cs → DProc M B Hs St Cb Cs O SL VL} {Y : Nat → B} {k : List B → DProc M B Hs St Cb Cs O SL VL}
    {w w' : Nat → DProc M B Hs St Cb Cs O SL VL} :
    ∀ n i, n + i ≤ W → ∀ got,
    (∀ j, i ≤ j → j < n + i → pact lact body (j + 1) (w (j + 1)) = .send 0 (j + 1) (.ten (.op (Y j))) (w' (j + 1))) →
    (∀ r, 1 ≤ r → r ≤ W → r < i + 1 ∨ n + i < r → w r = w' r) →
    SyncRun (pact lact body) n (ranks W (mRecvOps k n i got) w) (ranks W (k (got ++ (List.range' i n).map Y)) w') := by
  intro n
  induction n generalizing w with
  | zero =>
    intro i h1 got _ hd
    rw [show mRecvOps k 0 i got = k got from rfl, ranks_congr fun r r1 r2 => hd r r1 r2 (by omega)]
    simp only [List.range'_zero, List.map_nil, List.append_nil]
    exact .nil
  | succ n ih =>
    intro i h1 got hr hd
    refine .comm (q := i + 1) (r := 0) (t := i + 1) (v := .ten (.op (Y i))) (n := w' (i + 1))
      (by omega) (by rw [ranks_pos (by omega) (by omega)]; exact hr i (le_refl i) (by omega)) rfl ?_
    rw [ranks_update' (by omega) (by omega)]
    have := ih (w := update w (i + 1) (w' (i + 1))) (i + 1) (by omega) (got ++ [Y i]) (fun j j1 j2 => ?_) fun r r1 r2 r3 => ?_
    · rw [List.append_assoc] at this
      rw [List.range'_succ, List.map_cons]
      exact this
    · rw [update_of_ne (by omega)]; exact hr j (by omega) (by omega)
    · by_cases hri : r = i + 1
      · subst hri; rw [update_self]
      · rw [update_of_ne hri]; exact hd r r1 r2 (by omega)

/-- The growth of the right block operators in the initialisation. -/
theorem good_initGrow (hW : 1 ≤ W) {n : Nat} {ss : Nat → List (Hs × B)} {t : M} {k : List B → DProc M B Hs St Cb Cs O SL VL}
    (hg : Good lact (wBodyD W E lact) W Q (k ((List.range n).map fun j => E.absR (E.mkS (ss j)) t)) fun _ => .head .init) :
    Good lact (wBodyD W E lact) W Q (mInitGrow W n ss t k) (fun _ => .head .init) := by
  unfold mInitGrow
  refine good_bcast (fun r _ _ => ⟨_, rfl, rfl⟩) (good_bcast (fun r _ _ => ⟨_, rfl, rfl⟩) (good_bcast (fun r _ _ => ⟨_, rfl, rfl⟩) ?_))
  by_cases hn : n ≤ W
  · simp only [if_pos hn]
    refine good_sync (w' := fun r => if r ≤ n then .send 0 (r - 1 + 1) (.ten (.op (E.absR (E.mkS (ss (r - 1))) t))) (.head .init) else .head .init)
      (sync_grps n 0 (by omega) (fun j _ j2 => ?_) fun r r1 r2 r3 => ?_) ?_
    · rw [if_pos (show j + 1 ≤ n by omega), if_pos (show j + 1 ≤ n by omega)]
      exact ⟨_, rfl, rfl⟩
    · rw [if_neg (show ¬ r ≤ n by omega), if_neg (show ¬ r ≤ n by omega)]
    · refine good_sync (w' := fun _ => .head .init) (sync_ops (Y := fun j => E.absR (E.mkS (ss j)) t) n 0 (by omega) [] (fun j _ j2 => ?_) fun r r1 r2 r3 => ?_) ?_
      · rw [if_pos (show j + 1 ≤ n by omega)]
        rfl
      · rw [if_neg (show ¬ r ≤ n by omega)]
      · rw [List.nil_append, ← List.range_eq_range']
        exact hg
  · simp only [if_neg hn]
    exact good_row hW (by omega) hg

end
end Verif.Mpi
