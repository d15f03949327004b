import Verif.Mpi.Prog
import Verif.Mpi.FarmFacts

/-!
# Master/worker loops and library calls as phases of a program
-/
namespace Verif.Mpi
open Function Finset

namespace Farm
variable {R O : Type} [AddCommMonoid O] {F : Farm} {f : Nat → R} {o : Nat → O} {m : Nat}

/-- States of workers. -/
def WPc : Pc R O → Prop
  | .comp _ _ _ | .wait _ _ | .fin _ _ | .ans _ _ | .over _ _ | .idle => True
  | _ => False

theorem worker_pc (hF : F.WF m) {n : Nat} {s : St (Pc R O) (Pay R O)} (h : Steps (F.act f o) n F.init s) {r : Nat} (hr : r ≠ 0) : WPc (s.proc r) := by
  obtain ⟨μ, ⟨stg, hI, hμ⟩, hle⟩ := Steps.measure (I := fun s μ => ∃ stg, F.Inv f o m s stg ∧ μ = F.weight m stg (s.proc 0))
    (fun s μ s' ⟨stg, hI, hμ⟩ hs => by
      obtain ⟨stg', hI', hlt⟩ := step_inv hF hI hs
      exact ⟨_, ⟨stg', hI', rfl⟩, by rw [hμ]; exact hlt⟩) ⟨F.stage0, init_inv hF, rfl⟩ h
  by_cases hm : 1 ≤ r ∧ r ≤ m
  · have := congrArg Prod.fst (hI.base.view r hm.1 hm.2)
    rw [show s.proc r = (V s r).1 from rfl, this]
    cases stg r <;> exact trivial
  · rw [(hI.base.others r hr hm).1]
    exact trivial

/-- States of the master. -/
def MPc : Pc R O → Prop
  | .hand _ | .gather _ _ | .reply _ _ _ | .close _ _ _ | .closing _ _ _ | .done _ _ => True
  | _ => False

theorem master_pc (hF : F.WF m) {n : Nat} {s : St (Pc R O) (Pay R O)} (h : Steps (F.act f o) n F.init s) : MPc (s.proc 0) := by
  obtain ⟨μ, ⟨stg, hI, hμ⟩, hle⟩ := Steps.measure (I := fun s μ => ∃ stg, F.Inv f o m s stg ∧ μ = F.weight m stg (s.proc 0))
    (fun s μ s' ⟨stg, hI, hμ⟩ hs => by
      obtain ⟨stg', hI', hlt⟩ := step_inv hF hI hs
      exact ⟨_, ⟨stg', hI', rfl⟩, by rw [hμ]; exact hlt⟩) ⟨F.stage0, init_inv hF, rfl⟩ h
  have hM := hI.master
  generalize s.proc 0 = p at hM
  cases p <;> first | exact trivial | exact hM.elim

/-- The master does not compute anything. -/
theorem act_master (f f' : Nat → R) (o o' : Nat → O) (r : Nat) {p : Pc R O} (hp : MPc p) : F.act f' o' r p = F.act f o r p := by
  cases p <;> first | exact hp.elim | rfl

/-- The two loops look the same to a worker.  What the master alone knows, above all the order of the tasks, may differ. -/
structure Same (F G : Farm) : Prop where
  workers : F.workers = G.workers
  tasks : F.tasks = G.tasks
  joins : F.joins = G.joins
  start : F.start = G.start
  handout : F.handout = G.handout
  more : F.more = G.more
  tag : F.tag = G.tag
  closing : F.closing = G.closing
  signal : F.signal = G.signal
  sigTag : F.sigTag = G.sigTag
  ovTag : F.ovTag = G.ovTag

theorem Same.start0 {F G : Farm} (h : F.Same G) (r : Nat) : (F.start0 r : Pc R O) = G.start0 r := by
  unfold Farm.start0
  rw [h.workers, h.joins, h.handout, h.start]

theorem Same.took {F G : Farm} (h : F.Same G) (j : Nat) (did : List Nat) (ov : O) : (F.took j did ov : Pc R O) = G.took j did ov := by
  unfold Farm.took
  rw [h.more, h.closing]

theorem Same.act {F G : Farm} (h : F.Same G) (f : Nat → R) (o : Nat → O) (r : Nat) {p : Pc R O} (hp : WPc p) : F.act f o r p = G.act f o r p := by
  cases p <;> first
    | exact hp.elim
    | simp only [Farm.act, Farm.note, Farm.addOv, h.tasks, h.tag, h.signal, h.sigTag, h.ovTag, h.took]

/-- What the master has in the end. -/
def Res (F : Farm) (f : Nat → R) (o : Nat → O) (m : Nat) (g : List (Nat × R)) (ov : O) : Prop :=
  ((g.map Prod.fst : List Nat) : Multiset Nat) = F.starts m + F.given m F.total ∧ (∀ x ∈ g, x.2 = f x.1) ∧
  ∃ did : Nat → List Nat, ∑ r ∈ Icc 1 m, (did r : Multiset Nat) = ((g.map Prod.fst).filter (· < F.tasks) : List Nat) ∧
    ov = if F.closing = true then ∑ r ∈ Icc 1 m, ((did r).map o).sum else 0

end Farm

section
variable {T O SL VL H X : Type} [AddCommMonoid O] {lact : Nat → SL → Act SL VL} {body : Nat → H → Proc T O SL VL H X}
  {W : Nat} {Q : (Nat → Proc T O SL VL H X) → Prop}

theorem fresh_farm (F : Farm) : (F.init : St (Pc T O) (Pay T O)) = fresh F.init.proc := rfl

theorem wrapF_busy {F : Farm} {f f' : Nat → T} {o o' : Nat → O} {cont : List (Nat × T) → O → Proc T O SL VL H X} {r : Nat} {p : Pc T O}
    (h : F.act f o r p ≠ .stop) (G : Farm) : wrapF G f' o' cont p = .farm G f' o' p cont := by
  cases p <;> first | rfl | exact absurd rfl h

/-- A master/worker loop as a phase. -/
theorem good_farm {F G : Farm} {f f0 : Nat → T} {o o0 : Nat → O} {m : Nat} (hF : F.WF m) (hW : F.workers = W) (hsame : F.Same G)
    {cm : List (Nat × T) → O → Proc T O SL VL H X} {cw : Nat → List (Nat × T) → O → Proc T O SL VL H X} {M : Proc T O SL VL H X}
    (hM : ∀ g ov, F.Res f o m g ov → cm g ov = M)
    (hgate : ∀ r, 1 ≤ r → r ≤ W → ∃ tag k, pact lact body r (cw r [] 0) = .recv (some 0) tag k)
    (hg : Good lact body W Q M fun r => cw r [] 0) :
    Good lact body W Q (wrapF F f0 o0 cm (F.handAt 0)) (fun r => wrapF G f o (cw r) (G.start0 r)) := by
  obtain ⟨B, hB⟩ := hg
  let cont : Nat → List (Nat × T) → O → Proc T O SL VL H X := fun r => if r = 0 then cm else if r ≤ W then cw r else fun _ _ => .off
  let E := farmEmb (fun r => if r = 0 then F else G) (fun r => if r = 0 then f0 else f) (fun r => if r = 0 then o0 else o) cont (VL := VL)
  have hstart : (fun r => E.e r ((F.init : St (Pc T O) (Pay T O)).proc r)) = ranks W (wrapF F f0 o0 cm (F.handAt 0)) (fun r => wrapF G f o (cw r) (G.start0 r)) := by
    funext r
    by_cases h0 : r = 0
    · subst h0; rfl
    · by_cases h1 : r ≤ W
      · rw [ranks_pos (by omega) h1]
        simp only [E, farmEmb, cont, Farm.init, if_neg h0, if_pos h1, hsame.start0]
      · unfold ranks
        rw [if_neg h0, if_neg h1]
        have : (F.start0 r : Pc T O) = .idle := by unfold Farm.start0; rw [if_neg (by omega)]
        simp only [E, farmEmb, cont, Farm.init, if_neg h0, if_neg h1, this, wrapF]
  refine ⟨F.bound m + B, ?_⟩
  rw [← hstart]
  refine phase (G := True) (E := E) (actB := F.act f o) (act := pact lact body) (τ := F.init.proc) (B := F.bound m)
    (QB := fun β => ∃ g ov, β 0 = .done g ov ∧ F.Res f o m g ov ∧ ∀ r, r ≠ 0 → (∃ d x, β r = .over d x) ∨ β r = .idle)
    ⟨fun n s h => (Farm.run_ok hF h).1, fun n s h hs => ?_⟩ (fun n s h r hns => ?_) (fun n s h r src tag k hr => ?_) (fun _ β hβ r hr0 => ?_) (fun β hβ => ?_)
  · obtain ⟨hfin, g, ov, did, a1, a2, a3, a4, a5, a6, a7⟩ := (Farm.run_ok hF h).2 hs
    refine ⟨hfin, g, ov, a1, ⟨a4, a5, did, a6, a7⟩, fun r hr => ?_⟩
    by_cases hrm : r ≤ m
    · exact Or.inl ⟨_, _, a2 r (by omega) hrm⟩
    · exact Or.inr (a3 r (by omega))
  · by_cases h0 : r = 0
    · subst h0
      show pact lact body 0 (wrapF F f0 o0 cm (s.proc 0)) = _
      rw [wrapF_busy hns]
      show (farmEmb (fun _ => F) (fun _ => f0) (fun _ => o0) fun _ => cm).lift 0 (F.act f0 o0 0 (s.proc 0)) = E.lift 0 _
      rw [Farm.act_master f f0 o o0 0 (Farm.master_pc hF h)]
      cases F.act f o 0 (s.proc 0) <;> rfl
    · have hpc := Farm.worker_pc hF h h0
      show pact lact body r (wrapF (if r = 0 then F else G) (if r = 0 then f0 else f) (if r = 0 then o0 else o) (cont r) (s.proc r)) = _
      rw [if_neg h0, if_neg h0, if_neg h0, wrapF_busy hns]
      show (farmEmb (fun _ => G) (fun _ => f) (fun _ => o) fun _ => cont r).lift r (G.act f o r (s.proc r)) = E.lift r _
      rw [← hsame.act f o r hpc]
      cases F.act f o r (s.proc r) <;> simp [Emb.lift, E, farmEmb, h0]
  · by_cases h0 : r = 0
    · exact Or.inr ⟨h0, trivial⟩
    · have hpc := Farm.worker_pc hF h h0
      left
      generalize s.proc r = p at hpc hr
      cases p <;> first
        | exact hpc.elim
        | (simp only [Farm.act, Act.recv.injEq, reduceCtorEq] at hr)
      · exact ⟨_, hr.1.symm⟩
      · exact ⟨_, hr.1.symm⟩
  · obtain ⟨g, ov, -, -, hov⟩ := hβ
    have he : E.e r (β r) = cont r [] 0 := by
      rcases hov r hr0 with ⟨d, x, h⟩ | h <;> rw [h] <;> rfl
    rw [he]
    by_cases h1 : r ≤ W
    · right
      simp only [cont, if_neg hr0, if_pos h1]
      exact hgate r (by omega) h1
    · left
      simp only [cont, if_neg hr0, if_neg h1]
      rfl
  · obtain ⟨g, ov, hd, hres, hov⟩ := hβ
    have : (fun r => E.e r (β r)) = ranks W M fun r => cw r [] 0 := by
      funext r
      by_cases h0 : r = 0
      · subst h0
        show wrapF F f0 o0 cm (β 0) = _
        rw [hd]
        exact hM g ov hres
      · have he : E.e r (β r) = cont r [] 0 := by
          rcases hov r h0 with ⟨d, x, h⟩ | h <;> rw [h] <;> rfl
        rw [he]
        unfold ranks
        simp only [cont, if_neg h0]
        split <;> rfl
    rw [this]
    exact hB

/-- What is assumed of a call of the linear algebra library: the master calls it in state `m`, the workers in state `w`.  All executions end, the
result at the master satisfies `P`, and only the master receives from any source. -/
structure LibOk (lact : Nat → SL → Act SL VL) (W : Nat) (m w : SL) (P : SL → Prop) : Prop where
  ends : ∃ B, Ends lact (fresh fun r => if r = 0 then m else w) B fun β => P (β 0)
  named : ∀ n s, Steps lact n (fresh fun r => if r = 0 then m else w) s → ∀ r src tag k, lact r (s.proc r) = .recv src tag k → (∃ q, src = some q) ∨ r = 0
  outside : ∀ r, W < r → lact r w = .stop

/-- A call of the library as a phase. -/
theorem good_lib {m w : SL} {P : SL → Prop} (hL : LibOk lact W m w P) {cm : SL → Proc T O SL VL H X} {cw : Nat → Proc T O SL VL H X} {M : Proc T O SL VL H X}
    (hM : ∀ s, P s → cm s = M)
    (hgate : ∀ r, 1 ≤ r → r ≤ W → ∃ tag k, pact lact body r (cw r) = .recv (some 0) tag k)
    (hg : Good lact body W Q M cw) :
    Good lact body W Q (wrapL lact 0 cm m) (fun r => wrapL lact r (fun _ => cw r) w) := by
  obtain ⟨B, hB⟩ := hg
  obtain ⟨BL, hBL⟩ := hL.ends
  let cont : Nat → SL → Proc T O SL VL H X := fun r => if r = 0 then cm else if r ≤ W then fun _ => cw r else fun _ => .off
  let E := libEmb (T := T) (O := O) lact cont
  have hstart : (fun r => E.e r (if r = 0 then m else w)) = ranks W (wrapL lact 0 cm m) (fun r => wrapL lact r (fun _ => cw r) w) := by
    funext r
    by_cases h0 : r = 0
    · subst h0; rfl
    · unfold ranks
      by_cases h1 : r ≤ W
      · simp only [E, libEmb, cont, if_neg h0, if_pos h1]
      · simp only [E, libEmb, cont, if_neg h0, if_neg h1, wrapL, hL.outside r (by omega)]
  refine ⟨BL + B, ?_⟩
  rw [← hstart]
  have hwrap : ∀ (r : Nat) (s : SL) (c : SL → Proc T O SL VL H X), lact r s = .stop → wrapL lact r c s = c s := fun r s c h => by
    unfold wrapL; rw [h]
  refine phase (G := True) (E := E) (actB := lact) (act := pact lact body) (B := BL)
    (QB := fun β => P (β 0) ∧ ∀ r, lact r (β r) = .stop)
    ⟨hBL.bound, fun n s h hs => ⟨(hBL.good n s h hs).1, (hBL.good n s h hs).2, (hBL.good n s h hs).1.1⟩⟩ (fun n s h r hns => ?_) (fun n s h r src tag k hr => ?_)
    (fun _ β hβ r hr0 => ?_) (fun β hβ => ?_)
  · have hb : wrapL lact r (cont r) (s.proc r) = .lib (s.proc r) (cont r) := by
      unfold wrapL
      cases hc : lact r (s.proc r) with
      | stop => exact absurd hc hns
      | _ => rfl
    show pact lact body r (wrapL lact r (cont r) (s.proc r)) = _
    rw [hb]
    show (libEmb lact fun _ => cont r).lift r (lact r (s.proc r)) = E.lift r _
    cases lact r (s.proc r) <;> rfl
  · rcases hL.named n s h r src tag k hr with h | h
    · exact Or.inl h
    · exact Or.inr ⟨h, trivial⟩
  · show pact lact body r (wrapL lact r (cont r) (β r)) = _ ∨ ∃ tag k, pact lact body r (wrapL lact r (cont r) (β r)) = _
    rw [hwrap r _ _ (hβ.2 r)]
    by_cases h1 : r ≤ W
    · right
      simp only [cont, if_neg hr0, if_pos h1]
      exact hgate r (by omega) h1
    · left
      simp only [cont, if_neg hr0, if_neg h1]
      rfl
  · have : (fun r => E.e r (β r)) = ranks W M cw := by
      funext r
      show wrapL lact r (cont r) (β r) = _
      rw [hwrap r _ _ (hβ.2 r)]
      unfold ranks
      by_cases h0 : r = 0
      · subst h0
        exact hM _ hβ.1
      · simp only [cont, if_neg h0]
        split <;> rfl
    rw [this]
    exact hB

end

/-! ### The loops of the library -/

section
variable {R O : Type} [AddCommMonoid R] [AddCommMonoid O]

theorem res_sum {n : Nat} {f : Nat → R} {g : List (Nat × R)} (h1 : ((g.map Prod.fst : List Nat) : Multiset Nat) = (List.range n : List Nat))
    (h2 : ∀ x ∈ g, x.2 = f x.1) : (g.map Prod.snd).sum = ∑ t ∈ range n, f t := by
  have e : g.map Prod.snd = (g.map Prod.fst).map f := by
    rw [List.map_map]
    exact List.map_congr_left fun x hx => h2 x hx
  rw [e, ((Multiset.coe_eq_coe.mp h1).map f).sum_eq, sum_list_range]

theorem res_ov {n m : Nat} {o : Nat → O} {fs : List Nat} {did : Nat → List Nat} (h1 : (fs : Multiset Nat) = (List.range n : List Nat))
    (h2 : ∑ r ∈ Icc 1 m, (did r : Multiset Nat) = (fs.filter (· < n) : List Nat)) : ∑ r ∈ Icc 1 m, ((did r).map o).sum = ∑ t ∈ range n, o t := by
  have hp := Multiset.coe_eq_coe.mp h1
  have hf : fs.filter (· < n) = fs := by
    rw [List.filter_eq_self]
    intro x hx
    have := hp.mem_iff.mp hx
    simpa using this
  rw [hf] at h2
  rw [← sum_map_did, h2, h1, Multiset.map_coe, Multiset.sum_coe, sum_list_range]

theorem mul_res {deg : Nat → Nat} {n W : Nat} {l : List Nat} (hl : MulOrder deg n W l) {f : Nat → R} {o : Nat → O} {g : List (Nat × R)} {ov : O}
    (h : (mulFarm n W l).Res f o (min n W) g ov) : (g.map Prod.snd).sum = ∑ t ∈ range n, f t ∧ ov = ∑ t ∈ range n, o t := by
  obtain ⟨h1, h2, did, h3, h4⟩ := h
  rw [show (mulFarm n W l).total = n from rfl, mulFarm_tasks hl] at h1
  refine ⟨res_sum h1 h2, ?_⟩
  rw [h4, if_pos (show (mulFarm n W l).closing = true from rfl)]
  exact res_ov h1 h3

theorem grow_res {deg : Nat → Nat} {n W last : Nat} {l : List Nat} (hl : GrowOrder deg n W l) {f : Nat → R} {o : Nat → O} {g : List (Nat × R)} {ov : O}
    (h : (growFarm n W l last).Res f o (min n W) g ov) : (g.map Prod.snd).sum = ∑ t ∈ range n, f t := by
  obtain ⟨h1, h2, -⟩ := h
  rw [show (growFarm n W l last).total = n from rfl, growFarm_tasks hl] at h1
  exact res_sum h1 h2

end
end Verif.Mpi
