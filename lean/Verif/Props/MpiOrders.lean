import Verif.Mpi.OrdersRun
import Mathlib.Algebra.BigOperators.Group.Finset.Basic

/-!
# C38: the order protocol of the parallel two-site programs

The master and the workers are programs (`Verif.Mpi.Orders`); an execution is any interleaving of their calls, with sends that may or may not be buffered.
A rank that gets a message or an order it does not expect, uses a pointer that is null or freed, deletes a tensor twice or overwrites the only pointer to a tensor is at `crash`.
-/
namespace Verif.Props
open Verif.Mpi

variable {T O D L P U SL VL : Type} [AddCommMonoid T] [AddCommMonoid O]

/-- The master with its jobs `js` and memory `d`, `W` workers. -/
def ordersStart (E : Eng T O D L P U SL) (lact : Nat → SL → Act SL VL) (W : Nat) (js : List (Eng.Job D P O)) (d : D) : St (Pg T O D SL VL) (PV T O VL) :=
  fresh (ranks W (E.mStart lact W js d) fun _ => Eng.wStart)

/-- What is claimed of the executions from a state: there is a bound on their length; no rank ever crashes; an execution that cannot go on has ended, with no message
left, the master's memory is `d`, every worker has returned and holds no temporary tensor. -/
def Accepted (E : Eng T O D L P U SL) (lact : Nat → SL → Act SL VL) (W : Nat) (kind : Kind) (s0 : St (Pg T O D SL VL) (PV T O VL)) (d : D) : Prop :=
  (∃ B, ∀ k s, Steps (pact lact (E.wBody lact W kind)) k s0 s → k ≤ B) ∧
  (∀ k s r, Steps (pact lact (E.wBody lact W kind)) k s0 s → s.proc r ≠ .crash) ∧
  ∀ k s, Steps (pact lact (E.wBody lact W kind)) k s0 s → Stuck (pact lact (E.wBody lact W kind)) s →
    Final (pact lact (E.wBody lact W kind)) s ∧ s.proc 0 = .halt (.master d) ∧
    ∀ r, 1 ≤ r → r ≤ W → ∃ hp, s.proc r = .halt (.worker hp) ∧ (∀ x, hp.e0 ≠ .live x) ∧ ∀ x, hp.e3 ≠ .live x

theorem Accepted.of_good {E : Eng T O D L P U SL} {lact : Nat → SL → Act SL VL} {W : Nat} {kind : Kind} {M : Pg T O D SL VL} {d : D} {w : Nat → Pg T O D SL VL}
    (h : GoodE E lact W kind (Done W d) M w) : Accepted E lact W kind (fresh (ranks W M w)) d := by
  obtain ⟨B, hB⟩ := h
  refine ⟨⟨B, hB.bound⟩, fun k s r hs hc => ?_, fun k s hs hst => ?_⟩
  · obtain ⟨k', s', hs', hst⟩ := exists_stuck (s0 := s) B fun j s' hj => by
      have := hB.bound _ _ (hs.trans hj)
      omega
    have hr : s'.proc r = .crash := by
      rw [hs'.stays (r := r) (by rw [hc]; rfl), hc]
    obtain ⟨_, h0, h1⟩ := hB.good _ _ (hs.trans hs') hst
    by_cases hr0 : r = 0
    · subst hr0; rw [h0] at hr; cases hr
    · by_cases hrW : r ≤ W
      · obtain ⟨hp, _, e⟩ := h1 r (by omega) hrW
        rw [e] at hr; cases hr
      · have hoff : ranks W M w r = .off := by unfold ranks; rw [if_neg hr0, if_neg hrW]
        have := (hs.trans hs').stays (r := r) (show _ = Act.stop by show pact _ _ r (ranks W M w r) = _; rw [hoff]; rfl)
        rw [hr] at this
        rw [show (fresh (ranks W M w)).proc r = ranks W M w r from rfl, hoff] at this
        cases this
  · obtain ⟨hf, h0, h1⟩ := hB.good _ _ hs hst
    exact ⟨hf, h0, fun r r1 r2 => let ⟨hp, hc, e⟩ := h1 r r1 r2; ⟨hp, e, hc.1, hc.2⟩⟩

section
variable {E : Eng T O D L P U SL} {A : Full T O D U} {lact : Nat → SL → Act SL VL} {W : Nat}

/-- **C38, in general.** Any sequence of jobs: updates whose sites exist, local work, generation of the initial environments (VMPS workers). -/
theorem C38_jobs (hA : E.Laws A lact W) (hW : 1 ≤ W) (kind : Kind) (js : List (Eng.Job D P O)) (hjs : ∀ j ∈ js, j.ok E kind) (d : D) :
    Accepted E lact W kind (ordersStart E lact W js d) (A.jobs E js d) := Accepted.of_good (good_program hA hW js hjs d)

/-- **C38, `TwoSiteFiniteVMPS` with MPI,** with noise (`noises` contains `some _`) and without: any number of sweeps, with any Lanczos iteration counts, with or
without generation of the initial environments. -/
theorem C38_vmps (hA : E.Laws A lact W) (hW : 1 ≤ W) (pre mid post : D → D) (gen : Bool) (load dump : Bool → Nat → D → D) {lb rb : Nat} (hrb : rb < E.N) {par : P}
    (hmax : 2 ≤ E.maxIter par) (noises : List (Option O)) (d : D) :
    Accepted E lact W .vmps (ordersStart E lact W (Eng.vmpsJobs pre mid post gen load dump E.N lb rb par noises) d)
      (A.jobs E (Eng.vmpsJobs pre mid post gen load dump E.N lb rb par noises) d) := by
  refine C38_jobs hA hW _ _ (fun j hj => ?_) d
  simp only [Eng.vmpsJobs, List.mem_cons, List.mem_append, List.mem_flatMap, List.cons_append, List.not_mem_nil, or_false] at hj
  rcases hj with rfl | ((hj | rfl) | ⟨nz, -, hj⟩) | rfl
  · trivial
  · cases gen with
    | false => simp at hj
    | true =>
      simp only [if_true, List.mem_singleton] at hj
      subst hj
      exact ⟨rfl, by omega⟩
  · trivial
  · simp only [Eng.sweepJobs, Eng.up, Eng.down, List.mem_append, List.mem_flatMap, List.mem_map, List.mem_range, List.mem_cons, List.not_mem_nil, or_false] at hj
    rcases hj with ⟨i, ⟨a, ha, rfl⟩, rfl | rfl | rfl⟩ | ⟨i, ⟨a, ha, rfl⟩, rfl | rfl | rfl⟩
    · trivial
    · exact ⟨show lb + a + 1 < E.N by omega, hmax, fun h => by cases h⟩
    · trivial
    · trivial
    · exact ⟨show 1 ≤ rb - a ∧ rb - a < E.N by omega, hmax, fun h => by cases h⟩
    · trivial
  · trivial

/-- **C38, `TwoSiteFiniteTDVP` with MPI:** any number of steps. -/
theorem C38_tdvp (hA : E.Laws A lact W) (hW : 1 ≤ W) (pre : D → D) (measure : Nat → D → D) (load dump : Bool → Nat → D → D) (back : Nat → D → D) (last : D → D)
    {par full : P} (hmax : 2 ≤ E.maxIter par) (hfull : 2 ≤ E.maxIter full) (steps : Nat) (d : D) :
    Accepted E lact W .tdvp (ordersStart E lact W (Eng.tdvpJobs pre measure load dump back last E.N par full steps) d)
      (A.jobs E (Eng.tdvpJobs pre measure load dump back last E.N par full steps) d) := by
  refine C38_jobs hA hW _ _ (fun j hj => ?_) d
  simp only [Eng.tdvpJobs, List.mem_cons, List.mem_flatMap] at hj
  rcases hj with rfl | rfl | ⟨s, -, hj⟩
  · trivial
  · trivial
  · simp only [Eng.tdvpSweep, Eng.up, Eng.down, List.mem_append, List.mem_flatMap, List.mem_map, List.mem_range, List.mem_cons, List.not_mem_nil, or_false] at hj
    rcases hj with ((⟨i, ⟨a, ha, rfl⟩, rfl | rfl | rfl | rfl⟩ | ⟨i, ⟨a, ha, rfl⟩, rfl | rfl | rfl | rfl⟩) | rfl) | rfl
    · trivial
    · exact ⟨show 0 + a + 1 < E.N by omega, hmax, fun _ => rfl⟩
    · trivial
    · trivial
    · trivial
    · refine ⟨show 1 ≤ E.N - 1 - a ∧ E.N - 1 - a < E.N by omega, ?_, fun _ => rfl⟩
      show 2 ≤ E.maxIter (if E.N - 1 - a = E.N - 1 then full else par)
      split
      · exact hfull
      · exact hmax
    · trivial
    · trivial
    · trivial
    · trivial
end

/-! ### The hypotheses are met -/

/-- The decomposition of the example: the master sends its tensor to rank 1 and gets the answer. -/
inductive DemoLib where
  | master (x : Nat)
  | asked
  | got (u : Nat)
  | worker
  | answer (u : Nat)
  | idle

def demoAct (r : Nat) : DemoLib → Act DemoLib Nat
  | .master x => .send 1 3 x .asked
  | .asked => .recv (some 1) (some 4) fun _ _ u => .got u
  | .got _ => .stop
  | .worker => if r = 1 then .recv (some 0) (some 3) fun _ _ x => .answer (x + 1) else .stop
  | .answer u => .send 0 4 u .idle
  | .idle => .stop

/-- The example: tensors are numbers, the sectors of a tensor `x` are `x % 7 + 1` many, the memory of the master consists of the environments and the state. -/
noncomputable def demoEng (N : Nat) : Eng Nat Nat ((Nat → Nat) × (Nat → Nat) × (Nat → Nat)) (List Nat) Nat Nat DemoLib where
  N := N
  mpo i := i + 3
  sect0 x := x % 7 + 1
  sect2 x := x % 5 + 1
  deg0 x t := x + 5 * t
  deg2 x t := x * t
  mulPart e0 e1 e2 e3 st t := e0 + e1 + e2 + e3 + st + t
  ovPart e0 e1 e2 e3 st t := e0 + e1 * e2 * e3 * st * t
  growLPart e m x t := e + m * x * t
  growRPart e m x t := e + m + x + t
  expRPart e0 e1 e2 gs nz t := e0 + e1 + e2 + gs + nz + t
  expLPart e1 e2 e3 gs nz t := e3 + e1 + e2 + gs * nz + t
  lenv d i := d.1 i
  renv d i := d.2.1 i
  mps d i := d.2.2 i
  putL d i x := (Function.update d.1 i x, d.2)
  putR d i x := (d.1, Function.update d.2.1 i x, d.2.2)
  loadE d _ := d
  envE d i := d.2.1 i
  putE d i x := (d.1, Function.update d.2.1 i x, d.2.2)
  pair d i := d.2.2 i * d.2.2 (i + 1)
  lzStart _ x := [x]
  lzVec l := l.headD 0
  lzTake l x ov := (x + ov) :: l
  lzZero l := l.headD 0 = 0
  lzStop l := 100 < l.headD 0
  lzRes l := l.sum
  maxIter p := p
  needExp _ _ _ nz := nz ≠ 0
  expVec _ _ _ gs x := gs + x
  expMps d _ i _ x := (d.1, d.2.1, Function.update d.2.2 (i + 1) x)
  svdIn _ l gs := .master (l + gs)
  svdWk := .worker
  svdRes s := match s with
    | .got u => u
    | _ => 0
  setSvd d _ l _ u := (d.1, d.2.1, Function.update (Function.update d.2.2 l u) (l + 1) (u * u))
  sortMul deg n W := (exists_mulOrder deg n W).choose
  sortGrow deg n W := (exists_growOrder deg n W).choose

noncomputable def demoFull (N : Nat) : Full Nat Nat ((Nat → Nat) × (Nat → Nat) × (Nat → Nat)) Nat where
  mul e0 e1 e2 e3 st := ((List.range (e0 % 7 + 1)).map fun t => e0 + e1 + e2 + e3 + st + t).sum
  ov e0 e1 e2 e3 st := ((List.range (e0 % 7 + 1)).map fun t => e0 + e1 * e2 * e3 * st * t).sum
  growL e m x := ((List.range (x % 5 + 1)).map fun t => e + m * x * t).sum
  growR e m x := ((List.range (x % 7 + 1)).map fun t => e + m + x + t).sum
  expR e0 e1 e2 gs nz := ((List.range (e0 % 7 + 1)).map fun t => e0 + e1 + e2 + gs + nz + t).sum
  expL e1 e2 e3 gs nz := ((List.range (e3 % 7 + 1)).map fun t => e3 + e1 + e2 + gs * nz + t).sum
  svd _ l gs := l + gs + 1

theorem sync_nil_of {S V : Type} {act : Nat → S → Act S V} {τ σ : Nat → S} (h : ∀ r, τ r = σ r) : SyncRun act 0 τ σ := by
  obtain rfl : τ = σ := funext h
  exact .nil

theorem demo_svd (W : Nat) (hW : 1 ≤ W) (x : Nat) : LibOk demoAct W (.master x) .worker fun s => (match s with | .got u => u | _ => 0) = x + 1 := by
  have hrun : SyncRun demoAct 2 (fun r => if r = 0 then DemoLib.master x else .worker)
      (fun r => if r = 0 then .got (x + 1) else if r = 1 then .idle else .worker) := by
    refine SyncRun.comm (q := 0) (r := 1) (by omega) rfl rfl (SyncRun.comm (q := 1) (r := 0) (by omega) rfl rfl ?_)
    refine sync_nil_of fun r => ?_
    by_cases h0 : r = 0
    · subst h0; rfl
    · by_cases h1 : r = 1
      · subst h1; rfl
      · simp [Function.update, h0, h1]
  have hσ : ∀ r, demoAct r (if r = 0 then .got (x + 1) else if r = 1 then .idle else .worker) = .stop := fun r => by
    by_cases h0 : r = 0
    · subst h0; rfl
    · by_cases h1 : r = 1
      · subst h1; rfl
      · simp [demoAct, h0, h1]
  refine ⟨⟨4, fun n s h => (sync_determines hrun hσ h).1, fun n s h hs => ?_⟩, fun n s h r src tag k hr => .inl (sync_named hrun hσ h hr), fun r hr => ?_⟩
  · obtain ⟨hf, hp⟩ := (sync_determines hrun hσ h).2 hs
    exact ⟨hf, by rw [hp]; rfl⟩
  · simp [demoAct, show r ≠ 1 by omega]

theorem demo_laws (N W : Nat) (hW : 1 ≤ W) : (demoEng N).Laws (demoFull N) demoAct W where
  mul _ _ _ _ _ := (sum_list_range _ _).symm
  ov _ _ _ _ _ := (sum_list_range _ _).symm
  growL _ _ _ := (sum_list_range _ _).symm
  growR _ _ _ := (sum_list_range _ _).symm
  expR _ _ _ _ _ := (sum_list_range _ _).symm
  expL _ _ _ _ _ := (sum_list_range _ _).symm
  svd _ l gs := demo_svd W hW (l + gs)
  sortMul deg n := (exists_mulOrder deg n W).choose_spec
  sortGrow deg n := (exists_growOrder deg n W).choose_spec
  lenv_svd _ _ _ _ _ _ := rfl
  renv_svd _ _ _ _ _ _ := rfl
  lenv_exp _ _ _ _ _ _ := rfl
  renv_exp _ _ _ _ _ _ := rfl

/-- Eight sites, three workers, a sweep without and a sweep with noise. -/
example : Accepted (demoEng 8) demoAct 3 .vmps
    (ordersStart (demoEng 8) demoAct 3 (Eng.vmpsJobs id id id true (fun _ _ => id) (fun _ _ => id) 8 0 7 4 [none, some 5]) (fun _ => 1, fun _ => 1, fun i => i + 1))
    ((demoFull 8).jobs (demoEng 8) (Eng.vmpsJobs id id id true (fun _ _ => id) (fun _ _ => id) 8 0 7 4 [none, some 5]) (fun _ => 1, fun _ => 1, fun i => i + 1)) :=
  C38_vmps (demo_laws 8 3 (by omega)) (by omega) _ _ _ _ _ _ (show 7 < 8 by omega) (show 2 ≤ 4 by omega) _ _

/-- The updates of these sweeps: sites 0 … 5 to the right, 7 … 2 to the left. -/
example : ((Eng.sweepJobs (fun _ _ => id) (fun _ _ => id) 0 7 4 none : List (Eng.Job Nat Nat Nat)).filterMap fun j => match j with
    | .upd u => some (u.right, u.site)
    | _ => none) =
    [(true, 0), (true, 1), (true, 2), (true, 3), (true, 4), (true, 5), (false, 7), (false, 6), (false, 5), (false, 4), (false, 3), (false, 2)] := by decide

end Verif.Props
