import Verif.Mpi.FarmFacts

/-!
# C34, C35, C36, C37: the distributed contractions

Specification.  `Loop F` says that `F` is one of the master/worker loops of the library, with any number of tasks, at
least one worker, and any order of the tasks the sorting steps may produce.  `f t` is the tensor a worker computes
for task `t`, `o t` its contribution to the overlap.  An execution is any sequence of steps of the ranks
(`Verif.Mpi.Core`): which rank moves, which message a receive from any source takes and whether
a send blocks until it is received are all arbitrary.  An execution is over when no rank can move (`Stuck`).
-/
namespace Verif.Props
open Verif.Mpi Finset

variable {R O : Type} [AddCommMonoid O]

/-- The master/worker loops of the library. -/
inductive Loop : Farm → Prop
  /-- Hamiltonian times state (VMPS and TDVP) -/
  | mul {deg : Nat → Nat} {n W : Nat} {l : List Nat} (hW : 1 ≤ W) (h : MulOrder deg n W l) : Loop (mulFarm n W l)
  /-- growing an environment -/
  | grow {deg : Nat → Nat} {n W : Nat} {l : List Nat} (hW : 1 ≤ W) (h : GrowOrder deg n W l) : Loop (growFarm n W l (2 * n))
  /-- expansion of the noised algorithm -/
  | expand {deg : Nat → Nat} {n W : Nat} {l : List Nat} (hW : 1 ≤ W) (h : GrowOrder deg n W l) : Loop (growFarm n W l (n + 10086))
  /-- Hamiltonian times state (DMRG, first product of an update) -/
  | dmrg {n W : Nat} (hW : 1 ≤ W) : Loop (dmrgFarm n W)
  /-- generation of the block operators (DMRG, more tasks than workers) -/
  | dmrgInit {n W : Nat} (hW : 1 ≤ W) (hn : W < n) : Loop (dmrgInitFarm n W)

/-- Each of the tasks `0 … n-1` was executed once, by one of the ranks `1 … W`, and nothing else was executed. -/
def OnceEach (n W : Nat) (did : Nat → List Nat) : Prop :=
  (∀ t < n, ∃ r, 1 ≤ r ∧ r ≤ W ∧ (did r).count t = 1 ∧ ∀ q, 1 ≤ q → q ≤ W → q ≠ r → t ∉ did q) ∧
  ∀ r, 1 ≤ r → r ≤ W → ∀ t ∈ did r, t < n

/-- What the executions of all loops have in common. -/
theorem loop_run {F : Farm} (hF : Loop F) : ∃ m k, m ≤ F.workers ∧ ∃ a, F.tasks ≤ a ∧
    ∀ {R O : Type} [AddCommMonoid O] (f : Nat → R) (o : Nat → O) (n : Nat) (s : St (Pc R O) (Pay R O)),
    Steps (F.act f o) n F.init s → n ≤ F.bound m ∧ (Stuck (F.act f o) s → Final (F.act f o) s ∧
      ∃ (g : List (Nat × R)) (ov : O) (did : Nat → List Nat), s.proc 0 = .done g ov ∧
        (∀ r, 1 ≤ r → r ≤ m → s.proc r = .over (did r) ((did r).map o).sum) ∧ (∀ r, m < r → s.proc r = .idle) ∧
        (g.map Prod.fst).Perm (List.replicate k a ++ List.range F.tasks) ∧ (∀ x ∈ g, x.2 = f x.1) ∧
        ∑ r ∈ Icc 1 m, (did r : Multiset Nat) = (List.range F.tasks : List Nat) ∧
        ov = if F.closing = true then ∑ r ∈ Icc 1 m, ((did r).map o).sum else 0) := by
  have key : ∀ (m k a : Nat), F.WF m → F.tasks ≤ a →
      F.starts m + F.given m F.total = (List.replicate k a ++ List.range F.tasks : List Nat) →
      ∃ m k, m ≤ F.workers ∧ ∃ a, F.tasks ≤ a ∧
        ∀ {R O : Type} [AddCommMonoid O] (f : Nat → R) (o : Nat → O) (n : Nat) (s : St (Pc R O) (Pay R O)),
        Steps (F.act f o) n F.init s → n ≤ F.bound m ∧ (Stuck (F.act f o) s → Final (F.act f o) s ∧
          ∃ (g : List (Nat × R)) (ov : O) (did : Nat → List Nat), s.proc 0 = .done g ov ∧
            (∀ r, 1 ≤ r → r ≤ m → s.proc r = .over (did r) ((did r).map o).sum) ∧ (∀ r, m < r → s.proc r = .idle) ∧
            (g.map Prod.fst).Perm (List.replicate k a ++ List.range F.tasks) ∧ (∀ x ∈ g, x.2 = f x.1) ∧
            ∑ r ∈ Icc 1 m, (did r : Multiset Nat) = (List.range F.tasks : List Nat) ∧
            ov = if F.closing = true then ∑ r ∈ Icc 1 m, ((did r).map o).sum else 0) := by
    intro m k a hwf ha hst
    refine ⟨m, k, hwf.le, a, ha, fun f o n s h => ?_⟩
    obtain ⟨h1, h2⟩ := Farm.run_ok hwf h
    refine ⟨h1, fun hs => ?_⟩
    obtain ⟨hfin, g, ov, did, a1, a2, a3, a4, a5, a6, a7⟩ := h2 hs
    rw [hst, Multiset.coe_eq_coe] at a4
    refine ⟨hfin, g, ov, did, a1, a2, a3, a4, a5, ?_, a7⟩
    rw [a6, Multiset.coe_eq_coe]
    have := a4.filter (fun x => decide (x < F.tasks))
    rwa [filter_lt_range F.tasks a ha] at this
  cases hF with
  | @mul deg n W l hW h => exact key (min n W) 0 n (mulFarm_wf hW h) (le_refl _) (mulFarm_tasks h)
  | @grow deg n W l hW h => exact key (min n W) 0 n (growFarm_wf hW h (by omega)) (le_refl _) (growFarm_tasks h)
  | @expand deg n W l hW h => exact key (min n W) 0 n (growFarm_wf hW h (by omega)) (le_refl _) (growFarm_tasks h)
  | @dmrg n W hW => exact key W W (n + 10086) (dmrgFarm_wf hW) (by simp [dmrgFarm]) (dmrgFarm_tasks n W)
  | @dmrgInit n W hW hn => exact key W 0 n (dmrgInitFarm_wf hW hn) (le_refl _) (dmrgInitFarm_tasks hn)

theorem onceEach_of_sum {n W m : Nat} {did : Nat → List Nat} (hm : m ≤ W) (h0 : ∀ r, m < r → did r = [])
    (h : ∑ r ∈ Icc 1 m, (did r : Multiset Nat) = (List.range n : List Nat)) : OnceEach n W did := by
  have hc : ∀ t, ∑ r ∈ Icc 1 m, (did r).count t = if t < n then 1 else 0 := fun t => by
    rw [← count_sum, h, Multiset.coe_count, count_range]
  refine ⟨fun t ht => ?_, fun r h1 h2 t htr => ?_⟩
  · have := hc t
    rw [if_pos ht] at this
    obtain ⟨r, r1, r2, r3, r4⟩ := sum_one this
    refine ⟨r, r1, by omega, r3, fun q q1 q2 hq => ?_⟩
    by_cases hqm : q ≤ m
    · exact List.count_eq_zero.mp (r4 q q1 hqm hq)
    · rw [h0 q (by omega)]; simp
  · by_contra htn
    have := hc t
    rw [if_neg htn, Finset.sum_eq_zero_iff] at this
    by_cases hrm : r ≤ m
    · exact List.count_eq_zero.mp (this r (by simp [h1, hrm])) htr
    · rw [h0 r (by omega)] at htr; simp at htr

/-- **C34.** Whatever the schedule, when a loop is over each task was executed once by one worker,
and the master received the result of each task once, with its own number and its own value. -/
theorem C34_tasks_once {F : Farm} (hF : Loop F) (f : Nat → R) (o : Nat → O) {k : Nat} {s : St (Pc R O) (Pay R O)}
    (h : Steps (F.act f o) k F.init s) (hs : Stuck (F.act f o) s) :
    ∃ (got : List (Nat × R)) (ov : O) (did : Nat → List Nat), s.proc 0 = .done got ov ∧
      (∀ r, 1 ≤ r → r ≤ F.workers → s.proc r = .over (did r) ((did r).map o).sum ∨ (s.proc r = .idle ∧ did r = [])) ∧
      OnceEach F.tasks F.workers did ∧
      (∀ t < F.tasks, (got.map Prod.fst).count t = 1 ∧ (t, f t) ∈ got) ∧ (∀ x ∈ got, x.2 = f x.1) := by
  obtain ⟨m, j, hm, a, ha, hrun⟩ := loop_run hF
  obtain ⟨-, hrun⟩ := hrun f o k s h
  obtain ⟨-, g, ov, did, a1, a2, a3, a4, a5, a6, -⟩ := hrun hs
  refine ⟨g, ov, fun r => if r ≤ m then did r else [], a1, fun r r1 r2 => ?_, ?_, fun t ht => ?_, a5⟩
  · by_cases hrm : r ≤ m
    · left; simp only [if_pos hrm]; exact a2 r r1 hrm
    · right; exact ⟨a3 r (by omega), if_neg hrm⟩
  · refine onceEach_of_sum hm (fun r hr => if_neg (by omega)) ?_
    rw [← a6]
    refine Finset.sum_congr rfl fun r hr => ?_
    rw [Finset.mem_Icc] at hr
    rw [if_pos hr.2]
  · have hcnt : (g.map Prod.fst).count t = 1 := by
      rw [a4.count_eq, List.count_append, List.count_eq_zero.mpr, count_range]
      · simp [ht]
      · intro hmem
        have := List.eq_of_mem_replicate hmem
        omega
    refine ⟨hcnt, ?_⟩
    have hmem : t ∈ g.map Prod.fst := List.count_pos_iff.mp (by omega)
    obtain ⟨x, hx, rfl⟩ := List.mem_map.mp hmem
    have := a5 x hx
    rw [← this]
    exact hx

/-- **C35.** Every execution of a loop has a bounded number of steps, and an execution that cannot go on
has ended well: all ranks have returned, no rank is blocked, no message is left. -/
theorem C35_no_deadlock {F : Farm} (hF : Loop F) (f : Nat → R) (o : Nat → O) :
    (∃ B, ∀ k s, Steps (F.act f o) k F.init s → k ≤ B) ∧
    ∀ k s, Steps (F.act f o) k F.init s → Stuck (F.act f o) s → Final (F.act f o) s := by
  obtain ⟨m, j, hm, a, ha, hrun⟩ := loop_run hF
  exact ⟨⟨F.bound m, fun k s h => (hrun f o k s h).1⟩, fun k s h hs => ((hrun f o k s h).2 hs).1⟩

/-- Executions that are over exist, for every loop. -/
theorem loop_ends {F : Farm} (hF : Loop F) (f : Nat → R) (o : Nat → O) :
    ∃ k s, Steps (F.act f o) k F.init s ∧ Stuck (F.act f o) s := by
  obtain ⟨B, hB⟩ := (C35_no_deadlock hF f o).1
  exact exists_stuck B hB

/-- **C35, necessity of a worker.** With a single process the master waits for ever as soon as there is a task.
`TwoSiteFiniteVMPS` and `FiniteDMRG` avoid this by calling the serial function; the MPI version of
`TwoSiteFiniteTDVP` does not (`two_site_update_finite_tdvp_mpi_impl_master.h:60-77`). -/
theorem C35_single_process_hangs {deg : Nat → Nat} {n : Nat} {l : List Nat} (_ : MulOrder deg n 0 l) (hn : 0 < n)
    (f : Nat → R) (o : Nat → O) :
    Stuck ((mulFarm n 0 l).act f o) (mulFarm n 0 l).init ∧ ¬ Final ((mulFarm n 0 l).act f o) (mulFarm n 0 l).init := by
  have h0 : ((mulFarm n 0 l).init : St (Pc R O) (Pay R O)).proc 0 = .gather 0 [] := by
    simp [Farm.init, Farm.handAt, Farm.gatherAt, mulFarm, hn]
  have hr : ∀ r, r ≠ 0 → ((mulFarm n 0 l).init : St (Pc R O) (Pay R O)).proc r = .idle := fun r hr => by
    simp only [Farm.init, if_neg hr, Farm.start0]
    rw [if_neg]
    simp only [mulFarm]
    omega
  refine ⟨fun s' hs => ?_, fun hf => ?_⟩
  · cases hs with
    | @send r d t v n b hact hblk =>
      by_cases hr0 : r = 0
      · subst hr0; rw [h0] at hact; simp [Farm.act] at hact
      · rw [hr r hr0] at hact; simp [Farm.act] at hact
    | recv hact hblk hsrc htag hch hpre => simp [Farm.init] at hch
  · have := hf.1 0
    rw [h0] at this
    simp [Farm.act] at this

/-- **C36.** The tensor sum and the overlap of a loop do not depend on the schedule: when it is over the results received
add up to the sum of all tasks, and the overlap of the Hamiltonian product is the sum of all contributions. -/
theorem C36_schedule_independent [AddCommMonoid R] {F : Farm} (hF : Loop F) (f : Nat → R) (o : Nat → O) {k : Nat}
    {s : St (Pc R O) (Pay R O)} (h : Steps (F.act f o) k F.init s) (hs : Stuck (F.act f o) s) :
    ∃ (got : List (Nat × R)) (ov : O), s.proc 0 = .done got ov ∧
      ((got.filter (·.1 < F.tasks)).map Prod.snd).sum = ∑ t ∈ range F.tasks, f t ∧
      (F.closing = true → ov = ∑ t ∈ range F.tasks, o t) := by
  obtain ⟨m, j, hm, a, ha, hrun⟩ := loop_run hF
  obtain ⟨-, hrun⟩ := hrun f o k s h
  obtain ⟨-, g, ov, did, a1, a2, a3, a4, a5, a6, a7⟩ := hrun hs
  refine ⟨g, ov, a1, ?_, fun hc => ?_⟩
  · have e1 : (g.filter (·.1 < F.tasks)).map Prod.snd = ((g.map Prod.fst).filter (· < F.tasks)).map f := by
      rw [List.filter_map, List.map_map]
      refine List.map_congr_left fun x hx => ?_
      exact a5 x (List.mem_filter.mp hx).1
    have e2 := (a4.filter (fun x => decide (x < F.tasks))).map f
    rw [filter_lt_range F.tasks a ha] at e2
    rw [e1, e2.sum_eq, sum_list_range]
  · rw [a7, if_pos hc]
    have e := congrArg (fun M : Multiset Nat => (M.map o).sum) a6
    simp only [Multiset.map_coe, Multiset.sum_coe] at e
    rw [← sum_map_did, e, sum_list_range]

/-- **C36, Hamiltonian times state.**  All tensors the master adds up: with more than `2 W` tasks its list holds
`n - W - 1` further empty tensors (`lanczos_solver_mpi_master.h:291-326`), which do not change the sum. -/
theorem C36_product [AddCommMonoid R] {deg : Nat → Nat} {n W : Nat} {l : List Nat} (hW : 1 ≤ W) (hl : MulOrder deg n W l)
    (f : Nat → R) (o : Nat → O) {k : Nat} {s : St (Pc R O) (Pay R O)}
    (h : Steps ((mulFarm n W l).act f o) k (mulFarm n W l).init s) (hs : Stuck ((mulFarm n W l).act f o) s) :
    ∃ (got : List (Nat × R)) (ov : O), s.proc 0 = .done got ov ∧ got.length = n ∧
      (got.map Prod.snd ++ List.replicate (if n > 2 * W then n - W - 1 else 0) 0).sum = ∑ t ∈ range n, f t ∧
      ov = ∑ t ∈ range n, o t := by
  obtain ⟨g, ov, h1, h2, h3⟩ := C36_schedule_independent (.mul hW hl) f o h hs
  obtain ⟨-, hrun⟩ := Farm.run_ok (mulFarm_wf hW hl) h
  obtain ⟨-, g', ov', did, a1, a2, a3, a4, a5, -⟩ := hrun hs
  rw [h1] at a1
  obtain ⟨rfl, rfl⟩ := Pc.done.inj a1
  rw [show (mulFarm n W l).total = n from rfl, mulFarm_tasks hl, Multiset.coe_eq_coe] at a4
  have hall : g.filter (·.1 < n) = g := by
    rw [List.filter_eq_self]
    intro x hx
    have := a4.subset (List.mem_map_of_mem hx)
    rw [List.mem_range] at this
    simpa using this
  refine ⟨g, ov, h1, by simpa using a4.length_eq, ?_, h3 rfl⟩
  rw [List.sum_append, List.sum_replicate, nsmul_zero, add_zero]
  replace h2 : ((g.filter (·.1 < n)).map Prod.snd).sum = ∑ t ∈ range n, f t := h2
  rwa [hall] at h2

/-- **C37.** The dynamic distribution of the Hamiltonian terms, for any number of terms and any number of workers,
also more workers than terms: when it is over, the vector of results holds the product of term `t` at position `t`, the lists
of terms kept by the workers partition the terms, and every worker left its loop, which it does on its only stop message. -/
theorem C37_dynamic_terms {n W : Nat} (hW : 1 ≤ W) (f : Nat → R) (o : Nat → O) {k : Nat} {s : St (Pc R O) (Pay R O)}
    (h : Steps ((dmrgFarm n W).act f o) k (dmrgFarm n W).init s) (hs : Stuck ((dmrgFarm n W).act f o) s) :
    Final ((dmrgFarm n W).act f o) s ∧
    ∃ (got : List (Nat × R)) (ov : O) (did : Nat → List Nat), s.proc 0 = .done got ov ∧
      (∀ r, 1 ≤ r → r ≤ W → s.proc r = .over (did r) ((did r).map o).sum) ∧ OnceEach n W did ∧
      ∀ t, slotsOf n got t = if t < n then some (f t) else none := by
  obtain ⟨-, hrun⟩ := Farm.run_ok (dmrgFarm_wf (n := n) hW) h
  obtain ⟨hfin, g, ov, did, a1, a2, a3, a4, a5, a6, -⟩ := hrun hs
  obtain ⟨g', ov', did', b1, b2, b3, b4, b5⟩ := C34_tasks_once (.dmrg hW) f o h hs
  rw [a1] at b1
  obtain ⟨rfl, rfl⟩ := Pc.done.inj b1
  have hd : ∀ r, 1 ≤ r → r ≤ W → did' r = did r := fun r r1 r2 => by
    rcases b2 r r1 r2 with h | ⟨h, -⟩
    · rw [a2 r r1 r2] at h; exact ((Pc.over.inj h).1).symm
    · rw [a2 r r1 r2] at h; simp at h
  refine ⟨hfin, g, ov, did', a1, fun r r1 r2 => by rw [hd r r1 r2]; exact a2 r r1 r2, b3, ?_⟩
  exact slotsOf_eq n f g b5 fun t ht => List.mem_map.mpr ⟨(t, f t), (b4 t ht).2, rfl⟩

/-- **C37, generation of the block operators** (more operators than workers): operator `t` arrives at position `t`. -/
theorem C37_init_operators {n W : Nat} (hW : 1 ≤ W) (hn : W < n) (f : Nat → R) (o : Nat → O) {k : Nat} {s : St (Pc R O) (Pay R O)}
    (h : Steps ((dmrgInitFarm n W).act f o) k (dmrgInitFarm n W).init s) (hs : Stuck ((dmrgInitFarm n W).act f o) s) :
    Final ((dmrgInitFarm n W).act f o) s ∧ ∃ (got : List (Nat × R)) (ov : O), s.proc 0 = .done got ov ∧
      ∀ t, slotsOf n got t = if t < n then some (f t) else none := by
  obtain ⟨g, ov, did, b1, b2, b3, b4, b5⟩ := C34_tasks_once (.dmrgInit hW hn) f o h hs
  refine ⟨(C35_no_deadlock (.dmrgInit hW hn) f o).2 k s h hs, g, ov, b1, ?_⟩
  exact slotsOf_eq n f g b5 fun t ht => List.mem_map.mpr ⟨(t, f t), (b4 t ht).2, rfl⟩

/-! ### The hypotheses are met -/

/-- Every number of tasks and workers occurs: a suitable order exists, and executions reach their end. -/
example (n W : Nat) (hW : 1 ≤ W) (f o : Nat → Int) : ∃ l, Loop (mulFarm n W l) ∧
    ∃ k s, Steps ((mulFarm n W l).act f o) k (mulFarm n W l).init s ∧ Stuck ((mulFarm n W l).act f o) s := by
  obtain ⟨l, hl⟩ := exists_mulOrder (fun t => t * t) n W
  exact ⟨l, .mul hW hl, loop_ends (.mul hW hl) f o⟩

/-- Seven tasks of difficulties 1, 5, 2, 5, 3, 4, 9 and two workers: the tasks 2 to 6 are given out with the difficult ones first. -/
example : MulOrder (fun t => [1, 5, 2, 5, 3, 4, 9].getD t 0) 7 2 [6, 3, 5, 4, 2, 7, 8] := by
  refine ⟨[6, 3, 5, 4, 2, 7, 8], ⟨[6, 3, 5, 4, 2], by decide, by decide, by decide, by decide⟩, ⟨[5, 4, 2], by decide, by decide, by decide⟩⟩

example : Loop (mulFarm 7 2 [6, 3, 5, 4, 2, 7, 8]) :=
  .mul (deg := fun t => [1, 5, 2, 5, 3, 4, 9].getD t 0) (by omega)
    ⟨[6, 3, 5, 4, 2, 7, 8], ⟨[6, 3, 5, 4, 2], by decide, by decide, by decide, by decide⟩, ⟨[5, 4, 2], by decide, by decide, by decide⟩⟩

example (n W : Nat) (hW : 1 ≤ W) (f o : Nat → Int) : ∃ k s, Steps ((dmrgFarm n W).act f o) k (dmrgFarm n W).init s ∧
    Stuck ((dmrgFarm n W).act f o) s := loop_ends (.dmrg hW) f o

example (f o : Nat → Int) : ∃ k s, Steps ((dmrgInitFarm 7 3).act f o) k (dmrgInitFarm 7 3).init s ∧
    Stuck ((dmrgInitFarm 7 3).act f o) s := loop_ends (.dmrgInit (by omega) (by omega)) f o

end Verif.Props
