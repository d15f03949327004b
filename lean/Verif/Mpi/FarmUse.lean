import Verif.Mpi.FarmMain

/-!
# The master/worker loops of the library
-/
namespace Verif.Mpi
open Finset

/-! ### The order in which tasks are given out -/

/-- `std::sort` of the positions `a ≤ i < b` by decreasing difficulty.  The order among equal difficulties
is not specified, hence a relation. -/
def SortPart (deg : Nat → Nat) (a b : Nat) (l l' : List Nat) : Prop :=
  ∃ p, p.Perm ((l.drop a).take (b - a)) ∧ p.Pairwise (fun x y => deg y ≤ deg x) ∧ l' = l.take a ++ p ++ l.drop b

/-- `std::partial_sort` of the positions `0 ≤ i < b`: the first `k` are the most difficult ones in decreasing order,
the order of the others is not specified. -/
def PartialSort (deg : Nat → Nat) (k b : Nat) (l l' : List Nat) : Prop :=
  ∃ p, p.Perm (l.take b) ∧ (p.take k).Pairwise (fun x y => deg y ≤ deg x) ∧ (∀ x ∈ p.take k, ∀ y ∈ p.drop k, deg y ≤ deg x) ∧
    l' = p ++ l.drop b

/-- `std::iota` over a vector of length `n`. -/
def iota (first n : Nat) : List Nat := (List.range n).map (first + ·)

/-- The values `arraging_tasks[i]` at the time they are sent, in `master_two_site_eff_ham_mul_state`
(`lanczos_solver_mpi_master.h:280-333`), `n` tasks and `W` workers.  The second sort of the first branch takes place
after the first `W` values were sent and does not touch them. -/
def MulOrder (deg : Nat → Nat) (n W : Nat) (l : List Nat) : Prop :=
  if n > 2 * W then ∃ l1, PartialSort deg W (n - W) (iota W n) l1 ∧ SortPart deg W (n - W) l1 l
  else if n > W then SortPart deg 0 (n - W) (iota W n) l
  else l = iota W n

/-- `arraging_tasks` of the loops that grow environments (`env_ten_update_master.h:73-88, 150-168`,
`two_site_update_noised_finite_vmps_mpi_impl.h:536-547, 768-779`). -/
def GrowOrder (deg : Nat → Nat) (n W : Nat) (l : List Nat) : Prop :=
  SortPart deg 0 (n - W) (iota W (n - W)) l

/-! ### The loops -/

/-- `master_two_site_eff_ham_mul_state` (`lanczos_solver_mpi_master.h:244-353`) and
`slave_two_site_eff_ham_mul_state` (`lanczos_solver_mpi_slave.h:71-187`): `n` tasks, `W` workers, `l` the order of
the tasks.  Also used by the time evolution (`lanczos_expmv_solver_mpi.h`).  The state is broadcast before. -/
def mulFarm (n W : Nat) (l : List Nat) : Farm where
  workers := W
  tasks := n
  joins r := decide (¬ r > n)
  start r := r - 1
  handout := false
  handouts := 0
  total := n
  reply i := l.getD i 0
  more j := decide (j < n)
  tag r := 2 * r
  closing := true
  closers := min n W
  signal := n + 10086
  sigTag r := 3 * r + n
  ovTag r := 4 * r + n

/-- `MasterGrowLeftEnvironment`, `MasterGrowRightEnvironment` (`env_ten_update_master.h:41-198`),
`SlaveGrowLeftEnvironment`, `SlaveGrowRightEnvironment` (`env_ten_update_slave.h:32-206`) and the expansions of the noised
algorithm (`two_site_update_noised_finite_vmps_mpi_impl.h:482-706, 713-935`).  `last` is the value that ends a worker:
`2 * task_size` or `FinalSignal(task_size)`. -/
def growFarm (n W : Nat) (l : List Nat) (last : Nat) : Farm where
  workers := W
  tasks := n
  joins r := decide (¬ r > n)
  start r := r - 1
  handout := false
  handouts := 0
  total := n
  reply i := if i < n - W then l.getD i 0 else last
  more j := decide (j < n)
  tag r := 2 * r
  closing := false
  closers := 0
  signal := 0
  sigTag _ := 0
  ovTag _ := 0

/-- `DynamicHamiltonianMultiplyState_` (`lanczos_dmrg_solver_mpi_master.h:166-246`) and
`WorkForDynamicHamiltonianMultiplyState_` (`dmrg_mpi_impl_slave.h:242-385`).  Every worker first sends a default tensor with
tag `n + 10086`.  The block operators that follow a task number belong to the same message here. -/
def dmrgFarm (n W : Nat) : Farm where
  workers := W
  tasks := n
  joins _ := true
  start _ := n + 10086
  handout := false
  handouts := 0
  total := n + W
  reply i := if i < n then i else n + 10086
  more j := decide (¬ j > n)
  tag r := r
  closing := false
  closers := 0
  signal := 0
  sigTag _ := 0
  ovTag _ := 0

/-- `InitUpdateRightBlockOps_` (`dmrg_mpi_impl_master.h:497-536`, the branch with more tasks than workers) and
`UpdateRightBlockOpsSlave_` (`dmrg_mpi_impl_slave.h:169-205`). -/
def dmrgInitFarm (n W : Nat) : Farm where
  workers := W
  tasks := n
  joins _ := true
  start r := r - 1
  handout := true
  handouts := W
  total := n
  reply i := if i < n - W then W + i else n + 10086
  more j := decide (j < n)
  tag r := r
  closing := false
  closers := 0
  signal := 0
  sigTag _ := 0
  ovTag _ := 0

/-! ### Facts about the orders -/

theorem iota_length (a n : Nat) : (iota a n).length = n := by simp [iota]

theorem iota_getD {a n i : Nat} (h : i < n) : (iota a n).getD i 0 = a + i := by
  simp [iota, List.getD_eq_getElem?_getD, h]

theorem SortPart.length {deg : Nat → Nat} {a b : Nat} {l l' : List Nat} (h : SortPart deg a b l l') (hab : a ≤ b) (hb : b ≤ l.length) :
    l'.length = l.length := by
  obtain ⟨p, hp, -, rfl⟩ := h
  have := hp.length_eq
  simp at this ⊢
  omega

theorem SortPart.perm {deg : Nat → Nat} {a b : Nat} {l l' : List Nat} (h : SortPart deg a b l l') (hab : a ≤ b) (hb : b ≤ l.length) :
    (l'.take b).Perm (l.take b) := by
  obtain ⟨p, hp, -, rfl⟩ := h
  have hlen := hp.length_eq
  simp at hlen
  have h1 : (l.take a ++ p ++ l.drop b).take b = l.take a ++ p := by
    rw [List.take_append_of_le_length (by simp; omega), List.take_of_length_le (by simp; omega)]
  have h2 : l.take b = l.take a ++ (l.drop a).take (b - a) := by
    conv_lhs => rw [show b = a + (b - a) by omega]
    rw [List.take_add]
  rw [h1, h2]
  exact List.Perm.append_left _ hp

theorem SortPart.drop {deg : Nat → Nat} {a b : Nat} {l l' : List Nat} (h : SortPart deg a b l l') (hab : a ≤ b) (hb : b ≤ l.length) :
    l'.drop b = l.drop b := by
  obtain ⟨p, hp, -, rfl⟩ := h
  have hlen := hp.length_eq
  simp at hlen
  rw [List.drop_append_of_le_length (by simp; omega), List.drop_of_length_le (by simp; omega)]
  rfl

theorem PartialSort.all {deg : Nat → Nat} {k b : Nat} {l l' : List Nat} (h : PartialSort deg k b l l') (hb : b ≤ l.length) :
    l'.length = l.length ∧ (l'.take b).Perm (l.take b) ∧ l'.drop b = l.drop b := by
  obtain ⟨p, hp, -, -, rfl⟩ := h
  have hlen := hp.length_eq
  simp at hlen
  refine ⟨by simp; omega, ?_, ?_⟩
  · rw [List.take_append_of_le_length (by omega), List.take_of_length_le (by omega)]
    exact hp
  · rw [List.drop_append_of_le_length (by omega), List.drop_of_length_le (by omega)]
    rfl

theorem MulOrder.all {deg : Nat → Nat} {n W : Nat} {l : List Nat} (h : MulOrder deg n W l) :
    l.length = n ∧ (l.take (n - W)).Perm ((iota W n).take (n - W)) ∧ l.drop (n - W) = (iota W n).drop (n - W) := by
  have hl := iota_length W n
  unfold MulOrder at h
  split at h
  · obtain ⟨l1, h1, h2⟩ := h
    obtain ⟨a1, a2, a3⟩ := h1.all (by omega)
    have hle : n - W ≤ l1.length := by omega
    exact ⟨by rw [h2.length (by omega) hle, a1, hl], (h2.perm (by omega) hle).trans a2, by rw [h2.drop (by omega) hle, a3]⟩
  · split at h
    · have hle : n - W ≤ (iota W n).length := by omega
      exact ⟨by rw [h.length (by omega) hle, hl], h.perm (by omega) hle, h.drop (by omega) hle⟩
    · subst h
      exact ⟨hl, List.Perm.refl _, rfl⟩

theorem iota_take {W n k : Nat} (h : k ≤ n) : (iota W n).take k = iota W k := by
  unfold iota
  rw [← List.map_take, List.take_range, min_eq_left h]

theorem getD_of_drop_eq {l l' : List Nat} {k i : Nat} (h : l.drop k = l'.drop k) (hi : k ≤ i) : l.getD i 0 = l'.getD i 0 := by
  have := congrArg (fun x => x.getD (i - k) 0) h
  simpa [List.getD_eq_getElem?_getD, List.getElem?_drop, Nat.add_sub_cancel' hi] using this

theorem getD_mem_take {l : List Nat} {k i : Nat} (hi : i < k) (hl : i < l.length) : l.getD i 0 ∈ l.take k := by
  rw [List.getD_eq_getElem?_getD, List.getElem?_eq_getElem hl, Option.getD_some]
  exact List.mem_take_iff_getElem.mpr ⟨i, by omega, rfl⟩

theorem map_getD_range (l : List Nat) (k : Nat) (hk : k ≤ l.length) : (List.range k).map (fun i => l.getD i 0) = l.take k := by
  apply List.ext_getElem
  · simp [hk]
  · intro i h1 h2
    simp at h1
    simp [List.getD_eq_getElem?_getD, List.getElem?_eq_getElem (show i < l.length by omega)]

theorem mem_iota {a n x : Nat} : x ∈ iota a n ↔ a ≤ x ∧ x < a + n := by
  unfold iota
  rw [List.mem_map]
  constructor
  · rintro ⟨i, hi, rfl⟩
    rw [List.mem_range] at hi
    omega
  · intro h
    exact ⟨x - a, by rw [List.mem_range]; omega, by omega⟩

theorem sum_singletons (g : Nat → Nat) (m : Nat) : ∑ r ∈ Icc 1 m, ({g r} : Multiset Nat) = ((List.range m).map (fun i => g (i + 1)) : List Nat) := by
  induction m with
  | zero => rfl
  | succ m ih =>
    rw [Finset.sum_Icc_succ_top (by omega), ih, List.range_succ, List.map_append, ← Multiset.coe_add]
    rfl

theorem range_append_iota (a b : Nat) : List.range a ++ iota a b = List.range (a + b) := by
  rw [List.range_add]; rfl

/-! ### The loops satisfy what the theorem about executions requires -/

theorem mulFarm_wf {deg : Nat → Nat} {n W : Nat} {l : List Nat} (hW : 1 ≤ W) (h : MulOrder deg n W l) : (mulFarm n W l).WF (min n W) := by
  obtain ⟨h1, h2, h3⟩ := h.all
  refine ⟨Nat.min_le_right _ _, fun r r1 r2 => ?_, fun h => by simp [mulFarm] at h, fun _ => rfl, Nat.min_le_left _ _,
    fun h => ?_, fun i hi => ?_, fun i hi hi' => ?_, fun h => by simp [mulFarm] at h⟩
  · simp only [mulFarm] at r2 ⊢
    rw [decide_eq_true_iff]
    omega
  · simp only [mulFarm] at h
    omega
  · simp only [mulFarm] at hi ⊢
    rw [decide_eq_true_iff]
    have := h2.subset (getD_mem_take (l := l) (k := n - W) (i := i) (by omega) (by omega))
    rw [iota_take (by omega), mem_iota] at this
    omega
  · simp only [mulFarm] at hi hi' ⊢
    rw [decide_eq_false_iff_not, getD_of_drop_eq h3 (by omega), iota_getD hi']
    omega

theorem mulFarm_tasks {deg : Nat → Nat} {n W : Nat} {l : List Nat} (h : MulOrder deg n W l) :
    (mulFarm n W l).starts (min n W) + (mulFarm n W l).given (min n W) n = (List.range n : List Nat) := by
  obtain ⟨h1, h2, h3⟩ := h.all
  unfold Farm.starts Farm.given
  rw [sum_singletons]
  simp only [mulFarm]
  have e : min n (n - min n W) = n - W := by omega
  rw [e, map_getD_range l _ (by omega), Multiset.coe_eq_coe.mpr h2, iota_take (by omega), Multiset.coe_add, Multiset.coe_eq_coe]
  simp only [Nat.add_sub_cancel, List.map_id']
  by_cases hnW : n ≤ W
  · rw [min_eq_left hnW, show n - W = 0 by omega]
    simp [iota]
  · rw [min_eq_right (by omega), range_append_iota, show W + (n - W) = n by omega]

theorem growFarm_wf {deg : Nat → Nat} {n W last : Nat} {l : List Nat} (hW : 1 ≤ W) (h : GrowOrder deg n W l) (hlast : n ≤ last) :
    (growFarm n W l last).WF (min n W) := by
  have hl := iota_length W (n - W)
  have h1 := h.length (Nat.zero_le _) (by omega)
  have h2 := h.perm (Nat.zero_le _) (by omega)
  refine ⟨Nat.min_le_right _ _, fun r r1 r2 => ?_, fun h => by simp [growFarm] at h, fun h => by simp [growFarm] at h, Nat.min_le_left _ _,
    fun h => ?_, fun i hi => ?_, fun i hi hi' => ?_, fun h => by simp [growFarm] at h⟩
  · simp only [growFarm] at r2 ⊢
    rw [decide_eq_true_iff]
    omega
  · simp only [growFarm] at h
    omega
  · simp only [growFarm] at hi ⊢
    rw [if_pos (by omega), decide_eq_true_iff]
    have := h2.subset (getD_mem_take (l := l) (k := n - W) (i := i) (by omega) (by omega))
    rw [iota_take (le_refl _), mem_iota] at this
    omega
  · simp only [growFarm] at hi hi' ⊢
    rw [if_neg (by omega), decide_eq_false_iff_not]
    omega

theorem growFarm_tasks {deg : Nat → Nat} {n W last : Nat} {l : List Nat} (h : GrowOrder deg n W l) :
    (growFarm n W l last).starts (min n W) + (growFarm n W l last).given (min n W) n = (List.range n : List Nat) := by
  have hl := iota_length W (n - W)
  have h1 := h.length (Nat.zero_le _) (by omega)
  have h2 := h.perm (Nat.zero_le _) (by omega)
  unfold Farm.starts Farm.given
  rw [sum_singletons]
  simp only [growFarm]
  have e : min n (n - min n W) = n - W := by omega
  have e2 : (List.range (n - W)).map (fun i => if i < n - W then l.getD i 0 else last) = (List.range (n - W)).map (fun i => l.getD i 0) :=
    List.map_congr_left fun i hi => by rw [List.mem_range] at hi; rw [if_pos hi]
  rw [e, e2, map_getD_range l _ (by omega), Multiset.coe_eq_coe.mpr h2, iota_take (le_refl _), Multiset.coe_add, Multiset.coe_eq_coe]
  simp only [Nat.add_sub_cancel, List.map_id']
  by_cases hnW : n ≤ W
  · rw [min_eq_left hnW, show n - W = 0 by omega]
    simp [iota]
  · rw [min_eq_right (by omega), range_append_iota, show W + (n - W) = n by omega]

theorem dmrgFarm_wf {n W : Nat} (hW : 1 ≤ W) : (dmrgFarm n W).WF W := by
  refine ⟨le_refl _, fun r r1 r2 => ?_, fun h => by simp [dmrgFarm] at h, fun h => by simp [dmrgFarm] at h, ?_, fun _ => hW,
    fun i hi => ?_, fun i hi hi' => ?_, fun h => by simp [dmrgFarm] at h⟩
  · simpa [dmrgFarm] using r2
  · simp [dmrgFarm]
  · simp only [dmrgFarm] at hi ⊢
    rw [if_pos (by omega), decide_eq_true_iff]
    omega
  · simp only [dmrgFarm] at hi hi' ⊢
    rw [if_neg (by omega), decide_eq_false_iff_not]
    omega

theorem dmrgFarm_tasks (n W : Nat) :
    (dmrgFarm n W).starts W + (dmrgFarm n W).given W (n + W) = (List.replicate W (n + 10086) ++ List.range n : List Nat) := by
  unfold Farm.starts Farm.given
  rw [sum_singletons]
  simp only [dmrgFarm]
  have e : min (n + W) (n + W - W) = n := by omega
  have e2 : (List.range n).map (fun i => if i < n then i else n + 10086) = List.range n :=
    (List.map_congr_left fun i hi => by rw [List.mem_range] at hi; rw [if_pos hi]; rfl).trans (List.map_id _)
  rw [e, e2, ← Multiset.coe_add]
  congr 2
  rw [List.map_const']
  simp

theorem dmrgInitFarm_wf {n W : Nat} (hW : 1 ≤ W) (hn : W < n) : (dmrgInitFarm n W).WF W := by
  refine ⟨le_refl _, fun r r1 r2 => ?_, fun _ => rfl, fun h => by simp [dmrgInitFarm] at h, ?_, fun _ => hW,
    fun i hi => ?_, fun i hi hi' => ?_, fun _ r r1 r2 => ?_⟩
  · simpa [dmrgInitFarm] using r2
  · simp only [dmrgInitFarm]; omega
  · simp only [dmrgInitFarm] at hi ⊢
    rw [if_pos hi, decide_eq_true_iff]
    omega
  · simp only [dmrgInitFarm] at hi hi' ⊢
    rw [if_neg (by omega), decide_eq_false_iff_not]
    omega
  · simp only [dmrgInitFarm]
    rw [decide_eq_true_iff]
    omega

theorem dmrgInitFarm_tasks {n W : Nat} (hn : W < n) :
    (dmrgInitFarm n W).starts W + (dmrgInitFarm n W).given W n = (List.range n : List Nat) := by
  unfold Farm.starts Farm.given
  rw [sum_singletons]
  simp only [dmrgInitFarm]
  have e : min n (n - W) = n - W := by omega
  have e2 : (List.range (n - W)).map (fun i => if i < n - W then W + i else n + 10086) = iota W (n - W) :=
    List.map_congr_left fun i hi => by rw [List.mem_range] at hi; rw [if_pos hi]
  rw [e, e2, Multiset.coe_add, Multiset.coe_eq_coe]
  simp only [Nat.add_sub_cancel, List.map_id']
  rw [range_append_iota, show W + (n - W) = n by omega]

end Verif.Mpi
