import Verif.Mpi.Sync

/-!
# Handing Hamiltonian terms to the workers of the DMRG executor

A group of terms is a list of pairs of tensors.  It is sent as many messages whose tags collide: the number of terms with tag
`2 * id`, both tensors of term `i` with tag `i * id`, and the task number before it with tag `id`.
-/
namespace Verif.Mpi
open Function

variable {T R : Type}

/-- Payloads: a task number, a number of terms, a tensor, a result. -/
inductive HPay (T R : Type) where
  | job (j : Nat)
  | num (n : Nat)
  | ten (x : T)
  | res (x : R)

/-- `SendBlockSiteHamiltonianTermGroup_`, `SendSiteBlockHamiltonianTermGroup_` (`dmrg_mpi_impl_master.h:551-579`): the messages, with
destination and tag, from term `i` on. -/
def termMsgs (id : Nat) : Nat → List (T × T) → List (Nat × Nat × HPay T R)
  | _, [] => []
  | i, p :: g => (id, i * id, .ten p.1) :: (id, i * id, .ten p.2) :: termMsgs id (i + 1) g

/-- The messages of a whole group. -/
def groupMsgs (id : Nat) (g : List (T × T)) : List (Nat × Nat × HPay T R) := (id, 2 * id, .num g.length) :: termMsgs id 0 g

/-- Local states. -/
inductive HPc (T R : Type) where
  /-- master: messages to send, then `n` results to receive -/
  | out (l : List (Nat × Nat × HPay T R)) (n : Nat)
  /-- master: about to receive the result of rank `i + 1` -/
  | ins (i n : Nat) (got : List R)
  | mdone (got : List R)
  /-- worker: about to receive the task number -/
  | task
  /-- worker: about to receive the number of terms of the next group; `gs` are the groups received -/
  | num (tid : Nat) (gs : List (List (T × T)))
  /-- worker: about to receive the first tensor of a term of the `m` terms; `acc` are the terms received -/
  | fst (tid : Nat) (gs : List (List (T × T))) (m : Nat) (acc : List (T × T))
  | snd (tid : Nat) (gs : List (List (T × T))) (m : Nat) (acc : List (T × T)) (a : T)
  /-- worker: about to send its result -/
  | reply (tid : Nat) (gs : List (List (T × T)))
  | over (tid : Nat) (gs : List (List (T × T)))
  | idle
  | bad

/-- What differs: the number of groups per task, whether the worker answers inside this exchange, and the result it computes. -/
structure HCfg (T R : Type) where
  groups : Nat
  answers : Bool
  work : List (List (T × T)) → R

variable (C : HCfg T R)

/-- Head of the loop that receives the results. -/
def insAt (i n : Nat) (got : List R) : HPc T R := if i < n then .ins i n got else .mdone got

/-- The master goes on with the next message or with the results. -/
def outAt (l : List (Nat × Nat × HPay T R)) (n : Nat) : HPc T R :=
  match l with
  | [] => insAt 0 n []
  | _ => .out l n

/-- After a group. -/
def afterGroup (tid : Nat) (gs : List (List (T × T))) : HPc T R :=
  if gs.length < C.groups then .num tid gs else if C.answers then .reply tid gs else .over tid gs

/-- Head of the loop over the terms of a group. -/
def termAt (tid : Nat) (gs : List (List (T × T))) (m : Nat) (acc : List (T × T)) : HPc T R :=
  if acc.length < m then .fst tid gs m acc else afterGroup C tid (gs ++ [acc])

/-- The next MPI call of each rank. -/
def hact (r : Nat) : HPc T R → Act (HPc T R) (HPay T R)
  | .out ((d, t, v) :: l) n => .send d t v (outAt l n)
  | .out [] _ => .stop
  -- dmrg_mpi_impl_master.h:507-509
  | .ins i n got => .recv (some (i + 1)) (some i) fun _ _ v =>
      match v with
      | .res x => insAt (i + 1) n (got ++ [x])
      | _ => .bad
  -- dmrg_mpi_impl_slave.h:278
  | .task => .recv (some 0) (some r) fun _ _ v =>
      match v with
      | .job j => .num j []
      | _ => .bad
  -- dmrg_mpi_impl_slave.h:209-238
  | .num tid gs => .recv (some 0) (some (2 * r)) fun _ _ v =>
      match v with
      | .num m => termAt C tid gs m []
      | _ => .bad
  | .fst tid gs m acc => .recv (some 0) (some (acc.length * r)) fun _ _ v =>
      match v with
      | .ten a => .snd tid gs m acc a
      | _ => .bad
  | .snd tid gs m acc a => .recv (some 0) (some (acc.length * r)) fun _ _ v =>
      match v with
      | .ten b => termAt C tid gs m (acc ++ [(a, b)])
      | _ => .bad
  -- dmrg_mpi_impl_slave.h:163
  | .reply tid gs => .send 0 (r - 1) (.res (C.work gs)) (.over tid gs)
  | .mdone _ => .stop
  | .over _ _ => .stop
  | .idle => .stop
  | .bad => .stop

theorem upd_upd {S : Type} (τ : Nat → S) {id : Nat} (h : (0 : Nat) ≠ id) (a b X Y : S) :
    update (update (update (update τ 0 a) id b) 0 X) id Y = update (update τ 0 X) id Y := by
  funext r
  by_cases h1 : r = id
  · subst h1; simp
  · by_cases h2 : r = 0
    · subst h2; simp [h1]
    · simp [h1, h2]

variable {C}

theorem outAt_cons (m : Nat × Nat × HPay T R) (l : List (Nat × Nat × HPay T R)) (n : Nat) : outAt (m :: l) n = .out (m :: l) n := rfl

/-- The terms of a group arrive in order. -/
theorem sync_terms {id n : Nat} (hid : 1 ≤ id) (rest : List (Nat × Nat × HPay T R)) (tid m : Nat) (gs : List (List (T × T))) :
    ∀ (g acc : List (T × T)) (τ σ : Nat → HPc T R) (c : Nat), acc.length + g.length = m →
    τ 0 = outAt (termMsgs id acc.length g ++ rest) n → τ id = termAt C tid gs m acc →
    SyncRun (hact C) c (update (update τ 0 (outAt rest n)) id (afterGroup C tid (gs ++ [acc ++ g]))) σ →
    SyncRun (hact C) (2 * g.length + c) τ σ := by
  intro g
  induction g with
  | nil =>
    intro acc τ σ c hm h0 h1 h
    have e : update (update τ 0 (outAt rest n)) id (afterGroup C tid (gs ++ [acc ++ []])) = τ := by
      rw [List.append_nil]
      unfold termAt at h1
      rw [if_neg (by simp at hm; omega)] at h1
      rw [← h1]
      simp only [termMsgs, List.nil_append] at h0
      rw [← h0]
      simp
    rw [e] at h
    simpa using h
  | cons p g ih =>
    intro acc τ σ c hm h0 h1 h
    have hne : (0 : Nat) ≠ id := by omega
    simp only [List.length_cons] at hm
    simp only [termMsgs, List.cons_append] at h0
    rw [outAt_cons] at h0
    unfold termAt at h1
    rw [if_pos (by omega)] at h1
    have hcount : 2 * (p :: g).length + c = (2 * g.length + c + 1) + 1 := by simp; ring
    rw [hcount]
    refine .comm (k := fun _ _ v => match v with
      | .ten a => .snd tid gs m acc a
      | _ => .bad) hne (by rw [h0]; rfl) (by rw [h1]; rfl) ?_
    refine .comm (q := 0) (r := id) (t := acc.length * id) (v := .ten p.2) (n := outAt (termMsgs id (acc.length + 1) g ++ rest) n)
      (k := fun _ _ v => match v with
      | .ten b => termAt C tid gs m (acc ++ [(p.1, b)])
      | _ => .bad) hne (by rw [update_of_ne hne, update_self, outAt_cons]; rfl) (by rw [update_self]; rfl) ?_
    rw [upd_upd τ hne]
    refine ih (acc ++ [p]) _ σ c (by simp; omega) ?_ ?_ ?_
    · rw [update_of_ne hne, update_self]
      simp
    · rw [update_self]
    · rw [upd_upd τ hne, List.append_assoc]
      exact h

/-- A whole group arrives. -/
theorem sync_group {id n : Nat} (hid : 1 ≤ id) (rest : List (Nat × Nat × HPay T R)) (tid : Nat) (gs : List (List (T × T)))
    (g : List (T × T)) {τ σ : Nat → HPc T R} {c : Nat} (h0 : τ 0 = outAt (groupMsgs id g ++ rest) n) (h1 : τ id = .num tid gs)
    (h : SyncRun (hact C) c (update (update τ 0 (outAt rest n)) id (afterGroup C tid (gs ++ [g]))) σ) :
    SyncRun (hact C) (2 * g.length + c + 1) τ σ := by
  have hne : (0 : Nat) ≠ id := by omega
  simp only [groupMsgs, List.cons_append] at h0
  rw [outAt_cons] at h0
  refine .comm (k := fun _ _ v => match v with
      | .num m => termAt C tid gs m []
      | _ => .bad) hne (by rw [h0]; rfl) (by rw [h1]; rfl) ?_
  refine sync_terms (n := n) hid rest tid g.length gs g [] _ σ c (by simp) ?_ ?_ ?_
  · rw [update_of_ne hne, update_self]; rfl
  · rw [update_self]
  · rw [upd_upd τ hne]
    exact h

/-! ### A task with its two groups (`lanczos_dmrg_solver_mpi_master.h:212-221`, `dmrg_mpi_impl_slave.h:278-283`) -/

/-- Two groups, the answer is not part of the exchange. -/
def dynCfg (work : List (List (T × T)) → R) : HCfg T R where
  groups := 2
  answers := false
  work := work

/-- The master is about to send task `tid` to rank `w`; the worker waits for it. -/
def dynStart (w tid : Nat) (bs sb : List (T × T)) (r : Nat) : HPc T R :=
  if r = 0 then outAt ((w, w, .job tid) :: (groupMsgs w bs ++ groupMsgs w sb)) 0 else if r = w then .task else .idle

def dynEnd (w tid : Nat) (bs sb : List (T × T)) (r : Nat) : HPc T R :=
  if r = 0 then .mdone [] else if r = w then .over tid [bs, sb] else .idle

theorem dyn_sync (work : List (List (T × T)) → R) {w : Nat} (hw : 1 ≤ w) (tid : Nat) (bs sb : List (T × T)) :
    SyncRun (hact (dynCfg work)) (2 * bs.length + (2 * sb.length + 1) + 1 + 1) (dynStart w tid bs sb) (dynEnd w tid bs sb) := by
  have hne : (0 : Nat) ≠ w := by omega
  have hw0 : w ≠ 0 := by omega
  refine .comm (q := 0) (r := w) (t := w) (v := .job tid) (n := outAt (groupMsgs w bs ++ groupMsgs w sb) 0)
    (k := fun _ _ v => match v with
      | .job j => .num j []
      | _ => .bad) hne (by simp [dynStart, outAt_cons, hact]) (by simp [dynStart, hw0, hact]) ?_
  refine sync_group hw (groupMsgs w sb) tid [] bs (n := 0) (by rw [update_of_ne hne, update_self]) (by rw [update_self]) ?_
  rw [upd_upd _ hne]
  refine sync_group (c := 0) hw [] tid [bs] sb (n := 0) (by rw [update_of_ne hne, update_self, List.append_nil])
    (by rw [update_self]; rfl) ?_
  rw [upd_upd _ hne]
  have : update (update (dynStart w tid bs sb : Nat → HPc T R) 0 (outAt [] 0)) w (afterGroup (dynCfg work) tid ([bs] ++ [sb])) = dynEnd w tid bs sb := by
    funext r
    by_cases h1 : r = w
    · subst h1; rw [update_self]; simp [dynEnd, hw0, afterGroup, dynCfg]
    · rw [update_of_ne h1]
      by_cases h2 : r = 0
      · subst h2; rw [update_self]; rfl
      · rw [update_of_ne h2]; simp [dynStart, dynEnd, h1, h2]
  rw [this]
  exact .nil

/-! ### The generation of block operators with at most as many operators as workers
(`dmrg_mpi_impl_master.h:495-510`, `dmrg_mpi_impl_slave.h:142-168`) -/

/-- One group, the answer has the tag `rank - 1`. -/
def initCfg (work : List (List (T × T)) → R) : HCfg T R where
  groups := 1
  answers := true
  work := work

/-- All messages from group `i` on, of the `c` groups left. -/
def allMsgs (group : Nat → List (T × T)) (i : Nat) : Nat → List (Nat × Nat × HPay T R)
  | 0 => []
  | c + 1 => groupMsgs (i + 1) (group i) ++ allMsgs group (i + 1) c

/-- `n` operators; ranks above `n` return at once. -/
def scatStart (n : Nat) (group : Nat → List (T × T)) (r : Nat) : HPc T R :=
  if r = 0 then outAt (allMsgs group 0 n) n else if r ≤ n then .num 0 [] else .idle

/-- After the groups of the ranks up to `i`. -/
def scatMid (n : Nat) (group : Nat → List (T × T)) (i : Nat) (r : Nat) : HPc T R :=
  if r = 0 then outAt (allMsgs group i (n - i)) n else if r ≤ i then .reply 0 [group (r - 1)] else if r ≤ n then .num 0 [] else .idle

/-- After the results of the ranks up to `i`. -/
def scatBack (work : List (List (T × T)) → R) (n : Nat) (group : Nat → List (T × T)) (i : Nat) (r : Nat) : HPc T R :=
  if r = 0 then insAt i n ((List.range i).map fun j => work [group j])
  else if r ≤ i then .over 0 [group (r - 1)] else if r ≤ n then .reply 0 [group (r - 1)] else .idle

def scatEnd (work : List (List (T × T)) → R) (n : Nat) (group : Nat → List (T × T)) (r : Nat) : HPc T R :=
  if r = 0 then .mdone ((List.range n).map fun j => work [group j]) else if r ≤ n then .over 0 [group (r - 1)] else .idle

theorem scat_back (work : List (List (T × T)) → R) (n : Nat) (group : Nat → List (T × T)) :
    ∀ c i, i + c = n → SyncRun (hact (initCfg work)) c (scatBack work n group i) (scatEnd work n group) := by
  intro c
  induction c with
  | zero =>
    intro i hi
    have : scatBack work n group i = scatEnd work n group := by
      funext r
      simp only [Nat.add_zero] at hi
      subst hi
      unfold scatBack scatEnd insAt
      simp only [lt_irrefl, if_false]
      split_ifs <;> rfl
    rw [this]
    exact .nil
  | succ c ih =>
    intro i hi
    have hne : i + 1 ≠ 0 := by omega
    refine .comm (q := i + 1) (r := 0) (t := i) (v := .res (work [group i])) (n := .over 0 [group i])
      (k := fun _ _ v => match v with
      | .res x => insAt (i + 1) n ((List.range i).map (fun j => work [group j]) ++ [x])
      | _ => .bad) hne ?_ ?_ ?_
    · have : scatBack work n group i (i + 1) = .reply 0 [group i] := by
        unfold scatBack
        rw [if_neg hne, if_neg (by omega), if_pos (by omega)]
        rfl
      rw [this]
      rfl
    · have : scatBack work n group i 0 = .ins i n ((List.range i).map fun j => work [group j]) := by
        unfold scatBack insAt
        rw [if_pos rfl, if_pos (by omega)]
      rw [this]
      rfl
    · have : update (update (scatBack work n group i) (i + 1) (.over 0 [group i])) 0
          (insAt (i + 1) n ((List.range i).map (fun j => work [group j]) ++ [work [group i]])) = scatBack work n group (i + 1) := by
        funext r
        by_cases h0 : r = 0
        · subst h0; rw [update_self]; simp [scatBack, List.range_succ]
        · rw [update_of_ne h0]
          by_cases h1 : r = i + 1
          · subst h1; rw [update_self]; simp [scatBack]
          · rw [update_of_ne h1]
            unfold scatBack
            rw [if_neg h0, if_neg h0]
            by_cases h2 : r ≤ i
            · rw [if_pos h2, if_pos (by omega)]
            · rw [if_neg h2, if_neg (show ¬ r ≤ i + 1 by omega)]
      show SyncRun _ c (update (update _ _ _) 0 (insAt (i + 1) n ((List.range i).map (fun j => work [group j]) ++ [work [group i]]))) _
      rw [this]
      exact ih (i + 1) (by omega)

theorem scat_mid (work : List (List (T × T)) → R) (n : Nat) (group : Nat → List (T × T)) :
    ∀ c i, i + c = n → ∃ m, SyncRun (hact (initCfg work)) m (scatMid n group i) (scatEnd work n group) := by
  intro c
  induction c with
  | zero =>
    intro i hi
    have : scatMid n group i = scatBack work n group 0 := by
      funext r
      simp only [Nat.add_zero] at hi
      subst hi
      unfold scatMid scatBack
      simp only [Nat.sub_self, allMsgs]
      by_cases h0 : r = 0
      · rw [if_pos h0, if_pos h0]; rfl
      · rw [if_neg h0, if_neg h0]
        by_cases h1 : r ≤ i
        · rw [if_pos h1, if_neg (by omega), if_pos h1]
        · rw [if_neg h1, if_neg h1, if_neg (by omega), if_neg h1]
    rw [this]
    exact ⟨_, scat_back work n group n 0 (by omega)⟩
  | succ c ih =>
    intro i hi
    obtain ⟨m, hm⟩ := ih (i + 1) (by omega)
    refine ⟨_, sync_group (c := m) (by omega : 1 ≤ i + 1) (allMsgs group (i + 1) c) 0 [] (group i) (n := n) ?_ ?_ ?_⟩
    · unfold scatMid
      rw [if_pos rfl, show n - i = c + 1 by omega]
      rfl
    · unfold scatMid
      rw [if_neg (by omega), if_neg (by omega), if_pos (by omega)]
    · have : update (update (scatMid n group i) 0 (outAt (allMsgs group (i + 1) c) n)) (i + 1) (afterGroup (initCfg work) 0 ([] ++ [group i])) =
          scatMid n group (i + 1) := by
        funext r
        by_cases h1 : r = i + 1
        · subst h1
          rw [update_self]
          have : scatMid (R := R) n group (i + 1) (i + 1) = .reply 0 [group i] := by
            unfold scatMid
            rw [if_neg (by omega), if_pos (le_refl _)]
            rfl
          rw [this]
          rfl
        · rw [update_of_ne h1]
          by_cases h0 : r = 0
          · subst h0
            rw [update_self]
            unfold scatMid
            rw [if_pos rfl, show n - (i + 1) = c by omega]
          · rw [update_of_ne h0]
            unfold scatMid
            rw [if_neg h0, if_neg h0]
            by_cases h2 : r ≤ i
            · rw [if_pos h2, if_pos (by omega)]
            · rw [if_neg h2, if_neg (show ¬ r ≤ i + 1 by omega)]
      rw [this]
      exact hm

theorem scat_sync (work : List (List (T × T)) → R) (n : Nat) (group : Nat → List (T × T)) :
    ∃ m, SyncRun (hact (initCfg work)) m (scatStart n group) (scatEnd work n group) := by
  obtain ⟨m, hm⟩ := scat_mid work n group n 0 (by omega)
  refine ⟨m, ?_⟩
  have : scatStart n group = (scatMid n group 0 : Nat → HPc T R) := by
    funext r
    unfold scatStart scatMid
    by_cases h0 : r = 0
    · rw [if_pos h0, if_pos h0]; rfl
    · rw [if_neg h0, if_neg h0, if_neg (by omega : ¬ r ≤ 0)]
  rw [this]
  exact hm

end Verif.Mpi
