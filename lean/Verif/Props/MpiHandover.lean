import Verif.Mpi.Handover
import Verif.Mpi.FarmFacts

/-!
# C63: Hamiltonian terms reach the workers unmixed

Every tensor, every number of terms and every task number is a message of its own; the tags are those of the code.
-/
namespace Verif.Props
open Verif.Mpi

variable {T R : Type}

/-- **C63.** The master sends a task number and the two groups of terms of the task to rank `w`.  Every execution ends, and the
worker then holds the number and both groups as they were sent: no term is lost, exchanged or put into the other group. -/
theorem C63_task_and_terms {w : Nat} (hw : 1 ≤ w) (tid : Nat) (bs sb : List (T × T)) (work : List (List (T × T)) → R)
    {k : Nat} {s : St (HPc T R) (HPay T R)} (h : Steps (hact (dynCfg work)) k (fresh (dynStart w tid bs sb)) s) :
    k ≤ 2 * (2 * bs.length + 2 * sb.length + 3) ∧
    (Stuck (hact (dynCfg work)) s → Final (hact (dynCfg work)) s ∧ s.proc w = .over tid [bs, sb]) := by
  obtain ⟨h1, h2⟩ := sync_determines (dyn_sync work hw tid bs sb) (fun r => by
    unfold dynEnd
    split_ifs <;> rfl) h
  refine ⟨by omega, fun hs => ?_⟩
  obtain ⟨hf, hp⟩ := h2 hs
  refine ⟨hf, ?_⟩
  rw [hp]
  unfold dynEnd
  rw [if_neg (by omega), if_pos rfl]

/-- **C63, generation of the block operators** with at most as many operators as workers: every execution ends, rank `i + 1` works on
the terms of operator `i`, and its result is stored as operator `i`. -/
theorem C63_operators (n : Nat) (group : Nat → List (T × T)) (work : List (List (T × T)) → R) :
    (∃ B, ∀ k s, Steps (hact (initCfg work)) k (fresh (scatStart n group)) s → k ≤ B) ∧
    ∀ k s, Steps (hact (initCfg work)) k (fresh (scatStart n group)) s → Stuck (hact (initCfg work)) s →
      Final (hact (initCfg work)) s ∧ s.proc 0 = .mdone ((List.range n).map fun j => work [group j]) ∧
      ∀ i < n, s.proc (i + 1) = .over 0 [group i] := by
  obtain ⟨m, hm⟩ := scat_sync work n group
  have hσ : ∀ r, hact (initCfg work) r (scatEnd work n group r) = .stop := fun r => by
    unfold scatEnd
    split_ifs <;> rfl
  refine ⟨⟨2 * m, fun k s h => (sync_determines hm hσ h).1⟩, fun k s h hs => ?_⟩
  obtain ⟨hf, hp⟩ := (sync_determines hm hσ h).2 hs
  refine ⟨hf, by rw [hp]; rfl, fun i hi => ?_⟩
  rw [hp]
  unfold scatEnd
  rw [if_neg (by omega), if_pos (by omega)]
  rfl

/-! ### The hypotheses are met -/

/-- The tags collide: with four terms for rank 2 the message with the number of terms and the tensors of the third term have
the same tag, and so have the task number and the tensors of the second term. -/
example : (groupMsgs 2 [(10, 11), (20, 21), (30, 31), (40, 41)] : List (Nat × Nat × HPay Nat Nat)).map (fun m => m.2.1) =
    [4, 0, 0, 2, 2, 4, 4, 6, 6] := by decide

example : ∃ k s, Steps (hact (dynCfg fun _ => (0 : Nat))) k (fresh (dynStart 2 7 [(10, 11), (20, 21), (30, 31)] [(5, 6)])) s ∧
    Stuck (hact (dynCfg fun _ => (0 : Nat))) s :=
  exists_stuck _ fun _ _ h => (C63_task_and_terms (by omega) 7 _ _ _ h).1

example (n : Nat) (group : Nat → List (Nat × Nat)) : ∃ k s, Steps (hact (initCfg fun g => (g.map List.length).sum)) k (fresh (scatStart n group)) s ∧
    Stuck (hact (initCfg fun g => (g.map List.length).sum)) s := by
  obtain ⟨B, hB⟩ := (C63_operators n group fun g => (g.map List.length).sum).1
  exact exists_stuck B hB

end Verif.Props
