import Verif.Mps.DuoFacts
import Mathlib.Data.List.Perm.Basic
/-
Ownership in the tensor containers: C16.

Specification: `specRun selfKeeps ops` (Verif/Mps/Duo.lean) interprets a history over plain lists of optional
values, without any heap; `selfKeeps = true` is the documented copy semantics.
-/
namespace Verif.Props
open Verif.Duo

variable {V : Type} [Inhabited V]

/-- The history never copy-assigns a container to itself. -/
def NoSelfCopy (ops : List (Op V)) : Prop := ∀ op ∈ ops, ∀ c, op ≠ .copyAssign c c

/-- **C16.** Every legal history (live containers, indices in range) without self copy-assignment runs without
a double delete, dangling read or null dereference, and every container holds exactly the values the heap-free
specification gives it: copies are deep, moves transfer, nothing is shared. -/
theorem C16_containers_are_values (ops : List (Op V)) (ns : NoSelfCopy ops) {f : Vals V}
    (hf : specRun true ops = some f) : ∃ s, run ops = .ok s ∧ s.vals = f := by
  have hstep : ∀ (g : Vals V) (op : Op V), (∀ c, op ≠ .copyAssign c c) → specStep true g op = specStep false g op := by
    intro g op ho
    cases op with
    | copyAssign d c =>
      have hcd : c ≠ d := by rintro rfl; exact ho c rfl
      simp [specStep, hcd]
    | _ => rfl
  have : ∀ (ops : List (Op V)) (g : Vals V), NoSelfCopy ops →
      ops.foldlM (specStep true) g = ops.foldlM (specStep false) g := by
    intro ops
    induction ops with
    | nil => intro g _; rfl
    | cons op ops ih =>
      intro g h
      rw [List.foldlM_cons, List.foldlM_cons, hstep g op (h op (by simp))]
      congr 1
      funext g'
      exact ih g' fun o ho => h o (by simp [ho])
  obtain ⟨s, e, -, v⟩ := run_ok ops (f := f) (by unfold specRun; rw [← this ops _ ns]; exact hf)
  exact ⟨s, e, v⟩

/-- **C16.** In every legal history (self-assignment included) no tensor is owned by two slots, every owned tensor
is alive, every live tensor is owned, and no tensor has been deleted twice. -/
theorem C16_unique_ownership (ops : List (Op V)) {f : Vals V} (hf : specRun false ops = some f) :
    ∃ s, run ops = .ok s ∧
      (∀ a, (s.heap.live a).isSome ↔ ∃ c i, s.Owns c i a) ∧
      (∀ c i d j a, s.Owns c i a → s.Owns d j a → c = d ∧ i = j) ∧
      s.heap.freed.Nodup ∧ (∀ a, a ∈ s.heap.freed → s.heap.live a = none) := by
  obtain ⟨s, e, i, -⟩ := run_ok ops hf
  exact ⟨s, e, fun a => ⟨i.owned a, fun ⟨c, k, h⟩ => i.live c k a h⟩, i.uniq, i.nodup, fun a h => ((i.freed a).mp h).2⟩

/-- **C16.** When all containers of a legal history have been destroyed, every tensor ever allocated has been
deleted exactly once: no leak, no double delete. -/
theorem C16_all_freed_exactly_once (ops : List (Op V)) {f : Vals V} (hf : specRun false ops = some f)
    (dead : ∀ c, f c = none) :
    ∃ s, run ops = .ok s ∧ s.heap.freed.Perm (List.range s.heap.next) := by
  obtain ⟨s, e, i, v⟩ := run_ok ops hf
  refine ⟨s, e, (List.perm_ext_iff_of_nodup i.nodup List.nodup_range).mpr fun a => ?_⟩
  rw [i.freed, List.mem_range]
  refine ⟨fun h => h.1, fun h => ⟨h, ?_⟩⟩
  cases e' : s.heap.live a with
  | none => rfl
  | some w =>
    obtain ⟨c, k, l, hl, -⟩ := i.owned a (by rw [e']; rfl)
    have : s.vals c = none := by rw [v]; exact dead c
    rw [vals_none.mp this] at hl
    simp at hl

/-- **C16 fails for self copy-assignment.** `v = v` deletes every tensor of `v` and leaves null slots, for every
container reached by any legal history. -/
theorem C16_self_assignment_clears (ops : List (Op V)) {f : Vals V} (hf : specRun false ops = some f) {c : Nat}
    {L : List (Option V)} (hc : f c = some L) :
    ∃ s, run (ops ++ [.copyAssign c c]) = .ok s ∧ s.vals c = some (List.replicate L.length none) := by
  obtain ⟨s, e, -, v⟩ := run_ok (ops ++ [.copyAssign c c])
    (f := Function.update f c (some (L.map (fun _ => none)))) (by
      unfold specRun at hf ⊢
      rw [List.foldlM_append, hf]
      show (specStep false f (.copyAssign c c) >>= pure) = _
      simp [specStep, hc])
  exact ⟨s, e, by rw [v, Function.update_self, List.map_const']⟩

/-- **C16 violated (witness).** The documented result of `v = v` is not the code's. -/
theorem C16_self_assignment_violated :
    ∃ (ops : List (Op Nat)) (f : Vals Nat) (s : St Nat),
      specRun true ops = some f ∧ run ops = .ok s ∧ s.vals 0 ≠ f 0 := by
  refine ⟨[.construct 0 1, .write 0 0 7, .copyAssign 0 0], _, _, rfl, rfl, ?_⟩
  decide

/-- **C16.** A copy is deep: whatever is later done to the copy's slots, the original keeps its values. -/
theorem C16_copy_is_deep (ops : List (Op V)) {f : Vals V} (hf : specRun false ops = some f) {c d i : Nat}
    {L : List (Option V)} (hc : f c = some L) (hd : f d = none) (hi : i < L.length) (v : V) :
    ∃ s, run (ops ++ [.copyCtor d c, .write d i v]) = .ok s ∧ s.vals c = some L ∧
      s.vals d = some (L.set i (some v)) := by
  have hcd : c ≠ d := by rintro rfl; rw [hc] at hd; simp at hd
  obtain ⟨s, e, -, v'⟩ := run_ok (ops ++ [.copyCtor d c, .write d i v])
    (f := Function.update (Function.update f d (some L)) d (some (L.set i (some v)))) (by
      unfold specRun at hf ⊢
      rw [List.foldlM_append, hf]
      show (specStep false f (.copyCtor d c) >>= fun g => specStep false g (.write d i v) >>= pure) = _
      have h1 : specStep false f (.copyCtor d c) = some (Function.update f d (some L)) := by simp [specStep, hc, hd]
      rw [h1]
      show (specStep false (Function.update f d (some L)) (.write d i v) >>= pure) = _
      simp [specStep, hi])
  exact ⟨s, e, by rw [v', Function.update_of_ne hcd, Function.update_of_ne hcd, hc], by rw [v', Function.update_self]⟩

/-- Moving leaves the source with size zero, not with its old size and null slots. -/
theorem C16_moved_from_is_empty (ops : List (Op V)) {f : Vals V} (hf : specRun false ops = some f) {c d : Nat}
    {L : List (Option V)} (hc : f c = some L) (hd : f d = none) :
    ∃ s, run (ops ++ [.moveCtor d c]) = .ok s ∧ s.vals d = some L ∧ s.vals c = some [] := by
  have hcd : c ≠ d := by rintro rfl; rw [hc] at hd; simp at hd
  obtain ⟨s, e, -, v⟩ := run_ok (ops ++ [.moveCtor d c])
    (f := Function.update (Function.update f d (some L)) c (some [])) (by
      unfold specRun at hf ⊢
      rw [List.foldlM_append, hf]
      show (specStep false f (.moveCtor d c) >>= pure) = _
      simp [specStep, hc, hd])
  exact ⟨s, e, by rw [v, Function.update_of_ne (Ne.symm hcd), Function.update_self], by rw [v, Function.update_self]⟩

/-! ### Non-vacuity: two containers, copy, write, move, swap, destroy -/

/-- A history exercising copies, moves and swaps over three containers, ending with everything destroyed. -/
def exOps : List (Op Nat) :=
  [.construct 0 3, .write 0 0 5, .write 0 2 6, .copyCtor 1 0, .write 1 0 9, .moveCtor 2 0, .copyAssign 0 1,
   .swap 0 0 2 1, .replace 1 2 4, .dealloc 1 0, .get 2 0, .clear 2, .moveAssign 2 1,
   .destroy 0, .destroy 1, .destroy 2]

example : NoSelfCopy exOps ∧ (∃ f, specRun false exOps = some f ∧ ∀ c, f c = none) ∧
    ((run exOps).map (fun s => (s.heap.next, s.heap.freed.length))).toOption = some (7, 7) := by
  refine ⟨?_, ⟨_, rfl, ?_⟩, by decide⟩
  · intro op h c; simp [exOps] at h; rcases h with rfl|rfl|rfl|rfl|rfl|rfl|rfl|rfl|rfl|rfl|rfl|rfl|rfl|rfl|rfl|rfl <;> simp
    rintro rfl; decide
  · intro c
    simp only [Function.update_apply]
    split_ifs <;> rfl

end Verif.Props
