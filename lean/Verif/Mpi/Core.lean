import Mathlib.Logic.Function.Basic
import Mathlib.Tactic.Common

/-!
# Point-to-point MPI communication

A process is given by its next MPI call (`Act`) in every local state; between two calls it computes locally.
Messages from one rank to another travel in a list in the order in which they were sent.
A receive with source `q` and tag `t` takes the first message from `q` carrying tag `t`; a receive from
any source may take it from any rank that has a matching message (MPI standard 3.5, non-overtaking order).

The library sends with the standard mode `MPI_Send`, which the MPI implementation may either buffer or
block until the message is received.  Here each send makes this choice anew and arbitrarily
(the Boolean kept with the message), so that the theorems hold for both and for all mixtures.

Simplification: a tensor, which the tensor library transmits in several parts, is one message here.
`Verif.Mpi.Handover` treats a message that the library itself sends in several parts.
-/
namespace Verif.Mpi

/-- The next MPI call of a process with local states `S` and payloads `V`.
`none` stands for `MPI_ANY_SOURCE` and `MPI_ANY_TAG`.  The continuation of a receive gets the
source and the tag of the status object and the payload. -/
inductive Act (S V : Type) where
  | stop
  | send (dst tag : Nat) (v : V) (next : S)
  | recv (src tag : Option Nat) (next : Nat → Nat → V → S)

/-- A message under way: tag, payload, and whether its sender is blocked until it is received. -/
structure Msg (V : Type) where
  tag : Nat
  val : V
  sync : Bool
deriving DecidableEq

/-- The state of all processes: local states by rank, messages from one rank to another in the order
of sending, and which ranks are blocked in a send. -/
structure St (S V : Type) where
  proc : Nat → S
  chan : Nat → Nat → List (Msg V)
  blk : Nat → Bool

/-- Does a message with tag `t` match the requested tag? -/
def fits (want : Option Nat) (t : Nat) : Prop := want = none ∨ want = some t

/-- Replace the messages from `q` to `r`. -/
def setChan {V : Type} (c : Nat → Nat → List (Msg V)) (q r : Nat) (l : List (Msg V)) : Nat → Nat → List (Msg V) :=
  fun q' r' => if q' = q ∧ r' = r then l else c q' r'

theorem setChan_same {V : Type} (c : Nat → Nat → List (Msg V)) (q r : Nat) (l : List (Msg V)) : setChan c q r l q r = l := by
  simp [setChan]

theorem setChan_ne {V : Type} {c : Nat → Nat → List (Msg V)} {q r : Nat} {l : List (Msg V)} {q' r' : Nat}
    (h : ¬ (q' = q ∧ r' = r)) : setChan c q r l q' r' = c q' r' := by
  simp [setChan, h]

/-- One step of the system: a rank that is not blocked performs its next call. -/
inductive Step {S V : Type} (act : Nat → S → Act S V) : St S V → St S V → Prop where
  | send {s : St S V} {r d t : Nat} {v : V} {n : S} (b : Bool)
      (hact : act r (s.proc r) = .send d t v n) (hblk : s.blk r = false) :
      Step act s
        { proc := Function.update s.proc r n
          chan := setChan s.chan r d (s.chan r d ++ [⟨t, v, b⟩])
          blk := Function.update s.blk r b }
  | recv {s : St S V} {r q : Nat} {src tag : Option Nat} {k : Nat → Nat → V → S} {pre post : List (Msg V)} {m : Msg V}
      (hact : act r (s.proc r) = .recv src tag k) (hblk : s.blk r = false)
      (hsrc : fits src q) (htag : fits tag m.tag)
      (hch : s.chan q r = pre ++ m :: post) (hpre : ∀ x ∈ pre, ¬ fits tag x.tag) :
      Step act s
        { proc := Function.update s.proc r (k q m.tag m.val)
          chan := setChan s.chan q r (pre ++ post)
          blk := if m.sync then Function.update s.blk q false else s.blk }

/-- `Steps act n s s'`: `s'` is reached from `s` by `n` steps. -/
inductive Steps {S V : Type} (act : Nat → S → Act S V) : Nat → St S V → St S V → Prop where
  | nil {s : St S V} : Steps act 0 s s
  | snoc {n : Nat} {s s' s'' : St S V} (h : Steps act n s s') (hs : Step act s' s'') : Steps act (n + 1) s s''

/-- No rank can do anything. -/
def Stuck {S V : Type} (act : Nat → S → Act S V) (s : St S V) : Prop := ∀ s', ¬ Step act s s'

/-- Everything is over: every rank has returned, no rank is blocked, no message is left. -/
def Final {S V : Type} (act : Nat → S → Act S V) (s : St S V) : Prop :=
  (∀ r, act r (s.proc r) = .stop) ∧ (∀ r, s.blk r = false) ∧ ∀ q r, s.chan q r = []

/-- An invariant with a decreasing measure bounds the number of steps. -/
theorem Steps.measure {S V : Type} {act : Nat → S → Act S V} {I : St S V → Nat → Prop}
    (hI : ∀ s μ s', I s μ → Step act s s' → ∃ μ', I s' μ' ∧ μ' < μ) {n : Nat} {s s' : St S V} {μ : Nat}
    (h0 : I s μ) (h : Steps act n s s') : ∃ μ', I s' μ' ∧ n + μ' ≤ μ := by
  induction h with
  | nil => exact ⟨μ, h0, by omega⟩
  | snoc h hs ih =>
    obtain ⟨μ1, h1, hle⟩ := ih h0
    obtain ⟨μ2, h2, hlt⟩ := hI _ _ _ h1 hs
    exact ⟨μ2, h2, by omega⟩

end Verif.Mpi
