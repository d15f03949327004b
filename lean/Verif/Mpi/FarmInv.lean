import Verif.Mpi.Farm
import Mathlib.Order.Interval.Finset.Nat
import Mathlib.Algebra.Order.BigOperators.Group.Finset
import Mathlib.Algebra.BigOperators.Group.Multiset.Basic
import Mathlib.Tactic.Abel
import Mathlib.Tactic.Ring
import Mathlib.Tactic.Linarith

/-!
# The invariant of the master/worker loops

Proof device: the stage of each worker in its conversation with the master, from which its local state
and the messages under way follow (`view`).
-/
namespace Verif.Mpi
open Function Finset

variable {R O : Type} [AddCommMonoid O]

/-- Stage of the conversation with one worker. -/
inductive Stage where
  | comp (j : Nat) (did : List Nat)
  | sent (j : Nat) (did : List Nat) (b : Bool)
  | pend (did : List Nat)
  | rep (j : Nat) (did : List Nat) (b : Bool)
  | repSig (j : Nat) (did : List Nat) (b c : Bool)
  | fin (did : List Nat)
  | finSig (did : List Nat) (b : Bool)
  | ans (did : List Nat)
  | ansSent (did : List Nat) (b : Bool)
  | over (did : List Nat)

namespace Stage

/-- The executed tasks. -/
def did : Stage → List Nat
  | comp _ d | sent _ d _ | pend d | rep _ d _ | repSig _ d _ _ | fin d | finSig d _ | ans d | ansSent d _ | over d => d

/-- Is the master blocked on a message to this worker? -/
def flagged : Stage → Bool
  | rep _ _ b => b
  | repSig _ _ b c => b || c
  | finSig _ b => b
  | _ => false

/-- Steps left for this stage before the next action of the master. -/
def weight : Stage → Nat
  | comp .. => 1
  | rep .. => 2
  | repSig .. => 4
  | finSig .. => 2
  | ans .. => 1
  | _ => 0

end Stage

/-- What the loops of the library satisfy; `m` workers take part. -/
structure Farm.WF (F : Farm) (m : Nat) : Prop where
  le : m ≤ F.workers
  joins : ∀ r, 1 ≤ r → r ≤ F.workers → (F.joins r = true ↔ r ≤ m)
  handouts : F.handout = true → F.handouts = m
  closers : F.closing = true → F.closers = m
  total : m ≤ F.total
  someone : 0 < F.total → 0 < m
  goOn : ∀ i, i < F.total - m → F.more (F.reply i) = true
  stop : ∀ i, F.total - m ≤ i → i < F.total → F.more (F.reply i) = false
  first : F.handout = true → ∀ r, 1 ≤ r → r ≤ m → F.more (F.start r) = true

namespace Farm
variable (F : Farm) (f : Nat → R) (o : Nat → O) (m : Nat)

/-- Numbers sent to a worker whose result the master has not received. -/
def out : Stage → Multiset Nat
  | .comp j _ => {j}
  | .sent j _ _ => {j}
  | .rep j _ _ => if F.more j then {j} else 0
  | _ => 0

/-- Tasks executed whose result is under way. -/
def flight : Stage → Multiset Nat
  | .sent j _ _ => if j < F.tasks then {j} else 0
  | _ => 0

def ovOf (did : List Nat) : O := (did.map o).sum

/-- Local state, blocked, messages to the master, messages from the master. -/
def view (r : Nat) : Stage → Pc R O × Bool × List (Msg (Pay R O)) × List (Msg (Pay R O))
  | .comp j d => (.comp j d (ovOf o d), false, [], [])
  | .sent j d b => (.wait d (ovOf o d), b, [⟨j, .res (f j), b⟩], [])
  | .pend d => (.wait d (ovOf o d), false, [], [])
  | .rep j d b => (.wait d (ovOf o d), false, [], [⟨F.tag r, .job j, b⟩])
  | .repSig j d b c => (.wait d (ovOf o d), false, [], [⟨F.tag r, .job j, b⟩, ⟨F.sigTag r, .sig F.signal, c⟩])
  | .fin d => (.fin d (ovOf o d), false, [], [])
  | .finSig d c => (.fin d (ovOf o d), false, [], [⟨F.sigTag r, .sig F.signal, c⟩])
  | .ans d => (.ans d (ovOf o d), false, [], [])
  | .ansSent d b => (.over d (ovOf o d), b, [⟨F.ovTag r, .ov (ovOf o d), b⟩], [])
  | .over d => (.over d (ovOf o d), false, [], [])

def Live : Stage → Prop
  | .comp _ _ => True
  | .sent _ _ _ => True
  | .rep j _ _ => F.more j = true
  | _ => False

def Term : Stage → Prop
  | .rep j _ _ => F.more j = false
  | .fin _ => F.closing = true
  | .over _ => F.closing = false
  | _ => False

def Clos : Stage → Prop
  | .repSig j _ _ _ => F.more j = false
  | .finSig _ _ => True
  | .ans _ => True
  | .ansSent _ _ => True
  | _ => False

def Over : Stage → Prop
  | .over _ => True
  | _ => False

/-- All first numbers. -/
def starts : Multiset Nat := ∑ r ∈ Icc 1 m, {F.start r}

/-- The numbers among the first `i` answers with which a worker goes on. -/
def given (i : Nat) : Multiset Nat := ((List.range (min i (F.total - m))).map F.reply : List Nat)

def outs (stg : Nat → Stage) : Multiset Nat := ∑ r ∈ Icc 1 m, F.out (stg r)

/-- The master has received everything. -/
def Full (got : List (Nat × R)) : Prop :=
  ((got.map Prod.fst : List Nat) : Multiset Nat) = F.starts m + F.given m F.total ∧ ∀ x ∈ got, x.2 = f x.1

/-- What the state of the master says about the workers. -/
def MInv (stg : Nat → Stage) : Pc R O → Prop
  | .hand i => i < m ∧ F.handout = true ∧ (∀ r, 1 ≤ r → r ≤ i → F.Live (stg r)) ∧ (∀ r, i < r → r ≤ m → stg r = .pend []) ∧
      F.outs m stg + ∑ r ∈ Icc (i + 1) m, {F.start r} = F.starts m
  | .gather i got => i < F.total ∧ got.length = i ∧ (∀ r, 1 ≤ r → r ≤ m → F.Live (stg r) ∨ F.Term (stg r)) ∧
      ((got.map Prod.fst : List Nat) : Multiset Nat) + F.outs m stg = F.starts m + F.given m i ∧ ∀ x ∈ got, x.2 = f x.1
  | .reply i got w => i < F.total ∧ got.length = i + 1 ∧ 1 ≤ w ∧ w ≤ m ∧ (∃ d, stg w = .pend d) ∧
      (∀ r, 1 ≤ r → r ≤ m → r ≠ w → F.Live (stg r) ∨ F.Term (stg r)) ∧
      ((got.map Prod.fst : List Nat) : Multiset Nat) + F.outs m stg = F.starts m + F.given m i ∧ ∀ x ∈ got, x.2 = f x.1
  | .close i got ov => F.closing = true ∧ i < m ∧ (∀ r, 1 ≤ r → r ≤ i → Over (stg r)) ∧ (∀ r, i < r → r ≤ m → F.Term (stg r)) ∧
      F.Full f m got ∧ ov = ∑ r ∈ Icc 1 i, ovOf o (stg r).did
  | .closing i got ov => F.closing = true ∧ i < m ∧ (∀ r, 1 ≤ r → r ≤ i → Over (stg r)) ∧ F.Clos (stg (i + 1)) ∧
      (∀ r, i + 1 < r → r ≤ m → F.Term (stg r)) ∧
      F.Full f m got ∧ ov = ∑ r ∈ Icc 1 i, ovOf o (stg r).did
  | .done got ov => (∀ r, 1 ≤ r → r ≤ m → if F.closing = true then Over (stg r) else F.Term (stg r)) ∧
      F.Full f m got ∧ ov = if F.closing = true then ∑ r ∈ Icc 1 m, ovOf o (stg r).did else 0
  | _ => False

/-- What the master has received. -/
def got : Pc R O → List (Nat × R)
  | .gather _ g => g
  | .reply _ g _ => g
  | .close _ g _ => g
  | .closing _ g _ => g
  | .done g _ => g
  | _ => []

/-- The executed tasks are those received and those under way. -/
def DInv (stg : Nat → Stage) (p : Pc R O) : Prop :=
  ∑ r ∈ Icc 1 m, ((stg r).did : Multiset Nat)
    = (((got p).map Prod.fst).filter (· < F.tasks) : List Nat) + ∑ r ∈ Icc 1 m, F.flight (stg r)

def V (s : St (Pc R O) (Pay R O)) (r : Nat) : Pc R O × Bool × List (Msg (Pay R O)) × List (Msg (Pay R O)) :=
  (s.proc r, s.blk r, s.chan r 0, s.chan 0 r)

/-- The ranks other than the master. -/
structure Base (s : St (Pc R O) (Pay R O)) (stg : Nat → Stage) : Prop where
  view : ∀ r, 1 ≤ r → r ≤ m → V s r = F.view f o r (stg r)
  others : ∀ r, r ≠ 0 → ¬ (1 ≤ r ∧ r ≤ m) → s.proc r = .idle ∧ s.blk r = false
  empty : ∀ q r, ¬ ((q = 0 ∧ 1 ≤ r ∧ r ≤ m) ∨ (r = 0 ∧ 1 ≤ q ∧ q ≤ m)) → s.chan q r = []

def mWeight : Pc R O → Nat
  | .hand i => 3 * (m - i) + 4 * F.total + 4 * m
  | .gather i _ => 4 * (F.total - i) + 4 * m
  | .reply i _ _ => 4 * (F.total - i) - 1 + 4 * m
  | .close i _ _ => 4 * (m - i)
  | .closing i _ _ => 4 * (m - i) - 3
  | _ => 0

def weight (stg : Nat → Stage) (p : Pc R O) : Nat := F.mWeight m p + ∑ r ∈ Icc 1 m, (stg r).weight

structure Inv (s : St (Pc R O) (Pay R O)) (stg : Nat → Stage) : Prop where
  base : F.Base f o m s stg
  blk0 : s.blk 0 = true → ∃ r, 1 ≤ r ∧ r ≤ m ∧ (stg r).flagged = true
  master : F.MInv f o m stg (s.proc 0)
  dids : F.DInv m stg (s.proc 0)

variable {F f o m}

/-! ### Sums after one worker has moved -/

theorem sum_swap {M : Type} [AddCommMonoid M] (g : Stage → M) (stg : Nat → Stage) {r : Nat} (h1 : 1 ≤ r) (h2 : r ≤ m) (x : Stage) :
    ∑ q ∈ Icc 1 m, g (update stg r x q) + g (stg r) = ∑ q ∈ Icc 1 m, g (stg q) + g x := by
  have hr : r ∈ Icc 1 m := by simp [h1, h2]
  rw [← Finset.add_sum_erase _ _ hr, ← Finset.add_sum_erase (Icc 1 m) (fun q => g (stg q)) hr]
  have : ∑ q ∈ (Icc 1 m).erase r, g (update stg r x q) = ∑ q ∈ (Icc 1 m).erase r, g (stg q) :=
    Finset.sum_congr rfl fun q hq => by rw [update_of_ne (Finset.ne_of_mem_erase hq)]
  rw [this, update_self]
  abel

theorem sum_same {M : Type} [AddCommMonoid M] (g : Stage → M) (stg : Nat → Stage) {r : Nat} {x : Stage}
    (h : g x = g (stg r)) (A : Finset Nat) : ∑ q ∈ A, g (update stg r x q) = ∑ q ∈ A, g (stg q) :=
  Finset.sum_congr rfl fun q _ => by
    by_cases hq : q = r
    · subst hq; rw [update_self, h]
    · rw [update_of_ne hq]

theorem frame {s s' : St (Pc R O) (Pay R O)} {stg : Nat → Stage} {r : Nat} {x : Stage} (h : F.Base f o m s stg)
    (h1 : 1 ≤ r) (h2 : r ≤ m)
    (hp : ∀ q, q ≠ r → q ≠ 0 → s'.proc q = s.proc q) (hb : ∀ q, q ≠ r → q ≠ 0 → s'.blk q = s.blk q)
    (hc : ∀ a b, ¬ (a = r ∧ b = 0) → ¬ (a = 0 ∧ b = r) → s'.chan a b = s.chan a b)
    (hv : V s' r = F.view f o r x) : F.Base f o m s' (update stg r x) := by
  refine ⟨fun q hq1 hq2 => ?_, fun q hq0 hq => ?_, fun a b hab => ?_⟩
  · by_cases hqr : q = r
    · subst hqr; rw [update_self, hv]
    · rw [update_of_ne hqr, ← h.view q hq1 hq2]
      simp only [V]
      rw [hp q hqr (by omega), hb q hqr (by omega), hc q 0 (by omega) (by omega), hc 0 q (by omega) (by omega)]
  · have hqr : q ≠ r := by rintro rfl; exact hq ⟨h1, h2⟩
    rw [hp q hqr hq0, hb q hqr hq0]
    exact h.others q hq0 hq
  · rw [hc a b (by omega) (by omega)]
    exact h.empty a b hab

/-! ### A worker moves -/

theorem MInv.worker {stg : Nat → Stage} {p : Pc R O} {r : Nat} {x : Stage} (h : F.MInv f o m stg p)
    (hout : F.out x = F.out (stg r)) (hl : F.Live (stg r) → F.Live x) (ht : F.Term (stg r) → F.Term x)
    (hk : F.Clos (stg r) → F.Clos x) (hnp : ∀ d, stg r ≠ .pend d) (hno : ∀ d, stg r ≠ .over d) :
    F.MInv f o m (update stg r x) p := by
  have ho : ¬ Over (stg r) := by
    cases hs : stg r <;> simp [Over]
    exact hno _ hs
  have houts : F.outs m (update stg r x) = F.outs m stg := sum_same F.out stg hout _
  have U : ∀ {P : Stage → Prop} (_ : P (stg r) → P x) (q : Nat), P (stg q) → P (update stg r x q) := by
    intro P hP q hq
    by_cases hqr : q = r
    · subst hqr; rw [update_self]; exact hP hq
    · rw [update_of_ne hqr]; exact hq
  have hlt : ∀ q, F.Live (stg q) ∨ F.Term (stg q) → F.Live (update stg r x q) ∨ F.Term (update stg r x q) := fun q hq =>
    hq.elim (fun h => Or.inl (U (P := F.Live) hl q h)) (fun h => Or.inr (U (P := F.Term) ht q h))
  have hov : ∀ q, Over (stg q) → update stg r x q = stg q := by
    intro q hq
    by_cases hqr : q = r
    · subst hqr; exact absurd hq ho
    · rw [update_of_ne hqr]
  have hsum : ∀ i, (∀ q, 1 ≤ q → q ≤ i → Over (stg q)) →
      ∑ q ∈ Icc 1 i, ovOf o ((update stg r x) q).did = ∑ q ∈ Icc 1 i, ovOf o (stg q).did := fun i hi =>
    Finset.sum_congr rfl fun q hq => by
      rw [Finset.mem_Icc] at hq
      rw [hov q (hi q hq.1 hq.2)]
  cases p with
  | hand i =>
    obtain ⟨a1, a2, a3, a4, a5⟩ := h
    refine ⟨a1, a2, fun q q1 q2 => U (P := F.Live) hl q (a3 q q1 q2), fun q q1 q2 => ?_, by rw [houts]; exact a5⟩
    have hqr : q ≠ r := by rintro rfl; exact hnp _ (a4 q q1 q2)
    rw [update_of_ne hqr]; exact a4 q q1 q2
  | gather i got =>
    obtain ⟨a1, a2, a3, a4, a5⟩ := h
    exact ⟨a1, a2, fun q q1 q2 => hlt q (a3 q q1 q2), by rw [houts]; exact a4, a5⟩
  | reply i got w =>
    obtain ⟨a1, a2, a3, a4, ⟨d, a5⟩, a6, a7, a8⟩ := h
    have hqr : w ≠ r := by rintro rfl; exact hnp _ a5
    exact ⟨a1, a2, a3, a4, ⟨d, by rw [update_of_ne hqr]; exact a5⟩, fun q q1 q2 q3 => hlt q (a6 q q1 q2 q3),
      by rw [houts]; exact a7, a8⟩
  | close i got ov =>
    obtain ⟨a1, a2, a3, a4, a5, a6⟩ := h
    exact ⟨a1, a2, fun q q1 q2 => by rw [hov q (a3 q q1 q2)]; exact a3 q q1 q2,
      fun q q1 q2 => U (P := F.Term) ht q (a4 q q1 q2), a5, by rw [a6, hsum i a3]⟩
  | closing i got ov =>
    obtain ⟨a1, a2, a3, a4, a5, a6, a7⟩ := h
    exact ⟨a1, a2, fun q q1 q2 => by rw [hov q (a3 q q1 q2)]; exact a3 q q1 q2, U (P := F.Clos) hk _ a4,
      fun q q1 q2 => U (P := F.Term) ht q (a5 q q1 q2), a6, by rw [a7, hsum i a3]⟩
  | done got ov =>
    obtain ⟨a1, a2, a3⟩ := h
    refine ⟨fun q q1 q2 => ?_, a2, ?_⟩
    · have := a1 q q1 q2
      split at this
      · rename_i hc
        rw [if_pos hc, hov q this]; exact this
      · rename_i hc
        rw [if_neg hc]; exact U (P := F.Term) ht q this
    · rw [a3]
      split
      · rename_i hc
        exact (hsum m fun q q1 q2 => by have := a1 q q1 q2; rwa [if_pos hc] at this).symm
      · rfl
  | _ => exact h

end Farm
end Verif.Mpi
