import Verif.Mpi.PhaseSync
import Verif.Mpi.Gather

/-!
# Whole parallel programs

The program of a rank is a tree of MPI calls (`Proc`) whose leaves include the heads of endless loops (`head`): the workers
read orders until the master tells them to stop.  The master/worker loops (`Verif.Mpi.Farm`) and the calls of the parallel linear algebra library are
single nodes of the tree.

Collective operations are built from messages: a broadcast is a message from the master to each worker, a barrier a
message from each worker to the master and back.  They carry tag 0; the tags of other messages are shifted by one, so that the two never
mix (in MPI collective operations have their own context).  Simplification: an MPI library may implement a broadcast with fewer
steps, for instance along a tree.
-/
namespace Verif.Mpi
open Function Finset

/-- `MPS_AlGO_ORDER` (`mps_algo_order.h:25-40`). -/
inductive Order where
  | programStart
  | initGrowEnv
  | initGrowEnvGrow
  | initGrowEnvFinish
  | lanczos
  | svd
  | matVecDynamic
  | matVecStatic
  | lanczosFinish
  | expandRight
  | expandLeft
  | growLeft
  | growRight
  | programFinal
deriving DecidableEq

/-- Payloads: an order, a number, a tensor, a floating point number, nothing, a message of a master/worker loop, a message of the
linear algebra library. -/
inductive PV (T O VL : Type) where
  | order (o : Order)
  | num (n : Nat)
  | ten (x : T)
  | real (x : O)
  | tick
  | farm (p : Pay T O)
  | lib (v : VL)

/-- The program of a rank. -/
inductive Proc (T O SL VL H X : Type) where
  /-- returned with this memory -/
  | halt (x : X)
  /-- not part of the run -/
  | off
  /-- an assertion failed, freed memory was used, an unexpected message arrived -/
  | crash
  | send (dst tag : Nat) (v : PV T O VL) (next : Proc T O SL VL H X)
  | recv (src tag : Nat) (k : PV T O VL → Proc T O SL VL H X)
  /-- a receive from any source; the continuation gets source, tag and payload -/
  | recvAny (tag : Option Nat) (k : Nat → Nat → PV T O VL → Proc T O SL VL H X)
  /-- inside a master/worker loop; then go on with what was received -/
  | farm (F : Farm) (f : Nat → T) (o : Nat → O) (pc : Pc T O) (cont : List (Nat × T) → O → Proc T O SL VL H X)
  /-- inside a call of the linear algebra library -/
  | lib (s : SL) (cont : SL → Proc T O SL VL H X)
  /-- at the head of an endless loop -/
  | head (h : H)

section
variable {T O SL VL H X : Type} [AddCommMonoid O]

/-- Inside or beyond a master/worker loop. -/
def wrapF (F : Farm) (f : Nat → T) (o : Nat → O) (cont : List (Nat × T) → O → Proc T O SL VL H X) : Pc T O → Proc T O SL VL H X
  | .done g ov => cont g ov
  | .over _ _ => cont [] 0
  | .idle => cont [] 0
  | .bad => .crash
  | pc => .farm F f o pc cont

def unFarm : PV T O VL → Option (Pay T O)
  | .farm p => some p
  | _ => none

def unLib : PV T O VL → Option VL
  | .lib v => some v
  | _ => none

/-- Where a rank is inside or beyond a master/worker loop, for `phase`. -/
def farmEmb (F : Nat → Farm) (f : Nat → Nat → T) (o : Nat → Nat → O) (cont : Nat → List (Nat × T) → O → Proc T O SL VL H X) :
    Emb (Pc T O) (Pay T O) (Proc T O SL VL H X) (PV T O VL) where
  e r := wrapF (F r) (f r) (o r) (cont r)
  ι := .farm
  un := unFarm
  θ t := t + 1
  θ' t := t - 1
  bad := .crash
  un_ι _ := rfl
  θ_inv t := by simp

variable (lact : Nat → SL → Act SL VL)

/-- Inside or beyond a call of the linear algebra library. -/
def wrapL (r : Nat) (cont : SL → Proc T O SL VL H X) (s : SL) : Proc T O SL VL H X :=
  match lact r s with
  | .stop => cont s
  | _ => .lib s cont

def libEmb (cont : Nat → SL → Proc T O SL VL H X) : Emb SL VL (Proc T O SL VL H X) (PV T O VL) where
  e r := wrapL lact r (cont r)
  ι := .lib
  un := unLib
  θ t := t + 1
  θ' t := t - 1
  bad := .crash
  un_ι _ := rfl
  θ_inv t := by simp

/-- The next call of a rank that is not at the head of a loop. -/
def act0 (r : Nat) : Proc T O SL VL H X → Act (Proc T O SL VL H X) (PV T O VL)
  | .halt _ => .stop
  | .off => .stop
  | .crash => .stop
  | .send d t v n => .send d t v n
  | .recv s t k => .recv (some s) (some t) fun _ _ v => k v
  | .recvAny t k => .recv none t k
  | .farm F f o pc cont => (farmEmb (fun _ => F) (fun _ => f) (fun _ => o) fun _ => cont).lift r (F.act f o r pc)
  | .lib s cont => (libEmb lact fun _ => cont).lift r (lact r s)
  | .head _ => .stop

variable (body : Nat → H → Proc T O SL VL H X)

/-- The next call of each rank; `body r h` is the code of rank `r` from the head `h` on. -/
def pact (r : Nat) : Proc T O SL VL H X → Act (Proc T O SL VL H X) (PV T O VL)
  | .head h => act0 lact r (body r h)
  | p => act0 lact r p

/-- Master and workers. -/
def ranks (W : Nat) (M : Proc T O SL VL H X) (w : Nat → Proc T O SL VL H X) (r : Nat) : Proc T O SL VL H X :=
  if r = 0 then M else if r ≤ W then w r else .off

/-- Every execution in which the master is at `M` and the workers are at `w` ends well. -/
def Good (W : Nat) (Q : (Nat → Proc T O SL VL H X) → Prop) (M : Proc T O SL VL H X) (w : Nat → Proc T O SL VL H X) : Prop :=
  ∃ B, Ends (pact lact body) (fresh (ranks W M w)) B Q

variable {lact body} {W : Nat} {Q : (Nat → Proc T O SL VL H X) → Prop}

/-- Everybody has returned. -/
theorem good_end {M : Proc T O SL VL H X} {w : Nat → Proc T O SL VL H X} (hM : pact lact body 0 M = .stop)
    (hw : ∀ r, 1 ≤ r → r ≤ W → pact lact body r (w r) = .stop) (hQ : Q (ranks W M w)) : Good lact body W Q M w := by
  have hstop : ∀ r, pact lact body r (ranks W M w r) = .stop := fun r => by
    unfold ranks
    split
    · subst r; exact hM
    · split
      · exact hw r (by omega) (by omega)
      · rfl
  have hno : ∀ n s, Steps (pact lact body) n (fresh (ranks W M w)) s → n = 0 ∧ s = fresh (ranks W M w) := fun n s h => by
    cases h with
    | nil => exact ⟨rfl, rfl⟩
    | snoc h hs =>
      cases hs with
      | send b hact _ => rw [h.stays (hstop _)] at hact; rw [show (fresh (ranks W M w) : St _ (PV T O VL)).proc = ranks W M w from rfl, hstop] at hact; cases hact
      | recv hact _ _ _ _ _ => rw [h.stays (hstop _)] at hact; rw [show (fresh (ranks W M w) : St _ (PV T O VL)).proc = ranks W M w from rfl, hstop] at hact; cases hact
  refine ⟨0, fun n s h => by rw [(hno n s h).1], fun n s h _ => ?_⟩
  obtain ⟨-, rfl⟩ := hno n s h
  exact ⟨⟨hstop, fun _ => rfl, fun _ _ => rfl⟩, hQ⟩

theorem ranks_zero {M : Proc T O SL VL H X} {w : Nat → Proc T O SL VL H X} : ranks W M w 0 = M := rfl

theorem ranks_pos {M : Proc T O SL VL H X} {w : Nat → Proc T O SL VL H X} {r : Nat} (h1 : 1 ≤ r) (h2 : r ≤ W) : ranks W M w r = w r := by
  unfold ranks; rw [if_neg (by omega), if_pos h2]

theorem ranks_update {M M' : Proc T O SL VL H X} {w : Nat → Proc T O SL VL H X} {p : Proc T O SL VL H X} {d : Nat} (h1 : 1 ≤ d) (h2 : d ≤ W) :
    update (update (ranks W M w) 0 M') d p = ranks W M' (update w d p) := by
  funext r
  by_cases hd : r = d
  · subst hd; rw [update_self, ranks_pos h1 h2, update_self]
  · rw [update_of_ne hd]
    by_cases h0 : r = 0
    · subst h0; rw [update_self]; rfl
    · rw [update_of_ne h0]
      unfold ranks
      rw [if_neg h0, if_neg h0, update_of_ne hd]

theorem ranks_update' {M M' : Proc T O SL VL H X} {w : Nat → Proc T O SL VL H X} {p : Proc T O SL VL H X} {d : Nat} (h1 : 1 ≤ d) (h2 : d ≤ W) :
    update (update (ranks W M w) d p) 0 M' = ranks W M' (update w d p) := by
  rw [← ranks_update h1 h2, update_comm (by omega)]

theorem ranks_congr {M : Proc T O SL VL H X} {w w' : Nat → Proc T O SL VL H X} (h : ∀ r, 1 ≤ r → r ≤ W → w r = w' r) :
    ranks W M w = ranks W M w' := by
  funext r
  unfold ranks
  split
  · rfl
  · split
    · exact h r (by omega) (by assumption)
    · rfl

theorem Good.congr {M : Proc T O SL VL H X} {w w' : Nat → Proc T O SL VL H X} (hg : Good lact body W Q M w) (h : ∀ r, 1 ≤ r → r ≤ W → w r = w' r) :
    Good lact body W Q M w' := by
  unfold Good at hg ⊢
  rwa [ranks_congr h] at hg

/-! ### Broadcast -/

/-- Send `v` to the ranks `d, d + 1, …` (`n` of them). -/
def sendEach (v : PV T O VL) (next : Proc T O SL VL H X) : Nat → Nat → Proc T O SL VL H X
  | 0, _ => next
  | n + 1, d => .send d 0 v (sendEach v next n (d + 1))

/-- `MPI_Bcast` at the master (mps_algo_order.h:50-54). -/
def bcast (W : Nat) (v : PV T O VL) (next : Proc T O SL VL H X) : Proc T O SL VL H X := sendEach v next W 1

theorem sync_each {v : PV T O VL} {M : Proc T O SL VL H X} {w w' : Nat → Proc T O SL VL H X} :
    ∀ n d, 1 ≤ d → n + d = W + 1 →
    (∀ r, d ≤ r → r ≤ W → ∃ k, pact lact body r (w r) = .recv (some 0) (some 0) k ∧ k 0 0 v = w' r) → (∀ r, 1 ≤ r → r < d → w r = w' r) →
    SyncRun (pact lact body) n (ranks W (sendEach v M n d) w) (ranks W M w') := by
  intro n
  induction n generalizing w with
  | zero =>
    intro d h1 h2 _ hd
    rw [show sendEach v M 0 d = M from rfl, ranks_congr fun r r1 r2 => hd r r1 (by omega)]
    exact .nil
  | succ n ih =>
    intro d h1 h2 hr hd
    obtain ⟨k, hk1, hk2⟩ := hr d (le_refl d) (by omega)
    refine .comm (q := 0) (r := d) (t := 0) (v := v) (n := sendEach v M n (d + 1)) (k := k) (by omega) rfl (by rw [ranks_pos h1 (by omega)]; exact hk1) ?_
    rw [ranks_update h1 (by omega), hk2]
    refine ih (d + 1) (by omega) (by omega) (fun r r1 r2 => ?_) fun r r1 r2 => ?_
    · rw [update_of_ne (by omega)]; exact hr r (by omega) r2
    · by_cases hrd : r = d
      · subst hrd; rw [update_self]
      · rw [update_of_ne hrd]; exact hd r r1 (by omega)

theorem good_sync {m : Nat} {M M' : Proc T O SL VL H X} {w w' : Nat → Proc T O SL VL H X}
    (h : SyncRun (pact lact body) m (ranks W M w) (ranks W M' w')) (hg : Good lact body W Q M' w') : Good lact body W Q M w := by
  obtain ⟨B, hB⟩ := hg
  exact ⟨_, sync_rule h hB⟩

theorem good_bcast {v : PV T O VL} {M : Proc T O SL VL H X} {w w' : Nat → Proc T O SL VL H X}
    (hw : ∀ r, 1 ≤ r → r ≤ W → ∃ k, pact lact body r (w r) = .recv (some 0) (some 0) k ∧ k 0 0 v = w' r)
    (hg : Good lact body W Q M w') : Good lact body W Q (bcast W v M) w :=
  good_sync (sync_each W 1 (le_refl 1) rfl (fun r r1 r2 => hw r r1 r2) fun r r1 r2 => by omega) hg

/-! ### A message from each worker in turn, barrier -/

/-- Receive a message from the ranks `d, d + 1, …` (`n` of them) and check it. -/
def recvEach (tag : Nat → Nat) (ok : Nat → PV T O VL → Bool) (next : Proc T O SL VL H X) : Nat → Nat → Proc T O SL VL H X
  | 0, _ => next
  | n + 1, d => .recv d (tag d) fun v => if ok d v then recvEach tag ok next n (d + 1) else .crash

theorem sync_recvEach {tag : Nat → Nat} {ok : Nat → PV T O VL → Bool} {M : Proc T O SL VL H X} {w w' : Nat → Proc T O SL VL H X} :
    ∀ n d, 1 ≤ d → n + d = W + 1 →
    (∀ r, d ≤ r → r ≤ W → ∃ v, pact lact body r (w r) = .send 0 (tag r) v (w' r) ∧ ok r v = true) → (∀ r, 1 ≤ r → r < d → w r = w' r) →
    SyncRun (pact lact body) n (ranks W (recvEach tag ok M n d) w) (ranks W M w') := by
  intro n
  induction n generalizing w with
  | zero =>
    intro d h1 h2 _ hd
    rw [show recvEach tag ok M 0 d = M from rfl, ranks_congr fun r r1 r2 => hd r r1 (by omega)]
    exact .nil
  | succ n ih =>
    intro d h1 h2 hr hd
    obtain ⟨v, hk1, hk2⟩ := hr d (le_refl d) (by omega)
    refine .comm (q := d) (r := 0) (t := tag d) (v := v) (n := w' d) (k := fun _ _ v => if ok d v then recvEach tag ok M n (d + 1) else .crash) (by omega)
      (by rw [ranks_pos h1 (by omega)]; exact hk1) rfl ?_
    rw [ranks_update' h1 (by omega), if_pos hk2]
    refine ih (d + 1) (by omega) (by omega) (fun r r1 r2 => ?_) fun r r1 r2 => ?_
    · rw [update_of_ne (by omega)]; exact hr r (by omega) r2
    · by_cases hrd : r = d
      · subst hrd; rw [update_self]
      · rw [update_of_ne hrd]; exact hd r r1 (by omega)

theorem good_recvEach {tag : Nat → Nat} {ok : Nat → PV T O VL → Bool} {M : Proc T O SL VL H X} {w w' : Nat → Proc T O SL VL H X}
    (hw : ∀ r, 1 ≤ r → r ≤ W → ∃ v, pact lact body r (w r) = .send 0 (tag r) v (w' r) ∧ ok r v = true)
    (hg : Good lact body W Q M w') : Good lact body W Q (recvEach tag ok M W 1) w :=
  good_sync (sync_recvEach W 1 (le_refl 1) rfl (fun r r1 r2 => hw r r1 r2) fun r r1 r2 => by omega) hg

def isTick : PV T O VL → Bool
  | .tick => true
  | _ => false

/-- `MPI_Barrier` at the master. -/
def mBarrier (W : Nat) (next : Proc T O SL VL H X) : Proc T O SL VL H X :=
  recvEach (fun _ => 0) (fun _ v => isTick v) (bcast W .tick next) W 1

/-- `MPI_Barrier` at a worker. -/
def wBarrier (next : Proc T O SL VL H X) : Proc T O SL VL H X :=
  .send 0 0 .tick (.recv 0 0 fun v => if isTick v then next else .crash)

theorem good_barrier {M : Proc T O SL VL H X} {w : Nat → Proc T O SL VL H X} (hg : Good lact body W Q M w) :
    Good lact body W Q (mBarrier W M) (fun r => wBarrier (w r)) :=
  good_recvEach (w' := fun r => .recv 0 0 fun v => if isTick v then w r else .crash) (fun r _ _ => ⟨.tick, rfl, rfl⟩)
    (good_bcast (fun r _ _ => ⟨_, rfl, by simp [isTick]⟩) hg)

end
end Verif.Mpi
