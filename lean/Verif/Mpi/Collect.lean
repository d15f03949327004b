import Verif.Mpi.Core
import Mathlib.Algebra.BigOperators.Group.Finset.Basic
import Mathlib.Algebra.BigOperators.Group.Multiset.Basic
import Mathlib.Order.Interval.Finset.Nat
import Mathlib.Tactic.Abel
import Mathlib.Tactic.Ring

/-!
# Loops in which the workers only send and the master only receives

Each worker sends a fixed list of messages to rank 0 and returns; the master is any program that only
receives.  The theorem `Coll.run_ok` reduces statements about all executions to statements about which
message the master takes next.
-/
namespace Verif.Mpi
open Function Finset

variable {M V : Type}

/-- Local states: a worker with the messages it has still to send, or the master. -/
inductive CPc (M V : Type) where
  | wk (l : List (Nat × V))
  | ms (m : M)

/-- The receive a master state waits for. -/
structure Want (M V : Type) where
  src : Option Nat
  tag : Option Nat
  next : Nat → Nat → V → M

/-- The next call of each rank. -/
def cact (want : M → Option (Want M V)) (_r : Nat) : CPc M V → Act (CPc M V) V
  | .wk [] => .stop
  | .wk ((t, v) :: l) => .send 0 t v (.wk l)
  | .ms m =>
    match want m with
    | none => .stop
    | some w => .recv w.src w.tag fun q t v => .ms (w.next q t v)

/-- The workers `1 … W` with their messages, the master in state `m0`. -/
def cinit (W : Nat) (msgs : Nat → List (Nat × V)) (m0 : M) : St (CPc M V) V where
  proc r := if r = 0 then .ms m0 else if r ≤ W then .wk (msgs r) else .wk []
  chan _ _ := []
  blk _ := false

def strip (l : List (Msg V)) : List (Nat × V) := l.map fun x => (x.tag, x.val)

/-- `todo r` are the messages of rank `r` the master has not received. -/
structure CInv (W : Nat) (P : M → (Nat → List (Nat × V)) → Prop) (s : St (CPc M V) V) (m : M) (unsent todo : Nat → List (Nat × V)) : Prop where
  proc0 : s.proc 0 = .ms m
  proc : ∀ r, r ≠ 0 → s.proc r = .wk (unsent r)
  rest : ∀ r, r ≠ 0 → strip (s.chan r 0) ++ unsent r = todo r
  outside : ∀ r, ¬ (1 ≤ r ∧ r ≤ W) → todo r = []
  empty : ∀ q r, ¬ (1 ≤ q ∧ r = 0) → s.chan q r = []
  blk0 : s.blk 0 = false
  blk : ∀ r, r ≠ 0 → s.blk r = true → ∃ x ∈ s.chan r 0, x.sync = true
  inv : P m todo

/-- What has to be shown about the master. -/
structure Coll (W : Nat) (want : M → Option (Want M V)) (P : M → (Nat → List (Nat × V)) → Prop) : Prop where
  /-- the master takes messages in the order in which they were sent -/
  head : ∀ m todo w q x y rest, P m todo → want m = some w → todo q = y :: rest → x ∈ todo q → fits w.tag x.1 → fits w.tag y.1
  step : ∀ m todo w q x rest, P m todo → want m = some w → 1 ≤ q → q ≤ W → fits w.src q → todo q = x :: rest → fits w.tag x.1 →
    P (w.next q x.1 x.2) (update todo q rest)
  prog : ∀ m todo w, P m todo → want m = some w → ∃ q x rest, 1 ≤ q ∧ q ≤ W ∧ fits w.src q ∧ todo q = x :: rest ∧ fits w.tag x.1
  stop : ∀ m todo, P m todo → want m = none → ∀ q, 1 ≤ q → q ≤ W → todo q = []

variable {W : Nat} {want : M → Option (Want M V)} {P : M → (Nat → List (Nat × V)) → Prop}

def cweight (W : Nat) (s : St (CPc M V) V) (unsent : Nat → List (Nat × V)) : Nat :=
  ∑ r ∈ Icc 1 W, (2 * (unsent r).length + (s.chan r 0).length)

theorem sum_lt_of {f g : Nat → Nat} {q : Nat} (h1 : 1 ≤ q) (h2 : q ≤ W) (hne : ∀ r, r ≠ q → f r = g r) (hlt : f q < g q) :
    ∑ r ∈ Icc 1 W, f r < ∑ r ∈ Icc 1 W, g r := by
  have hq : q ∈ Icc 1 W := by simp [h1, h2]
  rw [← Finset.add_sum_erase _ f hq, ← Finset.add_sum_erase _ g hq]
  have : ∑ r ∈ (Icc 1 W).erase q, f r = ∑ r ∈ (Icc 1 W).erase q, g r :=
    Finset.sum_congr rfl fun r hr => hne r (Finset.ne_of_mem_erase hr)
  omega

theorem CInv.step (hC : Coll W want P) {s s' : St (CPc M V) V} {m : M} {unsent todo : Nat → List (Nat × V)}
    (h : CInv W P s m unsent todo) (hs : Step (cact want) s s') :
    ∃ m' unsent' todo', CInv W P s' m' unsent' todo' ∧ cweight W s' unsent' < cweight W s unsent := by
  cases hs with
  | @send r d t v n b hact hblk =>
    by_cases hr : r = 0
    · subst hr
      rw [h.proc0] at hact
      simp only [cact] at hact
      split at hact <;> simp at hact
    · rw [h.proc r hr] at hact
      cases hu : unsent r with
      | nil => rw [hu] at hact; simp [cact] at hact
      | cons p l =>
        obtain ⟨t', v'⟩ := p
        rw [hu] at hact
        simp only [cact, Act.send.injEq] at hact
        obtain ⟨rfl, rfl, rfl, rfl⟩ := hact
        have hrW : 1 ≤ r ∧ r ≤ W := by
          by_contra hn
          have := h.outside r hn
          rw [← h.rest r hr, hu] at this
          simp at this
        refine ⟨m, update unsent r l, todo, ⟨?_, fun q hq => ?_, fun q hq => ?_, h.outside, fun a c hac => ?_, ?_, fun q hq hb => ?_, h.inv⟩, ?_⟩
        · show update s.proc r _ 0 = _
          rw [update_of_ne (Ne.symm hr)]; exact h.proc0
        · by_cases hqr : q = r
          · subst hqr; simp
          · simp [update_of_ne hqr, h.proc q hq]
        · show strip (setChan s.chan r 0 _ q 0) ++ update unsent r l q = todo q
          by_cases hqr : q = r
          · subst hqr
            rw [setChan_same, update_self, ← h.rest q hq, hu]
            simp [strip]
          · rw [setChan_ne (by omega), update_of_ne hqr]
            exact h.rest q hq
        · show setChan s.chan r 0 _ a c = []
          rw [setChan_ne (by omega)]
          exact h.empty a c hac
        · show update s.blk r b 0 = false
          rw [update_of_ne (Ne.symm hr)]; exact h.blk0
        · show ∃ x ∈ setChan s.chan r 0 _ q 0, _
          replace hb : update s.blk r b q = true := hb
          by_cases hqr : q = r
          · subst hqr
            rw [setChan_same]
            rw [update_self] at hb
            exact ⟨⟨t', v', b⟩, by simp, hb⟩
          · rw [setChan_ne (by omega)]
            rw [update_of_ne hqr] at hb
            exact h.blk q hq hb
        · refine sum_lt_of hrW.1 hrW.2 (fun q hq => ?_) ?_
          · simp only [update_of_ne hq]
            rw [setChan_ne (by omega)]
          · simp only [update_self, setChan_same, hu, List.length_append, List.length_cons, List.length_nil]
            omega
  | @recv r q src tag k pre post a hact hblk hsrc htag hch hpre =>
    by_cases hr : r = 0
    swap
    · rw [h.empty q r (by omega)] at hch
      simp at hch
    subst hr
    rw [h.proc0] at hact
    have hq1 : 1 ≤ q := by
      by_contra hq
      rw [h.empty q 0 (by omega)] at hch
      simp at hch
    have hq0 : q ≠ 0 := by omega
    simp only [cact] at hact
    split at hact
    · simp at hact
    rename_i w hw
    simp only [Act.recv.injEq] at hact
    obtain ⟨rfl, rfl, rfl⟩ := hact
    have htd := h.rest q hq0
    rw [hch] at htd
    have hqW : q ≤ W := by
      by_contra hn
      have := h.outside q (by omega)
      rw [this] at htd
      simp [strip] at htd
    have hpre0 : pre = [] := by
      cases pre with
      | nil => rfl
      | cons p ps =>
        exfalso
        have htd' : todo q = (p.tag, p.val) :: (strip (ps ++ a :: post) ++ unsent q) := by rw [← htd]; simp [strip]
        have := hC.head m todo w q (a.tag, a.val) (p.tag, p.val) _ h.inv hw htd'
          (by rw [htd']; simp [strip]) htag
        exact hpre p (by simp) this
    subst hpre0
    have htd' : todo q = (a.tag, a.val) :: (strip post ++ unsent q) := by rw [← htd]; simp [strip]
    refine ⟨w.next q a.tag a.val, unsent, update todo q (strip post ++ unsent q), ⟨?_, fun r hr => ?_, fun r hr => ?_, fun r hr => ?_,
      fun c d hcd => ?_, ?_, fun r hr hb => ?_, ?_⟩, ?_⟩
    · simp
    · show update s.proc 0 _ r = _
      rw [update_of_ne hr]; exact h.proc r hr
    · show strip (setChan s.chan q 0 _ r 0) ++ unsent r = _
      by_cases hrq : r = q
      · subst hrq; rw [setChan_same, update_self]; rfl
      · rw [setChan_ne (by omega), update_of_ne hrq]; exact h.rest r hr
    · have hrq : r ≠ q := by rintro rfl; exact hr ⟨hq1, hqW⟩
      rw [update_of_ne hrq]; exact h.outside r hr
    · show setChan s.chan q 0 _ c d = []
      rw [setChan_ne (by omega)]; exact h.empty c d hcd
    · show (if a.sync then update s.blk q false else s.blk) 0 = false
      split
      · rw [update_of_ne (Ne.symm hq0)]; exact h.blk0
      · exact h.blk0
    · replace hb : (if a.sync then update s.blk q false else s.blk) r = true := hb
      show ∃ x ∈ setChan s.chan q 0 _ r 0, _
      by_cases hrq : r = q
      · subst hrq
        rw [setChan_same]
        split at hb
        · simp at hb
        · rename_i hns
          obtain ⟨x, hx, hxs⟩ := h.blk r hr hb
          rw [hch] at hx
          simp only [List.nil_append, List.mem_cons] at hx
          rcases hx with rfl | hx
          · exact absurd hxs hns
          · exact ⟨x, by simpa using hx, hxs⟩
      · rw [setChan_ne (by omega)]
        have : s.blk r = true := by
          split at hb
          · rwa [update_of_ne hrq] at hb
          · exact hb
        exact h.blk r hr this
    · exact hC.step m todo w q _ _ h.inv hw hq1 hqW hsrc htd' htag
    · refine sum_lt_of hq1 hqW (fun r hr => ?_) ?_
      · simp only
        rw [setChan_ne (by omega)]
      · simp only [setChan_same, hch, List.nil_append, List.length_cons]
        omega

theorem CInv.progress (hC : Coll W want P) {s : St (CPc M V) V} {m : M} {unsent todo : Nat → List (Nat × V)}
    (h : CInv W P s m unsent todo) (hs : Stuck (cact want) s) : want m = none ∧ ∀ r, todo r = [] := by
  have hw : want m = none := by
    by_contra hne
    obtain ⟨w, hw⟩ := Option.ne_none_iff_exists'.mp hne
    obtain ⟨q, x, rest, h1, h2, h3, h4, h5⟩ := hC.prog m todo w h.inv hw
    have hq0 : q ≠ 0 := by omega
    have htd := h.rest q hq0
    cases hc : s.chan q 0 with
    | cons a l =>
      rw [hc, h4] at htd
      simp only [strip, List.map_cons, List.cons_append, List.cons.injEq] at htd
      exact hs _ (Step.recv (r := 0) (q := q) (pre := []) (post := l) (m := a) (src := w.src) (tag := w.tag)
        (k := fun q t v => .ms (w.next q t v)) (by rw [h.proc0]; simp [cact, hw]) h.blk0 h3
        (by have := congrArg Prod.fst htd.1; simp only at this; rw [this]; exact h5) (by rw [hc]; rfl) (by simp))
    | nil =>
      rw [hc, h4] at htd
      simp only [strip, List.map_nil, List.nil_append] at htd
      have hb : s.blk q = false := by
        by_contra hb
        obtain ⟨y, hy, _⟩ := h.blk q hq0 (by simpa using hb)
        rw [hc] at hy
        simp at hy
      exact hs _ (Step.send (r := q) (d := 0) (t := x.1) (v := x.2) (n := .wk rest) false (by rw [h.proc q hq0, htd]; rfl) hb)
  refine ⟨hw, fun r => ?_⟩
  by_cases hr : 1 ≤ r ∧ r ≤ W
  · exact hC.stop m todo h.inv hw r hr.1 hr.2
  · exact h.outside r hr

/-- Every execution is finite; an execution that cannot go on has ended, with nothing left and the
master in a final state satisfying its invariant. -/
theorem Coll.run_ok (hC : Coll W want P) {msgs : Nat → List (Nat × V)} {m0 : M}
    (hP : P m0 (fun r => if 1 ≤ r ∧ r ≤ W then msgs r else [])) {n : Nat} {s : St (CPc M V) V}
    (h : Steps (cact want) n (cinit W msgs m0) s) :
    n ≤ ∑ r ∈ Icc 1 W, 2 * (msgs r).length ∧ (Stuck (cact want) s → Final (cact want) s ∧
      ∃ m, s.proc 0 = .ms m ∧ want m = none ∧ P m (fun _ => [])) := by
  set td : Nat → List (Nat × V) := fun r => if 1 ≤ r ∧ r ≤ W then msgs r else [] with htd
  have h0 : CInv W P (cinit W msgs m0) m0 td td := by
    refine ⟨rfl, fun r hr => ?_, fun r hr => ?_, fun r hr => if_neg hr, fun _ _ _ => rfl, rfl, fun _ _ h => by simp [cinit] at h, hP⟩
    · simp only [cinit, if_neg hr, htd]
      by_cases hrW : r ≤ W
      · rw [if_pos hrW, if_pos ⟨by omega, hrW⟩]
      · rw [if_neg hrW, if_neg (by omega)]
    · simp [cinit, strip]
  obtain ⟨μ, ⟨m, u, t, hI, hμ⟩, hle⟩ := Steps.measure
    (I := fun s μ => ∃ m u t, CInv W P s m u t ∧ μ = cweight W s u)
    (fun s μ s' ⟨m, u, t, hI, hμ⟩ hs => by
      obtain ⟨m', u', t', hI', hlt⟩ := hI.step hC hs
      exact ⟨_, ⟨m', u', t', hI', rfl⟩, by rw [hμ]; exact hlt⟩) ⟨m0, td, td, h0, rfl⟩ h
  refine ⟨?_, fun hs => ?_⟩
  · have : cweight W (cinit W msgs m0) td = ∑ r ∈ Icc 1 W, 2 * (msgs r).length := Finset.sum_congr rfl fun r hr => by
      rw [Finset.mem_Icc] at hr
      simp [cinit, htd, hr.1, hr.2]
    omega
  · obtain ⟨hw, hz⟩ := hI.progress hC hs
    have hz' : ∀ r, r ≠ 0 → s.chan r 0 = [] ∧ u r = [] := fun r hr => by
      have := hI.rest r hr
      rw [hz r, List.append_eq_nil_iff] at this
      exact ⟨by simpa [strip] using this.1, this.2⟩
    have ht : t = fun _ => [] := funext hz
    refine ⟨⟨fun r => ?_, fun r => ?_, fun q r => ?_⟩, m, hI.proc0, hw, by rw [← ht]; exact hI.inv⟩
    · by_cases hr : r = 0
      · subst hr; rw [hI.proc0]; simp [cact, hw]
      · rw [hI.proc r hr, (hz' r hr).2]; rfl
    · by_cases hr : r = 0
      · subst hr; exact hI.blk0
      · by_contra hb
        obtain ⟨x, hx, _⟩ := hI.blk r hr (by simpa using hb)
        rw [(hz' r hr).1] at hx
        simp at hx
    · by_cases hqr : 1 ≤ q ∧ r = 0
      · rw [hqr.2]; exact (hz' q (by omega)).1
      · exact hI.empty q r hqr

end Verif.Mpi
