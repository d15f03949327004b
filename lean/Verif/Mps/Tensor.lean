import Mathlib.Algebra.BigOperators.Group.Finset.Basic
import Mathlib.Algebra.BigOperators.Ring.Finset
import Mathlib.Algebra.BigOperators.Group.Finset.Piecewise
import Mathlib.Algebra.Star.BigOperators
import Mathlib.Data.Fintype.BigOperators
import Mathlib.Data.List.Chain
import Mathlib.Tactic.Ring
/-
Local tensors of a matrix product state and the amplitudes they represent.

A local tensor has three legs (left bond, physical, right bond), the picture at finite_mps.h:45-49. It is
stored as one matrix per physical state. The block-sparse storage and quantum-number bookkeeping of
QLTensor, and fermionic signs, are not modelled: only the dense values are. The physical space is the
same type `σ` on every site (for non-uniform spaces take the largest one and pad with zeros).
-/
namespace Verif.Mps
open Finset

/-- A local MPS tensor: left dimension, right dimension, and the entries `v s a b` with `a < l`, `b < r`
(finite_mps.h:39-54). Entries outside the dimensions are never used. -/
structure Ten (σ K : Type) where
  l : Nat
  r : Nat
  v : σ → Nat → Nat → K

/-- A two-leg tensor (the `r` of a QR, or `u*s`). -/
abbrev Mat (K : Type) := Nat → Nat → K

section
variable {σ K : Type} [CommRing K]

/-- The amplitude `∑ A_1^{s_1}[a,k_1] A_2^{s_2}[k_1,k_2] ⋯ A_N^{s_N}[k_{N-1},b]` of a chain. Specification. -/
def amp : List (Ten σ K) → List σ → Nat → Nat → K
  | [], _, a, b => if a = b then 1 else 0
  | _ :: _, [], _, _ => 0
  | t :: ts, s :: ss, a, b => ∑ k ∈ range t.r, t.v s a k * amp ts ss k b

/-- Neighbouring tensors share the dimension of their common bond. Specification. -/
def Linked (ts : List (Ten σ K)) : Prop := ts.IsChain (fun t u => t.r = u.l)

/-- Left dimension of a chain. -/
def headL : List (Ten σ K) → Nat
  | [] => 0
  | t :: _ => t.l

/-- Exchange of the two bond legs: `Transpose({2, 1, 0})` (finite_mps.h:260, 263, 324). -/
def Ten.tr (t : Ten σ K) : Ten σ K := ⟨t.r, t.l, fun s a b => t.v s b a⟩

/-- `Contract(&r, next, {{1}, {0}})` (finite_mps.h:206): a matrix with `d` rows absorbed from the left. -/
def mulL (R : Mat K) (d : Nat) (u : Ten σ K) : Ten σ K :=
  ⟨d, u.r, fun s j m => ∑ k ∈ range u.l, R j k * u.v s k m⟩

/-- `Contract(prev, &r, {{2}, {1}})` (finite_mps.h:266): the second leg of `r` absorbed from the right. -/
def mulRT (t : Ten σ K) (R : Mat K) (d : Nat) : Ten σ K :=
  ⟨t.l, d, fun s a j => ∑ k ∈ range t.r, t.v s a k * R j k⟩

/-- `Contract(prev, &temp_ten, {{2}, {0}})` (finite_mps.h:255-256): the first leg absorbed. -/
def mulR (t : Ten σ K) (M : Mat K) (d : Nat) : Ten σ K :=
  ⟨t.l, d, fun s a j => ∑ k ∈ range t.r, t.v s a k * M k j⟩

/-- Left-canonical: `∑_s A_s† A_s = 1`. Specification. -/
def LeftIso [StarRing K] [Fintype σ] (t : Ten σ K) : Prop :=
  ∀ x, x < t.r → ∀ y, y < t.r →
    ∑ s, ∑ a ∈ range t.l, star (t.v s a x) * t.v s a y = if x = y then 1 else 0

/-- Right-canonical: `∑_s A_s A_s† = 1`. Specification. -/
def RightIso [StarRing K] [Fintype σ] (t : Ten σ K) : Prop :=
  ∀ x, x < t.l → ∀ y, y < t.l →
    ∑ s, ∑ b ∈ range t.r, t.v s x b * star (t.v s y b) = if x = y then 1 else 0

/-- What the code relies on from `QR(t, 2, div, &q, &r)` of the tensor library: `t = q·r` and `q` is an
isometry on its new bond. The routine itself is external; the theorems hold for every function meeting this. -/
structure QRSpec [StarRing K] [Fintype σ] (qr : Ten σ K → Ten σ K × Mat K) : Prop where
  dim : ∀ t, (qr t).1.l = t.l
  fac : ∀ t s a b, a < t.l → b < t.r →
    t.v s a b = ∑ j ∈ range (qr t).1.r, (qr t).1.v s a j * (qr t).2 j b
  iso : ∀ t, LeftIso (qr t).1

/-- What the code relies on from `SVD(t, 1, …, &u, &s, &vt)` (no truncation): `t = (u s)·vt` with `vt` a
right isometry. The pair is (`vt`, `u·s`). -/
structure SVDSpec [StarRing K] [Fintype σ] (svd : Ten σ K → Ten σ K × Mat K) : Prop where
  dim : ∀ t, (svd t).1.r = t.r
  fac : ∀ t s a b, a < t.l → b < t.r →
    t.v s a b = ∑ j ∈ range (svd t).1.l, (svd t).2 a j * (svd t).1.v s j b
  iso : ∀ t, RightIso (svd t).1

theorem amp_cons (t : Ten σ K) (ts : List (Ten σ K)) (s : σ) (ss : List σ) (a b : Nat) :
    amp (t :: ts) (s :: ss) a b = ∑ k ∈ range t.r, t.v s a k * amp ts ss k b := rfl

theorem linked_cons {t : Ten σ K} {ts : List (Ten σ K)} (h : Linked (t :: ts)) : Linked ts := by
  unfold Linked at *
  cases ts with
  | nil => exact List.IsChain.nil
  | cons u us => exact (List.isChain_cons_cons.mp h).2

theorem linked_head {t u : Ten σ K} {ts : List (Ten σ K)} (h : Linked (t :: u :: ts)) : t.r = u.l :=
  (List.isChain_cons_cons.mp h).1

theorem linked_mk {t u : Ten σ K} {ts : List (Ten σ K)} (h : t.r = u.l) (h' : Linked (u :: ts)) :
    Linked (t :: u :: ts) := List.isChain_cons_cons.mpr ⟨h, h'⟩

/-- Replace two neighbours. -/
def set2 (ts : List (Ten σ K)) (i : Nat) (p q : Ten σ K) : List (Ten σ K) := (ts.set i p).set (i + 1) q

/-- Two pairs of neighbouring tensors represent the same two-site block. -/
def SamePair (t u p q : Ten σ K) : Prop :=
  ∀ s s' a b, a < t.l → b < u.r →
    ∑ k ∈ range t.r, t.v s a k * u.v s' k b = ∑ k ∈ range p.r, p.v s a k * q.v s' k b

theorem amp_set2 {t u p q : Ten σ K} (hq : q.r = u.r) (hs : SamePair t u p q) :
    ∀ (i : Nat) (ts : List (Ten σ K)), ts[i]? = some t → ts[i + 1]? = some u → Linked ts →
      ∀ ss a b, a < headL ts → amp (set2 ts i p q) ss a b = amp ts ss a b := by
  intro i
  induction i with
  | zero =>
    intro ts h0 h1 hl ss a b ha
    match ts, h0, h1 with
    | t' :: u' :: rest, h0, h1 =>
      simp at h0 h1; subst h0 h1
      match ss with
      | [] => simp [set2, amp]
      | [s] => simp [set2, amp]
      | s :: s' :: ss' =>
        simp only [set2, List.set_cons_zero, List.set_cons_succ, amp_cons, Finset.mul_sum, hq]
        rw [Finset.sum_comm, Finset.sum_comm (s := range t'.r)]
        refine Finset.sum_congr rfl fun m hm => ?_
        have := hs s s' a m ha (by simpa using hm)
        simp only [← mul_assoc, ← Finset.sum_mul, this]
  | succ i ih =>
    intro ts h0 h1 hl ss a b ha
    match ts, h0, h1 with
    | t0 :: ts', h0, h1 =>
      simp only [List.getElem?_cons_succ] at h0 h1
      match ss with
      | [] => simp [set2, amp]
      | s :: ss' =>
        have e : set2 (t0 :: ts') (i + 1) p q = t0 :: set2 ts' i p q := by simp [set2]
        rw [e, amp_cons, amp_cons]
        refine Finset.sum_congr rfl fun k hk => ?_
        rw [ih ts' h0 h1 (linked_cons hl) ss' k b]
        match ts', h0 with
        | u0 :: r, _ =>
          have := linked_head hl
          simp only [headL, ← this]; simpa using hk

theorem linked_set2 {t u p q : Ten σ K} (hp : p.l = t.l) (hpq : p.r = q.l) (hq : q.r = u.r) :
    ∀ (i : Nat) (ts : List (Ten σ K)), ts[i]? = some t → ts[i + 1]? = some u → Linked ts →
      Linked (set2 ts i p q) ∧ headL (set2 ts i p q) = headL ts := by
  intro i
  induction i with
  | zero =>
    intro ts h0 h1 hl
    match ts, h0, h1 with
    | t' :: u' :: rest, h0, h1 =>
      simp at h0 h1; subst h0 h1
      refine ⟨?_, hp⟩
      simp only [set2, List.set_cons_zero, List.set_cons_succ]
      refine linked_mk hpq ?_
      match rest, linked_cons hl with
      | [], _ => exact List.IsChain.singleton _
      | w :: ws, h => exact linked_mk (by rw [hq]; exact linked_head h) (linked_cons h)
  | succ i ih =>
    intro ts h0 h1 hl
    match ts, h0, h1 with
    | t0 :: ts', h0, h1 =>
      simp only [List.getElem?_cons_succ] at h0 h1
      have e : set2 (t0 :: ts') (i + 1) p q = t0 :: set2 ts' i p q := by simp [set2]
      obtain ⟨h, hh⟩ := ih ts' h0 h1 (linked_cons hl)
      rw [e]
      refine ⟨?_, rfl⟩
      match ts', h0 with
      | u0 :: r, _ =>
        have h2 := linked_head hl
        match hx : set2 (u0 :: r) i p q, h, hh with
        | [], _, _ => exact List.IsChain.singleton _
        | y :: ys, h, hh => exact linked_mk (by simp only [headL] at hh; rw [hh]; exact h2) h

variable [StarRing K] [Fintype σ]

theorem samePair_qr {qr : Ten σ K → Ten σ K × Mat K} (H : QRSpec qr) (t u : Ten σ K) (h : t.r = u.l) :
    SamePair t u (qr t).1 (mulL (qr t).2 (qr t).1.r u) := by
  intro s s' a b ha hb
  simp only [mulL, Finset.mul_sum]
  rw [Finset.sum_comm, ← h]
  refine Finset.sum_congr rfl fun k hk => ?_
  rw [H.fac t s a k ha (by simpa using hk), Finset.sum_mul]
  exact Finset.sum_congr rfl fun j _ => by ring

theorem samePair_rq {qr : Ten σ K → Ten σ K × Mat K} (H : QRSpec qr) (t u : Ten σ K) (h : t.r = u.l) :
    SamePair t u (mulRT t (qr u.tr).2 (qr u.tr).1.r) (qr u.tr).1.tr := by
  intro s s' a b ha hb
  simp only [mulRT, Ten.tr, Finset.sum_mul]
  rw [Finset.sum_comm]
  refine Finset.sum_congr rfl fun k hk => ?_
  have := H.fac u.tr s' b k (by simpa [Ten.tr] using hb) (by simp only [Ten.tr]; rw [← h]; simpa using hk)
  simp only [Ten.tr] at this
  rw [this, Finset.mul_sum]
  exact Finset.sum_congr rfl fun j _ => by ring

theorem samePair_svd {svd : Ten σ K → Ten σ K × Mat K} (H : SVDSpec svd) (t u : Ten σ K) (h : t.r = u.l) :
    SamePair t u (mulR t (svd u).2 (svd u).1.l) (svd u).1 := by
  intro s s' a b ha hb
  simp only [mulR, Finset.sum_mul]
  rw [Finset.sum_comm]
  refine Finset.sum_congr rfl fun k hk => ?_
  rw [H.fac u s' k b (by rw [← h]; simpa using hk) hb, Finset.mul_sum]
  exact Finset.sum_congr rfl fun j _ => by ring

theorem rightIso_tr {q : Ten σ K} (h : LeftIso q) : RightIso q.tr := by
  intro x hx y hy
  have := h y hy x hx
  simp only [Ten.tr]
  rw [show (if x = y then (1 : K) else 0) = if y = x then 1 else 0 by simp [eq_comm]]
  rw [← this]
  exact Finset.sum_congr rfl fun s _ => Finset.sum_congr rfl fun b _ => by ring

end
end Verif.Mps
