import Verif.Mps.FmpsFacts
import Mathlib.Algebra.BigOperators.Fin
import Mathlib.Data.Fin.Tuple.Basic
import Mathlib.Data.List.OfFn
import Mathlib.Algebra.BigOperators.GroupWithZero.Finset
/-
Transfer-matrix algebra: expectation values of product operators as sums over configurations, and their
evaluation site by site.
-/
namespace Verif.Mps
open Finset

variable {σ K : Type} [CommRing K] [StarRing K] [Fintype σ]

/-- The identity operator. -/
def idOp [DecidableEq σ] : σ → σ → K := fun s s' => if s = s' then 1 else 0

/-- `⟨ψ| ∏ O_i |ψ⟩` written out over configurations: `∑ ψ(s) ∏ O_i(s_i, s'_i) conj ψ(s')`, traced over the outer
bonds (which have dimension one for a physical state). Specification. -/
def expval (ts : List (Ten σ K)) (O : Nat → σ → σ → K) : K :=
  ∑ a ∈ range (headL ts), ∑ b ∈ range (lastR ts), ∑ s : Fin ts.length → σ, ∑ s' : Fin ts.length → σ,
    amp ts (List.ofFn s) a b * (∏ i : Fin ts.length, O i (s i) (s' i)) * star (amp ts (List.ofFn s') a b)

/-- Block sum between two chains with all four outer indices fixed. -/
def blk (ts us : List (Ten σ K)) (O : Nat → σ → σ → K) (b b' a a' : Nat) : K :=
  ∑ s : Fin ts.length → σ, ∑ s' : Fin ts.length → σ,
    amp ts (List.ofFn s) a b * (∏ i : Fin ts.length, O i (s i) (s' i)) * star (amp us (List.ofFn s') a' b')

/-- Left transfer. -/
def xl (t u : Ten σ K) (o : σ → σ → K) (E : Mat K) : Mat K := fun b b' =>
  ∑ a ∈ range t.l, ∑ a' ∈ range u.l, ∑ s, ∑ s', E a a' * (t.v s a b * o s s' * star (u.v s' a' b'))

/-- Right transfer. -/
def xr (t u : Ten σ K) (o : σ → σ → K) (F : Mat K) : Mat K := fun a a' =>
  ∑ b ∈ range t.r, ∑ b' ∈ range u.r, ∑ s, ∑ s', (t.v s a b * o s s' * star (u.v s' a' b')) * F b b'

/-- Pairing of a left and a right block. -/
def pair (d d' : Nat) (E F : Mat K) : K := ∑ a ∈ range d, ∑ a' ∈ range d', E a a' * F a a'

/-- Identity matrix. -/
def del : Mat K := fun a b => if a = b then 1 else 0

omit [CommRing K] [StarRing K] [Fintype σ] in
theorem sum_cons {M : Type} [AddCommMonoid M] [Fintype σ] (n : Nat) (f : (Fin (n + 1) → σ) → M) :
    ∑ s, f s = ∑ x, ∑ s : Fin n → σ, f (Fin.cons x s) := by
  rw [← (Fin.consEquiv (fun _ => σ)).sum_comp, Fintype.sum_prod_type]
  rfl

theorem pull4 {M A B C D : Type} [AddCommMonoid M] [Fintype A] [Fintype B] [Fintype C] [Fintype D] (R : Finset Nat)
    (f : A → B → C → D → Nat → M) :
    (∑ x, ∑ s, ∑ x', ∑ s', ∑ k ∈ R, f x s x' s' k) = ∑ k ∈ R, ∑ x, ∑ s, ∑ x', ∑ s', f x s x' s' k :=
  (sum_congr rfl fun _ _ => (sum_congr rfl fun _ _ => (sum_congr rfl fun _ _ => sum_comm).trans
    sum_comm).trans sum_comm).trans sum_comm

theorem blk_cons (t u : Ten σ K) (ts us : List (Ten σ K)) (O : Nat → σ → σ → K) (b b' a a' : Nat) :
    blk (t :: ts) (u :: us) O b b' a a' = xr t u (O 0) (blk ts us (fun i => O (i + 1)) b b') a a' := by
  unfold blk xr
  simp only [List.length_cons]
  rw [sum_cons]
  simp_rw [sum_cons (ts.length) (fun s' => _)]
  simp only [Fin.prod_univ_succ, Fin.cons_zero, Fin.cons_succ, List.ofFn_cons, amp_cons, star_sum, star_mul',
    Fin.val_zero, Fin.val_succ]
  simp only [Finset.sum_mul, Finset.mul_sum]
  rw [pull4, Finset.sum_congr rfl fun k _ => pull4 _ _, Finset.sum_comm]
  refine sum_congr rfl fun k _ => sum_congr rfl fun k' _ => sum_congr rfl fun x _ => ?_
  rw [Finset.sum_comm]
  refine sum_congr rfl fun x' _ => sum_congr rfl fun s _ => sum_congr rfl fun s' _ => ?_
  ring

theorem blk_nil (us : List (Ten σ K)) (hu : us = []) (O : Nat → σ → σ → K) (b b' a a' : Nat) :
    blk [] us O b b' a a' = (if a = b then 1 else 0) * (if a' = b' then 1 else 0) := by
  subst hu
  by_cases h1 : a = b <;> by_cases h2 : a' = b' <;> simp [blk, amp, h1, h2]

omit [Fintype σ] [StarRing K] in
theorem pair_congr {d d' : Nat} {E E' F F' : Mat K}
    (h : ∀ a, a < d → ∀ a', a' < d' → E a a' = E' a a') (h' : ∀ a, a < d → ∀ a', a' < d' → F a a' = F' a a') :
    pair d d' E F = pair d d' E' F' :=
  sum_congr rfl fun a ha => sum_congr rfl fun a' ha' => by
    rw [h a (by simpa using ha) a' (by simpa using ha'), h' a (by simpa using ha) a' (by simpa using ha')]

/-- The two transfers are dual. -/
theorem pair_xr (t u : Ten σ K) (o : σ → σ → K) (E F : Mat K) :
    pair t.l u.l E (xr t u o F) = pair t.r u.r (xl t u o E) F := by
  unfold pair xr xl
  simp only [Finset.sum_mul, Finset.mul_sum]
  have sw : ∀ (f : Nat → Nat → Nat → Nat → σ → σ → K),
      (∑ a ∈ range t.l, ∑ a' ∈ range u.l, ∑ b ∈ range t.r, ∑ b' ∈ range u.r, ∑ s, ∑ s', f a a' b b' s s') =
      ∑ b ∈ range t.r, ∑ b' ∈ range u.r, ∑ a ∈ range t.l, ∑ a' ∈ range u.l, ∑ s, ∑ s', f a a' b b' s s' := by
    intro f
    rw [Finset.sum_congr rfl fun a _ => Finset.sum_comm, Finset.sum_comm]
    refine Finset.sum_congr rfl fun b _ => ?_
    rw [Finset.sum_congr rfl fun a _ => Finset.sum_comm, Finset.sum_comm]
  rw [sw]
  refine sum_congr rfl fun b _ => sum_congr rfl fun b' _ => sum_congr rfl fun a _ => sum_congr rfl fun a' _ =>
    sum_congr rfl fun s _ => sum_congr rfl fun s' _ => ?_
  ring

theorem xr_congr (t u : Ten σ K) (o : σ → σ → K) {F F' : Mat K}
    (h : ∀ b, b < t.r → ∀ b', b' < u.r → F b b' = F' b b') : xr t u o F = xr t u o F' := by
  funext a a'
  unfold xr
  exact sum_congr rfl fun b hb => sum_congr rfl fun b' hb' => by
    rw [h b (by simpa using hb) b' (by simpa using hb')]

theorem xl_congr (t u : Ten σ K) (o : σ → σ → K) {E E' : Mat K}
    (h : ∀ b, b < t.l → ∀ b', b' < u.l → E b b' = E' b b') : xl t u o E = xl t u o E' := by
  funext a a'
  unfold xl
  exact sum_congr rfl fun b hb => sum_congr rfl fun b' hb' => by
    rw [h b (by simpa using hb) b' (by simpa using hb')]

section iso
variable [DecidableEq σ]

theorem xl_id (t u : Ten σ K) (E : Mat K) (b b' : Nat) :
    xl t u idOp E b b' = ∑ a ∈ range t.l, ∑ a' ∈ range u.l, ∑ s, E a a' * (t.v s a b * star (u.v s a' b')) := by
  unfold xl idOp
  exact sum_congr rfl fun a _ => sum_congr rfl fun a' _ => sum_congr rfl fun s _ => by simp

theorem xr_id (t u : Ten σ K) (F : Mat K) (a a' : Nat) :
    xr t u idOp F a a' = ∑ b ∈ range t.r, ∑ b' ∈ range u.r, ∑ s, (t.v s a b * star (u.v s a' b')) * F b b' := by
  unfold xr idOp
  exact sum_congr rfl fun a _ => sum_congr rfl fun a' _ => sum_congr rfl fun s _ => by simp

/-- A left isometry passes the identity on from left to right. -/
theorem xl_del {t : Ten σ K} (h : LeftIso t) (b b' : Nat) (hb : b < t.r) (hb' : b' < t.r) :
    xl t t idOp del b b' = del b b' := by
  rw [xl_id]
  have := h b' hb' b hb
  unfold del
  rw [show (if b = b' then (1 : K) else 0) = if b' = b then 1 else 0 by simp [eq_comm], ← this, Finset.sum_comm (s := univ)]
  refine sum_congr rfl fun a ha => ?_
  rw [Finset.sum_eq_single a]
  · exact sum_congr rfl fun s _ => by simp [mul_comm]
  · intro a' _ hne; simp [Ne.symm hne]
  · intro hn; exact absurd ha hn

/-- A right isometry passes the identity on from right to left. -/
theorem xr_del {t : Ten σ K} (h : RightIso t) (a a' : Nat) (ha : a < t.l) (ha' : a' < t.l) :
    xr t t idOp del a a' = del a a' := by
  rw [xr_id]
  have := h a ha a' ha'
  unfold del
  rw [← this, Finset.sum_comm (s := univ)]
  refine sum_congr rfl fun b hb => ?_
  rw [Finset.sum_eq_single b]
  · exact sum_congr rfl fun s _ => by simp
  · intro a' _ hne; simp [Ne.symm hne]
  · intro hn; exact absurd hb hn
end iso

/-- Right block of a chain contracted with the identity at its right end. -/
def rblk : List (Ten σ K) → (Nat → σ → σ → K) → Mat K
  | [], _ => del
  | t :: ts, O => xr t t (O 0) (rblk ts (fun i => O (i + 1)))

theorem xr_sum (t u : Ten σ K) (o : σ → σ → K) (R : Finset Nat) (F : Nat → Mat K) (a a' : Nat) :
    (∑ c ∈ R, xr t u o (F c) a a') = xr t u o (fun x y => ∑ c ∈ R, F c x y) a a' := by
  unfold xr
  simp only [Finset.mul_sum]
  rw [Finset.sum_comm]
  refine sum_congr rfl fun b _ => ?_
  rw [Finset.sum_comm]
  refine sum_congr rfl fun b' _ => ?_
  rw [Finset.sum_comm]
  refine sum_congr rfl fun s _ => ?_
  rw [Finset.sum_comm]

theorem rblk_eq : ∀ (ts : List (Ten σ K)) (O : Nat → σ → σ → K) (a a' : Nat), Linked ts → ts ≠ [] →
    rblk ts O a a' = ∑ b ∈ range (lastR ts), blk ts ts O b b a a'
  | [t], O, a, a', _, _ => by
    simp only [rblk, blk_cons]
    rw [xr_sum, xr_congr]
    intro b hb b' hb'
    have : lastR [t] = t.r := rfl
    rw [this]
    simp only [blk_nil _ rfl, del]
    rw [Finset.sum_eq_single b]
    · simp [eq_comm]
    · intro x _ hx; simp [Ne.symm hx]
    · intro hn; exact absurd (by simpa using hb) hn
  | t :: u :: ts, O, a, a', hl, _ => by
    have ih := rblk_eq (u :: ts) (fun i => O (i + 1)) 
    rw [rblk]
    simp only [blk_cons t t]
    have : lastR (t :: u :: ts) = lastR (u :: ts) := by simp [lastR]
    rw [this, xr_sum]
    exact congrFun (congrFun (xr_congr _ _ _ fun b _ b' _ => ih b b' (linked_cons hl) (by simp)) a) a'

theorem expval_eq {ts : List (Ten σ K)} (O : Nat → σ → σ → K) (hl : Linked ts) (hne : ts ≠ []) :
    expval ts O = pair (headL ts) (headL ts) del (rblk ts O) := by
  unfold expval pair
  refine sum_congr rfl fun a ha => ?_
  rw [Finset.sum_eq_single (s := range (headL ts)) a]
  · simp only [del, if_true, one_mul]
    rw [rblk_eq ts O a a hl hne]
    rfl
  · intro a' _ hne'; simp [del, Ne.symm hne']
  · intro hn; exact absurd ha hn

/-- Left block: fold of the left transfer. -/
def lblk (E : Mat K) : List (Ten σ K) → (Nat → σ → σ → K) → Mat K
  | [], _ => E
  | t :: ts, O => lblk (xl t t (O 0) E) ts (fun i => O (i + 1))

/-- The two ways of contracting a chain agree at every cut. -/
theorem pair_cut : ∀ (ls ts : List (Ten σ K)) (O : Nat → σ → σ → K) (E : Mat K), Linked (ls ++ ts) → ts ≠ [] →
    pair (headL (ls ++ ts)) (headL (ls ++ ts)) E (rblk (ls ++ ts) O) =
      pair (headL ts) (headL ts) (lblk E ls O) (rblk ts (fun i => O (i + ls.length)))
  | [], ts, O, E, _, _ => by simp [lblk]
  | t :: ls, ts, O, E, hl, hne => by
    rw [List.cons_append, rblk]
    show pair t.l t.l E _ = _
    rw [pair_xr, lblk]
    have hn : ls ++ ts ≠ [] := by simp [hne]
    have hd : t.r = headL (ls ++ ts) := by
      cases e : ls ++ ts with
      | nil => exact absurd e hn
      | cons u us => rw [List.cons_append, e] at hl; exact linked_head hl
    rw [hd, pair_cut ls ts (fun i => O (i + 1)) _ (linked_cons hl) hne]
    congr 2

variable [DecidableEq σ]

/-- Left isometries with identity operators leave the identity. -/
theorem lblk_del : ∀ (ls ts : List (Ten σ K)) (O : Nat → σ → σ → K), Linked (ls ++ ts) → ts ≠ [] →
    (∀ t ∈ ls, LeftIso t) → (∀ i, i < ls.length → O i = idOp) →
    ∀ (E : Mat K), (∀ a, a < headL (ls ++ ts) → ∀ a', a' < headL (ls ++ ts) → E a a' = del a a') →
    ∀ b, b < headL ts → ∀ b', b' < headL ts → lblk E ls O b b' = del b b'
  | [], ts, O, _, _, _, _, E, hE, b, hb, b', hb' => hE b hb b' hb'
  | t :: ls, ts, O, hl, hne, hi, hO, E, hE, b, hb, b', hb' => by
    have hn : ls ++ ts ≠ [] := by simp [hne]
    have hd : t.r = headL (ls ++ ts) := by
      cases e : ls ++ ts with
      | nil => exact absurd e hn
      | cons u us => rw [List.cons_append, e] at hl; exact linked_head hl
    rw [lblk]
    refine lblk_del ls ts (fun i => O (i + 1)) (linked_cons hl) hne (fun u hu => hi u (by simp [hu]))
      (fun i h => hO (i + 1) (by simpa using h)) _ ?_ b hb b' hb'
    intro a ha a' ha'
    rw [hO 0 (by simp), xl_congr t t idOp (E' := del) (fun x hx y hy => hE x hx y hy)]
    exact xl_del (hi t (by simp)) a a' (by rw [hd]; exact ha) (by rw [hd]; exact ha')

/-- Right isometries with identity operators leave the identity. -/
theorem rblk_del : ∀ (ts : List (Ten σ K)) (O : Nat → σ → σ → K), Linked ts →
    (∀ t ∈ ts, RightIso t) → (∀ i, i < ts.length → O i = idOp) →
    ∀ b, b < headL ts → ∀ b', b' < headL ts → rblk ts O b b' = del b b'
  | [], _, _, _, _, b, _, b', _ => rfl
  | t :: ts, O, hl, hi, hO, b, hb, b', hb' => by
    rw [rblk, hO 0 (by simp)]
    rw [xr_congr t t idOp (F' := del)]
    · exact xr_del (hi t (by simp)) b b' hb hb'
    · cases ts with
      | nil => intro _ _ _ _; rfl
      | cons u us =>
        have hd : t.r = u.l := linked_head hl
        intro x hx y hy
        exact rblk_del (u :: us) (fun i => O (i + 1)) (linked_cons hl) (fun w hw => hi w (by simp [hw]))
          (fun i h => hO (i + 1) (by simpa using h)) x (by rw [hd] at hx; exact hx) y (by rw [hd] at hy; exact hy)

end Verif.Mps
