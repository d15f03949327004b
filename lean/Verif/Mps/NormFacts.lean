import Verif.Mps.MeasureLoop
import Verif.Mps.FmpoHist
/-
The norm of a chain whose tensors are isometries on both sides of one site is the norm of the tensor at that site.
-/
namespace Verif.Mps
open Finset
variable {τ K : Type} [CommRing K] [StarRing K] [Fintype τ]

/-- The squared norm of the state of a chain with trivial outer bonds. -/
def chainSq (ts : List (Ten τ K)) : K :=
  ∑ s : Fin ts.length → τ, amp ts (List.ofFn s) 0 0 * star (amp ts (List.ofFn s) 0 0)

theorem chainSq_expval [DecidableEq τ] {ts : List (Ten τ K)} (h1 : headL ts = 1) (h2 : lastR ts = 1) :
    chainSq ts = expval ts (fun _ => idOp) := by
  unfold expval chainSq
  simp only [h1, h2, sum_range_one]
  refine sum_congr rfl fun s _ => ?_
  rw [Finset.sum_eq_single s]
  · rw [prod_idOp, if_pos rfl, mul_one]
  · intro s' _ h; rw [prod_idOp, if_neg (Ne.symm h)]; simp
  · intro h; exact absurd (mem_univ s) h

theorem chainSq_center [DecidableEq τ] {ts : List (Ten τ K)} (h1 : headL ts = 1) (h2 : lastR ts = 1) (hl : Linked ts)
    {i : Nat} {t : Ten τ K} (ht : ts[i]? = some t) (hL : ∀ j u, j < i → ts[j]? = some u → LeftIso u)
    (hR : ∀ j u, i < j → ts[j]? = some u → RightIso u) : chainSq ts = normSq t := by
  have hi := (List.getElem?_eq_some_iff.mp ht).1
  rw [chainSq_expval h1 h2, expval_at hl (h := i) (k := 1) (by omega) (by omega) hL (fun j u hj => hR j u (by omega)) _
    (fun _ _ => rfl) (fun _ _ => rfl), drop_take_one ht]
  show trc (lastR [t]) (xl t t idOp del) = _
  unfold trc xl normSq del idOp
  rw [show lastR [t] = t.r by simp [lastR], sum_comm]
  rw [sum_comm (s := univ)]
  refine sum_congr rfl fun a ha => ?_
  rw [sum_comm (s := univ)]
  refine sum_congr rfl fun b hb => ?_
  rw [Finset.sum_eq_single a]
  · refine sum_congr rfl fun s _ => ?_
    rw [Finset.sum_eq_single s]
    · simp
    · intro s' _ h; simp [Ne.symm h]
    · intro h; exact absurd (mem_univ s) h
  · intro a' _ h; simp [Ne.symm h]
  · intro h; exact absurd ha h

end Verif.Mps
