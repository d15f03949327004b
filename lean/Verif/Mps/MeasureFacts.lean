import Verif.Mps.Xfer
import Verif.Mps.Measure
import Verif.Mps.RevFacts
/-
Lemmas on the measurement functions: the local contractions are transfers, and a chain in canonical form
reduces to the measured block.
-/
namespace Verif.Mps
open Finset

section
variable {σ K : Type} [CommRing K] [StarRing K] [Fintype σ]

/-- Trace over the first `d` indices. -/
def trc (d : Nat) (E : Mat K) : K := ∑ b ∈ range d, E b b

omit [StarRing K] [Fintype σ] in
theorem pair_del_right (d : Nat) (E : Mat K) : pair d d E del = trc d E := by
  unfold pair trc del
  refine sum_congr rfl fun a ha => ?_
  rw [Finset.sum_eq_single a]
  · simp
  · intro b _ hb; simp [Ne.symm hb]
  · intro h; exact absurd ha h

omit [StarRing K] [Fintype σ] in
theorem lastR_cons_cons (t u : Ten σ K) (ts : List (Ten σ K)) : lastR (t :: u :: ts) = lastR (u :: ts) := by
  simp [lastR]

omit [StarRing K] [Fintype σ] in
theorem lastR_append (l : List (Ten σ K)) (t : Ten σ K) : lastR (l ++ [t]) = t.r := by simp [lastR]

theorem lblk_append (E : Mat K) : ∀ (l l' : List (Ten σ K)) (O : Nat → σ → σ → K),
    lblk E (l ++ l') O = lblk (lblk E l O) l' (fun i => O (i + l.length)) := by
  intro l
  induction l generalizing E with
  | nil => intro l' O; simp [lblk]
  | cons t l ih =>
    intro l' O
    simp only [List.cons_append, lblk, ih, List.length_cons]
    rfl

omit [StarRing K] [Fintype σ] in
theorem linked_append_left {l l' : List (Ten σ K)} (h : Linked (l ++ l')) : Linked l := by
  unfold Linked at *; exact h.left_of_append

omit [StarRing K] [Fintype σ] in
theorem linked_append_right {l l' : List (Ten σ K)} (h : Linked (l ++ l')) : Linked l' := by
  unfold Linked at *; exact h.right_of_append

omit [StarRing K] [Fintype σ] in
theorem headL_append {l l' : List (Ten σ K)} (h : l ≠ []) : headL (l ++ l') = headL l := by
  cases l with
  | nil => exact absurd rfl h
  | cons t l => rfl

omit [StarRing K] [Fintype σ] in
theorem linked_mid {l l' : List (Ten σ K)} (h : Linked (l ++ l')) (hl : l ≠ []) (hl' : l' ≠ []) :
    lastR l = headL l' := by
  induction l with
  | nil => exact absurd rfl hl
  | cons t l ih =>
    cases l with
    | nil =>
      cases l' with
      | nil => exact absurd rfl hl'
      | cons u us => exact linked_head h
    | cons u us =>
      rw [lastR_cons_cons]
      exact ih (linked_cons h) (by simp)

/-- The expectation value is the trace of the full left block. -/
theorem expval_trc {ts : List (Ten σ K)} (O : Nat → σ → σ → K) (hl : Linked ts) (hne : ts ≠ []) :
    expval ts O = trc (lastR ts) (lblk del ts O) := by
  obtain ⟨l, t, rfl⟩ : ∃ l t, ts = l ++ [t] := ⟨ts.dropLast, ts.getLast hne, (List.dropLast_concat_getLast hne).symm⟩
  rw [expval_eq O hl hne, pair_cut l [t] O del hl (by simp), lastR_append, lblk_append]
  show pair t.l t.l _ (xr t t _ del) = trc t.r (xl t t _ _)
  rw [pair_xr, pair_del_right]

/-- Right isometries without operators contribute a trace. -/
theorem trc_right [DecidableEq σ] {X R : List (Ten σ K)} (O : Nat → σ → σ → K) (E : Mat K) (hl : Linked (X ++ R))
    (hX : X ≠ []) (hR : ∀ t ∈ R, RightIso t) (hO : ∀ i, i < R.length → O (i + X.length) = idOp) :
    trc (lastR (X ++ R)) (lblk E (X ++ R) O) = trc (lastR X) (lblk E X O) := by
  cases hr : R with
  | nil => simp
  | cons u us =>
    have hRn : R ≠ [] := by simp [hr]
    rw [← hr, lblk_append]
    obtain ⟨l, t, e⟩ : ∃ l t, R = l ++ [t] := ⟨R.dropLast, R.getLast hRn, (List.dropLast_concat_getLast hRn).symm⟩
    have k : ∀ (F : Mat K) (Q : Nat → σ → σ → K), trc (lastR R) (lblk F R Q) = pair (headL R) (headL R) F (rblk R Q) := by
      intro F Q
      have hlR := linked_append_right hl
      rw [e] at hlR ⊢
      rw [pair_cut l [t] Q F hlR (by simp), lastR_append, lblk_append]
      show trc t.r (xl t t _ _) = pair t.l t.l _ (xr t t _ del)
      rw [pair_xr, pair_del_right]
    have e2 : lastR (X ++ R) = lastR R := by rw [e, ← List.append_assoc, lastR_append, lastR_append]
    rw [e2, k, linked_mid hl hX hRn, ← pair_del_right]
    refine pair_congr (fun _ _ _ _ => rfl) ?_
    intro a ha a' ha'
    exact rblk_del R _ (linked_append_right hl) hR hO a ha a' ha'

/-- In canonical form only the block between the isometries matters. -/
theorem expval_block [DecidableEq σ] {L M R : List (Ten σ K)} (O : Nat → σ → σ → K) (hl : Linked (L ++ (M ++ R)))
    (hM : M ≠ []) (hL : ∀ t ∈ L, LeftIso t) (hR : ∀ t ∈ R, RightIso t)
    (h1 : ∀ i, i < L.length → O i = idOp) (h2 : ∀ i, L.length + M.length ≤ i → i < L.length + M.length + R.length → O i = idOp) :
    expval (L ++ (M ++ R)) O = trc (lastR M) (lblk del M (fun i => O (i + L.length))) := by
  rw [expval_trc O hl (by simp [hM])]
  have hMR : M ++ R ≠ [] := by simp [hM]
  have e0 : lastR (L ++ (M ++ R)) = lastR (M ++ R) := by
    obtain ⟨l, t, e⟩ : ∃ l t, M ++ R = l ++ [t] := ⟨(M ++ R).dropLast, (M ++ R).getLast hMR, (List.dropLast_concat_getLast hMR).symm⟩
    rw [e, ← List.append_assoc, lastR_append, lastR_append]
  rw [e0, lblk_append]
  have hd := lblk_del L (M ++ R) O hl hMR hL h1 del (fun _ _ _ _ => rfl)
  have e1 : lblk (lblk del L O) (M ++ R) (fun i => O (i + L.length)) =
      lblk del (M ++ R) (fun i => O (i + L.length)) := by
    cases hh : M ++ R with
    | nil => exact absurd hh hMR
    | cons t ts =>
      rw [hh] at hd
      simp only [lblk]
      rw [xl_congr t t _ (fun b hb b' hb' => hd b hb b' hb')]
  rw [e1]
  refine trc_right _ _ (linked_append_right hl) hM hR fun i hi => ?_
  exact h2 _ (by omega) (by omega)

theorem oneSiteAvg_eq (t : Ten σ K) (op : Op σ K) : oneSiteAvg t op = trc t.r (xl t t op del) := by
  unfold oneSiteAvg trc xl
  rw [Finset.sum_comm]
  refine sum_congr rfl fun b _ => sum_congr rfl fun a ha => ?_
  rw [Finset.sum_eq_single (s := range t.l) a]
  · rw [Finset.sum_comm]
    refine sum_congr rfl fun s' _ => ?_
    rw [Finset.sum_mul]
    exact sum_congr rfl fun s _ => by simp [del]
  · intro a' _ hne; simp [del, Ne.symm hne]
  · intro h; exact absurd ha h

theorem headSite_eq (t : Ten σ K) (op : Op σ K) : headSite t op = xl t t op del := by
  funext b b'
  unfold headSite xl
  refine sum_congr rfl fun a ha => ?_
  rw [Finset.sum_eq_single (s := range t.l) a]
  · rw [Finset.sum_comm]
    refine sum_congr rfl fun s' _ => ?_
    rw [Finset.sum_mul]
    exact sum_congr rfl fun s _ => by simp [del]
  · intro a' _ hne; simp [del, Ne.symm hne]
  · intro h; exact absurd ha h

theorem xl_swap (t u : Ten σ K) (op : Op σ K) (E : Mat K) (b b' : Nat) :
    xl t u op E b b' = ∑ a' ∈ range u.l, ∑ s',
      (∑ s, (∑ a ∈ range t.l, t.v s a b * E a a') * op s s') * star (u.v s' a' b') := by
  unfold xl
  rw [Finset.sum_comm]
  refine sum_congr rfl fun a' _ => ?_
  rw [Finset.sum_congr rfl fun a _ => Finset.sum_comm, Finset.sum_comm]
  refine sum_congr rfl fun s' _ => ?_
  rw [Finset.sum_comm, Finset.sum_mul]
  refine sum_congr rfl fun s _ => ?_
  rw [Finset.sum_mul, Finset.sum_mul]
  exact sum_congr rfl fun a _ => by ring

theorem tailSite_eq (t : Ten σ K) (op : Op σ K) (E : Mat K) : tailSite t op E = trc t.r (xl t t op E) := by
  unfold tailSite trc
  exact sum_congr rfl fun b _ => (xl_swap t t op E b b).symm

theorem innerStep_eq [DecidableEq σ] (t u : Ten σ K) (E : Mat K) : innerStep t u E = xl t u idOp E := by
  funext b b'
  rw [xl_id]
  unfold innerStep
  rw [Finset.sum_comm (s := range t.l)]
  refine sum_congr rfl fun a' _ => ?_
  rw [Finset.sum_comm]
  refine sum_congr rfl fun s _ => ?_
  rw [Finset.sum_mul]
  exact sum_congr rfl fun a _ => by ring

variable [DecidableEq σ] [DecidableEq K]

theorem midSite_eq (t : Ten σ K) (op : Op σ K) (E : Mat K) : midSite t op siteId E = xl t t op E := by
  unfold midSite
  split
  · rename_i h
    funext b b'
    rw [h]
    rw [show (siteId : Op σ K) = idOp from rfl, xl_id, Finset.sum_comm (s := univ) (t := range t.l), Finset.sum_comm (s := range t.l) (t := range t.l)]
    refine sum_congr rfl fun a' _ => ?_
    rw [Finset.sum_comm]
    refine sum_congr rfl fun s _ => ?_
    rw [Finset.sum_mul]
    exact sum_congr rfl fun a _ => by ring
  · funext b b'
    rw [xl_swap]

omit [StarRing K] [Fintype σ] [DecidableEq σ] [DecidableEq K] in
theorem read_ok {m : FMps σ K} {i : Nat} {t : Ten σ K} (h : m.slots[i]? = some (some t)) : m.read i = .ok t := by
  unfold FMps.read; rw [h]

/-- The middle loop and tail give the trace of the left block. -/
theorem midTail_eq (m : FMps σ K) : ∀ (M : List (Ten σ K)) (i : Nat) (ops : List (Op σ K)) (E : Mat K)
    (O : Nat → σ → σ → K), M ≠ [] → M.length = ops.length → Linked M →
    (∀ j t, M[j]? = some t → m.slots[i + j]? = some (some t)) → (∀ (j : Nat) (o : Op σ K), ops[j]? = some o → O j = o) →
    midTail m i ops (headL M) E = .ok (trc (lastR M) (lblk E M O))
  | [t], i, [op], E, O, _, _, _, hm, hO => by
    have h0 : m.slots[i]? = some (some t) := hm 0 t rfl
    have := hO 0 op rfl
    simp only [midTail, read_ok h0, headL, lastR, lblk, this, tailSite_eq]
    exact if_pos rfl
  | t :: u :: M, i, op :: op' :: ops, E, O, _, hlen, hl, hm, hO => by
    have h0 : m.slots[i]? = some (some t) := hm 0 t rfl
    have h1 := hO 0 op rfl
    have ih := midTail_eq m (u :: M) (i + 1) (op' :: ops) (xl t t op E) (fun i => O (i + 1)) (by simp)
      (by simpa using hlen) (linked_cons hl)
      (fun j w hj => by rw [show i + 1 + j = i + (j + 1) by omega]; exact hm (j + 1) w (by simpa using hj))
      (fun j o hj => hO (j + 1) o (by simpa using hj))
    simp only [midTail, read_ok h0, headL, midSite_eq]
    show (if t.l = t.l then midTail m (i + 1) (op' :: ops) t.r (xl t t op E) else _) = _
    rw [if_pos rfl, lastR_cons_cons, lblk, h1, ← ih]
    rw [linked_head hl]; rfl

/-- `OpsVecAvg` on a block of at least two sites. -/
theorem opsVecAvg_eq (m : FMps σ K) {M : List (Ten σ K)} {ops : List (Op σ K)} {h : Nat} {O : Nat → σ → σ → K}
    (h2 : 2 ≤ M.length) (hlen : M.length = ops.length) (hl : Linked M)
    (hm : ∀ j t, M[j]? = some t → m.slots[h + j]? = some (some t))
    (hO : ∀ (j : Nat) (o : Op σ K), ops[j]? = some o → O j = o) :
    opsVecAvg m ops h = .ok (trc (lastR M) (lblk del M O)) := by
  match M, ops, h2, hlen with
  | t :: u :: M, op :: op' :: ops, _, hlen =>
    have h0 := hm 0 t rfl
    have h1 := hO 0 op rfl
    have ih := midTail_eq m (u :: M) (h + 1) (op' :: ops) (xl t t op del) (fun i => O (i + 1)) (by simp)
      (by simpa using hlen) (linked_cons hl)
      (fun j w hj => by rw [show h + 1 + j = h + (j + 1) by omega]; exact hm (j + 1) w (by simpa using hj))
      (fun j o hj => hO (j + 1) o (by simpa using hj))
    have h0' : m.slots[h]? = some (some t) := h0
    simp only [opsVecAvg, read_ok h0', headSite_eq]
    show midTail m (h + 1) (op' :: ops) t.r (xl t t op del) = _
    rw [lastR_cons_cons, lblk, h1, ← ih, linked_head hl]; rfl

end
end Verif.Mps
