import Verif.Mps.Inst
import Verif.Mps.CenterFacts
/-
Canonicalisation of a finite MPS: C14, C15, C17.

Specification vocabulary: `amp ts ss a b` is the amplitude of a chain of tensors for the basis state `ss`
(Verif/Mps/Tensor.lean), `LeftIso`/`RightIso` the two isometry conditions, `Linked` matching bonds.
-/
namespace Verif.Props
open Verif.Mps

/-- The canonical flags of an MPS of `n` sites with centre `t`: LEFT before, RIGHT after, NONE at `t`. -/
def mixedFlags (n t : Nat) : List Cano :=
  (List.range n).map (fun j => if j < t then .left else if t < j then .right else .none)

/-- Two chains represent the same state: same outer bonds and the same amplitude for every configuration. -/
def SameState {σ K : Type} [CommRing K] (ts ts' : List (Ten σ K)) : Prop :=
  ts'.length = ts.length ∧ headL ts' = headL ts ∧ lastR ts' = lastR ts ∧
    ∀ ss a b, a < headL ts → amp ts' ss a b = amp ts ss a b

variable {σ K : Type} [CommRing K] [StarRing K] [Fintype σ]

/-- **C14.** After any history of calls that leaves a tensor in every slot (with matching bonds),
`Centralize(t)` succeeds for every site `t`; afterwards `GetCenter()` is `t`, the flags are exactly the
mixed-canonical ones, and the represented state is unchanged. Sites whose whole outer side was already
flagged canonical are not decomposed again. -/
theorem C14_centralize {qr svd : Ten σ K → Ten σ K × Mat K} (H : QRSpec qr) (H' : SVDSpec svd)
    {n : Nat} {cs : List (Call σ K)} {m : FMps σ K} (hist : FMps.history qr svd n cs = .ok m)
    {ts : List (Ten σ K)} (full : m.slots = ts.map some) (link : Linked ts) {t : Nat} (ht : t < n) :
    ∃ m' ts', FMps.history qr svd n (cs ++ [.centralize t]) = .ok m' ∧
      m'.center = t ∧ m'.flags = mixedFlags n t ∧
      m'.slots = ts'.map some ∧ Linked ts' ∧ SameState ts ts' ∧
      (∀ j, (∀ k, k ≤ j → m.flags[k]? = some .left) → j < t → ts'[j]? = ts[j]?) ∧
      (∀ j, (∀ k, j ≤ k → k < n → m.flags[k]? = some .right) → t < j → ts'[j]? = ts[j]?) := by
  obtain ⟨hi, hs⟩ := history_inv hist
  have hlen : ts.length = n := by rw [← hs]; simp [FMps.size, full]
  have hr : Rep m ts := ⟨full, by rw [hi.flen, full]; simp, link⟩
  obtain ⟨m', ts', e, r, q, c, f, u1, u2⟩ := centralize_rep H H' hr hi (t := t) (by omega)
  refine ⟨m', ts', ?_, c, ?_, r.slots, r.link, ⟨q.len, q.head, q.last, q.amp⟩, u1, by rwa [hlen] at u2⟩
  · unfold FMps.history at hist ⊢
    rw [List.foldlM_append, hist]
    have k2 : (m.call qr svd (.centralize t) >>= pure) = .ok m' := by
      rw [show m.call qr svd (.centralize t) = .ok m' from e]; rfl
    exact k2
  · apply List.ext_getElem?
    intro j
    by_cases hj : j < n
    · rw [f j (by omega)]; simp [mixedFlags, hj]
    · rw [List.getElem?_eq_none (by rw [r.flen, q.len]; omega),
        List.getElem?_eq_none (by simp [mixedFlags]; omega)]

/-- **C14, C15.** If in addition no tensor was replaced by `LoadTen`, every tensor left of the centre really is
a left isometry and every tensor right of it a right isometry: the MPS is in mixed canonical form. -/
theorem C14_canonical_form {qr svd : Ten σ K → Ten σ K × Mat K} (H : QRSpec qr) (H' : SVDSpec svd)
    {n : Nat} {cs : List (Call σ K)} {m : FMps σ K} (hist : FMps.history qr svd n cs = .ok m)
    (noLoad : ∀ c ∈ cs, ∀ i u, c ≠ .load i u)
    {ts : List (Ten σ K)} (full : m.slots = ts.map some) (link : Linked ts) {t : Nat} (ht : t < n) :
    ∃ m' ts', FMps.history qr svd n (cs ++ [.centralize t]) = .ok m' ∧ m'.slots = ts'.map some ∧
      SameState ts ts' ∧
      (∀ j u, j < t → ts'[j]? = some u → LeftIso u) ∧ (∀ j u, t < j → ts'[j]? = some u → RightIso u) := by
  obtain ⟨m', ts', e, -, f, s, -, q, -, -⟩ := C14_centralize H H' hist full link ht
  have nl : ∀ c ∈ cs ++ [.centralize (t : Int)], c.noLoad := by
    intro c hc
    rw [List.mem_append] at hc
    rcases hc with hc | hc
    · have := noLoad c hc
      cases c with
      | load i u => exact absurd rfl (this i u)
      | _ => trivial
    · simp at hc; subst hc; trivial
  have T := history_truthful H H' nl e
  have hn : ts'.length = n := by rw [q.1, ← (history_inv hist).2]; simp [FMps.size, full]
  refine ⟨m', ts', e, s, q, fun j u hj hu => ?_, fun j u hj hu => ?_⟩
  · have hjn : j < n := by rw [← hn]; exact (List.getElem?_eq_some_iff.mp hu).1
    refine (T j u (by rw [s, List.getElem?_map, hu]; rfl)).1 ?_
    rw [f]; simp [mixedFlags, hjn, hj]
  · have hjn : j < n := by rw [← hn]; exact (List.getElem?_eq_some_iff.mp hu).1
    refine (T j u (by rw [s, List.getElem?_map, hu]; rfl)).2 ?_
    rw [f]; simp [mixedFlags, hjn, hj, show ¬ j < t by omega]

/-- **C14.** One left decomposition changes only the site and its right neighbour, and keeps the state. -/
theorem C14_left_step_local {qr : Ten σ K → Ten σ K × Mat K} (H : QRSpec qr) {m : FMps σ K}
    {ts : List (Ten σ K)} (full : m.slots = ts.map some) (hf : m.flags.length = ts.length) (link : Linked ts)
    {i : Nat} (hi : i + 1 < ts.length) :
    ∃ m' ts', m.leftTen qr i = .ok m' ∧ m'.slots = ts'.map some ∧ SameState ts ts' ∧
      (∀ j, j ≠ i → j ≠ i + 1 → ts'[j]? = ts[j]?) ∧ m'.center = -1 := by
  obtain ⟨m', ts', e, r, q, k, -, c⟩ := leftTen_rep H ⟨full, hf, link⟩ hi
  exact ⟨m', ts', e, r.slots, ⟨q.len, q.head, q.last, q.amp⟩, k, c⟩

/-- **C14.** One right decomposition (QR or SVD) changes only the site and its left neighbour. -/
theorem C14_right_step_local {qr svd : Ten σ K → Ten σ K × Mat K} (H : QRSpec qr) (H' : SVDSpec svd) (b : Bool)
    {m : FMps σ K} {ts : List (Ten σ K)} (full : m.slots = ts.map some) (hf : m.flags.length = ts.length)
    (link : Linked ts) {i : Nat} (hi : i + 1 < ts.length) :
    ∃ m' ts', m.rightTen qr svd b (i + 1) = .ok m' ∧ m'.slots = ts'.map some ∧ SameState ts ts' ∧
      (∀ j, j ≠ i → j ≠ i + 1 → ts'[j]? = ts[j]?) ∧ m'.center = -1 := by
  obtain ⟨m', ts', e, r, q, k, -, c⟩ := rightTen_rep H H' b ⟨full, hf, link⟩ hi
  exact ⟨m', ts', e, r.slots, ⟨q.len, q.head, q.last, q.amp⟩, k, c⟩

/-- **C15.** In every history without `LoadTen`, a flag is never stale: a slot reported LEFT (RIGHT) holds a
left (right) isometry. -/
theorem C15_flags_truthful {qr svd : Ten σ K → Ten σ K × Mat K} (H : QRSpec qr) (H' : SVDSpec svd)
    {n : Nat} {cs : List (Call σ K)} {m : FMps σ K} (hist : FMps.history qr svd n cs = .ok m)
    (noLoad : ∀ c ∈ cs, ∀ i u, c ≠ .load i u) (i : Nat) (t : Ten σ K) (hi : m.slots[i]? = some (some t)) :
    (m.flags[i]? = some .left → LeftIso t) ∧ (m.flags[i]? = some .right → RightIso t) := by
  refine history_truthful H H' (fun c hc => ?_) hist i t hi
  have := noLoad c hc
  cases c with
  | load i u => exact absurd rfl (this i u)
  | _ => trivial

/-- **C15, centre.** After every history of calls a reported centre is a site of the MPS and the flags are the mixed-canonical ones around it; without `LoadTen` every tensor left of it is then
a left isometry and every tensor right of it a right isometry. -/
theorem C15_center_truthful {qr svd : Ten σ K → Ten σ K × Mat K} (H : QRSpec qr) (H' : SVDSpec svd)
    {n : Nat} {cs : List (Call σ K)} {m : FMps σ K} (hist : FMps.history qr svd n cs = .ok m) (hc : m.center ≠ -1) :
    ∃ c, c < n ∧ m.center = (c : Int) ∧ m.flags = mixedFlags n c ∧
      ((∀ k ∈ cs, ∀ i u, k ≠ .load i u) → ∀ j t, m.slots[j]? = some (some t) → (j < c → LeftIso t) ∧ (c < j → RightIso t)) := by
  obtain ⟨hi, hs⟩ := history_inv hist
  have hs' : m.slots.length = n := hs
  rcases history_centred hist with h | ⟨c, h1, h2, h3⟩
  · exact absurd h hc
  · have hf : m.flags = mixedFlags n c := by
      apply List.ext_getElem?
      intro j
      by_cases hj : j < n
      · rw [h3 j (by omega)]; simp [mixedFlags, hj]
      · rw [List.getElem?_eq_none (by rw [hi.flen, hs']; omega), List.getElem?_eq_none (by simp [mixedFlags]; omega)]
    refine ⟨c, by omega, h2, hf, fun nl j t ht => ?_⟩
    have hj : j < n := by rw [← hs']; exact (List.getElem?_eq_some_iff.mp ht).1
    obtain ⟨t1, t2⟩ := C15_flags_truthful H H' hist nl j t ht
    refine ⟨fun hjc => t1 ?_, fun hjc => t2 ?_⟩
    · rw [hf]; simp [mixedFlags, hj, hjc]
    · rw [hf]; simp [mixedFlags, hj, hjc, show ¬ j < c by omega]

/-- A tensor of dimensions 1 and 1 with all entries 0: not an isometry. -/
def zeroTen (σ K : Type) [CommRing K] : Ten σ K := ⟨1, 1, fun _ _ _ => 0⟩

theorem not_leftIso_zeroTen [Nontrivial K] : ¬ LeftIso (zeroTen σ K) := by
  intro h
  have := h 0 (by simp [zeroTen]) 0 (by simp [zeroTen])
  simp [zeroTen] at this

/-- **C15 is false for `LoadTen`.** Loading a tensor into a site that is already flagged keeps the flag, so a
following `Centralize` does nothing and reports a centre although the MPS is not canonical. -/
theorem C15_load_keeps_stale_flag [Nontrivial K] {qr svd : Ten σ K → Ten σ K × Mat K} (H : QRSpec qr)
    (H' : SVDSpec svd) (u v : Ten σ K) (huv : u.r = v.l) :
    ∃ m, FMps.history qr svd 2
        [.write 0 u, .write 1 v, .centralize 1, .load 0 (zeroTen σ K), .centralize 1] = .ok m ∧
      m.center = 1 ∧ m.flags[0]? = some .left ∧
      ∃ t, m.slots[0]? = some (some t) ∧ ¬ LeftIso t := by
  have h0 : FMps.history qr svd 2 [.write 0 u, .write 1 v] =
      .ok ⟨[some u, some v], [.none, .none], -1⟩ := rfl
  obtain ⟨m1, ts1, e1, c1, f1, s1, -, q1, -, -⟩ := C14_centralize H H' h0 (ts := [u, v]) rfl
    (List.isChain_cons_cons.mpr ⟨huv, List.IsChain.singleton _⟩) (t := 1) (by omega)
  have hl := q1.1
  match ts1, hl with
  | [a, b], _ =>
    cases m1 with
    | mk sl fl ce =>
      simp only at c1 f1 s1
      subst c1 f1 s1
      refine ⟨⟨[some (zeroTen σ K), some b], [.left, .none], 1⟩, ?_, rfl, rfl, zeroTen σ K, rfl, not_leftIso_zeroTen⟩
      have : FMps.history qr svd 2
          ([.write 0 u, .write 1 v, .centralize 1] ++ [.load 0 (zeroTen σ K), .centralize 1]) =
          .ok ⟨[some (zeroTen σ K), some b], [.left, .none], 1⟩ := by
        unfold FMps.history at e1 ⊢
        rw [List.foldlM_append]
        have e1' : List.foldlM (FMps.call qr svd) (FMps.fresh 2) [.write 0 u, .write 1 v, .centralize 1] =
          .ok ⟨[a, b].map some, mixedFlags 2 1, ((1 : Nat) : Int)⟩ := e1
        rw [e1']
        rfl
      exact this

/-- **C17.** `Reverse()` on a full MPS puts the transposed tensor of site `N-1-i` at site `i`; all flags become
NONE and the MPS uncentralised whatever they were before (the branch that would mirror them is dead). -/
theorem C17_reverse {qr svd : Ten σ K → Ten σ K × Mat K} {n : Nat} {cs : List (Call σ K)} {m : FMps σ K}
    (hn : 0 < n) (hist : FMps.history qr svd n cs = .ok m) {ts : List (Ten σ K)} (full : m.slots = ts.map some) :
    FMps.history qr svd n (cs ++ [.reverse]) =
      .ok ⟨(ts.reverse.map Ten.tr).map some, List.replicate n .none, -1⟩ := by
  obtain ⟨hi, hs⟩ := history_inv hist
  have hlen : ts.length = n := by rw [← hs]; simp [FMps.size, full]
  have := reverse_rep full (by rw [hi.flen, full]; simp) (by intro h; subst h; simp at hlen; omega)
  unfold FMps.history at hist ⊢
  rw [List.foldlM_append, hist]
  have k2 : (m.call qr svd .reverse >>= pure) =
      .ok ⟨(ts.reverse.map Ten.tr).map some, List.replicate n .none, -1⟩ := by
    rw [show m.call qr svd .reverse = _ from this, hlen]; rfl
  exact k2

omit [StarRing K] [Fintype σ] in
/-- **C17.** The reversed chain represents the mirrored state: its amplitude for the reversed configuration is
the original amplitude (with the outer bonds exchanged). -/
theorem C17_reverse_state {ts : List (Ten σ K)} (link : Linked ts) (ss : List σ) (hs : ss.length = ts.length)
    {a b : Nat} (ha : a < headL ts) (hb : b < lastR ts) :
    Linked (ts.reverse.map Ten.tr) ∧ amp (ts.reverse.map Ten.tr) ss.reverse b a = amp ts ss a b := by
  refine ⟨linked_rev link, amp_rev ts ss a b hs link ?_ ?_⟩
  · intro t ht
    cases ts with
    | nil => simp at ht
    | cons t' ts => simp at ht; subst ht; exact ha
  · intro t ht
    unfold lastR at hb; rw [ht] at hb; exact hb

omit [StarRing K] [Fintype σ] in
/-- **C17.** Reversing twice restores the tensors. -/
theorem C17_reverse_twice (ts : List (Ten σ K)) : ((ts.reverse.map Ten.tr).reverse.map Ten.tr) = ts := by
  rw [← List.map_reverse, List.reverse_reverse, List.map_map]
  have : (Ten.tr ∘ Ten.tr : Ten σ K → Ten σ K) = id := by funext t; rfl
  rw [this, List.map_id]

/-! ### Non-vacuity: the two-spin state `|↑↓⟩ + |↓↑⟩` written site by site, then centralised at every site -/

/-- Site 0 of the singlet-like state: left dimension 1, right dimension 2. -/
def exA : Ten Bool Int := ⟨1, 2, fun s _ b => if (b = 0) = (s = true) then 1 else 0⟩
/-- Site 1. -/
def exB : Ten Bool Int := ⟨2, 1, fun s a _ => if (a = 0) = (s = true) then 0 else 1⟩

example : amp [exA, exB] [true, false] 0 0 = 1 ∧ amp [exA, exB] [true, true] 0 0 = 0 ∧
    amp [exA, exB] [false, true] 0 0 = 1 := by decide

example : ∃ m, FMps.history qr0 svd0 2 [.write 0 exA, .write 1 exB] = .ok m ∧ m.slots = [exA, exB].map some ∧
    Linked [exA, exB] ∧ ∃ m', FMps.history qr0 svd0 2 [.write 0 exA, .write 1 exB, .centralize 1] = .ok m' ∧
    m'.center = 1 ∧ m'.flags = [.left, .none] := by
  refine ⟨_, rfl, rfl, List.isChain_cons_cons.mpr ⟨rfl, List.IsChain.singleton _⟩, ?_⟩
  obtain ⟨m', ts', e, c, f, -⟩ := C14_centralize (qr0_spec (K := Int)) svd0_spec (n := 2)
    (cs := [.write 0 exA, .write 1 exB]) rfl (ts := [exA, exB]) rfl
    (List.isChain_cons_cons.mpr ⟨rfl, List.IsChain.singleton _⟩) (t := 1) (by omega)
  exact ⟨m', e, c, by rw [f]; rfl⟩

end Verif.Props
