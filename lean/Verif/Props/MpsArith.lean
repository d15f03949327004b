import Verif.Mps.ArithFacts
import Verif.Props.Measure
/-
Inner product (C48) and sum (C49) of two finite MPS, and worked examples for the measurement theorems.
-/
namespace Verif.Props
open Verif.Mps Finset

section inner
variable {σ K : Type} [CommRing K] [StarRing K] [Fintype σ] [DecidableEq σ]

/-- **C48.** `FiniteMPSInnerProd(A, B)` for two MPS of the same length with matching outer left bonds is
`⟨B|A⟩ = ∑_s ψ_A(s) · conj ψ_B(s)` over all configurations. No canonical form is needed. -/
theorem C48_inner_product {A B : FMps σ K} {ts us : List (Ten σ K)} (hA : A.slots = ts.map some)
    (hB : B.slots = us.map some) (hl : us.length = ts.length) (hn : ts ≠ []) (l1 : Linked ts) (l2 : Linked us)
    (hd : headL us = headL ts) (p0 : 0 < headL ts) (p1 : 0 < lastR ts) (p2 : 0 < lastR us) :
    innerProd A B = .ok (∑ s : Fin ts.length → σ, amp ts (List.ofFn s) 0 0 * star (amp us (List.ofFn s) 0 0)) := by
  match ts, us, hl, hn with
  | t :: ts, u :: us, hl, _ =>
    have r0 : A.read 0 = .ok t := read_ok (by rw [hA]; rfl)
    have hu : u.l = t.l := hd
    have key := innerLoop_eq A B (t :: ts) (u :: us) 0 t.l t.l (fun x y => if x = 0 ∧ y = 0 then 1 else 0)
      hl.symm (fun j w hj => by rw [hA, Nat.zero_add, List.getElem?_map, hj]; rfl)
      (fun j w hj => by rw [hB, Nat.zero_add, List.getElem?_map, hj]; rfl)
      (by intro w hw; simp at hw; rw [hw]) (by intro w hw; simp at hw; rw [← hw, hu]) l1 l2
      (by rw [outR_eq _ _ (by simp)]; exact p1) (by rw [outR_eq _ _ (by simp)]; exact p2)
    have sA : A.size = (t :: ts).length := by simp [FMps.size, hA]
    have p0' : 0 < t.l := p0
    unfold innerProd
    rw [r0]
    show (if 0 < t.l then innerLoop A B A.size 0 (t.l, t.l) _ else _) = _
    rw [if_pos p0', sA, key, ← blk_id]
    congr 1
    unfold pair
    rw [Finset.sum_eq_single 0, Finset.sum_eq_single 0]
    · simp
    · intro b _ hb; simp [hb]
    · intro h; simp at h; omega
    · intro a _ ha; refine Finset.sum_eq_zero fun b _ => ?_; simp [ha]
    · intro h; simp at h; omega

/-- **C48.** Consequence: the inner product is conjugate-symmetric. -/
theorem C48_conjugate_symmetric {A B : FMps σ K} {ts us : List (Ten σ K)} (hA : A.slots = ts.map some)
    (hB : B.slots = us.map some) (hl : us.length = ts.length) (hn : ts ≠ []) (l1 : Linked ts) (l2 : Linked us)
    (hd : headL us = headL ts) (p0 : 0 < headL ts) (p1 : 0 < lastR ts) (p2 : 0 < lastR us) :
    ∃ x, innerProd A B = .ok x ∧ innerProd B A = .ok (star x) := by
  refine ⟨_, C48_inner_product hA hB hl hn l1 l2 hd p0 p1 p2, ?_⟩
  have hn' : us ≠ [] := by
    intro h; rw [h] at hl; exact hn (by cases ts with
      | nil => rfl
      | cons _ _ => simp at hl)
  rw [C48_inner_product hB hA hl.symm hn' l2 l1 hd.symm (by omega) p2 p1]
  congr 1
  have gen : ∀ n m : Nat, n = m → (∑ s : Fin n → σ, amp us (List.ofFn s) 0 0 * star (amp ts (List.ofFn s) 0 0)) =
      star (∑ s : Fin m → σ, amp ts (List.ofFn s) 0 0 * star (amp us (List.ofFn s) 0 0)) := by
    intro n m h; subst h
    rw [star_sum]
    exact sum_congr rfl fun s _ => by rw [star_mul', star_star]; ring
  exact gen _ _ hl
end inner

section add
variable {σ K : Type} [CommRing K]

/-- **C49.** `FiniteMPSAdd(A, B, C)` on at least two sites, with equal outer bonds: every amplitude of the result
is the sum of the amplitudes of `A` and `B`; every inner bond has the sum of the two bond dimensions; the
result carries no canonical flag and no centre. `C` may hold anything before the call. -/
theorem C49_sum {A B C : FMps σ K} {ts us : List (Ten σ K)} (hA : A.slots = ts.map some) (hB : B.slots = us.map some)
    (hl : us.length = ts.length) (hC : C.size = ts.length) (hf : C.flags.length = ts.length) (h2 : 2 ≤ ts.length)
    (l1 : Linked ts) (l2 : Linked us) (e1 : headL ts = headL us) (e2 : lastR ts = lastR us) :
    ∃ C' ws, mpsAdd A B C = .ok C' ∧ C'.slots = ws.map some ∧ Linked ws ∧ ws.length = ts.length ∧
      headL ws = headL ts ∧ lastR ws = lastR ts ∧
      (∀ ss a b, b < lastR ts → amp ws ss a b = amp ts ss a b + amp us ss a b) ∧
      (∀ i t u w, i + 1 < ts.length → ts[i]? = some t → us[i]? = some u → ws[i]? = some w → w.r = t.r + u.r) ∧
      C'.flags = List.replicate ts.length .none ∧ C'.center = -1 := by
  obtain ⟨k1, k2, k3⟩ := addAll_linked hl.symm h2 l1 l2
  refine ⟨_, addAll ts us, mpsAdd_eq hA hB hl.symm hC hf h2 e1 e2, rfl, k1, addAll_length hl.symm, k2, k3,
    fun ss a b hb => addAll_amp hl.symm h2 l1 l2 e2 ss a b hb, ?_, rfl, rfl⟩
  intro i t u w hi ht hu hw
  match ts, us, hl with
  | t0 :: ts, u0 :: us, hl =>
    cases i with
    | zero => simp [addAll] at ht hu hw; subst ht hu hw; rfl
    | succ i =>
      simp only [List.getElem?_cons_succ, addAll] at ht hu hw
      rw [addTail_get ts us i t u (by simpa using hl.symm) ht hu] at hw
      simp only [List.length_cons] at hi
      rw [if_neg (by omega)] at hw
      cases hw; rfl

/-- **C49 is false for a single site.** With one site only the right leg is enlarged, so the result has right
dimension two instead of one and its amplitude is that of `A` alone. -/
theorem C49_single_site_wrong {A B C : FMps σ K} {t u : Ten σ K} (hA : A.slots = [some t]) (hB : B.slots = [some u])
    (hC : C.size = 1) (ht : t.l = 1 ∧ t.r = 1) (hu : u.l = 1 ∧ u.r = 1) :
    ∃ C' w, mpsAdd A B C = .ok C' ∧ C'.slots = [some w] ∧ w.r = 2 ∧ ∀ s, amp [w] [s] 0 0 = amp [t] [s] 0 0 := by
  have sA : A.size = 1 := by simp [FMps.size, hA]
  have sB : B.size = 1 := by simp [FMps.size, hB]
  have hC' : C.slots.length = 1 := hC
  have ra : A.read 0 = .ok t := read_ok (by rw [hA]; rfl)
  have rb : B.read 0 = .ok u := read_ok (by rw [hB]; rfl)
  obtain ⟨x, hx⟩ : ∃ x, C.slots = [x] := by
    match h : C.slots, hC' with
    | [x], _ => exact ⟨x, rfl⟩
  have ca : C.alloc 0 = .ok { C with slots := C.slots.set 0 (some ⟨0, 0, fun _ _ _ => 0⟩) } := by
    unfold FMps.alloc; rw [if_pos (by omega)]
  refine ⟨⟨[some (expTen false true t u)], C.flags.set 0 .none, -1⟩, expTen false true t u, ?_, rfl, ?_, ?_⟩
  · unfold mpsAdd
    rw [if_pos ⟨by omega, by omega⟩, sA]
    have st : addStep 1 A B C 0 = .ok ⟨[some (expTen false true t u)], C.flags.set 0 .none, -1⟩ := by
      simp only [addStep, ca, ra, rb]
      show ((if 0 = 0 then expand false true t u else if 0 + 1 = 1 then expand true false t u
        else expand true true t u) >>= fun w =>
        FMps.write { C with slots := C.slots.set 0 (some ⟨0, 0, fun _ _ _ => 0⟩) } 0 w) = _
      rw [if_pos rfl, expand_ok (Or.inr (by omega)) (Or.inl rfl)]
      show FMps.write _ _ _ = _
      unfold FMps.write
      rw [if_pos (by simp [FMps.size, hx])]
      simp [hx]
    rw [show List.range 1 = [0] from rfl, foldlM_cons_ok st]
    rfl
  · simp [expTen, ht.2, hu.2]
  · intro s
    simp only [amp_cons, amp]
    simp [expTen, ht.2, hu.2, Finset.sum_range_succ]

/-- One step of `FiniteMPSAdd` when the result object is the first operand (finite_mps_ops.h:41-50 with
`&mps_c == &mps_a`): `alloc` has already replaced the tensor that is read next. -/
def addStepInPlace (N : Nat) (b : FMps σ K) (a : FMps σ K) (i : Nat) : Except Err (FMps σ K) := do
  let a1 ← a.alloc i
  let t ← a1.read i
  let u ← b.read i
  let w ← (if i = 0 then expand false true t u
    else if i + 1 = N then expand true false t u
    else expand true true t u)
  a1.write i w

/-- `FiniteMPSAdd(A, B, A)`. -/
def mpsAddInPlace (a b : FMps σ K) : Except Err (FMps σ K) :=
  if a.size = b.size then (List.range a.size).foldlM (addStepInPlace a.size b) a else .error .assertFail

/-- **C49 is false in place.** Passing the first operand as the result fails: its tensor is destroyed before it is
read (the signature does not forbid the aliasing). -/
theorem C49_in_place_fails {A B : FMps σ K} {us : List (Ten σ K)} (hB : B.slots = us.map some) (hs : A.size = us.length)
    (hn : us ≠ []) (hd : 0 < headL us) : mpsAddInPlace A B = .error .ub := by
  match us, hn with
  | u :: us, _ =>
    have sB : B.size = us.length + 1 := by simp [FMps.size, hB]
    have rb : B.read 0 = .ok u := read_ok (by rw [hB]; rfl)
    have hs' : A.slots.length = us.length + 1 := by simpa [FMps.size] using hs
    unfold mpsAddInPlace
    rw [if_pos (by rw [hs, sB]; rfl), show A.size = us.length + 1 by simpa using hs, List.range_eq_range', List.range'_succ,
      List.foldlM_cons]
    have ca : A.alloc 0 = .ok { A with slots := A.slots.set 0 (some ⟨0, 0, fun _ _ _ => 0⟩) } := by
      unfold FMps.alloc; rw [if_pos (by show 0 < A.slots.length; omega)]
    have ra : FMps.read { A with slots := A.slots.set 0 (some ⟨0, 0, fun _ _ _ => 0⟩) } 0 =
        .ok (⟨0, 0, fun _ _ _ => 0⟩ : Ten σ K) := read_ok (List.getElem?_set_self (by omega))
    have hd' : 0 < u.l := hd
    have st : addStepInPlace (us.length + 1) B A 0 = .error .ub := by
      unfold addStepInPlace
      rw [ca]
      show (FMps.read { A with slots := A.slots.set 0 (some ⟨0, 0, fun _ _ _ => 0⟩) } 0 >>= _) = _
      rw [ra]
      show (B.read 0 >>= _) = _
      rw [rb]
      show ((if 0 = 0 then expand false true ⟨0, 0, fun _ _ _ => 0⟩ u else if 0 + 1 = us.length + 1 then
        expand true false ⟨0, 0, fun _ _ _ => 0⟩ u else expand true true ⟨0, 0, fun _ _ _ => 0⟩ u) >>= _) = _
      rw [if_pos rfl]
      have : expand false true (⟨0, 0, fun _ _ _ => 0⟩ : Ten σ K) u = .error .ub := by
        unfold expand; rw [if_neg (by simp; omega)]
      rw [this]; rfl
    rw [st]; rfl

end add

/-! ### Non-vacuity: the two-spin state `|↑↓⟩ + |↓↑⟩` -/

/-- Its in-memory MPS. -/
def exM : FMps Bool Int := ⟨[some exA, some exB], [.none, .none], -1⟩

theorem exM_hist : FMps.history qr0 svd0 2 [.write 0 exA, .write 1 exB] = .ok exM := rfl

theorem ex_linked : Linked [exA, exB] := List.isChain_cons_cons.mpr ⟨rfl, List.IsChain.singleton _⟩

/-- The operator that flips a spin, and the one that counts an up spin. -/
def flipOp : Op Bool Int := fun s s' => if s = s' then 0 else 1
/-- Counts an up spin. -/
def upOp : Op Bool Int := fun s s' => if s = true ∧ s' = true then 1 else 0

-- the squared norm is 2, so `⟨n_↑⟩` on each site is 1 (unnormalised)
example : innerProd exM exM = .ok 2 := by decide
example : expval [exA, exB] (fun k => if k = 0 then upOp else idOp) = 1 := by decide

-- C50 on it
example : ∃ m' ts', measureOneSite qr0 svd0 exM [upOp, flipOp] = .ok (m', [[1, 0], [1, 0]]) ∧
    m'.slots = ts'.map some ∧ SameState [exA, exB] ts' := by
  obtain ⟨m', ts', e, s, q⟩ := C50_one_site_values (qr0_spec (K := Int)) svd0_spec exM_hist
    (.inl (by intro c hc i u; simp at hc; rcases hc with rfl | rfl <;> simp)) (ts := [exA, exB]) rfl ex_linked [upOp, flipOp]
  refine ⟨m', ts', e.trans ?_, s, q⟩
  congr 2

/-- The event `flip_0 flip_1` with an empty string in between. -/
def exEv : Event Bool Int := ⟨[flipOp, flipOp], [[]], [0, 1]⟩

-- its hypotheses are met, and the value is 2: the flip exchanges the two components
example : exEv.Valid 2 := by
  refine ⟨by decide, rfl, Or.inl rfl, ?_, ?_, ?_⟩
  · intro k x y is h1 h2 h3
    match k with
    | 0 => simp [exEv] at h1 h2 h3; subst h1 h2 h3; rfl
    | k + 1 => simp [exEv] at h3
  · intro k x h
    match k with
    | 0 => simp [exEv] at h; omega
    | 1 => simp [exEv] at h; omega
    | k + 2 => simp [exEv] at h
  · intro k x is h h'
    match k with
    | 0 => simp [exEv] at h h'; subst h h'; simp
    | k + 1 => simp [exEv] at h'

example : exEv.Places (fun k => if k < 2 then flipOp else idOp) := by
  refine ⟨?_, ?_, ?_⟩
  · intro k x o h h'
    match k with
    | 0 => simp [exEv] at h h'; subst h h'; rfl
    | 1 => simp [exEv] at h h'; subst h h'; rfl
    | k + 2 => simp [exEv] at h
  · intro k x d is o h h' h''
    match k with
    | 0 => simp [exEv] at h'; subst h'; simp at h''
    | k + 1 => simp [exEv] at h'
  · intro i h h'
    have a := h 0 0 rfl
    have b := h 1 1 rfl
    rw [if_neg (by omega)]

example : expval [exA, exB] (fun k => if k < 2 then flipOp else idOp) = 2 := by decide

-- C49: the state plus itself has doubled amplitudes
example : ∃ C' ws, mpsAdd exM exM (FMps.fresh 2) = .ok C' ∧ C'.slots = ws.map some ∧
    amp ws [true, false] 0 0 = 2 := by
  obtain ⟨C', ws, e, s, -, -, -, -, a, -⟩ := C49_sum (A := exM) (B := exM) (C := FMps.fresh 2) (ts := [exA, exB])
    (us := [exA, exB]) rfl rfl rfl rfl rfl (Nat.le_refl 2) ex_linked ex_linked rfl rfl
  exact ⟨C', ws, e, s, by rw [a _ _ _ (by decide)]; decide⟩

end Verif.Props
