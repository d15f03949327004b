import Verif.Mps.VmpsFacts
import Verif.Mps.VmpsSpec
/-
One local update of the two-site optimisation: the two-site blocks are embedded isometrically in the states of the chain, and the effective
Hamiltonian is the compression of the operator.
-/
namespace Verif.Mps
open Finset Verif.Disk Verif.Algo

section iso
variable {σ K : Type} [CommRing K] [StarRing K] [Fintype σ]

theorem blkL_congr {n : Nat} {e e' : Env3 K} {W : List (Ten (σ × σ) K)} {O : List (Ten σ K)} {d D : Nat} (h : BlkL n e W O d D)
    (h0 : e'.d0 = e.d0) (h1 : e'.d1 = e.d1) (h2 : e'.d2 = e.d2) (hv : ∀ a < d, ∀ c < D, ∀ b < d, e'.v a c b = e.v a c b) : BlkL n e' W O d D := by
  obtain ⟨a, b, c, f, g, h⟩ := h
  exact ⟨a, b, h0.trans c, h1.trans f, h2.trans g, fun x hx y hy z hz => (hv x hx y hy z hz).trans (h x hx y hy z hz)⟩

theorem blkR_congr {n : Nat} {e e' : Env3 K} {W : List (Ten (σ × σ) K)} {O : List (Ten σ K)} {d D : Nat} (h : BlkR n e W O d D)
    (h0 : e'.d0 = e.d0) (h1 : e'.d1 = e.d1) (h2 : e'.d2 = e.d2) (hv : ∀ a < d, ∀ c < D, ∀ b < d, e'.v a c b = e.v a c b) : BlkR n e' W O d D := by
  obtain ⟨a, b, c, f, g, h⟩ := h
  exact ⟨a, b, h0.trans c, h1.trans f, h2.trans g, fun x hx y hy z hz => (hv x hx y hy z hz).trans (h x hx y hy z hz)⟩

/-- The tensor of the identity operator. -/
def idTen [DecidableEq σ] : Ten (σ × σ) K := ⟨1, 1, fun s a b => if a = 0 ∧ b = 0 ∧ s.1 = s.2 then 1 else 0⟩

/-- The environment of isometries. -/
def delEnv (d : Nat) : Env3 K := ⟨d, 1, d, fun a _ b => if a = b then 1 else 0⟩

theorem siteL_del [DecidableEq σ] {t : Ten σ K} (h : LeftIso t) : ∀ a < t.r, ∀ c < 1, ∀ b < t.r, (delEnv (K := K) t.r).v a c b = (siteLenv idTen (delEnv t.l) t).v a c b := by
  intro a ha c hc b hb
  have : c = 0 := by omega
  subst this
  show (if a = b then (1 : K) else 0) = ∑ s, ∑ s', ∑ x ∈ range t.l, ∑ c ∈ range 1, ∑ y ∈ range t.l,
    star (t.v s x a) * (if c = 0 ∧ 0 = 0 ∧ s = s' then 1 else 0) * t.v s' y b * (if x = y then 1 else 0)
  rw [← h a ha b hb]
  refine sum_congr rfl fun s _ => ?_
  rw [sum_eq_single s]
  · refine sum_congr rfl fun x hx => ?_
    rw [sum_range_one, sum_eq_single x]
    · simp
    · intro y _ hy; rw [if_neg (Ne.symm hy)]; simp
    · intro h; exact absurd hx h
  · intro s' _ hs
    refine sum_eq_zero fun x _ => sum_eq_zero fun c _ => sum_eq_zero fun y _ => ?_
    rw [if_neg (fun h => hs h.2.2.symm)]; simp
  · intro h; exact absurd (mem_univ s) h

theorem siteR_del [DecidableEq σ] {t : Ten σ K} (h : RightIso t) : ∀ a < t.l, ∀ c < 1, ∀ b < t.l, (delEnv (K := K) t.l).v a c b = (siteRenv idTen (delEnv t.r) t).v a c b := by
  intro a ha c hc b hb
  have : c = 0 := by omega
  subst this
  show (if a = b then (1 : K) else 0) = ∑ s, ∑ s', ∑ x ∈ range t.r, ∑ c ∈ range 1, ∑ y ∈ range t.r,
    star (t.v s a x) * (if 0 = 0 ∧ c = 0 ∧ s = s' then 1 else 0) * t.v s' b y * (if x = y then 1 else 0)
  rw [show (if a = b then (1 : K) else 0) = if b = a then 1 else 0 by simp [eq_comm], ← h b hb a ha]
  refine sum_congr rfl fun s _ => ?_
  rw [sum_eq_single s]
  · refine sum_congr rfl fun x hx => ?_
    rw [sum_range_one, sum_eq_single x]
    · simp [mul_comm]
    · intro y _ hy; rw [if_neg (Ne.symm hy)]; simp
    · intro h; exact absurd hx h
  · intro s' _ hs
    refine sum_eq_zero fun x _ => sum_eq_zero fun c _ => sum_eq_zero fun y _ => ?_
    rw [if_neg (fun h => hs h.2.2.symm)]; simp
  · intro h; exact absurd (mem_univ s) h

/-! ### Pieces of a chain -/

theorem range_cut {N i : Nat} (h : i + 1 < N) : List.range N = List.range i ++ i :: (i + 1) :: List.range' (i + 2) (N - (i + 2)) := by
  rw [List.range_eq_range', show N = i + (N - i) by omega, ← List.range'_append_1, List.range_eq_range', Nat.zero_add,
    show N - i = (i + (N - i) - (i + 2)) + 1 + 1 by omega, List.range'_succ, List.range'_succ]
  congr 5
  omega

omit [CommRing K] [StarRing K] [Fintype σ] in
theorem map_cut (t : Nat → Ten σ K) {N i : Nat} (h : i + 1 < N) : (List.range N).map t =
    (List.range i).map t ++ t i :: t (i + 1) :: (List.range' (i + 2) (N - (i + 2))).map t := by
  rw [range_cut h]; simp

omit [CommRing K] [StarRing K] [Fintype σ] in
theorem closed_linked {t : Nat → Ten σ K} {N : Nat} (h : Closed N t) : Linked ((List.range N).map t) := by
  unfold Linked
  rw [List.isChain_iff_getElem]
  intro i hi
  simp at hi
  simpa using h.2.2 i (by omega)

omit [CommRing K] [StarRing K] [Fintype σ] in
theorem closed_head {t : Nat → Ten σ K} {N : Nat} (h : Closed N t) : InHead ((List.range N).map t) 0 := by
  intro u hu
  cases N with
  | zero => simp at hu
  | succ N => simp [List.range_succ_eq_map] at hu; rw [← hu, h.1]; exact Nat.one_pos

omit [CommRing K] [StarRing K] [Fintype σ] in
theorem closed_take {t : Nat → Ten σ K} {N k : Nat} (h : Closed N t) (hk : k ≤ N) : Linked ((List.range k).map t) ∧ InHead ((List.range k).map t) 0 := by
  refine ⟨?_, ?_⟩
  · unfold Linked
    rw [List.isChain_iff_getElem]
    intro i hi
    simp at hi
    simpa using h.2.2 i (by omega)
  · intro u hu
    cases k with
    | zero => simp at hu
    | succ k => simp [List.range_succ_eq_map] at hu; rw [← hu, h.1]; exact Nat.one_pos

omit [CommRing K] [StarRing K] [Fintype σ] in
theorem map_succ (t : Nat → Ten σ K) (k : Nat) : (List.range (k + 1)).map t = (List.range k).map t ++ [t k] := by
  rw [List.range_succ]; simp

omit [CommRing K] [StarRing K] [Fintype σ] in
theorem map_pred (t : Nat → Ten σ K) {N k : Nat} (h : k + 1 ≤ N) : (List.range' (N - (k + 1)) (k + 1)).map t = t (N - 1 - k) :: (List.range' (N - k) k).map t := by
  rw [List.range'_succ, show N - (k + 1) + 1 = N - k by omega, show N - (k + 1) = N - 1 - k by omega]; rfl

/-- Left environments. -/
theorem blkL_chain {w : Nat → Ten (σ × σ) K} {t : Nat → Ten σ K} {N : Nat} (hw : Closed N w) (ht : Closed N t) (le : Nat → Env3 K)
    (h0 : le 0 = unitEnv (t 0).l (w 0).l (t 0).l) : ∀ k, k < N → (∀ j, j < k → le (j + 1) = siteLenv (w j) (le j) (t j)) →
    BlkL k (le k) ((List.range k).map w) ((List.range k).map t) (t k).l (w k).l := by
  intro k
  induction k with
  | zero =>
    intro _ _
    rw [h0]
    refine ⟨rfl, rfl, rfl, rfl, rfl, fun a ha c hc b hb => ?_⟩
    rw [ht.1] at ha hb; rw [hw.1] at hc
    obtain rfl : a = 0 := by omega
    obtain rfl : b = 0 := by omega
    obtain rfl : c = 0 := by omega
    simp [unitEnv, amp]
  | succ k ih =>
    intro hk hl
    have := blkL_step (ih (by omega) (fun j hj => hl j (by omega))) (by rw [← map_succ]; exact (closed_take ht (by omega)).1)
      (by rw [← map_succ]; exact (closed_take hw (by omega)).1) (by rw [← map_succ]; exact (closed_take ht (by omega)).2)
      (by rw [← map_succ]; exact (closed_take hw (by omega)).2)
    rw [hl k (by omega), map_succ, map_succ, ← ht.2.2 k hk, ← hw.2.2 k hk]
    exact this

/-- Right environments. -/
theorem blkR_chain {w : Nat → Ten (σ × σ) K} {t : Nat → Ten σ K} {N : Nat} (hw : Closed N w) (ht : Closed N t) (re : Nat → Env3 K)
    (h0 : re 0 = unitEnv (t (N - 1)).r (w (N - 1)).r (t (N - 1)).r) : ∀ k, k < N →
    (∀ j, j < k → re (j + 1) = siteRenv (w (N - 1 - j)) (re j) (t (N - 1 - j))) →
    BlkR k (re k) ((List.range' (N - k) k).map w) ((List.range' (N - k) k).map t) (t (N - 1 - k)).r (w (N - 1 - k)).r := by
  intro k
  induction k with
  | zero =>
    intro _ _
    rw [h0]
    refine ⟨rfl, rfl, rfl, rfl, rfl, fun a ha c hc b hb => ?_⟩
    rw [Nat.sub_zero, ht.2.1] at ha hb; rw [Nat.sub_zero, hw.2.1] at hc
    obtain rfl : a = 0 := by omega
    obtain rfl : b = 0 := by omega
    obtain rfl : c = 0 := by omega
    simp [unitEnv, amp]
  | succ k ih =>
    intro hk hl
    have := blkR_step (ih (by omega) (fun j hj => hl j (by omega)))
    rw [hl k (by omega), map_pred t (by omega), map_pred w (by omega)]
    have e1 := ht.2.2 (N - 1 - (k + 1)) (by omega)
    have e2 := hw.2.2 (N - 1 - (k + 1)) (by omega)
    rw [show N - 1 - (k + 1) + 1 = N - 1 - k by omega] at e1 e2
    rw [e1, e2]
    exact this

/-- Left isometries. -/
theorem blkL_iso [DecidableEq σ] {t : Nat → Ten σ K} {N : Nat} (ht : Closed N t) : ∀ k, k < N → (∀ j, j < k → LeftIso (t j)) →
    BlkL k (delEnv (t k).l) (List.replicate k idTen) ((List.range k).map t) (t k).l 1 := by
  intro k
  induction k with
  | zero =>
    intro _ _
    refine ⟨rfl, rfl, rfl, rfl, rfl, fun a ha c hc b hb => ?_⟩
    rw [ht.1] at ha hb
    obtain rfl : a = 0 := by omega
    obtain rfl : b = 0 := by omega
    obtain rfl : c = 0 := by omega
    simp [delEnv, amp]
  | succ k ih =>
    intro hk hl
    have hr : ∀ n, Linked (List.replicate n (idTen : Ten (σ × σ) K)) ∧ InHead (List.replicate n (idTen : Ten (σ × σ) K)) 0 := by
      intro n
      refine ⟨?_, ?_⟩
      · unfold Linked; rw [List.isChain_iff_getElem]; intro i hi; simp [idTen]
      · intro u hu; cases n with
        | zero => simp at hu
        | succ n => simp [List.replicate_succ] at hu; rw [← hu]; exact Nat.one_pos
    have := blkL_step (w := idTen) (ih (by omega) (fun j hj => hl j (by omega))) (by rw [← map_succ]; exact (closed_take ht (by omega)).1)
      (by rw [← List.replicate_succ']; exact (hr _).1) (by rw [← map_succ]; exact (closed_take ht (by omega)).2)
      (by rw [← List.replicate_succ']; exact (hr _).2)
    rw [List.replicate_succ', map_succ, ← ht.2.2 k hk]
    exact blkL_congr this rfl rfl rfl (siteL_del (hl k (by omega)))

/-- Right isometries. -/
theorem blkR_iso [DecidableEq σ] {t : Nat → Ten σ K} {N : Nat} (ht : Closed N t) : ∀ k, k < N → (∀ j, N ≤ j + k → j < N → RightIso (t j)) →
    BlkR k (delEnv (t (N - 1 - k)).r) (List.replicate k idTen) ((List.range' (N - k) k).map t) (t (N - 1 - k)).r 1 := by
  intro k
  induction k with
  | zero =>
    intro _ _
    refine ⟨rfl, rfl, rfl, rfl, rfl, fun a ha c hc b hb => ?_⟩
    rw [Nat.sub_zero, ht.2.1] at ha hb
    obtain rfl : a = 0 := by omega
    obtain rfl : b = 0 := by omega
    obtain rfl : c = 0 := by omega
    simp [delEnv, amp]
  | succ k ih =>
    intro hk hl
    have := blkR_step (w := idTen) (ih (by omega) (fun j hj => hl j (by omega)))
    rw [List.replicate_succ, map_pred t (by omega)]
    have e1 := ht.2.2 (N - 1 - (k + 1)) (by omega)
    rw [show N - 1 - (k + 1) + 1 = N - 1 - k by omega] at e1
    rw [e1]
    exact blkR_congr this rfl rfl rfl (siteR_del (hl _ (by omega) (by omega)))

/-- The overlap of two states that differ in the block only is the overlap of the blocks. -/
theorem bamp_overlap [DecidableEq σ] {t : Nat → Ten σ K} {N i : Nat} (ht : Closed N t) (hi : i + 1 < N) (hL : ∀ j, j < i → LeftIso (t j))
    (hR : ∀ j, i + 1 < j → j < N → RightIso (t j)) {X Y : Blk2 σ K} (xl : X.l = (t i).l) (xr : X.r = (t (i + 1)).r) (yl : Y.l = X.l) (yr : Y.r = X.r) :
    ∑ s : Fin N → σ, star (bamp i ((List.range i).map t) ((List.range' (i + 2) (N - (i + 2))).map t) X (List.ofFn s)) *
      bamp i ((List.range i).map t) ((List.range' (i + 2) (N - (i + 2))).map t) Y (List.ofFn s) =
    ∑ q : Fin X.l × σ × σ × Fin X.r, star (X.v q.2.1 q.2.2.1 q.1 q.2.2.2) * Y.v q.2.1 q.2.2.1 q.1 q.2.2.2 := by
  have hb := blkL_iso ht i (by omega) hL
  have hf := blkR_iso ht (N - (i + 2)) (by omega) (fun j hj hj' => hR j (by omega) hj')
  rw [show N - 1 - (N - (i + 2)) = i + 1 by omega, show N - (N - (i + 2)) = i + 2 by omega, ← xr] at hf
  rw [← xl] at hb
  have hr : List.replicate i (idTen : Ten (σ × σ) K) ++ idTen :: idTen :: List.replicate (N - (i + 2)) idTen = List.replicate N idTen := by
    rw [← List.replicate_succ, ← List.replicate_succ, List.replicate_append_replicate]; congr 1; omega
  have := bamp_elem (N := N) (X := X) (Y := Y) (w1 := idTen) (w2 := idTen) (by omega) hb hf yl yr
    (by rw [hr]; unfold Linked; rw [List.isChain_iff_getElem]; intro i hi; simp [idTen])
    (by rw [hr]; intro u hu; cases N with
      | zero => simp at hu
      | succ n => simp [List.replicate_succ] at hu; rw [← hu]; exact Nat.one_pos)
  rw [hr] at this
  calc _ = _ := by
        refine sum_congr rfl fun s _ => ?_
        rw [sum_eq_single s]
        · rw [← zip_ofFn, idTen, identity_amp 1 Nat.one_pos, if_pos rfl, mul_one]
        · intro s' _ h
          rw [← zip_ofFn, idTen, identity_amp 1 Nat.one_pos, if_neg (Ne.symm h)]; simp
        · intro h; exact absurd (mem_univ s) h
    _ = _ := this
    _ = _ := by
        refine sum_congr rfl fun q _ => ?_
        have hc : ∀ p : Fin X.l × σ × σ × Fin X.r, effCoef (delEnv X.l) (delEnv X.r) idTen idTen q.1 q.2.1 q.2.2.1 q.2.2.2 p.1 p.2.1 p.2.2.1 p.2.2.2 =
            if q = p then (1 : K) else 0 := by
          intro p
          show ∑ c1 ∈ range 1, ∑ c2 ∈ range 1, ∑ c3 ∈ range 1, (if (q.1 : Nat) = p.1 then (1 : K) else 0) * (if c1 = 0 ∧ c2 = 0 ∧ q.2.1 = p.2.1 then 1 else 0) *
            (if c2 = 0 ∧ c3 = 0 ∧ q.2.2.1 = p.2.2.1 then 1 else 0) * (if (q.2.2.2 : Nat) = p.2.2.2 then 1 else 0) = _
          simp only [sum_range_one, true_and, Fin.val_inj]
          obtain ⟨a, x, y, b⟩ := q
          obtain ⟨a', x', y', b'⟩ := p
          simp only [Prod.mk.injEq]
          by_cases h1 : a = a' <;> by_cases h2 : x = x' <;> by_cases h3 : y = y' <;> by_cases h4 : b = b' <;> simp [h1, h2, h3, h4]
        rw [sum_eq_single q]
        · rw [hc, if_pos rfl, mul_one]
        · intro p _ h; rw [hc, if_neg (Ne.symm h)]; simp
        · intro h; exact absurd (mem_univ q) h

end iso
end Verif.Mps
