import Verif.Mps.TdvpMeasure
import Verif.Mps.DiskFacts
/-
Lemmas on the measurement of TDVP.
-/
namespace Verif.Mps
open Finset

section
variable {σ K : Type} [CommRing K] [StarRing K] [Fintype σ] [DecidableEq σ]

/-- The leg of dimension between the sites `k-1` and `k`. -/
def cutDim (l : List (Ten σ K)) (k : Nat) : Nat := match l[k]? with | some t => t.l | Option.none => lastR l

omit [StarRing K] [Fintype σ] [DecidableEq σ] in
theorem cutDim_in {l : List (Ten σ K)} {k : Nat} {t : Ten σ K} (h : l[k]? = some t) : cutDim l k = t.l := by
  unfold cutDim; rw [h]

omit [StarRing K] [Fintype σ] [DecidableEq σ] in
theorem cutDim_next {l : List (Ten σ K)} (hl : Linked l) {k : Nat} {t : Ten σ K} (h : l[k]? = some t) : cutDim l (k + 1) = t.r := by
  unfold cutDim
  cases e : l[k + 1]? with
  | some u => exact (linked_get hl k t u h e).symm
  | none =>
    simp only
    have h1 := (List.getElem?_eq_some_iff.mp h).1
    have h2 := List.getElem?_eq_none_iff.mp e
    unfold lastR
    rw [List.getLast?_eq_getElem?, show l.length - 1 = k by omega, h]
    rfl

/-- The right block of the last `k` sites. -/
def Rb (ts us : List (Ten σ K)) (N k : Nat) : Blk K :=
  ⟨cutDim us (N - k), cutDim ts (N - k), fun a' a => blk (ts.drop (N - k)) (us.drop (N - k)) (fun _ => idOp) 0 0 a a'⟩

theorem growR_xr (t u : Ten σ K) (R : Mat K) (a' a : Nat) :
    (∑ s, ∑ b ∈ range t.r, (∑ b' ∈ range u.r, star (u.v s a' b') * R b' b) * t.v s a b) = xr t u idOp (fun b b' => R b' b) a a' := by
  rw [xr_id, Finset.sum_comm]
  refine sum_congr rfl fun b _ => ?_
  rw [Finset.sum_comm]
  refine sum_congr rfl fun s _ => ?_
  rw [Finset.sum_mul]
  exact sum_congr rfl fun b' _ => by ring

theorem withKet_xl (t u : Ten σ K) (o : Op σ K) (L : Blk K) (b' b : Nat) :
    withKet t (withOp o (L.bra u)) b' b = xl t u o (fun a a' => L.v a' a) b b' := by
  unfold withKet withOp Blk.bra xl
  refine sum_congr rfl fun a _ => ?_
  rw [Finset.sum_comm (s := range u.l)]
  refine sum_congr rfl fun s _ => ?_
  rw [Finset.sum_comm (s := range u.l), Finset.sum_mul]
  refine sum_congr rfl fun s' _ => ?_
  rw [Finset.mul_sum, Finset.sum_mul]
  exact sum_congr rfl fun a' _ => by ring

theorem withKet_xl_id (t u : Ten σ K) (L : Blk K) (b' b : Nat) :
    withKet t (L.bra u) b' b = xl t u idOp (fun a a' => L.v a' a) b b' := by
  rw [← withKet_xl]
  unfold withKet withOp
  refine sum_congr rfl fun a _ => sum_congr rfl fun s _ => ?_
  rw [Finset.sum_eq_single s]
  · simp [idOp]
  · intro s' _ h; simp [idOp, Ne.symm h]
  · intro h; exact absurd (mem_univ s) h

/-- The chain from site `i` on. -/
theorem blk_drop {ts us : List (Ten σ K)} {i : Nat} {t u : Ten σ K} (ht : ts[i]? = some t) (hu : us[i]? = some u)
    (O : Nat → Op σ K) : blk (ts.drop i) (us.drop i) O 0 0 = xr t u (O 0) (blk (ts.drop (i + 1)) (us.drop (i + 1)) (fun k => O (k + 1)) 0 0) := by
  obtain ⟨h1, e1⟩ := List.getElem?_eq_some_iff.mp ht
  obtain ⟨h2, e2⟩ := List.getElem?_eq_some_iff.mp hu
  rw [List.drop_eq_getElem_cons h1, List.drop_eq_getElem_cons h2, e1, e2]
  funext a a'
  rw [blk_cons]

theorem Rb_grow {ts us : List (Ten σ K)} {N k : Nat} {t u : Ten σ K} (lt : Linked ts) (lu : Linked us) (hk : k < N)
    (ht : ts[N - (k + 1)]? = some t) (hu : us[N - (k + 1)]? = some u) :
    (Rb ts us N k).growR t u = .ok (Rb ts us N (k + 1)) := by
  have e : N - k = N - (k + 1) + 1 := by omega
  unfold Blk.growR
  rw [if_pos ⟨by simp only [Rb]; rw [e, cutDim_next lu hu], by simp only [Rb]; rw [e, cutDim_next lt ht]⟩]
  simp only [growR_xr, Rb, Except.ok.injEq, Blk.mk.injEq]
  refine ⟨(cutDim_in hu).symm, (cutDim_in ht).symm, ?_⟩
  funext a' a
  rw [blk_drop ht hu, e]

/-- The slots before iteration `i` of the loop over the right blocks. -/
def preR (N i : Nat) (t : Ten σ K) : Nat → Option (Ten σ K) := if i = 1 then only (N - 1) t else fun _ => Option.none

theorem calRight_load {N i : Nat} {disk : List (Ten σ K)} {m : FMps σ K} {t0 t : Ten σ K} (hi : 1 ≤ i) (hN : i < N)
    (h0 : disk[N - 1]? = some t0) (ht : disk[N - i]? = some t) (hs : Slots m N (preR N i t0)) :
    ∃ m', (if 1 < i then loadTen disk m (N - i) else .ok m) = .ok m' ∧ Slots m' N (only (N - i) t) := by
  by_cases h : 1 < i
  · rw [if_pos h]
    obtain ⟨m', e, s⟩ := hs.loadTen (i := N - i) (by omega) ht
    refine ⟨m', e, s.congr fun j _ => ?_⟩
    rw [preR, if_neg (by omega)]
    simp [upd, only]
  · obtain rfl : i = 1 := by omega
    rw [if_neg h]
    rw [h0] at ht; injection ht with ht
    subst ht
    exact ⟨m, rfl, hs.congr fun j _ => by rw [preR, if_pos rfl]⟩

theorem calRight_ok {ts us : List (Ten σ K)} {N : Nat} (lt : Linked ts) (lu : Linked us) (ht : ts.length = N) (hu : us.length = N)
    {t0 u0 : Ten σ K} (ht0 : ts[N - 1]? = some t0) (hu0 : us[N - 1]? = some u0) :
    ∀ (n : Nat) {i : Nat} {st : CalSt σ K}, i + n = N → 1 ≤ i → Slots st.m1 N (preR N i t0) → Slots st.m2 N (preR N i u0) →
      st.R = Rb ts us N (i - 1) → 
    ∃ st', (List.range' i n).foldlM (calRight ts us N) st = .ok st' ∧ Slots st'.m1 N (preR N (i + n) t0) ∧
      Slots st'.m2 N (preR N (i + n) u0) ∧ st'.R = Rb ts us N (N - 1) ∧
      st'.files = fun j => if i ≤ j ∧ j < N then some (Rb ts us N j) else st.files j
  | 0, i, st, hn, hi, s1, s2, hR => by
    refine ⟨st, rfl, s1, s2, by rw [hR, show i - 1 = N - 1 by omega], funext fun j => ?_⟩
    rw [if_neg (by omega)]
  | n + 1, i, st, hn, hi, s1, s2, hR => by
    obtain ⟨t, et⟩ := getE (ts := ts) (i := N - i) (by omega)
    obtain ⟨u, eu⟩ := getE (ts := us) (i := N - i) (by omega)
    obtain ⟨m1, e1, q1⟩ := calRight_load hi (by omega) ht0 et s1
    obtain ⟨m2, e2, q2⟩ := calRight_load hi (by omega) hu0 eu s2
    have r1 := q1.read (i := N - i) (by omega) (t := t) (by simp [only])
    have r2 := q2.read (i := N - i) (by omega) (t := u) (by simp [only])
    have g : st.R.growR t u = .ok (Rb ts us N i) := by
      rw [hR]
      have := Rb_grow (N := N) (k := i - 1) lt lu (by omega) (t := t) (u := u) (by rw [show i - 1 + 1 = i by omega]; exact et)
        (by rw [show i - 1 + 1 = i by omega]; exact eu)
      rwa [show i - 1 + 1 = i by omega] at this
    obtain ⟨m1', d1, z1⟩ := q1.dealloc (i := N - i) (by omega)
    obtain ⟨m2', d2, z2⟩ := q2.dealloc (i := N - i) (by omega)
    have st1 : calRight ts us N st i = .ok ⟨m1', m2', Function.update st.files i (some (Rb ts us N i)), Rb ts us N i⟩ := by
      unfold calRight
      rw [e1]
      simp only [bind, Except.bind]
      rw [e2]
      simp only [r1, r2, g, d1, d2]
      rfl
    rw [List.range'_succ, List.foldlM_cons, st1]
    have emp : ∀ x : Ten σ K, ∀ j, upd (only (N - i) x) (N - i) Option.none j = preR N (i + 1) x j := fun x j => by
      rw [preR, if_neg (by omega)]
      simp only [upd, only]
      by_cases h : j = N - i <;> simp [h]
    obtain ⟨st', e, k1, k2, k3, k4⟩ := calRight_ok lt lu ht hu ht0 hu0 n (i := i + 1)
      (st := ⟨m1', m2', Function.update st.files i (some (Rb ts us N i)), Rb ts us N i⟩) (by omega) (by omega)
      (z1.congr fun j _ => by rw [emp]; simp [preR, show ¬ i = 0 by omega])
      (z2.congr fun j _ => by rw [emp]; simp [preR, show ¬ i = 0 by omega]) (by simp)
    refine ⟨st', e, by rw [show i + (n + 1) = i + 1 + n by omega]; exact k1, by rw [show i + (n + 1) = i + 1 + n by omega]; exact k2,
      k3, ?_⟩
    rw [k4]
    funext j
    by_cases h : i + 1 ≤ j ∧ j < N
    · rw [if_pos h, if_pos (by omega)]
    · rw [if_neg h]
      by_cases h' : j = i
      · subst h'; rw [if_pos (by omega)]; simp
      · rw [if_neg (by omega)]; simp [h']

/-- The operators for the measurement at site `j`. -/
def corrOps (op inst : Op σ K) (j : Nat) : Nat → Op σ K := fun k => if k < j then inst else if k = j then op else idOp

theorem close_pair {t u : Ten σ K} {x : Mat K} {R : Blk K} (h : u.r = R.d' ∧ t.r = R.d) :
    R.close t u x = .ok (pair t.r u.r (fun b b' => x b' b) (fun b b' => R.v b' b)) := by
  unfold Blk.close pair
  rw [if_pos h, Finset.sum_comm]

theorem calSites_load {N i : Nat} {disk : List (Ten σ K)} {m : FMps σ K} {t0 t : Ten σ K} (hN : i < N)
    (h0 : disk[0]? = some t0) (ht : disk[i]? = some t) (hs : Slots m N (if i = 0 then only 0 t0 else fun _ => Option.none)) :
    ∃ m', (if 0 < i then loadTen disk m i else .ok m) = .ok m' ∧ Slots m' N (only i t) := by
  by_cases h : 0 < i
  · rw [if_pos h]
    rw [if_neg (by omega)] at hs
    obtain ⟨m', e, s⟩ := hs.loadTen (i := i) hN ht
    exact ⟨m', e, s.congr fun j _ => by simp [upd, only]⟩
  · obtain rfl : i = 0 := by omega
    rw [if_neg h]
    rw [h0] at ht; injection ht with ht
    subst ht
    rw [if_pos rfl] at hs
    exact ⟨m, rfl, hs⟩

theorem calSites_ok {ts us : List (Ten σ K)} {N : Nat} (lt : Linked ts) (lu : Linked us) (ht : ts.length = N) (hu : us.length = N)
    {t0 u0 : Ten σ K} (ht0 : ts[0]? = some t0) (hu0 : us[0]? = some u0) (op : Op σ K) (inst : Option (Op σ K)) :
    ∀ (n : Nat) {i : Nat} {st : CalSt σ K} {L : Blk K}, i + n = N →
      Slots st.m1 N (if i = 0 then only 0 t0 else fun _ => Option.none) → Slots st.m2 N (if i = 0 then only 0 u0 else fun _ => Option.none) →
      (i = 0 → st.R = Rb ts us N (N - 1)) → (∀ j, 0 < i → j + i < N → st.files j = some (Rb ts us N j)) →
      (i = 0 → ∀ j, j < N → st.files j = some (Rb ts us N j)) →
      (0 < n → L.d' = cutDim us i ∧ L.d = cutDim ts i) → (n = 0 → 0 < i) →
    ∃ st', calSites ts us N op inst n i st L = .ok (st', (List.range' i n).map fun j =>
        pair (cutDim ts i) (cutDim us i) (fun a a' => L.v a' a)
          (blk (ts.drop i) (us.drop i) (fun k => corrOps op (inst.getD idOp) j (k + i)) 0 0)) ∧
      Slots st'.m1 N (fun _ => Option.none) ∧ Slots st'.m2 N (fun _ => Option.none) ∧
      st'.files = fun j => if j + i < N ∧ j + 1 < N then Option.none else st.files j
  | 0, i, st, L, hn, s1, s2, _, _, _, _, h0 => by
    have h0 := h0 rfl
    rw [if_neg (by omega)] at s1 s2
    exact ⟨st, rfl, s1, s2, funext fun j => by rw [if_neg (by omega)]⟩
  | n + 1, i, st, L, hn, s1, s2, hR, hf, hf0, hd, _ => by
    obtain ⟨hd', hd⟩ := hd (by omega)
    obtain ⟨t, et⟩ := getE (ts := ts) (i := i) (by omega)
    obtain ⟨u, eu⟩ := getE (ts := us) (i := i) (by omega)
    -- the right block
    obtain ⟨st1, f1, g1, g2, g3, g4⟩ : ∃ st1 : CalSt σ K, fetchR N i st = .ok st1 ∧ st1.m1 = st.m1 ∧ st1.m2 = st.m2 ∧ st1.R = Rb ts us N (N - i - 1) ∧
        st1.files = (if 0 < i then Function.update st.files (N - i - 1) Option.none else st.files) := by
      unfold fetchR
      by_cases h : 0 < i
      · rw [if_pos h, hf (N - i - 1) h (by omega), if_pos h]
        exact ⟨_, rfl, rfl, rfl, rfl, rfl⟩
      · obtain rfl : i = 0 := by omega
        exact ⟨st, by simp, rfl, rfl, by rw [hR rfl]; simp, by simp⟩
    obtain ⟨m1, e1, q1⟩ := calSites_load (N := N) (i := i) (m := st1.m1) (by omega) ht0 et (by rw [g1]; exact s1)
    obtain ⟨m2, e2, q2⟩ := calSites_load (N := N) (i := i) (m := st1.m2) (by omega) hu0 eu (by rw [g2]; exact s2)
    have r1 := q1.read (i := i) (by omega) (t := t) (by simp [only])
    have r2 := q2.read (i := i) (by omega) (t := u) (by simp [only])
    obtain ⟨m1', d1, z1⟩ := q1.dealloc (i := i) (by omega)
    obtain ⟨m2', d2, z2⟩ := q2.dealloc (i := i) (by omega)
    have hdim : u.r = st1.R.d' ∧ t.r = st1.R.d := by
      rw [g3]; simp only [Rb, show N - (N - i - 1) = i + 1 by omega]
      exact ⟨(cutDim_next lu eu).symm, (cutDim_next lt et).symm⟩
    have hc := close_pair (x := withKet t (withOp op (L.bra u))) hdim
    have hl : u.l = L.d' ∧ t.l = L.d := by rw [hd', hd, cutDim_in et, cutDim_in eu]; exact ⟨rfl, rfl⟩
    have emp : ∀ x : Ten σ K, ∀ j, upd (only i x) i Option.none j = Option.none := fun x j => by
      simp only [upd, only]
      by_cases h : j = i <;> simp [h]
    let L' : Blk K := if n = 0 then L else nextL inst t u L
    have hL' : n ≠ 0 → (fun a a' => L'.v a' a) = xl t u (inst.getD idOp) (fun a a' => L.v a' a) := fun hne => by
      funext b b'
      simp only [L', if_neg hne, nextL]
      cases inst with
      | none => exact withKet_xl_id t u L b' b
      | some o => exact withKet_xl t u o L b' b
    obtain ⟨st', e, k1, k2, k3⟩ := calSites_ok lt lu ht hu ht0 hu0 op inst n (i := i + 1) (st := ⟨m1', m2', st1.files, st1.R⟩) (L := L')
      (by omega) (by rw [if_neg (by omega)]; exact z1.congr fun j _ => emp t j)
      (by rw [if_neg (by omega)]; exact z2.congr fun j _ => emp u j) (by omega)
      (fun j _ hj => by
        simp only [g4]
        by_cases h : 0 < i
        · rw [if_pos h, Function.update_of_ne (by omega)]; exact hf j h (by omega)
        · rw [if_neg h]; exact hf0 (by omega) j (by omega))
      (by omega)
      (fun hp => by
        simp only [L', if_neg (show ¬ n = 0 by omega)]
        exact ⟨(cutDim_next lu eu).symm, (cutDim_next lt et).symm⟩) (by omega)
    refine ⟨st', ?_, k1, k2, ?_⟩
    · unfold calSites
      simp only [bind, Except.bind]
      rw [f1]
      simp only
      rw [e1]
      simp only
      rw [e2]
      simp only [r1, r2]
      rw [if_pos hl]
      simp only [hc, d1, d2]
      rw [show (if n = 0 then L else nextL inst t u L) = L' from rfl, e]
      simp only [pure, Except.pure, Except.ok.injEq, Prod.mk.injEq, true_and]
      rw [List.range'_succ, List.map_cons]
      congr 1
      · rw [cutDim_in et, cutDim_in eu, blk_drop et eu, pair_xr]
        congr 1
        · funext b b'
          rw [withKet_xl]
          simp [corrOps]
        · funext b b'
          rw [g3]
          simp only [Rb, show N - (N - i - 1) = i + 1 by omega]
          refine congrArg (fun O => blk (ts.drop (i + 1)) (us.drop (i + 1)) O 0 0 b b') (funext fun k => ?_)
          rw [corrOps, if_neg (by omega), if_neg (by omega)]
      · refine List.map_congr_left fun j hj => ?_
        rw [List.mem_range'_1] at hj
        rw [hL' (by omega), cutDim_in et, cutDim_in eu, blk_drop et eu, pair_xr, cutDim_next lt et, cutDim_next lu eu]
        congr 1
        · rw [corrOps, if_pos (by omega)]
        · refine congrArg (fun O => blk (ts.drop (i + 1)) (us.drop (i + 1)) O 0 0) (funext fun k => ?_)
          rw [show k + (i + 1) = k + 1 + i by omega]
    · rw [k3]
      funext j
      simp only [g4]
      by_cases h : j + (i + 1) < N ∧ j + 1 < N
      · rw [if_pos h, if_pos (by omega)]
      · rw [if_neg h]
        by_cases h2 : 0 < i
        · rw [if_pos h2]
          by_cases h3 : j = N - i - 1
          · rw [if_pos (by omega), h3]; simp
          · rw [if_neg (by omega), Function.update_of_ne h3]
        · rw [if_neg h2, if_neg (by omega)]

end
end Verif.Mps
