import Verif.Mps.NormFacts
/-
Truncation of a chain from right to left: what is left is the orthogonal projection of the state, and its squared norm
is the old one times the product of the kept fractions.
-/
namespace Verif.Mps
open Finset
variable {τ K : Type} [CommRing K] [StarRing K] [Fintype τ]

/-- The tensors from the first to `t` are the projection of `f` onto the states of the chain `R`. -/
def Proj (f : List τ → K) (L : List (Ten τ K)) (t : Ten τ K) (R : List (Ten τ K)) : Prop :=
  ∀ ss, ss.length = L.length + 1 → ∀ b, b < t.r →
    ∑ r : Fin R.length → τ, f (ss ++ List.ofFn r) * star (amp R (List.ofFn r) b 0) = amp (L ++ [t]) ss 0 b

theorem proj_start {L : List (Ten τ K)} {t : Ten τ K} (h2 : t.r = 1) : Proj (fun ss => amp (L ++ [t]) ss 0 0) L t [] := by
  intro ss _ b hb
  have : b = 0 := by omega
  subst this
  simp [amp]

theorem normSq_mulR {l : Ten τ K} {M : Mat K} {d : Nat} (hl : LeftIso l) :
    normSq (mulR l M d) = ∑ k ∈ range l.r, ∑ j ∈ range d, M k j * star (M k j) := by
  unfold normSq mulR
  simp only
  have e : ∀ (s : τ) (a j : Nat), (∑ k ∈ range l.r, l.v s a k * M k j) * star (∑ k ∈ range l.r, l.v s a k * M k j) =
      ∑ k ∈ range l.r, ∑ k' ∈ range l.r, M k j * star (M k' j) * (star (l.v s a k') * l.v s a k) := by
    intro s a j
    rw [star_sum, Finset.sum_mul_sum]
    refine sum_congr rfl fun k _ => sum_congr rfl fun k' _ => ?_
    rw [star_mul']; ring
  simp only [e]
  rw [sum_congr rfl fun s _ => sum_congr rfl fun a _ => sum_comm]
  rw [sum_congr rfl fun s _ => sum_comm, sum_comm]
  refine sum_congr rfl fun k hk => ?_
  rw [sum_congr rfl fun s _ => sum_comm (s := range l.l), sum_comm]
  rw [mem_range] at hk
  refine sum_congr rfl fun j _ => ?_
  rw [sum_congr rfl fun s _ => sum_comm (s := range l.l), sum_comm]
  have : ∀ k' ∈ range l.r, (∑ s, ∑ a ∈ range l.l, M k j * star (M k' j) * (star (l.v s a k') * l.v s a k)) =
      M k j * star (M k' j) * (if k' = k then 1 else 0) := by
    intro k' hk'
    rw [← hl k' (by simpa using hk') k hk, Finset.mul_sum]
    exact sum_congr rfl fun s _ => by rw [Finset.mul_sum]
  rw [sum_congr rfl this]
  simp [hk]

variable {tsvd : Ten τ K → Ten τ K × Mat K} {terr : Ten τ K → K}

theorem proj_step (H : TruncSpec tsvd terr) {f : List τ → K} {L : List (Ten τ K)} {l t : Ten τ K} {R : List (Ten τ K)}
    (h : Proj f (L ++ [l]) t R) (hl : Linked (L ++ [l] ++ [t])) (h1 : headL (L ++ [l]) = 1) :
    Proj f L (mulR l (tsvd t).2 (tsvd t).1.l) ((tsvd t).1 :: R) := by
  intro ss hs j hj
  have hlt : l.r = t.l := by
    refine linked_get hl L.length l t ?_ ?_
    · simp
    · simp
  have hd : 0 = 0 := rfl
  have hll : Linked (L ++ [l]) := linked_append_left hl
  simp only [List.length_cons]
  rw [sum_cons]
  have e1 : ∀ x : τ, (∑ r : Fin R.length → τ, f (ss ++ List.ofFn (Fin.cons x r : Fin (R.length + 1) → τ)) *
      star (amp ((tsvd t).1 :: R) (List.ofFn (Fin.cons x r : Fin (R.length + 1) → τ)) j 0)) =
      ∑ b ∈ range t.r, star ((tsvd t).1.v x j b) * amp (L ++ [l] ++ [t]) (ss ++ [x]) 0 b := by
    intro x
    have : ∀ b ∈ range t.r, star ((tsvd t).1.v x j b) * amp (L ++ [l] ++ [t]) (ss ++ [x]) 0 b =
        ∑ r : Fin R.length → τ, star ((tsvd t).1.v x j b) * (f (ss ++ x :: List.ofFn r) * star (amp R (List.ofFn r) b 0)) := by
      intro b hb
      rw [← h (ss ++ [x]) (by simp [hs]) b (by simpa using hb), Finset.mul_sum]
      simp
    rw [sum_congr rfl this, sum_comm]
    refine sum_congr rfl fun r _ => ?_
    rw [List.ofFn_cons, amp_cons, H.dim, star_sum, Finset.mul_sum]
    refine sum_congr rfl fun b _ => ?_
    rw [star_mul']; ring
  rw [sum_congr rfl fun x _ => e1 x]
  have inh : ∀ (q : Ten τ K), q.l = l.l → InHead (L ++ [q]) 0 := by
    intro q hq
    cases L with
    | nil => intro u hu; simp at hu; subst hu; simp [headL] at h1; omega
    | cons p L => intro u hu; simp at hu; subst hu; simp [headL] at h1; omega
  have e2 : ∀ x : τ, ∀ b ∈ range t.r, star ((tsvd t).1.v x j b) * amp (L ++ [l] ++ [t]) (ss ++ [x]) 0 b =
      ∑ k ∈ range t.l, amp (L ++ [l]) ss 0 k * (t.v x k b * star ((tsvd t).1.v x j b)) := by
    intro x b hb
    rw [amp_snoc t x b (by simpa using hb) (L ++ [l]) ss 0 (by simp [hs]) hl ?_, Finset.mul_sum]
    · exact sum_congr rfl fun k _ => by ring
    · intro u hu
      refine inh l rfl u ?_
      cases L <;> simpa using hu
  rw [sum_congr rfl fun x _ => sum_congr rfl (e2 x)]
  rw [sum_congr rfl fun x _ => sum_comm, sum_comm]
  have e3 : ∀ k ∈ range t.l, (∑ x, ∑ b ∈ range t.r, amp (L ++ [l]) ss 0 k * (t.v x k b * star ((tsvd t).1.v x j b))) =
      amp (L ++ [l]) ss 0 k * (tsvd t).2 k j := by
    intro k hk
    rw [H.proj t k j (by simpa using hk) hj, Finset.mul_sum]
    exact sum_congr rfl fun x _ => by rw [Finset.mul_sum]
  rw [sum_congr rfl e3]
  obtain ⟨ss', y, rfl⟩ : ∃ ss' y, ss = ss' ++ [y] := by
    rcases List.eq_nil_or_concat ss with h0 | ⟨a, b, h0⟩
    · subst h0; simp at hs
    · exact ⟨a, b, by simpa using h0⟩
  have hs' : ss'.length = L.length := by simpa using hs
  have lk : Linked (L ++ [mulR l (tsvd t).2 (tsvd t).1.l]) := by
    unfold Linked at hll ⊢
    rw [List.isChain_append] at hll ⊢
    refine ⟨hll.1, by simp, ?_⟩
    intro x hx y hy
    have := hll.2.2 x hx l (by simp)
    simp at hy; subst hy
    exact this
  rw [amp_snoc _ y j hj L ss' 0 hs' lk (inh _ rfl)]
  have e4 : ∀ k ∈ range t.l, amp (L ++ [l]) (ss' ++ [y]) 0 k * (tsvd t).2 k j =
      ∑ c ∈ range l.l, amp L ss' 0 c * (l.v y c k * (tsvd t).2 k j) := by
    intro k hk
    rw [amp_snoc l y k (by rw [hlt]; simpa using hk) L ss' 0 hs' hll (inh l rfl), Finset.sum_mul]
    exact sum_congr rfl fun c _ => by ring
  rw [sum_congr rfl e4, sum_comm]
  refine sum_congr rfl fun c _ => ?_
  simp only [mulR]
  rw [Finset.mul_sum, hlt]

/-- With the centre at the first site, the overlap of the old state with the new one is the squared norm of the new one. -/
theorem proj_overlap {f : List τ → K} {t : Ten τ K} {R : List (Ten τ K)} (h : Proj f [] t R) (ht : t.l = 1) :
    ∑ s : Fin (R.length + 1) → τ, f (List.ofFn s) * star (amp (t :: R) (List.ofFn s) 0 0) = normSq t := by
  rw [sum_cons]
  unfold normSq
  refine sum_congr rfl fun x _ => ?_
  rw [ht, sum_range_one]
  have : ∀ b ∈ range t.r, t.v x 0 b * star (t.v x 0 b) =
      ∑ r : Fin R.length → τ, (f (x :: List.ofFn r) * star (amp R (List.ofFn r) b 0)) * star (t.v x 0 b) := by
    intro b hb
    have := h [x] rfl b (by simpa using hb)
    rw [← Finset.sum_mul]
    simp only [List.cons_append, List.nil_append] at this
    rw [this]
    simp only [amp]
    rw [mem_range] at hb
    simp [hb]
  rw [sum_congr rfl this, sum_comm]
  refine sum_congr rfl fun r _ => ?_
  rw [List.ofFn_cons, amp_cons, star_sum, Finset.mul_sum]
  refine sum_congr rfl fun b _ => ?_
  rw [star_mul']; ring

omit [CommRing K] [StarRing K] [Fintype τ] in
theorem set2_mid {L R : List (Ten τ K)} {l t p q : Ten τ K} {n : Nat} (h : L.length = n) :
    set2 (L ++ l :: t :: R) n p q = L ++ p :: q :: R := by
  subst h; simp [set2]

/-- The loop of `Truncate`, started at the last site of a chain that is left-canonical before it. -/
theorem truncLoop {qr : Ten τ K → Ten τ K × Mat K} (H : TruncSpec tsvd terr) (f : List τ → K) :
    ∀ (n : Nat) (m : FMps τ K) (es : List K) (L : List (Ten τ K)) (t : Ten τ K) (R : List (Ten τ K)),
    Rep m (L ++ t :: R) → L.length = n → headL (L ++ t :: R) = 1 → (∀ u ∈ L, LeftIso u) → (∀ u ∈ R, RightIso u) → Proj f L t R →
    ∃ (m' : FMps τ K) (t' : Ten τ K) (R' : List (Ten τ K)) (es' : List K),
      (List.range' 1 n).reverse.foldlM (fun (s : FMps τ K × List K) i => do
        let t ← s.1.read i
        let m2 ← FMps.rightTen qr tsvd true s.1 i
        pure (m2, s.2 ++ [terr t])) (m, es) = .ok (m', es ++ es') ∧
      Rep m' (t' :: R') ∧ R'.length = R.length + n ∧ t'.l = 1 ∧ lastR (t' :: R') = lastR (L ++ t :: R) ∧
      (∀ u ∈ R', RightIso u) ∧ Proj f [] t' R' ∧ normSq t' = normSq t * (es'.map (1 - ·)).prod ∧ es'.length = n ∧
      (n ≠ 0 → m'.center = -1) ∧
      (∀ j, j < L.length + 1 + R.length → m'.flags[j]? =
        if n = 0 then m.flags[j]? else if j = 0 then some .none else if j ≤ n then some .right else m.flags[j]?) ∧
      (∀ D, (∀ t, (tsvd t).1.l ≤ D) → (∀ u ∈ R, u.l ≤ D) → ∀ u ∈ R', u.l ≤ D) := by
  intro n
  induction n with
  | zero =>
    intro m es L t R hr hn h1 hL hR hp
    have : L = [] := List.length_eq_zero_iff.mp hn
    subst this
    exact ⟨m, t, R, [], by simp; rfl, hr, rfl, h1, rfl, hR, hp, by simp, rfl, by simp, by simp, fun D _ h => h⟩
  | succ n ih =>
    intro m es L t R hr hn h1 hL hR hp
    obtain ⟨L, l, rfl⟩ : ∃ L0 l, L = L0 ++ [l] := by
      rcases List.eq_nil_or_concat L with h0 | ⟨a, b, h0⟩
      · subst h0; simp at hn
      · exact ⟨a, b, by simpa using h0⟩
    have hn' : L.length = n := by simpa using hn
    have ets : L ++ [l] ++ t :: R = L ++ l :: t :: R := by simp
    rw [ets] at hr h1
    have g1 : (L ++ l :: t :: R)[n]? = some l := by simp [← hn']
    have g2 : (L ++ l :: t :: R)[n + 1]? = some t := by simp [← hn']
    have hlt := linked_get hr.link n l t g1 g2
    have lk2 := linked_set2 (t := l) (u := t) (p := mulR l (tsvd t).2 (tsvd t).1.l) (q := (tsvd t).1) rfl rfl (H.dim t) n _ g1 g2 hr.link
    rw [set2_mid hn'] at lk2
    set m1 : FMps τ K := ⟨(m.slots.set n (some (mulR l (tsvd t).2 (tsvd t).1.l))).set (n + 1) (some (tsvd t).1),
      (m.flags.set n .none).set (n + 1) .right, -1⟩ with hm1
    have r1 : Rep m1 (L ++ mulR l (tsvd t).2 (tsvd t).1.l :: (tsvd t).1 :: R) := by
      refine ⟨?_, ?_, lk2.1⟩
      · simp only [hm1, hr.slots, map_set2, set2_mid hn']
      · simp [hm1, hr.flen]
    have hll : Linked (L ++ [l] ++ [t]) := by
      have := hr.link
      rw [show L ++ l :: t :: R = (L ++ [l] ++ [t]) ++ R by simp] at this
      exact linked_append_left this
    have hd1 : headL (L ++ [l]) = 1 := by
      rw [← h1]; cases L <;> rfl
    obtain ⟨m', t', R', es', a1, a2, a3, a4, a5, a6, a7, a8, a9, a10, a11, a12⟩ := ih m1 (es ++ [terr t]) L _ _ r1 hn' (lk2.2.trans h1)
      (fun u hu => hL u (by simp [hu]))
      (fun u hu => by rcases List.mem_cons.mp hu with h | h; · rw [h]; exact H.iso t
                      · exact hR u h) (proj_step H hp hll hd1)
    refine ⟨m', t', R', terr t :: es', ?_, a2, by simp at a3; omega, a4, ?_, a6, a7, ?_, by simp [a9], ?_, ?_, ?_⟩
    · rw [List.range'_1_concat, List.reverse_append, List.reverse_singleton, List.singleton_append, List.foldlM_cons]
      have e1 : m.read (1 + n) = .ok t := by rw [Nat.add_comm]; exact read_ok (hr.get g2)
      have e2 : FMps.rightTen qr tsvd true m (1 + n) = .ok m1 := by
        rw [Nat.add_comm]
        unfold FMps.rightTen
        simp only [hr.get g1, hr.get g2]
        rw [if_pos hlt, if_pos trivial]
      simp only [e1, e2]
      rw [show es ++ terr t :: es' = es ++ [terr t] ++ es' by simp]
      exact a1
    · rw [a5]
      cases R with
      | nil => simp [lastR, H.dim]
      | cons x R => simp [lastR]
    · rw [a8, normSq_mulR (hL l (by simp)), hlt, H.err]
      simp only [List.map_cons, List.prod_cons]; ring
    · intro _
      rcases Nat.eq_zero_or_pos n with h | h
      · subst h
        simp at a1
        have a1' : m1 = m' := congrArg Prod.fst (Except.ok.inj a1)
        rw [← a1']
      · exact a10 (by omega)
    · intro j hj
      have hfl := hr.flen
      simp only [List.length_append, List.length_cons, List.length_nil] at hfl hj
      rw [a11 j (by simp; omega)]
      rw [if_neg (by omega : ¬ n + 1 = 0)]
      have hj2 : j < m.flags.length := by omega
      by_cases c0 : n = 0
      · subst c0
        rw [if_pos rfl]
        simp only [hm1, List.getElem?_set]
        by_cases d0 : j = 0
        · subst d0; simp [hj2]
        · rw [if_neg d0]
          by_cases d1 : j = 1
          · subst d1; simp [hj2]
          · rw [if_neg (by omega), if_neg (by omega), if_neg (by omega)]
      · rw [if_neg c0]
        by_cases d0 : j = 0
        · simp [d0]
        · rw [if_neg d0, if_neg d0]
          by_cases d1 : j ≤ n
          · rw [if_pos d1, if_pos (by omega)]
          · rw [if_neg d1]
            simp only [hm1, List.getElem?_set]
            by_cases d2 : j = n + 1
            · subst d2; simp; omega
            · rw [if_neg (by omega), if_neg (by omega), if_neg (by omega)]
    · intro D hD hR'
      refine a12 D hD fun u hu => ?_
      rcases List.mem_cons.mp hu with h | h
      · rw [h]; exact hD t
      · exact hR' u h

end Verif.Mps
