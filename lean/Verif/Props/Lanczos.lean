import Verif.Algo.LanczosFacts
/-
Properties C32 (iteration limit, array bounds) and C33 (memory) of the Lanczos solvers.
-/
namespace Verif.Props
open Verif.Algo

/-- Round `m` is the last one: the residual vanishes, the convergence test succeeds, the dimension of the space is
reached, or the iteration limit. -/
def RoundStops (K dim : Nat) (zero conv : Nat → Bool) (m : Nat) : Prop :=
  zero m = true ∨ conv m = true ∨ m = dim ∨ m = K - 1

/-- Round `m` is the first that is the last one. -/
structure FirstStop (K dim : Nat) (zero conv : Nat → Bool) (m : Nat) : Prop where
  pos : 1 ≤ m
  stop : RoundStops K dim zero conv m
  first : ∀ j, 1 ≤ j → j < m → ¬ RoundStops K dim zero conv j

theorem not_stops {K dim : Nat} {zero conv : Nat → Bool} {m : Nat} (hz : ¬ zero m = true)
    (hc : ¬ (conv m || m == dim || m == K - 1) = true) : ¬ RoundStops K dim zero conv m := by
  simp only [Bool.or_eq_true, beq_iff_eq, not_or] at hc
  rintro (h | h | h | h)
  · exact hz h
  · exact hc.1.1 h
  · exact hc.1.2 h
  · exact hc.2 h

theorem stops_of {K dim : Nat} {zero conv : Nat → Bool} {m : Nat}
    (hc : (conv m || m == dim || m == K - 1) = true) : RoundStops K dim zero conv m := by
  simp only [Bool.or_eq_true, beq_iff_eq] at hc
  rcases hc with (h | h) | h
  · exact Or.inr (Or.inl h)
  · exact Or.inr (Or.inr (Or.inl h))
  · exact Or.inr (Or.inr (Or.inr h))

theorem lanczosLoop_ok (v : LVariant) {K dim : Nat} {zero conv : Nat → Bool} {O : Multiset Nat} : ∀ (fuel m : Nat) (s : LSt) (βs : List Nat),
    LInv K m O βs s → m + 1 < K → K ≤ fuel + m + 1 → (∀ j, 1 ≤ j → j < m + 1 → ¬ RoundStops K dim zero conv j) →
    ∃ r m', lanczosLoop v K dim zero conv fuel m s = .ok r ∧ FirstStop K dim zero conv m' ∧
      r.iters = (if zero m' || !v.plusOne then m' else m' + 1) ∧ r.fin.prods = (if zero m' then m' else m' + 1) ∧
      r.fin.live = r.vec ::ₘ O
  | 0, m, s, βs, h, hm, hf, _ => by omega
  | fuel + 1, m, s, βs, h, hm, hf, hst => by
    have hlen := h.len
    rw [lanczosLoop]
    simp only [residual_ok h, bind, Except.bind]
    by_cases hz : zero (m + 1) = true
    · rw [if_pos hz]
      by_cases hm0 : m = 0
      · subst hm0
        rw [if_pos rfl]
        have hu : s.useB K 0 = .ok () := useB_ok (by omega) h.bases (fun q hq => by rw [h.live]; simp [hq]) (by omega)
        simp only [hu, LSt.new]
        have hfree := free_ok (K := K) (k := K) (βs := βs) (R := s.next ::ₘ O) (v := none)
          (s := { s with live := s.next ::ₘ s.live, next := s.next + 1 }) h.bases (by omega) (Nat.le_refl _)
          (by simp only [h.live, Option.elim_none, Multiset.zero_add, Multiset.add_cons]; rw [Multiset.cons_swap])
        rw [hfree]
        exact ⟨_, 1, rfl, ⟨Nat.le_refl _, Or.inl hz, fun j h1 h2 => by omega⟩, by simp [hz], by simp [hz, h.prods], rfl⟩
      · rw [if_neg (by omega)]
        obtain ⟨j, hj⟩ := tridiag_ok (K := K) (n := m + 1) (vec := true) (s := s) (by omega) (fun i hi => h.wa i (by omega))
          (fun i hi => h.wb i (by omega))
        rw [hj]
        simp only [if_true]
        obtain ⟨r, hr, r1, r2, r3⟩ := finish_ok (K := K) (k := m + 1) (it := m + 1) (w := j) (all := v.allZero) (βs := βs) (R := O)
          (s := { s with live := j ::ₘ s.live, next := s.next + 4 }) h.bases hlen (by omega) (by omega) (by simp only [h.live])
        rw [hr]
        exact ⟨r, m + 1, rfl, ⟨by omega, Or.inl hz, hst⟩, by simp [r1, hz], by simp [r3, hz, h.prods], r2⟩
    · rw [if_neg hz]
      obtain ⟨s1, e1, h1⟩ := extend_ok (v := v) h hm
      rw [e1]
      obtain ⟨j1, hj1⟩ := tridiag_ok (K := K) (n := m + 1 + 1) (vec := false) (s := s1) (by omega) (fun i hi => h1.wa i (by omega))
        (fun i hi => h1.wb i (by omega))
      simp only [hj1, Bool.false_eq_true, if_false]
      have h2 : LInv K (m + 1) O (βs ++ [s.last]) { s1 with live := s1.live, next := s1.next + 3 } := h1.scratch h1.live
      by_cases hc : (conv (m + 1) || m + 1 == dim || m + 1 == K - 1) = true
      · rw [if_pos hc]
        obtain ⟨j, hj⟩ := tridiag_ok (K := K) (n := m + 1 + 1) (vec := true) (s := { s1 with live := s1.live, next := s1.next + 3 }) (by omega)
          (fun i hi => h2.wa i (by omega)) (fun i hi => h2.wb i (by omega))
        rw [hj]
        simp only [if_true]
        obtain ⟨r, hr, r1, r2, r3⟩ := finish_ok (K := K) (k := m + 1 + 1) (it := if v.plusOne then m + 1 + 1 else m + 1) (w := j)
          (all := v.allEnd) (βs := βs ++ [s.last]) (R := O) (s := { s1 with live := j ::ₘ s1.live, next := s1.next + 3 + 4 }) h1.bases
          h1.len (by omega) (by omega) (by simp only [h1.live])
        rw [hr]
        refine ⟨r, m + 1, rfl, ⟨by omega, stops_of hc, hst⟩, ?_, by simp [r3, hz, h1.prods], r2⟩
        rw [r1]
        cases v.plusOne <;> simp [hz]
      · rw [if_neg hc]
        refine lanczosLoop_ok v fuel (m + 1) _ _ h2 ?_ (by omega) (fun j g1 g2 => ?_)
        · simp only [Bool.or_eq_true, beq_iff_eq, not_or] at hc
          have := hc.2
          omega
        · rcases Nat.lt_or_ge j (m + 1) with g | g
          · exact hst j g1 g
          · obtain rfl : j = m + 1 := by omega
            exact not_stops hz hc

theorem firstStop_lt {K dim : Nat} {zero conv : Nat → Bool} (hK : 2 ≤ K) {m : Nat} (h : FirstStop K dim zero conv m) : m < K := by
  rcases Nat.lt_or_ge m K with g | g
  · exact g
  · exact absurd (Or.inr (Or.inr (Or.inr rfl))) (h.first (K - 1) (by omega) (by omega))

/-- **C32**. For `max_iterations ≥ 2`, whatever the residuals, the energies and the dimension are, each of the solvers
for the lowest state returns within `max_iterations` rounds, no array access is out of bounds or reads an element
that was not computed, and no dead pointer is followed. It stops in the first round `m` in which the residual
vanishes, the energy has converged, the dimension is reached or the limit, after at most `max_iterations` products,
and reports the dimension of the space that was used (the MPI version one less if the residual did not vanish). -/
theorem C32_lanczos (v : LVariant) {K dim p next : Nat} {zero conv : Nat → Bool} {live : Multiset Nat} (hK : 2 ≤ K) (hp : p ∈ live) :
    ∃ r m, lanczos v K dim zero conv K p live next = .ok r ∧ FirstStop K dim zero conv m ∧
      r.iters = (if zero m || !v.plusOne then m else m + 1) ∧ r.fin.prods = (if zero m then m else m + 1) ∧ r.fin.prods ≤ K := by
  obtain ⟨O, rfl⟩ := Multiset.exists_cons_of_mem hp
  obtain ⟨s, hs, hi⟩ := init_ok (K := K) (p := p) (O := O) (next := next) (by omega)
  obtain ⟨r, m, hr, h1, h2, h3, -⟩ := lanczosLoop_ok v (dim := dim) (zero := zero) (conv := conv) K 0 s [p] hi (by omega) (by omega)
    (fun j a b => by omega)
  refine ⟨r, m, by unfold lanczos; rw [hs]; exact hr, h1, h2, h3, ?_⟩
  have := firstStop_lt hK h1
  rw [h3]
  split <;> omega

/-- **C33**. On every exit path the objects that are live afterwards are those of the caller except the initial state,
and the resulting vector: every temporary is freed exactly once (freeing an object that is not live would be an
error), and the initial state is consumed. -/
theorem C33_lanczos (v : LVariant) {K dim p next : Nat} {zero conv : Nat → Bool} {live : Multiset Nat} (hK : 2 ≤ K) (hp : p ∈ live) :
    ∃ r, lanczos v K dim zero conv K p live next = .ok r ∧ r.fin.live = r.vec ::ₘ live.erase p := by
  obtain ⟨O, rfl⟩ := Multiset.exists_cons_of_mem hp
  obtain ⟨s, hs, hi⟩ := init_ok (K := K) (p := p) (O := O) (next := next) (by omega)
  obtain ⟨r, m, hr, -, -, -, h⟩ := lanczosLoop_ok v (dim := dim) (zero := zero) (conv := conv) K 0 s [p] hi (by omega) (by omega)
    (fun j a b => by omega)
  exact ⟨r, by unfold lanczos; rw [hs]; exact hr, by rw [h, Multiset.erase_cons_head]⟩

/-- The hypotheses hold, and the exits of all kinds are reached: a vanishing residual in round 1 and later, and the
limit. -/
example : (7 ∈ ({7, 3} : Multiset Nat)) ∧
    ((lanczos lvSerial 5 100 (fun _ => true) (fun _ => false) 5 7 {7, 3} 10).toOption.map fun r => (r.iters, r.fin.prods, r.fin.live)) =
      some (1, 1, {11, 3}) ∧
    ((lanczos lvMpi 5 100 (fun m => m == 3) (fun _ => false) 5 7 {7, 3} 10).toOption.map fun r => (r.iters, r.fin.prods)) =
      some (3, 3) ∧
    ((lanczos lvSerial 5 100 (fun _ => false) (fun _ => false) 5 7 {7, 3} 10).toOption.map fun r => (r.iters, r.fin.prods)) =
      some (5, 5) := by decide +kernel

/-- **C32** (the code). With `max_iterations = 0`, and with `max_iterations = 1` unless the initial state is an
eigenstate, the solvers write out of bounds. -/
theorem C32_small_limit_violation (v : LVariant) {dim p next : Nat} {zero conv : Nat → Bool} {live : Multiset Nat} (hp : p ∈ live)
    (fuel : Nat) : lanczos v 0 dim zero conv fuel p live next = .error .oob ∧
      (zero 1 = false → lanczos v 1 dim zero conv (fuel + 1) p live next = .error .oob) := by
  refine ⟨by simp [lanczos, lanczosInit, bind, Except.bind], fun hz => ?_⟩
  obtain ⟨O, rfl⟩ := Multiset.exists_cons_of_mem hp
  obtain ⟨s, hs, hi⟩ := init_ok (K := 1) (p := p) (O := O) (next := next) (by omega)
  unfold lanczos
  rw [hs]
  simp only [bind, Except.bind, lanczosLoop, residual_ok hi, hz, Bool.false_eq_true, if_false]
  simp [extend, bind, Except.bind]

theorem expmvLoop_ok {K dim : Nat} {zero conv : Nat → Bool} {O : Multiset Nat} : ∀ (fuel m c l : Nat) (s : LSt) (βs : List Nat),
    LInv K m (c ::ₘ l ::ₘ O) βs s → m + 1 < K → K ≤ fuel + m + 1 → (∀ j, 1 ≤ j → j < m + 1 → ¬ RoundStops K dim zero conv j) →
    ∃ r m', expmvLoop K dim zero conv fuel m c l s = .ok r ∧ FirstStop K dim zero conv m' ∧
      r.iters = (if zero m' then m' else m' + 1) ∧ r.fin.prods = (if zero m' then m' else m' + 1) ∧
      r.fin.live = r.vec ::ₘ O
  | 0, m, c, l, s, βs, h, hm, hf, _ => by omega
  | fuel + 1, m, c, l, s, βs, h, hm, hf, hst => by
    have hlen := h.len
    have hdel : ∀ (s : LSt) (g : Nat), s.live = g ::ₘ l ::ₘ O → s.del (some l) = .ok { s with live := g ::ₘ O } := fun s g hl => by
      unfold LSt.del
      have : s.live = l ::ₘ g ::ₘ O := by rw [hl, Multiset.cons_swap]
      simp only [this, Multiset.mem_cons_self, if_true, Multiset.erase_cons_head]
    rw [expmvLoop]
    simp only [residual_ok h, bind, Except.bind]
    by_cases hz : zero (m + 1) = true
    · rw [if_pos hz]
      by_cases hm0 : m = 0
      · subst hm0
        rw [if_pos rfl]
        simp only [LSt.new]
        have hu : LSt.useB K 0 { s with live := s.next ::ₘ s.live, next := s.next + 1 } = .ok () :=
          useB_ok (βs := βs) (by omega) h.bases (fun q hq => by simp [h.live, hq]) (by omega)
        have hrd : LSt.rd K s.wa 0 = .ok () := rd_ok (by omega) (h.wa 0 (Nat.le_refl _))
        have hfree := free_ok (K := K) (k := K) (βs := βs) (R := s.next ::ₘ l ::ₘ O) (v := some c)
          (s := { s with live := s.next ::ₘ s.live, next := s.next + 1 }) h.bases (by omega) (Nat.le_refl _)
          (by
            simp only [h.live, Option.elim_some, Multiset.singleton_add, Multiset.add_cons]
            rw [Multiset.cons_swap s.next s.last, Multiset.cons_swap c l])
        simp only [hu, hrd, hfree, hdel { s with live := s.next ::ₘ l ::ₘ O, next := s.next + 1 } s.next rfl]
        exact ⟨_, 1, rfl, ⟨Nat.le_refl _, Or.inl hz, fun j h1 h2 => by omega⟩, by simp [hz], by simp [hz, h.prods], rfl⟩
      · rw [if_neg (by omega)]
        obtain ⟨j, hj⟩ := tridiag_ok (K := K) (n := m + 1) (vec := false) (s := s) (by omega) (fun i hi => h.wa i (by omega))
          (fun i hi => h.wb i (by omega))
        simp only [hj, Bool.false_eq_true, if_false]
        have hu : LSt.use (some c) { s with live := s.live, next := s.next + 3 } = .ok () := use_ok (by simp [h.live])
        obtain ⟨r, hr, r1, r2, r3⟩ := finish_ok (K := K) (k := m + 1) (it := m + 1) (w := c) (all := true) (βs := βs) (R := l ::ₘ O)
          (s := { s with live := s.live, next := s.next + 3 }) h.bases hlen (by omega) (by omega)
          (by simp only [h.live, Multiset.add_cons]; rw [Multiset.cons_swap])
        simp only [hu, hr, hdel r.fin r.vec r2]
        exact ⟨_, m + 1, rfl, ⟨by omega, Or.inl hz, hst⟩, by simp [r1, hz], by simp [r3, hz, h.prods], rfl⟩
    · rw [if_neg hz]
      obtain ⟨s1, e1, h1⟩ := extend_ok (v := lvMpi) h hm
      rw [e1]
      obtain ⟨j1, hj1⟩ := tridiag_ok (K := K) (n := m + 1 + 1) (vec := false) (s := s1) (by omega) (fun i hi => h1.wa i (by omega))
        (fun i hi => h1.wb i (by omega))
      simp only [hj1, Bool.false_eq_true, if_false]
      have h2 : LInv K (m + 1) (c ::ₘ l ::ₘ O) (βs ++ [s.last]) { s1 with live := s1.live, next := s1.next + 3 } := h1.scratch h1.live
      have hu1 : LSt.use (some c) { s1 with live := s1.live, next := s1.next + 3 } = .ok () := use_ok (by rw [h2.live]; simp)
      have hu2 : LSt.use (some l) { s1 with live := s1.live, next := s1.next + 3 } = .ok () := use_ok (by rw [h2.live]; simp)
      simp only [hu1, hu2]
      by_cases hc : (conv (m + 1) || m + 1 == dim || m + 1 == K - 1) = true
      · rw [if_pos hc]
        obtain ⟨r, hr, r1, r2, r3⟩ := finish_ok (K := K) (k := m + 1 + 1) (it := m + 1 + 1) (w := c) (all := true)
          (βs := βs ++ [s.last]) (R := l ::ₘ O) (s := { s1 with live := s1.live, next := s1.next + 3 }) h1.bases
          h1.len (by omega) (by omega) (by simp only [h1.live, Multiset.add_cons]; rw [Multiset.cons_swap])
        simp only [hr, hdel r.fin r.vec r2]
        exact ⟨_, m + 1, rfl, ⟨by omega, stops_of hc, hst⟩, by simp [r1, hz], by simp [r3, hz, h1.prods], rfl⟩
      · rw [if_neg hc]
        have h3 : LInv K (m + 1) (l ::ₘ c ::ₘ O) (βs ++ [s.last]) { s1 with live := s1.live, next := s1.next + 3 } := by
          rw [Multiset.cons_swap]; exact h2
        refine expmvLoop_ok fuel (m + 1) l c _ _ h3 ?_ (by omega) (fun j g1 g2 => ?_)
        · simp only [Bool.or_eq_true, beq_iff_eq, not_or] at hc
          have := hc.2
          omega
        · rcases Nat.lt_or_ge j (m + 1) with g | g
          · exact hst j g1 g
          · obtain rfl : j = m + 1 := by omega
            exact not_stops hz hc

theorem expmv_ok {K dim p next : Nat} {zero conv : Nat → Bool} {live : Multiset Nat} (hK : 2 ≤ K) (hp : p ∈ live) :
    ∃ r m, expmv K dim zero conv K p live next = .ok r ∧ FirstStop K dim zero conv m ∧
      r.iters = (if zero m then m else m + 1) ∧ r.fin.prods = (if zero m then m else m + 1) ∧ r.fin.live = r.vec ::ₘ live.erase p := by
  obtain ⟨O, rfl⟩ := Multiset.exists_cons_of_mem hp
  obtain ⟨s, hs, hi⟩ := init_ok (K := K) (p := p) (O := O) (next := next) (by omega)
  have h2 : LInv K 0 (s.next ::ₘ (s.next + 1) ::ₘ O) [p] { s with live := (s.next + 1) ::ₘ s.next ::ₘ s.live, next := s.next + 1 + 1 } :=
    hi.scratch (by
      rw [hi.live]
      simp only [Multiset.add_cons]
      rw [Multiset.cons_swap s.next s.last, Multiset.cons_swap (s.next + 1) s.last, Multiset.cons_swap (s.next + 1) s.next])
  obtain ⟨r, m, hr, a1, a2, a3, a4⟩ := expmvLoop_ok (dim := dim) (zero := zero) (conv := conv) K 0 s.next (s.next + 1) _ [p] h2 (by omega)
    (by omega) (fun j a b => by omega)
  exact ⟨r, m, by unfold expmv; rw [hs]; exact hr, a1, a2, a3, by rw [a4, Multiset.erase_cons_head]⟩

/-- **C32** (time evolution). The same for the solver of the exponential. -/
theorem C32_expmv {K dim p next : Nat} {zero conv : Nat → Bool} {live : Multiset Nat} (hK : 2 ≤ K) (hp : p ∈ live) :
    ∃ r m, expmv K dim zero conv K p live next = .ok r ∧ FirstStop K dim zero conv m ∧
      r.iters = (if zero m then m else m + 1) ∧ r.fin.prods = (if zero m then m else m + 1) ∧ r.fin.prods ≤ K := by
  obtain ⟨r, m, hr, a1, a2, a3, -⟩ := expmv_ok (dim := dim) (next := next) (zero := zero) (conv := conv) hK hp
  refine ⟨r, m, hr, a1, a2, a3, ?_⟩
  have := firstStop_lt hK a1
  rw [a3]
  split <;> omega

/-- **C33** (time evolution). The same for the solver of the exponential, which also frees its two coefficient arrays
once, whichever of them is current. -/
theorem C33_expmv {K dim p next : Nat} {zero conv : Nat → Bool} {live : Multiset Nat} (hK : 2 ≤ K) (hp : p ∈ live) :
    ∃ r, expmv K dim zero conv K p live next = .ok r ∧ r.fin.live = r.vec ::ₘ live.erase p := by
  obtain ⟨r, m, hr, -, -, -, h⟩ := expmv_ok (dim := dim) (next := next) (zero := zero) (conv := conv) hK hp
  exact ⟨r, hr, h⟩

example : ((expmv 4 100 (fun _ => false) (fun m => m == 2) 4 7 {7, 3} 10).toOption.map fun r => (r.iters, r.fin.prods, r.fin.live.card)) =
    some (3, 3, 2) := by decide +kernel

end Verif.Props
