import Verif.Mps.TdvpMeasureFacts
/-
Lemmas on the preparation of the initial state of TDVP.
-/
namespace Verif.Mps
open Finset

section
variable {σ K : Type} [CommRing K] [Fintype σ]

/-- The operators `O i` on the sites. -/
def actAll (O : Nat → Op σ K) (ts : List (Ten σ K)) : List (Ten σ K) := ts.mapIdx fun i t => actOp (O i) t

theorem actOp_id [DecidableEq σ] (t : Ten σ K) : actOp idOp t = t := by
  unfold actOp
  cases t with
  | mk l r v =>
    simp only [Ten.mk.injEq, true_and]
    funext s' a b
    rw [Finset.sum_eq_single s'] <;> simp +contextual [idOp]

theorem linked_actAll (O : Nat → Op σ K) : ∀ {ts : List (Ten σ K)}, Linked ts → Linked (actAll O ts) ∧ headL (actAll O ts) = headL ts ∧
    lastR (actAll O ts) = lastR ts := by
  intro ts
  induction ts generalizing O with
  | nil => intro h; exact ⟨h, rfl, rfl⟩
  | cons t ts ih =>
    intro h
    obtain ⟨h1, h2, h3⟩ := ih (fun i => O (i + 1)) (linked_cons h)
    have e : actAll O (t :: ts) = actOp (O 0) t :: actAll (fun i => O (i + 1)) ts := by
      unfold actAll; rw [List.mapIdx_cons]
    rw [e]
    refine ⟨?_, rfl, ?_⟩
    · cases ts with
      | nil => exact List.IsChain.singleton _
      | cons u us =>
        have e2 : actAll (fun i => O (i + 1)) (u :: us) = actOp (O 1) u :: actAll (fun i => O (i + 2)) us := by
          unfold actAll; rw [List.mapIdx_cons]
        rw [e2] at h1 ⊢
        exact linked_mk (show t.r = u.l from linked_head h) h1
    · cases ts with
      | nil => rfl
      | cons u us =>
        have e2 : actAll (fun i => O (i + 1)) (u :: us) = actOp (O 1) u :: actAll (fun i => O (i + 2)) us := by
          unfold actAll; rw [List.mapIdx_cons]
        rw [e2] at h3 ⊢
        have f : ∀ (x y : Ten σ K) (l : List (Ten σ K)), lastR (x :: y :: l) = lastR (y :: l) := fun x y l => by
          unfold lastR; rw [List.getLast?_cons_cons]
        rw [f, f, h3]

theorem amp_actAll (O : Nat → Op σ K) : ∀ (ts : List (Ten σ K)) (s' : Fin ts.length → σ) (a b : Nat),
    amp (actAll O ts) (List.ofFn s') a b = ∑ s : Fin ts.length → σ, (∏ i : Fin ts.length, O i (s i) (s' i)) * amp ts (List.ofFn s) a b := by
  intro ts
  induction ts generalizing O with
  | nil => intro s' a b; simp [actAll]
  | cons t ts ih =>
    intro s' a b
    have e : actAll O (t :: ts) = actOp (O 0) t :: actAll (fun i => O (i + 1)) ts := by
      unfold actAll; rw [List.mapIdx_cons]
    rw [e]
    have : List.ofFn s' = s' 0 :: List.ofFn (fun i : Fin ts.length => s' i.succ) := List.ofFn_succ
    rw [this]
    simp only [amp, actOp]
    simp only [ih]
    have hc := sum_cons (σ := σ) ts.length
      (fun s => (∏ i : Fin (ts.length + 1), O i (s i) (s' i)) * amp (t :: ts) (List.ofFn s) a b)
    refine Eq.trans ?_ hc.symm
    simp only [Finset.sum_mul]
    rw [Finset.sum_comm]
    refine sum_congr rfl fun s0 _ => ?_
    simp only [Finset.mul_sum]
    rw [Finset.sum_comm]
    refine sum_congr rfl fun s _ => ?_
    rw [Fin.prod_univ_succ, List.ofFn_succ]
    simp only [Fin.cons_zero, Fin.cons_succ, amp, Finset.mul_sum]
    exact sum_congr rfl fun k _ => by simp; ring

end

section
variable {σ K : Type} [CommRing K] [StarRing K] [Fintype σ] [DecidableEq σ]

omit [StarRing K] [DecidableEq σ] in
theorem actSite_ok {N i : Nat} {d : List (Ten σ K)} {m : FMps σ K} {t : Ten σ K} (o : Op σ K) (hs : Slots m N (fun _ => Option.none)) (hi : i < N)
    (ht : d[i]? = some t) : ∃ m', actSite o (d, m) i = .ok (d.set i (actOp o t), m') ∧ Slots m' N (fun _ => Option.none) := by
  obtain ⟨m1, e1, s1⟩ := hs.loadTen hi ht
  have r := s1.read hi (t := t) (by simp [upd])
  have e2 : m1.write i (actOp o t) = .ok ⟨m1.slots.set i (some (actOp o t)), m1.flags.set i .none, -1⟩ := by
    unfold FMps.write FMps.size; rw [if_pos (by rw [s1.len]; exact hi)]
  have s2 : Slots (⟨m1.slots.set i (some (actOp o t)), m1.flags.set i .none, -1⟩ : FMps σ K) N _ := Slots.set s1 i _
  obtain ⟨m3, e3, s3⟩ := s2.dealloc hi
  refine ⟨m3, ?_, s3.congr fun j _ => ?_⟩
  · unfold actSite
    rw [e1]
    simp only [bind, Except.bind]
    rw [r]
    simp only
    rw [e2]
    simp only
    rw [e3]
    rfl
  · by_cases h : j = i <;> simp [upd, h]

omit [StarRing K] [DecidableEq σ] in
theorem actLoop_ok {N : Nat} (o : Op σ K) : ∀ (n : Nat) {d : List (Ten σ K)} {m : FMps σ K}, d.length = N → n ≤ N →
    Slots m N (fun _ => Option.none) →
    ∃ d' m', (List.range n).reverse.foldlM (actSite o) (d, m) = .ok (d', m') ∧ Slots m' N (fun _ => Option.none) ∧
      ∀ j, d'[j]? = if j < n then (d[j]?).map (actOp o) else d[j]?
  | 0, d, m, _, _, hs => ⟨d, m, rfl, hs, fun j => by simp⟩
  | n + 1, d, m, hd, hn, hs => by
    obtain ⟨t, et⟩ := getE (ts := d) (i := n) (by omega)
    obtain ⟨m1, e1, s1⟩ := actSite_ok o hs (i := n) (by omega) et
    obtain ⟨d', m', e2, s2, k⟩ := actLoop_ok o n (d := d.set n (actOp o t)) (m := m1) (by simpa using hd) (by omega) s1
    refine ⟨d', m', ?_, s2, fun j => ?_⟩
    · rw [List.range_succ, List.reverse_append, List.reverse_singleton, List.singleton_append, List.foldlM_cons, e1]
      exact e2
    · rw [k j]
      by_cases h : j = n
      · subst h
        rw [if_neg (by omega), if_pos (by omega), List.getElem?_set_self (by omega), et]; rfl
      · by_cases h' : j < n
        · rw [if_pos h', if_pos (by omega), List.getElem?_set_ne (by omega)]
        · rw [if_neg h', if_neg (by omega), List.getElem?_set_ne (by omega)]

omit [StarRing K] in
theorem actOperator_ok {N : Nat} {ts : List (Ten σ K)} {m : FMps σ K} (op : Op σ K) (inst : Option (Op σ K)) {site : Nat}
    (hN : ts.length = N) (hi : site < N) (hs : Slots m N (fun _ => Option.none)) :
    ∃ m', actOperator op inst site (ts, m) = .ok (actAll (corrOps op (inst.getD idOp) site) ts, m') ∧ Slots m' N (fun _ => Option.none) := by
  obtain ⟨t, et⟩ := getE (ts := ts) (i := site) (by omega)
  obtain ⟨m1, e1, s1⟩ := actSite_ok op hs hi et
  cases inst with
  | none =>
    refine ⟨m1, ?_, s1⟩
    unfold actOperator
    rw [e1]
    simp only [bind, Except.bind, pure, Except.pure, Except.ok.injEq, Prod.mk.injEq, and_true]
    apply List.ext_getElem?
    intro j
    simp only [actAll, List.getElem?_mapIdx, Option.getD_none]
    by_cases h : j = site
    · subst h; rw [List.getElem?_set_self (by omega), et]; simp [corrOps]
    · rw [List.getElem?_set_ne (by omega)]
      have : corrOps op idOp site j = (idOp : Op σ K) := by
        unfold corrOps
        by_cases h' : j < site
        · rw [if_pos h']
        · rw [if_neg h', if_neg h]
      rw [this]
      cases ts[j]? <;> simp [actOp_id]
  | some o =>
    obtain ⟨d', m', e2, s2, k⟩ := actLoop_ok o site (d := ts.set site (actOp op t)) (m := m1) (by simpa using hN) (by omega) s1
    refine ⟨m', ?_, s2⟩
    unfold actOperator
    rw [e1]
    simp only [bind, Except.bind]
    rw [e2]
    simp only [Except.ok.injEq, Prod.mk.injEq, and_true]
    apply List.ext_getElem?
    intro j
    rw [k j]
    simp only [actAll, List.getElem?_mapIdx, Option.getD_some]
    by_cases h : j = site
    · subst h; rw [if_neg (by omega), List.getElem?_set_self (by omega), et]; simp [corrOps]
    · rw [List.getElem?_set_ne (by omega)]
      by_cases h' : j < site
      · rw [if_pos h']; simp [corrOps, h']
      · rw [if_neg h']
        simp only [corrOps, if_neg h', if_neg h]
        cases ts[j]? <;> simp [actOp_id]

variable {qr svd : Ten σ K → Ten σ K × Mat K}

theorem canonLoop_ok (H : QRSpec qr) {N : Nat} {d0 : List (Ten σ K)} : ∀ (n : Nat) {d : List (Ten σ K)} {m : FMps σ K} {t : Ten σ K},
    d.length = N → n < N → Slots m N (only n t) → Linked (d.set n t) → Eqv d0 (d.set n t) →
    ∃ d' m' t', (List.range' 1 n).reverse.foldlM (canonStep qr svd) (d, m) = .ok (d', m') ∧ d'.length = N ∧ Slots m' N (only 0 t') ∧
      Linked (d'.set 0 t') ∧ Eqv d0 (d'.set 0 t') ∧ (∀ j u, 1 ≤ j → j ≤ n → d'[j]? = some u → RightIso u) ∧ ∀ j, n < j → d'[j]? = d[j]?
  | 0, d, m, t, hd, hn, hs, hl, he => ⟨d, m, t, rfl, hd, hs, hl, he, fun _ _ _ _ => by omega, fun _ _ => rfl⟩
  | n + 1, d, m, t, hd, hn, hs, hl, he => by
    obtain ⟨p, ep⟩ := getE (ts := d) (i := n) (by omega)
    obtain ⟨m1, e1, s1⟩ := hs.loadTen (i := n) (by omega) ep
    have g0 : (d.set (n + 1) t)[n]? = some p := by rw [List.getElem?_set_ne (by omega)]; exact ep
    have g1 : (d.set (n + 1) t)[n + 1]? = some t := by rw [List.getElem?_set_self (by omega)]
    have hr : p.r = t.l := linked_get hl n p t g0 g1
    have f0 : (upd (only (n + 1) t) n (some p)) n = some p := by simp [upd]
    have f1 : (upd (only (n + 1) t) n (some p)) (n + 1) = some t := by simp [upd, only]
    let p' := mulRT p (qr t.tr).2 (qr t.tr).1.r
    let q := (qr t.tr).1.tr
    have e2 : FMps.rightTen qr svd false m1 (n + 1) = .ok ⟨(m1.slots.set n (some p')).set (n + 1) (some q),
            (m1.flags.set n .none).set (n + 1) .right, -1⟩ := by
      unfold FMps.rightTen
      simp only [s1.get (i := n) (by omega), s1.get (i := n + 1) hn, f0, f1]
      rw [if_pos hr]
      rfl
    have s2 : Slots (⟨(m1.slots.set n (some p')).set (n + 1) (some q), (m1.flags.set n .none).set (n + 1) .right, -1⟩ : FMps σ K) N _ :=
      Slots.set (Slots.set s1 n (some p')) (n + 1) (some q)
    have r2 := s2.read hn (t := q) (by simp [upd])
    obtain ⟨m3, e3, s3⟩ := s2.dealloc hn
    have hset : (d.set (n + 1) q).set n p' = set2 (d.set (n + 1) t) n p' q := by
      unfold set2
      apply List.ext_getElem?
      intro j
      simp only [List.getElem?_set]
      by_cases a : n = j <;> by_cases b : n + 1 = j <;> simp [a, b]
      all_goals omega
    obtain ⟨he', hl'⟩ := eqv_set2 (t := p) (u := t) (p := p') (q := q) rfl rfl (H.dim t.tr) (samePair_rq H p t hr) g0 g1 hl
    obtain ⟨d', m', t', k1, k2, k3, k4, k5, k6, k7⟩ := canonLoop_ok H n (d := d.set (n + 1) q) (m := m3) (t := p') (by simpa using hd) (by omega)
      (s3.congr fun j _ => by
        simp only [upd, only]
        by_cases a : j = n + 1
        · simp [a]
        · by_cases b : j = n <;> simp [a, b])
      (by rw [hset]; exact hl') (by rw [hset]; exact he.trans he')
    refine ⟨d', m', t', ?_, k2, k3, k4, k5, ?_, ?_⟩
    · rw [List.range'_concat, List.reverse_append, List.reverse_singleton, List.singleton_append, List.foldlM_cons]
      have : canonStep qr svd (d, m) (1 + 1 * n) = .ok (d.set (n + 1) q, m3) := by
        rw [show 1 + 1 * n = n + 1 by omega]
        unfold canonStep
        simp only [Nat.add_sub_cancel, bind, Except.bind]
        rw [e1]
        simp only
        rw [e2]
        simp only
        rw [r2]
        simp only
        rw [e3]
        rfl
      rw [this]
      exact k1
    · intro j u h1 h2 hu
      by_cases h : j ≤ n
      · exact k6 j u h1 h hu
      · obtain rfl : j = n + 1 := by omega
        rw [k7 _ (by omega), List.getElem?_set_self (by omega)] at hu
        injection hu with hu
        rw [← hu]
        exact rightIso_tr (H.iso t.tr)
    · intro j hj
      rw [k7 j (by omega), List.getElem?_set_ne (by omega)]

end
end Verif.Mps
