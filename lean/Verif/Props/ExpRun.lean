import Verif.Props.ExpSpec
import Verif.Props.ExpFacts
/-
Lemmas for C68: one pass and the whole loop of `ExpFiniteMPO` follow the series.
-/
namespace Verif.Props
open Verif.Mps Finset

variable {σ K : Type} [Field K] [StarRing K] [Fintype σ] [DecidableEq σ] {N : Nat}

/-- The compressing product is only reached on three or more sites with at least one sweep. -/
def NoShort (C : ExpCfg K) (N dH : Nat) : Prop := (3 ≤ N ∧ 1 ≤ C.sweeps) ∨ (2 ≤ N ∧ ∀ k < C.maxOrder, dH ^ k ≤ C.Dmax)

/-- A directory that holds an operator on `N` sites. -/
def HoldsOp (d : MpoDir σ K) (N : Nat) (O : Matrix (Fin N → σ) (Fin N → σ) K) : Prop :=
  ∃ m d0, IsOp m O ∧ CenterOk m ∧ FMpo.dump m d0 = .ok d

theorem isOp_dims {m m' : FMpo σ K} {O : Matrix (Fin N → σ) (Fin N → σ) K} (h : IsOp m O) (hc : CenterOk m) {c : K} (e : FMpo.scale m c = .ok m') :
    (NoZeroBond m → NoZeroBond m') ∧ FMpo.maxBond m' = FMpo.maxBond m := by
  obtain ⟨ts, r, rfl, a1, a2, rfl⟩ := h.rep
  obtain ⟨i, t, hi, ht, -, -, e'⟩ := scale_eq r (ne_nil_of_pos a1) c (by simpa [CenterOk, FMps.size, r.slots] using hc)
  rw [e] at e'
  cases e'
  obtain ⟨l1, l2, l3⟩ := linked_set_same (u := scaleTen c t) r.link ht rfl rfl
  have r' : Rep (⟨(ts.set i (scaleTen c t)).map some, m.flags.set i .none, m.center⟩ : FMpo σ K) (ts.set i (scaleTen c t)) := ⟨rfl, by simp [r.flen], l1⟩
  have key : ∀ (j : Nat) (u : Ten (σ × σ) K), (ts.set i (scaleTen c t))[j]? = some u → ∃ v, ts[j]? = some v ∧ u.l = v.l ∧ u.r = v.r := by
    intro j u hu
    rw [List.getElem?_set] at hu
    split at hu
    · next hj =>
      subst hj
      simp only [hi, if_true, Option.some.injEq] at hu
      subst hu
      exact ⟨t, ht, rfl, rfl⟩
    · exact ⟨u, hu, rfl, rfl⟩
  have key' : ∀ (j : Nat) (u : Ten (σ × σ) K), ts[j]? = some u → ∃ v, (ts.set i (scaleTen c t))[j]? = some v ∧ u.l = v.l ∧ u.r = v.r := by
    intro j u hu
    by_cases hj : i = j
    · subst hj
      rw [ht] at hu; cases hu
      exact ⟨_, List.getElem?_set_self hi, rfl, rfl⟩
    · exact ⟨u, by rw [List.getElem?_set_ne hj]; exact hu, rfl, rfl⟩
  refine ⟨fun z j u hu => ?_, ?_⟩
  · simp only [List.getElem?_map] at hu
    obtain ⟨u', hu', e'⟩ := Option.map_eq_some_iff.mp hu
    cases e'
    obtain ⟨v, hv, h1, -⟩ := key j u hu'
    rw [h1]; exact z j v (r.get hv)
  · apply Nat.le_antisymm
    · rw [maxBond_le r']
      refine ⟨one_le_maxBond r, fun j u hj hu => ?_⟩
      obtain ⟨v, hv, -, h2⟩ := key j u hu
      rw [h2]
      exact ((maxBond_le r).mp (Nat.le_refl _)).2 j v (by simpa using hj) hv
    · rw [maxBond_le r]
      refine ⟨one_le_maxBond r', fun j u hj hu => ?_⟩
      obtain ⟨v, hv, -, h2⟩ := key' j u hu
      rw [h2]
      exact ((maxBond_le r').mp (Nat.le_refl _)).2 j v (by simpa using hj) hv

theorem maxBond_center (m : FMpo σ K) (fl : List Cano) (c : Int) : FMpo.maxBond (⟨m.slots, fl, c⟩ : FMpo σ K) = FMpo.maxBond m := rfl

/-- The next term. -/
theorem expTerm_spec {L : ExpLib σ K} (HL : ExpLibSpec L) {C : ExpCfg K} {x : FMpo σ K} {X : Matrix (Fin N → σ) (Fin N → σ) K} (hx : IsOp x X) (zx : NoZeroBond x)
    {dH n : Nat} (hd : FMpo.maxBond x = dH) (hn : 2 ≤ n) (hnK : (n : K) ≠ 0) {s : ExpSt σ K} {T : Matrix (Fin N → σ) (Fin N → σ) K} (hT : IsOp s.term T)
    (fT : s.term.flags = List.replicate N .none ∧ s.term.center = -1 ∨ dH * FMpo.maxBond s.term ≤ C.Dmax) (hN : 2 ≤ N)
    (hns : dH * FMpo.maxBond s.term ≤ C.Dmax ∨ (3 ≤ N ∧ 1 ≤ C.sweeps))
    (hdisk : ∀ d, s.disk n = some d → ∃ O, HoldsOp d N O) :
    (∃ t T' es lf rf, expTerm L C x dH n s = .ok { s with term := t, lf := lf, rf := rf, errs := s.errs ++ es } ∧ IsOp t T' ∧ CenterOk t ∧ Proj (T * X) ((n : K) • T') ∧
      (dH * FMpo.maxBond s.term ≤ C.Dmax → FMpo.maxBond t ≤ dH * FMpo.maxBond s.term ∧
        Matrix.trace (((n : K) • T') * ((n : K) • T').conjTranspose) = Matrix.trace (T * X * (T * X).conjTranspose) * (es.map (1 - ·)).prod)) ∨
    (expTerm L C x dH n s = .error .ub ∧ T = 0) := by
  have hsz : x.size = N := by
    obtain ⟨us, rx, hu, -⟩ := hx.rep
    rw [rx.size, hu]
  have fin : ∀ {m : FMpo σ K} {O : Matrix (Fin N → σ) (Fin N → σ) K}, IsOp m O → CenterOk m → ∃ t, FMpo.scale m (n : K)⁻¹ = .ok t ∧ IsOp t ((n : K)⁻¹ • O) ∧ CenterOk t ∧
      FMpo.maxBond t = FMpo.maxBond m ∧ (n : K) • ((n : K)⁻¹ • O) = O := by
    intro m O h hc
    obtain ⟨t, e, io, ce⟩ := C65_scale h hc (n : K)⁻¹
    have s1 : t.size = m.size := by
      obtain ⟨us, r1, h1, -⟩ := io.rep
      obtain ⟨vs, r2, h2, -⟩ := h.rep
      rw [r1.size, r2.size, h1, h2]
    refine ⟨t, e, io, ?_, (isOp_dims h hc e).2, by rw [smul_smul, mul_inv_cancel₀ hnK, one_smul]⟩
    unfold CenterOk at hc ⊢
    rw [ce, s1]; exact hc
  by_cases hb : dH * FMpo.maxBond s.term ≤ C.Dmax
  · by_cases zT : NoZeroBond s.term
    · refine Or.inl ?_
      obtain ⟨p, e1, io, pf, pc⟩ := C65_product (out := FMpo.fresh N) hT hx zT zx (by simp [FMpo.fresh, FMps.fresh, FMps.size]) (by simp [FMpo.fresh, FMps.fresh])
      obtain ⟨ps, rp, hp, p1, p2, pO⟩ := io.rep
      have tr : Tracked L.qr L.svd (L.tsvd 1 (FMpo.maxBond p)) L.nrm (L.terr 1 (FMpo.maxBond p)) N p := by
        have := tracked_plain (qr := L.qr) (svd := L.svd) (tsvd := L.tsvd 1 (FMpo.maxBond p)) (nrm := L.nrm) (terr := L.terr 1 (FMpo.maxBond p)) rp.slots (by omega)
        rw [hp, ← pf, ← pc] at this
        exact this
      obtain ⟨cs, c1, c2, c3⟩ := tr
      obtain ⟨m', es, O', e2, io', -, o1, -, o3, mc, mf, mD⟩ := C66_truncate HL.qr HL.svd (HL.tsvd 1 (FMpo.maxBond p)) c1 c2 c3 io hN
      obtain ⟨t, e3, io3, ct, mb, sm⟩ := fin io' (Or.inl mc)
      refine ⟨t, _, es, s.lf, s.rf, ?_, io3, ct, ?_, fun _ => ⟨?_, ?_⟩⟩
      · unfold expTerm
        rw [if_pos (by omega), if_pos hb, hsz, e1]
        show ((FMpo.truncate L.qr L.svd (L.tsvd 1 (FMpo.maxBond p)) (L.terr 1 (FMpo.maxBond p)) p >>= _) >>= _) = _
        rw [e2]
        show (FMpo.scale m' (n : K)⁻¹ >>= _) = _
        rw [e3]; rfl
      · rw [sm]; exact o1
      · rw [mb]
        obtain ⟨ms, rm, hm, m1, m2, mO⟩ := io'.rep
        obtain ⟨ts, rt, ht, t1, t2, tO⟩ := hT.rep
        obtain ⟨us, ru, hu, u1, u2, uO⟩ := hx.rep
        have bp : FMpo.maxBond p ≤ dH * FMpo.maxBond s.term := by
          rw [maxBond_le rp]
          refine ⟨Nat.mul_pos (by rw [← hd]; exact one_le_maxBond ru) (one_le_maxBond rt), fun i w hi hw => ?_⟩
          have ep : ps = List.zipWith prodTen ts us := by
            have pos : ∀ {m : FMpo σ K} {ts : List (Ten (σ × σ) K)}, Rep m ts → NoZeroBond m → ∀ t ∈ ts, 0 < t.l := by
              intro m ts r z t ht
              obtain ⟨i, hi⟩ := List.getElem?_of_mem ht
              exact z i t (r.get hi)
            have e1' := product_eq rt.slots ru.slots (hu.trans ht.symm) (C := FMpo.fresh N) (by simp [FMpo.fresh, FMps.fresh, FMps.size, ht]) (by simp [FMpo.fresh, FMps.fresh, ht]) (by omega) (pos rt zT) (pos ru zx)
            rw [e1] at e1'
            have := congrArg FMps.slots (Except.ok.inj e1')
            rw [rp.slots] at this
            exact List.map_injective_iff.mpr (Option.some_injective _) this
          obtain ⟨t', ht'⟩ := getE (ts := ts) (i := i) (by omega)
          obtain ⟨u', hu'⟩ := getE (ts := us) (i := i) (by omega)
          rw [ep, List.getElem?_zipWith, ht', hu'] at hw
          simp at hw
          subst hw
          show t'.r * u'.r ≤ _
          rw [Nat.mul_comm]
          exact Nat.mul_le_mul (by rw [← hd]; exact ((maxBond_le ru).mp (Nat.le_refl _)).2 i u' (by omega) hu') (((maxBond_le rt).mp (Nat.le_refl _)).2 i t' (by omega) ht')
        refine Nat.le_trans ?_ bp
        rw [maxBond_le rm]
        refine ⟨one_le_maxBond rp, fun i w hi hw => ?_⟩
        obtain ⟨w', hw'⟩ := getE (ts := ms) (i := i + 1) (by omega)
        rw [linked_get rm.link i w w' hw hw']
        exact mD _ (HL.cap 1 _) (i + 1) w' (by omega) (rm.get hw')
      · rw [sm]; exact o3
    · refine Or.inr ⟨?_, zero_of_zeroBond hT zT⟩
      unfold expTerm
      rw [if_pos (by omega), if_pos hb, hsz, product_zeroBond hT hx zT (by simp [FMpo.fresh, FMps.fresh, FMps.size]) (by simp [FMpo.fresh, FMps.fresh])]
      rfl
  · refine Or.inl ?_
    obtain ⟨h3, hs⟩ := hns.resolve_left hb
    obtain ⟨ff, fc⟩ := fT.resolve_right hb
    obtain ⟨ts, rt, ht, t1, t2, tO⟩ := hT.rep
    have tr : Tracked L.qr L.svd (L.tsvd 1 1) L.nrm (L.terr 1 1) N s.term := by
      have := tracked_plain (qr := L.qr) (svd := L.svd) (tsvd := L.tsvd 1 1) (nrm := L.nrm) (terr := L.terr 1 1) rt.slots (by omega)
      rw [ht, ← ff, ← fc] at this
      exact this
    obtain ⟨cs, c1, -, -⟩ := tr
    obtain ⟨g, G, e1, hg⟩ : ∃ g G, expGuess N (s.disk n) = .ok g ∧ IsGuess g T G := by
      cases hd : s.disk n with
      | none => exact ⟨FMpo.fresh N, T, rfl, Or.inr ⟨by simp [FMpo.fresh, FMps.fresh, FMps.size], ⟨0, by show (List.replicate N Option.none)[0]? = _; rw [List.getElem?_replicate, if_pos (by omega)]⟩, rfl⟩⟩
      | some d =>
        obtain ⟨O, m, d0, io, ic, hd'⟩ := hdisk d hd
        obtain ⟨d', m', x1, x2, -, x3, -⟩ := C65_dump_load io ic d0
        rw [hd'] at x1; cases x1
        exact ⟨m', O, x2, Or.inl x3⟩
    obtain ⟨z, O', e2, io', o1, -, zc, -⟩ := C44_product HL.qr HL.svd HL.splitR HL.splitL L.nrm2 L.conv hs h3 c1 hT hx hg s.lf s.rf
    have zs : z.out.size = N := by
      obtain ⟨us, r1, h1, -⟩ := io'.rep
      rw [r1.size, h1]
    obtain ⟨t, e3, io3, ct, mb, sm⟩ := fin io' (Or.inr ⟨1, by omega, zc⟩)
    refine ⟨t, _, [], z.lf, z.rf, ?_, io3, ct, ?_, fun h => absurd h hb⟩
    · unfold expTerm
      rw [if_pos (by omega), if_neg hb, hsz, e1]
      show ((FMpo.varProduct L.qr L.svd L.splitR L.splitL L.nrm2 L.conv C.sweeps s.term x g s.lf s.rf >>= _) >>= _) = _
      rw [e2]
      show (FMpo.scale z.out (n : K)⁻¹ >>= _) = _
      rw [e3, List.append_nil]; rfl
    · rw [sm]; exact o1

/-- Adding the term. -/
theorem expAdd_spec {L : ExpLib σ K} (HL : ExpLibSpec L) {C : ExpCfg K} {n : Nat} {s : ExpSt σ K} {T S : Matrix (Fin N → σ) (Fin N → σ) K} (hT : IsOp s.term T)
    (cT : CenterOk s.term) (hS : IsOp s.dens S) (hN : 2 ≤ N) :
    ∃ t d dir es S', expAdd L C n s = .ok ({ s with term := t, dens := d, disk := Function.update s.disk n (some dir), traces := s.traces ++ [Matrix.trace T], errs := s.errs ++ es }, Matrix.trace T) ∧
      IsOp t T ∧ t.flags = List.replicate N .none ∧ t.center = -1 ∧ FMpo.maxBond t = FMpo.maxBond s.term ∧ HoldsOp dir N T ∧
      IsOp d S' ∧ Proj (S + T) S' ∧ Tracked L.qr L.svd (L.tsvd C.Dmax C.Dmax) L.nrm (L.terr C.Dmax C.Dmax) N d ∧
      Matrix.trace (S' * S'.conjTranspose) = Matrix.trace ((S + T) * (S + T).conjTranspose) * (es.map (1 - ·)).prod := by
  obtain ⟨d, e1, io, df, dc⟩ := C65_add hS hT hN
  obtain ⟨ts, rt, ht, t1, t2, tO⟩ := hT.rep
  obtain ⟨ds, rd, hd, d1, d2, dO⟩ := io.rep
  have e2 : FMpo.dump s.term ((s.disk n).getD ⟨fun _ => Option.none, Option.none⟩) = .ok ⟨fun i => match s.term.slots[i]? with
      | some (some t) => some t
      | _ => ((s.disk n).getD ⟨fun _ => Option.none, Option.none⟩).tens i, some s.term.center⟩ := by
    unfold FMpo.dump
    exact if_pos (by rw [rt.slots]; simp)
  have e3 := C65_trace hT
  have io' : IsOp (⟨s.term.slots, List.replicate N .none, -1⟩ : FMpo σ K) T := IsOp.mk' (ts := ts) ⟨rt.slots, by simp [ht], rt.link⟩ ht t1 t2 tO
  have tr : Tracked L.qr L.svd (L.tsvd C.Dmax C.Dmax) L.nrm (L.terr C.Dmax C.Dmax) N d := by
    have := tracked_plain (qr := L.qr) (svd := L.svd) (tsvd := L.tsvd C.Dmax C.Dmax) (nrm := L.nrm) (terr := L.terr C.Dmax C.Dmax) rd.slots (by omega)
    rw [hd, ← df, ← dc] at this
    exact this
  by_cases hD : C.Dmax < FMpo.maxBond d
  · obtain ⟨cs, c1, c2, c3⟩ := tr
    obtain ⟨m', es, O', e4, io4, -, o1, -, o3, mc, mf, mD⟩ := C66_truncate HL.qr HL.svd (HL.tsvd C.Dmax C.Dmax) c1 c2 c3 io hN
    refine ⟨_, m', _, es, O', ?_, io', rfl, rfl, rfl, ⟨s.term, _, hT, cT, e2⟩, io4, o1, ?_, o3⟩
    · unfold expAdd
      rw [e1]
      show (FMpo.dump s.term _ >>= _) = _
      rw [e2]
      show (FMpo.trace s.term >>= _) = _
      rw [e3]
      refine (if_pos hD).trans ?_
      rw [e4]; rfl
    · refine Tracked.append (c := .truncate) ⟨cs, c1, c2, c3⟩ ?_ (by simp) (by simp)
      show (FMpo.truncate L.qr L.svd _ _ d).map Prod.fst = _
      rw [e4]; rfl
  · refine ⟨_, d, _, [], S + T, ?_, io', rfl, rfl, rfl, ⟨s.term, _, hT, cT, e2⟩, io, rfl, tr, by simp⟩
    unfold expAdd
    rw [e1]
    show (FMpo.dump s.term _ >>= _) = _
    rw [e2]
    show (FMpo.trace s.term >>= _) = _
    rw [e3]
    refine (if_neg hD).trans ?_
    rw [List.append_nil]; rfl

/-- The state before the pass of order `n`. -/
structure LInv (L : ExpLib σ K) (C : ExpCfg K) (X : Matrix (Fin N → σ) (Fin N → σ) K) (dH : Nat) (disk0 : Nat → Option (MpoDir σ K)) (n : Nat) (s : ExpSt σ K)
    (T S : Nat → Matrix (Fin N → σ) (Fin N → σ) K) : Prop where
  run : TaylorRun X T S (n - 1)
  term1 : n = 1 → IsOp s.term X ∧ CenterOk s.term ∧ FMpo.maxBond s.term ≤ dH
  term2 : 2 ≤ n → IsOp s.term (T (n - 1)) ∧ s.term.flags = List.replicate N .none ∧ s.term.center = -1
  bond : (∀ k < C.maxOrder, dH ^ k ≤ C.Dmax) → 2 ≤ n → FMpo.maxBond s.term ≤ dH ^ (n - 1)
  dens : IsOp s.dens (S (n - 1)) ∧ Tracked L.qr L.svd (L.tsvd C.Dmax C.Dmax) L.nrm (L.terr C.Dmax C.Dmax) N s.dens
  old : ∀ k, n ≤ k → s.disk k = disk0 k
  new : ∀ k, 1 ≤ k → k < n → ∃ d, s.disk k = some d ∧ HoldsOp d N (T k)
  traces : s.traces = (List.range' 1 (n - 1)).map fun k => Matrix.trace (T k)
  exact : (∀ k < C.maxOrder, dH ^ k ≤ C.Dmax) → (∀ A : Matrix (Fin N → σ) (Fin N → σ) K, Matrix.trace (A * A.conjTranspose) = 0 → A = 0) →
    (∀ e ∈ s.errs, e = 0) → TaylorExact X T S (n - 1)

theorem prod_one_sub {es : List K} (h : ∀ e ∈ es, e = 0) : (es.map (1 - ·)).prod = 1 := by
  induction es with
  | nil => rfl
  | cons e es ih =>
    rw [List.map_cons, List.prod_cons, ih fun x hx => h x (by simp [hx]), h e (by simp)]
    simp

omit [DecidableEq σ] in
/-- A projection that keeps the norm keeps the operator. -/
theorem proj_exact {A B : Matrix (Fin N → σ) (Fin N → σ) K} (hdef : ∀ A : Matrix (Fin N → σ) (Fin N → σ) K, Matrix.trace (A * A.conjTranspose) = 0 → A = 0)
    (h : Proj A B) (hn : Matrix.trace (B * B.conjTranspose) = Matrix.trace (A * A.conjTranspose)) : B = A := by
  have := hdef (A - B) (by rw [frob_pythagoras h, hn, sub_self])
  exact (sub_eq_zero.mp this).symm

omit [StarRing K] [Fintype σ] [DecidableEq σ] in
theorem upd_lt {β : Type} (f : Nat → β) (n : Nat) (v : β) {k : Nat} (h : k ≠ n) : Function.update f n v k = f k := Function.update_of_ne h v f

/-- One more order. -/
theorem run_extend {X : Matrix (Fin N → σ) (Fin N → σ) K} {T S : Nat → Matrix (Fin N → σ) (Fin N → σ) K} {n : Nat} (hn : 1 ≤ n) (h : TaylorRun X T S (n - 1))
    {T' S' : Matrix (Fin N → σ) (Fin N → σ) K} (h1 : n = 1 → T' = X) (h2 : 2 ≤ n → Proj (T (n - 1) * X) ((n : K) • T')) (h3 : Proj (S (n - 1) + T') S') :
    TaylorRun X (Function.update T n T') (Function.update S n S') n where
  zero := by rw [upd_lt _ _ _ (by omega)]; exact h.zero
  first _ := by
    by_cases c : n = 1
    · subst c; rw [Function.update_self]; exact h1 rfl
    · rw [upd_lt _ _ _ (by omega)]; exact h.first (by omega)
  term k hk hk' := by
    by_cases c : k = n
    · subst c
      rw [Function.update_self, upd_lt _ _ _ (by omega)]; exact h2 hk
    · rw [upd_lt _ _ _ c, upd_lt _ _ _ (by omega)]; exact h.term k hk (by omega)
  sum k hk hk' := by
    by_cases c : k = n
    · subst c
      rw [Function.update_self, Function.update_self, upd_lt _ _ _ (by omega)]; exact h3
    · rw [upd_lt _ _ _ c, upd_lt _ _ _ c, upd_lt _ _ _ (by omega)]; exact h.sum k hk (by omega)

/-- How the loop may end. -/
def LoopEnd (L : ExpLib σ K) (C : ExpCfg K) (X : Matrix (Fin N → σ) (Fin N → σ) K) (dH : Nat) (t0 : K) (disk0 : Nat → Option (MpoDir σ K)) (res : Except Err (ExpSt σ K)) : Prop :=
  ∃ T S last, last ≤ C.maxOrder - 1 ∧ TaylorRun X T S last ∧
    (∀ k, 0 < k → k < last → k % 2 = 0 → C.pos (Matrix.trace (T k)) = true ∧ C.small (Matrix.trace (T k)) t0 = false) ∧
    ((∃ s', res = .ok s' ∧ LInv L C X dH disk0 (last + 1) s' T S ∧ (0 < last → last % 2 = 0 → C.pos (Matrix.trace (T last)) = true) ∧
        (last = C.maxOrder - 1 ∨ (0 < last ∧ last % 2 = 0 ∧ C.small (Matrix.trace (T last)) t0 = true))) ∨
      (res = .error .assertFail ∧ 0 < last ∧ last % 2 = 0 ∧ C.pos (Matrix.trace (T last)) = false) ∨
      (res = .error .ub ∧ 0 < last ∧ last < C.maxOrder - 1 ∧ T last = 0))

theorem expLoop_spec [CharZero K] {L : ExpLib σ K} (HL : ExpLibSpec L) {C : ExpCfg K} {x : FMpo σ K} {X : Matrix (Fin N → σ) (Fin N → σ) K} (hx : IsOp x X) (zx : NoZeroBond x)
    {dH : Nat} (hd : FMpo.maxBond x = dH) (hN : NoShort C N dH) {disk0 : Nat → Option (MpoDir σ K)} (hdisk : ∀ n d, disk0 n = some d → ∃ O, HoldsOp d N O) (t0 : K) :
    ∀ (k n : Nat) (s : ExpSt σ K) (T S : Nat → Matrix (Fin N → σ) (Fin N → σ) K), 1 ≤ n → k = C.maxOrder - n → n ≤ C.maxOrder ∨ n = 1 → LInv L C X dH disk0 n s T S →
      (∀ k, 0 < k → k < n → k % 2 = 0 → C.pos (Matrix.trace (T k)) = true ∧ C.small (Matrix.trace (T k)) t0 = false) →
      LoopEnd L C X dH t0 disk0 (expLoop L C x dH t0 k n s)
  | 0, n, s, T, S, h1, hk, hm, inv, hp => by
    refine ⟨T, S, n - 1, by omega, inv.run, fun j a b => hp j a (by omega), Or.inl ⟨s, rfl, ?_, fun a b => (hp _ a (by omega) b).1, Or.inl (by omega)⟩⟩
    rw [show n - 1 + 1 = n by omega]; exact inv
  | k + 1, n, s, T, S, h1, hk, hm, inv, hp => by
    have hN2 : 2 ≤ N := by rcases hN with h | h <;> omega
    have stat : (∀ k < C.maxOrder, dH ^ k ≤ C.Dmax) → 2 ≤ n → dH * FMpo.maxBond s.term ≤ C.Dmax := by
      intro h h2
      refine Nat.le_trans (Nat.mul_le_mul_left _ (inv.bond h h2)) ?_
      rw [← pow_succ', show n - 1 + 1 = n by omega]
      exact h n (by omega)
    -- the term
    have step1 : (∃ t T' es lf rf, expTerm L C x dH n s = .ok { s with term := t, lf := lf, rf := rf, errs := s.errs ++ es } ∧ IsOp t T' ∧ CenterOk t ∧
          (n = 1 → T' = X) ∧ (2 ≤ n → Proj (T (n - 1) * X) ((n : K) • T')) ∧
          ((∀ k < C.maxOrder, dH ^ k ≤ C.Dmax) → FMpo.maxBond t ≤ dH ^ n ∧ (2 ≤ n →
            Matrix.trace (((n : K) • T') * ((n : K) • T').conjTranspose) = Matrix.trace (T (n - 1) * X * (T (n - 1) * X).conjTranspose) * (es.map (1 - ·)).prod))) ∨
        (expTerm L C x dH n s = .error .ub ∧ 2 ≤ n ∧ T (n - 1) = 0) := by
      by_cases c : n = 1
      · subst c
        obtain ⟨a, b, d⟩ := inv.term1 rfl
        refine Or.inl ⟨s.term, X, [], s.lf, s.rf, ?_, a, b, fun _ => rfl, fun h => absurd h (by omega), fun _ => ⟨by rw [pow_one]; exact d, fun h => absurd h (by omega)⟩⟩
        rw [List.append_nil]; rfl
      · have h2 : 2 ≤ n := by omega
        obtain ⟨a, b, d⟩ := inv.term2 h2
        rcases expTerm_spec HL hx zx hd h2 (by exact_mod_cast (by omega : n ≠ 0)) a (Or.inl ⟨b, d⟩) hN2 (hN.symm.imp_left fun h => stat h.2 h2)
          (fun d h => hdisk n d (by rw [← h, inv.old n (Nat.le_refl _)])) with ⟨t, T', es, lf, rf, e, io, ct, pr, ex⟩ | ⟨e, z⟩
        · refine Or.inl ⟨t, T', es, lf, rf, e, io, ct, fun h => absurd h c, fun _ => pr, fun h => ?_⟩
          obtain ⟨x1, x2⟩ := ex (stat h h2)
          refine ⟨Nat.le_trans x1 ?_, fun _ => x2⟩
          refine Nat.le_trans (Nat.mul_le_mul_left _ (inv.bond h h2)) ?_
          rw [← pow_succ', show n - 1 + 1 = n by omega]
        · exact Or.inr ⟨e, h2, z⟩
    rcases step1 with ⟨t, T', es, lf, rf, e1, io, ct, f1, f2, ex⟩ | ⟨e1, h2, z⟩
    · obtain ⟨t', d, dir, es', S', e2, it, tf, tc, tb, hold, id', pr, trk, nr⟩ := expAdd_spec HL (C := C) (n := n)
        (s := { s with term := t, lf := lf, rf := rf, errs := s.errs ++ es }) io ct inv.dens.1 hN2
      have run' := run_extend h1 inv.run f1 f2 pr
      have tT : ∀ {j}, j ≠ n → Function.update T n T' j = T j := fun h => upd_lt _ _ _ h
      have sS : ∀ {j}, j ≠ n → Function.update S n S' j = S j := fun h => upd_lt _ _ _ h
      have tn : Function.update T n T' n = T' := Function.update_self ..
      have sn : Function.update S n S' n = S' := Function.update_self ..
      generalize hs2 : (⟨t', d, lf, rf, Function.update s.disk n (some dir), s.traces ++ [Matrix.trace T'], (s.errs ++ es) ++ es'⟩ : ExpSt σ K) = s2 at e2
      have inv' : LInv L C X dH disk0 (n + 1) s2 (Function.update T n T') (Function.update S n S') := by
        subst hs2
        exact {
          run := run'
          term1 := fun h => absurd h (by omega)
          term2 := fun _ => by rw [Nat.add_sub_cancel, tn]; exact ⟨it, tf, tc⟩
          bond := fun h _ => by rw [Nat.add_sub_cancel]; exact tb ▸ (ex h).1
          dens := by rw [Nat.add_sub_cancel, sn]; exact ⟨id', trk⟩
          old := fun j hj => by
            show Function.update s.disk n _ j = _
            rw [upd_lt _ _ _ (by omega)]; exact inv.old j (by omega)
          new := fun j hj hj' => by
            show ∃ d, Function.update s.disk n _ j = _ ∧ _
            by_cases c : j = n
            · subst c
              rw [Function.update_self, tn]
              exact ⟨dir, rfl, hold⟩
            · rw [upd_lt _ _ _ c, tT c]; exact inv.new j hj (by omega)
          traces := by
            show s.traces ++ [_] = _
            rw [inv.traces, Nat.add_sub_cancel]
            obtain ⟨n', rfl⟩ : ∃ n', n = n' + 1 := ⟨n - 1, by omega⟩
            rw [Nat.add_sub_cancel, List.range'_concat, List.map_append, List.map_singleton, show 1 + 1 * n' = n' + 1 by omega, tn]
            congr 1
            refine List.map_congr_left fun j hj => ?_
            rw [List.mem_range'_1] at hj
            rw [tT (by omega)]
          exact := fun h hdef hz => by
            rw [Nat.add_sub_cancel]
            have hz' : (∀ e ∈ s.errs, e = 0) ∧ (∀ e ∈ es, e = 0) ∧ ∀ e ∈ es', e = 0 := by
              refine ⟨fun e he => hz e ?_, fun e he => hz e ?_, fun e he => hz e ?_⟩ <;> simp [he]
            obtain ⟨q1, q2⟩ := inv.exact h hdef hz'.1
            refine ⟨fun j hj hj' => ?_, fun j hj hj' => ?_⟩
            · by_cases c : j = n
              · subst c
                rw [tn, tT (by omega)]
                refine proj_exact hdef (f2 hj) ?_
                rw [(ex h).2 hj, prod_one_sub hz'.2.1, mul_one]
              · rw [tT c, tT (by omega)]; exact q1 j hj (by omega)
            · by_cases c : j = n
              · subst c
                rw [tn, sn, sS (by omega)]
                exact proj_exact hdef pr (by rw [nr, prod_one_sub hz'.2.2, mul_one])
              · rw [tT c, sS c, sS (by omega)]; exact q2 j hj (by omega) }
      have hp' : ∀ j, 0 < j → j < n → j % 2 = 0 → C.pos (Matrix.trace (Function.update T n T' j)) = true ∧ C.small (Matrix.trace (Function.update T n T' j)) t0 = false :=
        fun j a b c => by rw [tT (by omega)]; exact hp j a b c
      have go : expLoop L C x dH t0 (k + 1) n s = (if n % 2 = 0 then
          if C.pos (Matrix.trace T') then if C.small (Matrix.trace T') t0 then .ok s2 else expLoop L C x dH t0 k (n + 1) s2 else .error .assertFail
          else expLoop L C x dH t0 k (n + 1) s2) := by
        show (expTerm L C x dH n s >>= _) = _
        rw [e1]
        show (expAdd L C n { s with term := t, lf := lf, rf := rf, errs := s.errs ++ es } >>= _) = _
        rw [e2]; rfl
      rw [go]
      by_cases c2 : n % 2 = 0
      · rw [if_pos c2]
        cases c3 : C.pos (Matrix.trace T') with
        | false =>
          exact ⟨_, _, n, by omega, run', hp', Or.inr (Or.inl ⟨rfl, by omega, c2, by rw [tn]; exact c3⟩)⟩
        | true =>
          cases c4 : C.small (Matrix.trace T') t0 with
          | true =>
            exact ⟨_, _, n, by omega, run', hp', Or.inl ⟨s2, rfl, inv', fun _ _ => by rw [tn]; exact c3, Or.inr ⟨by omega, c2, by rw [tn]; exact c4⟩⟩⟩
          | false =>
            refine expLoop_spec HL hx zx hd hN hdisk t0 k (n + 1) s2 _ _ (by omega) (by omega) (Or.inl (by omega)) inv' fun j a b c => ?_
            by_cases cj : j = n
            · subst cj; rw [tn]; exact ⟨c3, c4⟩
            · exact hp' j a (by omega) c
      · rw [if_neg c2]
        refine expLoop_spec HL hx zx hd hN hdisk t0 k (n + 1) s2 _ _ (by omega) (by omega) (Or.inl (by omega)) inv' fun j a b c => ?_
        exact hp' j a (by omega) c
    · refine ⟨T, S, n - 1, by omega, inv.run, fun j a b => hp j a (by omega), Or.inr (Or.inr ⟨?_, by omega, by omega, z⟩)⟩
      show (expTerm L C x dH n s >>= _) = _
      rw [e1]; rfl

end Verif.Props
