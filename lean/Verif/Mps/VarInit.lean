import Verif.Mps.VarSweep
import Verif.Mps.FmpoHist
/-
The start of the compressing product: the scan for empty slots and the first environments.
-/
namespace Verif.Mps
open Finset
variable {σ K : Type} [CommRing K] [StarRing K] [Fintype σ]

omit [CommRing K] [StarRing K] [Fintype σ] in
theorem varScan_full : ∀ (n i : Nat) (m : FMpo σ K), (∀ j, i ≤ j → j < i + n → ∃ t, m.slots[j]? = some (some t)) →
    ∃ fl c, varScan m n i = .ok (⟨m.slots, fl, c⟩, false) ∧ fl.length = m.flags.length ∧
      ∀ j, j < m.flags.length → (fl[j]? = if i ≤ j ∧ j < i + n then some .none else m.flags[j]?) := by
  intro n
  induction n with
  | zero =>
    intro i m _
    exact ⟨m.flags, m.center, rfl, rfl, fun j _ => by rw [if_neg (by omega)]⟩
  | succ n ih =>
    intro i m h
    obtain ⟨t, ht⟩ := h i (Nat.le_refl _) (by omega)
    obtain ⟨fl, c, e, l, f⟩ := ih (i + 1) ⟨m.slots, m.flags.set i .none, -1⟩ (fun j h1 h2 => h j (by omega) (by omega))
    refine ⟨fl, c, ?_, by simpa using l, ?_⟩
    · rw [varScan, ht]; exact e
    · intro j hj
      rw [f j (by simpa using hj)]
      by_cases c1 : j = i
      · subst c1
        rw [if_neg (by omega), if_pos (by omega)]
        simp only [List.getElem?_set]
        simp [hj]
      · simp only [List.getElem?_set]
        rw [if_neg (show ¬ i = j by omega)]
        by_cases c2 : i ≤ j ∧ j < i + (n + 1)
        · rw [if_pos c2, if_pos (by omega)]
        · rw [if_neg c2, if_neg (by omega)]

omit [CommRing K] [StarRing K] [Fintype σ] in
theorem varScan_null : ∀ (n i k : Nat) (m : FMpo σ K), i ≤ k → k < i + n → m.slots[k]? = some Option.none → i + n ≤ m.slots.length →
    ∃ m', varScan m n i = .ok (m', true) := by
  intro n
  induction n with
  | zero => intro i k m h1 h2; omega
  | succ n ih =>
    intro i k m h1 h2 hk hl
    rw [varScan]
    have : i < m.slots.length := by omega
    rw [List.getElem?_eq_getElem this]
    by_cases c : m.slots[i] = Option.none
    · rw [c]; exact ⟨_, rfl⟩
    · obtain ⟨t, ht⟩ := Option.ne_none_iff_exists'.mp c
      rw [ht]
      have hne : k ≠ i := by
        intro e; subst e
        rw [List.getElem?_eq_getElem this, ht] at hk
        simp at hk
      exact ih (i + 1) k ⟨m.slots, m.flags.set i .none, -1⟩ (by omega) (by omega) hk (by simpa using by omega)

variable {m1 m2 : FMpo σ K} {ts us : List (Ten (σ × σ) K)}

theorem genLoop {m : FMpo σ K} {os : List (Ten (σ × σ) K)} (rep : Rep m os) (h1 : m1.slots = ts.map some) (h2 : m2.slots = us.map some)
    (lenT : ts.length = os.length) (lenU : us.length = os.length) (lt : Linked ts) (lu : Linked us) :
    ∀ (n i : Nat) (rf : Nat → Option (Env3 K)) (e : Env3 K), i + n < os.length → (∀ k ≤ i, ∃ e, rf k = some e ∧ EnvR ts us os k e) → EnvR ts us os i e →
    ∃ rf' e', (List.range' (i + 1) n).foldlM (varGenStep m m1 m2 os.length) (rf, e) = .ok (rf', e') ∧
      ∀ k ≤ i + n, ∃ e, rf' k = some e ∧ EnvR ts us os k e := by
  intro n
  induction n with
  | zero => intro i rf e _ h _; exact ⟨rf, e, rfl, h⟩
  | succ n ih =>
    intro i rf e hn h he
    obtain ⟨o, t, u, a1, a2, a3, a4, a5, a6, a7⟩ := he
    rw [show os.length - 1 - i = os.length - (i + 1) by omega] at a1 a2 a3
    obtain ⟨e', d1, d2, d3, d4, d5⟩ := updR_fuse (e := e) (o := o) (t := t) (u := u) ⟨a4.symm, a5.symm, a6.symm⟩
    have E : EnvR ts us os (i + 1) e' := by
      have hb : os.length - (i + 1) - 1 + 1 = os.length - (i + 1) := by omega
      obtain ⟨o', ho'⟩ := getE (ts := os) (i := os.length - (i + 1) - 1) (by omega)
      obtain ⟨t', ht'⟩ := getE (ts := ts) (i := os.length - (i + 1) - 1) (by omega)
      obtain ⟨u', hu'⟩ := getE (ts := us) (i := os.length - (i + 1) - 1) (by omega)
      have lo := linked_get rep.link _ o' o ho' (by rw [hb]; exact a1)
      have lt' := linked_get lt _ t' t ht' (by rw [hb]; exact a2)
      have lu' := linked_get lu _ u' u hu' (by rw [hb]; exact a3)
      unfold EnvR
      rw [show os.length - 1 - (i + 1) = os.length - (i + 1) - 1 by omega]
      refine ⟨o', t', u', ho', ht', hu', by rw [d2, lo], by rw [d3, lt'], by rw [d4, lu'], ?_⟩
      have q1 : os.drop (os.length - (i + 1)) = o :: os.drop (os.length - i) := by
        have hlt : os.length - (i + 1) < os.length := by omega
        rw [List.drop_eq_getElem_cons hlt, show os.length - (i + 1) + 1 = os.length - i by omega]
        congr 1
        rw [List.getElem?_eq_getElem hlt] at a1
        simpa using a1
      have q2 : (List.zipWith prodTen ts us).drop (os.length - (i + 1)) = prodTen t u :: (List.zipWith prodTen ts us).drop (os.length - i) := by
        have g := zip_get a2 a3
        have hlt : os.length - (i + 1) < (List.zipWith prodTen ts us).length := by rw [List.length_zipWith]; omega
        rw [List.drop_eq_getElem_cons hlt, show os.length - (i + 1) + 1 = os.length - i by omega]
        congr 1
        rw [List.getElem?_eq_getElem hlt] at g
        simpa using g
      rw [q1, q2, lo, show (prodTen t' u').r = (prodTen t u).l by simp [prodTen, lt', lu']]
      exact semR_step a7 (fun a _ c _ => d5 a c)
    obtain ⟨rf', e2, f1, f2⟩ := ih (i + 1) (Function.update rf (i + 1) (some e')) e' (by omega)
      (by intro k hk
          by_cases c : k = i + 1
          · subst c; exact ⟨e', by simp, E⟩
          · obtain ⟨e, g1, g2⟩ := h k (by omega)
            exact ⟨e, by simp [Function.update, c, g1], g2⟩) E
    refine ⟨rf', e2, ?_, fun k hk => f2 k (by omega)⟩
    rw [List.range'_succ, List.foldlM_cons]
    have st : varGenStep m m1 m2 os.length (rf, e) (i + 1) = .ok (Function.update rf (i + 1) (some e'), e') := by
      unfold varGenStep
      rw [read_ok (rep.get a1), read_ok (show m1.slots[os.length - (i + 1)]? = some (some t) by rw [h1, List.getElem?_map, a2]; rfl),
        read_ok (show m2.slots[os.length - (i + 1)]? = some (some u) by rw [h2, List.getElem?_map, a3]; rfl)]
      show (updR e o t u >>= _) = _
      rw [d1]; rfl
    rw [st]
    exact f1

omit [StarRing K] [Fintype σ] in
theorem last_get {os : List (Ten (σ × σ) K)} {o : Ten (σ × σ) K} (h : os[os.length - 1]? = some o) (hl : lastR os = 1) : o.r = 1 := by
  rw [lastR_eq, h] at hl; simpa using hl

omit [CommRing K] [StarRing K] [Fintype σ] in
theorem head_get {os : List (Ten (σ × σ) K)} {o : Ten (σ × σ) K} (h : os[0]? = some o) (hl : headL os = 1) : o.l = 1 := by
  cases os with
  | nil => simp at h
  | cons a l => simp at h; subst h; exact hl

theorem varGen_inv {m : FMpo σ K} {os : List (Ten (σ × σ) K)} (rep : Rep m os) (h1 : m1.slots = ts.map some) (h2 : m2.slots = us.map some)
    (lenT : ts.length = os.length) (lenU : us.length = os.length) (lt : Linked ts) (lu : Linked us) (hn : 2 ≤ os.length)
    (ho : headL os = 1) (la : lastR os = 1) (ht : headL ts = 1) (lat : lastR ts = 1) (hu : headL us = 1) (lau : lastR us = 1)
    (lf rf : Nat → Option (Env3 K)) :
    ∃ s, varGen m m1 m2 lf rf = .ok s ∧ s.out = m ∧ VInv ts us os s 0 (os.length - 2) := by
  obtain ⟨o, hol⟩ := getE (ts := os) (i := os.length - 1) (by omega)
  obtain ⟨t, htl⟩ := getE (ts := ts) (i := os.length - 1) (by omega)
  obtain ⟨u, hul⟩ := getE (ts := us) (i := os.length - 1) (by omega)
  obtain ⟨o0, ho0⟩ := getE (ts := os) (i := 0) (by omega)
  obtain ⟨t0, ht0⟩ := getE (ts := ts) (i := 0) (by omega)
  obtain ⟨u0, hu0⟩ := getE (ts := us) (i := 0) (by omega)
  have or1 := last_get hol la
  have tr1 : t.r = 1 := last_get (by rw [lenT]; exact htl) lat
  have ur1 : u.r = 1 := last_get (by rw [lenU]; exact hul) lau
  have ol1 := head_get ho0 ho
  have tl1 := head_get ht0 ht
  have ul1 := head_get hu0 hu
  have E0 : EnvR ts us os 0 (unitEnv o.r t.r u.r) := by
    refine ⟨o, t, u, hol, htl, hul, rfl, rfl, rfl, ?_⟩
    rw [Nat.sub_zero, List.drop_length, List.drop_eq_nil_of_le (by rw [List.length_zipWith]; omega), or1,
      show (prodTen t u).r = 1 by simp [prodTen, tr1, ur1]]
    refine ⟨rfl, rfl, fun a ha c hc => ?_⟩
    have : a = 0 := by omega
    have : c = 0 := by omega
    subst_vars
    simp [fuse, unitEnv, amp]
  have L0 : EnvL ts us os 0 (unitEnv o0.l t0.l u0.l) := by
    refine ⟨o0, t0, u0, ho0, ht0, hu0, rfl, rfl, rfl, ?_⟩
    rw [ol1, show (prodTen t0 u0).l = 1 by simp [prodTen, tl1, ul1]]
    refine ⟨rfl, rfl, fun a ha c hc => ?_⟩
    have : a = 0 := by omega
    have : c = 0 := by omega
    subst_vars
    simp [fuse, unitEnv, amp]
  obtain ⟨rf', e', f1, f2⟩ := genLoop rep h1 h2 lenT lenU lt lu (os.length - 2) 0 (Function.update rf 0 (some (unitEnv o.r t.r u.r)))
    (unitEnv o.r t.r u.r) (by omega) (by intro k hk; have : k = 0 := by omega
                                         subst this; exact ⟨_, by simp, E0⟩) E0
  have sz : FMps.size m = os.length := rep.size
  have sz1 : FMps.size m1 = os.length := by simp [FMps.size, h1, lenT]
  have sz2 : FMps.size m2 = os.length := by simp [FMps.size, h2, lenU]
  have rd1 : ∀ {i : Nat} {t}, ts[i]? = some t → m1.read i = .ok t := fun {i t} h => read_ok (by rw [h1, List.getElem?_map, h]; rfl)
  have rd2 : ∀ {i : Nat} {t}, us[i]? = some t → m2.read i = .ok t := fun {i t} h => read_ok (by rw [h2, List.getElem?_map, h]; rfl)
  refine ⟨⟨m, Function.update lf 0 (some (unitEnv o0.l t0.l u0.l)), rf'⟩, ?_, rfl,
    ⟨rep, lenT, lenU, lt, lu, ht, hu, ho, la, ?_, fun k hk => f2 k (by omega)⟩⟩
  · unfold varGen
    rw [if_pos (by rw [sz, sz1, sz2]; exact ⟨rfl, rfl⟩), sz, read_ok (rep.get hol), rd1 htl, rd2 hul]
    show ((List.range' 1 (os.length - 2)).foldlM (varGenStep m m1 m2 os.length) (Function.update rf 0 (some (unitEnv o.r t.r u.r)), unitEnv o.r t.r u.r) >>= _) = _
    rw [show (1 : Nat) = 0 + 1 by rfl, f1]
    show (FMps.read m 0 >>= _) = _
    rw [read_ok (rep.get ho0), rd1 ht0, rd2 hu0]; rfl
  · intro k hk
    have : k = 0 := by omega
    subst this
    exact ⟨_, by simp, L0⟩

/-- The whole start: whichever object is centralised, the sweeps begin with the environments of a chain of the right length with trivial ends. -/
theorem varStart {qr svd : Ten (σ × σ) K → Ten (σ × σ) K × Mat K} (H : QRSpec qr) (H' : SVDSpec svd) {out : FMpo σ K} (r1 : Rep m1 ts) (r2 : Rep m2 us) (i1 : Inv m1)
    (lenU : us.length = ts.length) (hn : 2 ≤ ts.length)
    (ht : headL ts = 1) (lat : lastR ts = 1) (hu : headL us = 1) (lau : lastR us = 1)
    (hout : (∃ gs, Rep out gs ∧ gs.length = ts.length ∧ headL gs = 1 ∧ lastR gs = 1) ∨ (out.slots.length = ts.length ∧ ∃ i : Nat, out.slots[i]? = some Option.none))
    (lf rf : Nat → Option (Env3 K)) :
    ∃ (sc : FMpo σ K × Bool) (c : FMpo σ K) (s : VarSt σ K) (os : List (Ten (σ × σ) K)), varScan out m1.size 0 = .ok sc ∧
      FMpo.centralize qr svd (if sc.2 then m1 else sc.1) 0 = .ok c ∧
      varGen c m1 m2 lf rf = .ok s ∧ os.length = ts.length ∧ VInv ts us os s 0 (os.length - 2) ∧
      (Truthful m1 → ∀ j t, 0 < j → os[j]? = some t → RightIso t) ∧ ∃ gs, Eqv gs os ∧ ((gs = ts ∧ ∃ i : Nat, out.slots[i]? = some Option.none) ∨ out.slots = gs.map some) := by
  have sz1 : FMps.size m1 = ts.length := r1.size
  have fin : ∀ (g : FMpo σ K) (gs : List (Ten (σ × σ) K)), Rep g gs → Inv g → gs.length = ts.length → headL gs = 1 → lastR gs = 1 →
      ∃ (c : FMpo σ K) (s : VarSt σ K) (os : List (Ten (σ × σ) K)), FMpo.centralize qr svd g 0 = .ok c ∧
      varGen c m1 m2 lf rf = .ok s ∧ os.length = ts.length ∧ VInv ts us os s 0 (os.length - 2) ∧
      (Truthful g → ∀ j t, 0 < j → os[j]? = some t → RightIso t) ∧ Eqv gs os := by
    intro g gs rg ig lg hg la
    obtain ⟨c, os, e, r, q, -, fl, -⟩ := mpoCentralize_rep H H' rg ig (t := 0) (by omega)
    have ol : os.length = ts.length := q.len.trans lg
    obtain ⟨s, f1, -, f3⟩ := varGen_inv r r1.slots r2.slots ol.symm (by omega) r1.link r2.link (by omega) (q.head.trans hg) (q.last.trans la) ht lat hu lau lf rf
    refine ⟨c, s, os, e, f1, ol, f3, ?_, q⟩
    intro T j t hj ht
    have hj' := (List.getElem?_eq_some_iff.mp ht).1
    have kp : Kept qr svd svd (fun m : FMpo σ K => Truthful m) :=
      ⟨fun _ _ _ _ h e => truthful_write h e, fun _ _ _ h e => truthful_touch h e, fun m i m' h e => truthful_leftTen H m i m' h e,
        fun m i m' h e => truthful_rightTen H H' true m i m' h e, fun m i m' h e => truthful_rightTen H H' true m i m' h e, fun _ _ h => h⟩
    refine (kept_centralize kp T e j t (r.get ht)).2 ?_
    rw [fl j (by omega), if_neg (by omega), if_pos hj]
  rcases hout with ⟨gs, rg, lg, hg, la⟩ | ⟨hl, i, hi⟩
  · obtain ⟨fl, c0, e, l, f⟩ := varScan_full ts.length 0 out (by
      intro j _ hj
      obtain ⟨t, h⟩ := getE (ts := gs) (i := j) (by omega)
      exact ⟨t, rg.get h⟩)
    have lfl : fl.length = ts.length := by rw [l, rg.flen, lg]
    have fn : ∀ (j : Nat) (x : Cano), fl[j]? = some x → x = .none := by
      intro j x hx
      have hj := (List.getElem?_eq_some_iff.mp hx).1
      rw [f j (by omega), if_pos (by omega)] at hx
      simpa using hx.symm
    obtain ⟨c, s, os, k1, k2, k3, k4, kT, k5⟩ := fin ⟨out.slots, fl, c0⟩ gs ⟨rg.slots, by rw [lfl, lg], rg.link⟩
      ⟨by rw [lfl, rg.slots]; simp [lg], fun i hi => by have := fn i _ hi; simp at this, fun h0 => by have := fn 0 _ h0; simp at this⟩ lg hg la
    exact ⟨(⟨out.slots, fl, c0⟩, false), c, s, os, by rw [sz1]; exact e, k1, k2, k3, k4,
      fun _ => kT fun i t hi => ⟨fun h => (by have := fn i _ h; simp at this), fun h => (by have := fn i _ h; simp at this)⟩, gs, k5, Or.inr rg.slots⟩
  · have hi' := (List.getElem?_eq_some_iff.mp hi).1
    obtain ⟨m', e⟩ := varScan_null ts.length 0 i out (by omega) (by omega) hi (by omega)
    obtain ⟨c, s, os, k1, k2, k3, k4, kT, k5⟩ := fin m1 ts r1 i1 rfl ht lat
    exact ⟨(m', true), c, s, os, by rw [sz1]; exact e, k1, k2, k3, k4, kT, ts, k5, Or.inl ⟨rfl, i, hi⟩⟩

end Verif.Mps
