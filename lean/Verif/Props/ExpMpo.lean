import Verif.Props.ExpRun
import Mathlib.LinearAlgebra.Matrix.PosDef
import Mathlib.Data.Rat.Star
import Mathlib.Data.Nat.Factorial.Basic
/-
C68: `ExpFiniteMPO`, the Taylor expansion of exp(-τH).

Specification vocabulary: Verif/Props/ExpSpec.lean; `IsOp`, `opMat`, `mixedFlags` (Verif/Props/Fmpo.lean), `HoldsOp` (a directory written by `Dump` of an object that holds the operator), `NoShort`
(three or more sites and at least one sweep, or a bond limit that no power of the Hamiltonian reaches).
-/
namespace Verif.Props
open Verif.Mps Finset

variable {σ K : Type} [Field K] [StarRing K] [Fintype σ] [DecidableEq σ] {N : Nat}

/-- The end of the function: the sum is centred at site 0 and its first tensor normalised. -/
theorem expFinish {L : ExpLib σ K} (HL : ExpLibSpec L) {a b : Nat} {m : FMpo σ K} {S : Matrix (Fin N → σ) (Fin N → σ) K} (h : IsOp m S)
    (tr : Tracked L.qr L.svd (L.tsvd a b) L.nrm (L.terr a b) N m) (hN : 2 ≤ N) :
    ∃ d t d' R, FMpo.centralize L.qr L.svd m 0 = .ok d ∧ d.read 0 = .ok t ∧ d.write 0 (L.nrm t).2 = .ok d' ∧ IsOp d' R ∧ (L.nrm t).1 • R = S ∧ d'.center = -1 ∧
      d'.flags = mixedFlags N 0 ∧ (∀ (i : Nat) (u : Ten (σ × σ) K), 0 < i → d'.slots[i]? = some (some u) → RightIso u) ∧
      (NormUnit L.nrm → Matrix.trace (S * S.conjTranspose) ≠ 0 → Matrix.trace (R * R.conjTranspose) = 1) := by
  obtain ⟨cs, c1, c2, c3⟩ := tr
  obtain ⟨d, e1, io, dc, df⟩ := C65_centralize HL.qr HL.svd c1 h (t := 0) (by omega)
  obtain ⟨cs', x1, x2, x3⟩ := Tracked.append (c := .centralize ((0 : Nat) : Int)) (m' := d) ⟨cs, c1, c2, c3⟩ e1 (by simp) (by simp)
  obtain ⟨T, -⟩ := C65_flags_truthful HL.qr HL.svd (HL.tsvd a b) x1 x2 x3
  obtain ⟨ts, r, ht, t1, t2, tO⟩ := io.rep
  obtain ⟨t, h0⟩ := getE (ts := ts) (i := 0) (by omega)
  have hr : d.read 0 = .ok t := read_ok (r.get h0)
  have hw : d.write 0 (L.nrm t).2 = .ok ⟨d.slots.set 0 (some (L.nrm t).2), d.flags.set 0 .none, -1⟩ := by
    unfold FMps.write
    exact if_pos (by rw [r.size]; omega)
  have hne : d.center ≠ -1 := by rw [dc]; simp
  have hn : FMpo.normalize L.nrm d = .ok (⟨d.slots.set 0 (some (L.nrm t).2), d.flags.set 0 .none, d.center⟩, (L.nrm t).1) := by
    unfold FMpo.normalize
    rw [if_pos hne, if_neg (by rw [dc]; simp), show d.center.toNat = 0 by rw [dc]; rfl, hr]
    show (d.write 0 (L.nrm t).2 >>= _) = _
    rw [hw]; rfl
  obtain ⟨m', n, R, e, io', hS, -⟩ := C65_normalize HL.nrm io (Or.inr ⟨0, by rw [r.size]; omega, dc⟩)
  rw [hn] at e
  cases e
  have io2 : IsOp (⟨d.slots.set 0 (some (L.nrm t).2), d.flags.set 0 .none, -1⟩ : FMpo σ K) R := io'
  refine ⟨d, t, _, R, e1, hr, hw, io2, hS, rfl, ?_, ?_, ?_⟩
  · show d.flags.set 0 .none = _
    rw [df]
    apply List.ext_getElem?
    intro j
    by_cases hj : j = 0
    · subst hj
      rw [List.getElem?_set_self (by simp [mixedFlags]; omega)]
      unfold mixedFlags
      rw [List.getElem?_map, List.getElem?_range (by omega)]; rfl
    · rw [List.getElem?_set_ne (by omega)]
  · intro i u hi hu
    have hu' : d.slots[i]? = some (some u) := by
      have : (d.slots.set 0 (some (L.nrm t).2))[i]? = some (some u) := hu
      rwa [List.getElem?_set_ne (by omega)] at this
    refine (T i u hu').2 ?_
    have hi' : i < N := by
      have := (List.getElem?_eq_some_iff.mp hu').1
      rw [r.slots] at this
      simpa [ht] using this
    rw [df]
    unfold mixedFlags
    rw [List.getElem?_map, List.getElem?_range hi']
    simp; omega
  · intro hu hz
    obtain ⟨m', n, R', e, io', hS', h1⟩ := C65_normalize_unit HL.qr HL.svd (HL.tsvd a b) HL.nrm hu x1 x2 x3 io hne hz
    rw [hn] at e
    cases e
    have : R' = R := by
      obtain ⟨us, r1, -, -, -, o1⟩ := io'.rep
      obtain ⟨vs, r2, -, -, -, o2⟩ := io2.rep
      have : us = vs := List.map_injective_iff.mpr (Option.some_injective _) (r1.slots.symm.trans r2.slots)
      rw [← o1, ← o2, this]
    rw [← this]; exact h1

theorem exp_run [CharZero K] {L : ExpLib σ K} (HL : ExpLibSpec L) (C : ExpCfg K) {h : FMpo σ K} {H : Matrix (Fin N → σ) (Fin N → σ) K} (hH : IsOp h H) (hc : CenterOk h)
    (hz : NoZeroBond h) (hN : NoShort C N (FMpo.maxBond h)) (lf rf : Nat → Option (Env3 K)) {disk : Nat → Option (MpoDir σ K)}
    (hdisk : ∀ n d, disk n = some d → ∃ O, HoldsOp d N O) :
    ∃ T S last, last ≤ C.maxOrder - 1 ∧ TaylorRun (-C.tau • H) T S last ∧
      (∀ k, 0 < k → k < last → k % 2 = 0 → C.pos (Matrix.trace (T k)) = true ∧
        C.small (Matrix.trace (T k)) (Matrix.trace (1 : Matrix (Fin N → σ) (Fin N → σ) K)) = false) ∧
      ((∃ s ν R, expMpo L C h lf rf disk = .ok (s, ν) ∧ IsOp s.dens R ∧ ν • R = S last ∧
          (last = C.maxOrder - 1 ∨ (0 < last ∧ last % 2 = 0 ∧ C.small (Matrix.trace (T last)) (Matrix.trace (1 : Matrix (Fin N → σ) (Fin N → σ) K)) = true)) ∧
          (0 < last → last % 2 = 0 → C.pos (Matrix.trace (T last)) = true) ∧
          s.traces = (List.range' 1 last).map (fun k => Matrix.trace (T k)) ∧
          (∀ k, 1 ≤ k → k ≤ last → ∃ d, s.disk k = some d ∧ HoldsOp d N (T k)) ∧ (∀ k, last < k → s.disk k = disk k) ∧
          (NormUnit L.nrm → Matrix.trace (S last * (S last).conjTranspose) ≠ 0 → Matrix.trace (R * R.conjTranspose) = 1) ∧
          s.dens.center = -1 ∧ s.dens.flags = mixedFlags N 0 ∧
          (∀ (i : Nat) (u : Ten (σ × σ) K), 0 < i → s.dens.slots[i]? = some (some u) → RightIso u) ∧
          ((∀ k < C.maxOrder, FMpo.maxBond h ^ k ≤ C.Dmax) → (∀ A : Matrix (Fin N → σ) (Fin N → σ) K, Matrix.trace (A * A.conjTranspose) = 0 → A = 0) →
            (∀ e ∈ s.errs, e = 0) → TaylorExact (-C.tau • H) T S last)) ∨
        (expMpo L C h lf rf disk = .error .assertFail ∧ 0 < last ∧ last % 2 = 0 ∧ C.pos (Matrix.trace (T last)) = false) ∨
        (expMpo L C h lf rf disk = .error .ub ∧ 0 < last ∧ last < C.maxOrder - 1 ∧ T last = 0)) := by
  have hN2 : 2 ≤ N := by rcases hN with h | h <;> omega
  obtain ⟨x, e1, ix, xc⟩ := C65_scale hH hc (-C.tau)
  obtain ⟨zx, bx⟩ := isOp_dims hH hc e1
  obtain ⟨i, e2, ii, fi, ci⟩ := C65_identity hH
  have e3 := C65_trace ii
  have xs : x.size = h.size := by
    obtain ⟨us, r1, h1, -⟩ := ix.rep
    obtain ⟨vs, r2, h2, -⟩ := hH.rep
    rw [r1.size, r2.size, h1, h2]
  obtain ⟨is, ri, hi, i1, i2, iO⟩ := ii.rep
  have inv : LInv L C (-C.tau • H) (FMpo.maxBond h) disk 1 ⟨x, ⟨i.slots, List.replicate N .none, -1⟩, lf, rf, disk, [], []⟩ (fun _ => 0) (fun _ => 1) := {
    run := ⟨rfl, fun h => absurd h (by omega), fun n h h' => absurd h' (by omega), fun n h h' => absurd h' (by omega)⟩
    term1 := fun _ => ⟨ix, by unfold CenterOk at hc ⊢; rw [xc, xs]; exact hc, Nat.le_of_eq bx⟩
    term2 := fun h => absurd h (by omega)
    bond := fun _ h => absurd h (by omega)
    dens := by
      refine ⟨IsOp.mk' (ts := is) ⟨ri.slots, by simp [hi], ri.link⟩ hi i1 i2 iO, ?_⟩
      have := tracked_plain (qr := L.qr) (svd := L.svd) (tsvd := L.tsvd C.Dmax C.Dmax) (nrm := L.nrm) (terr := L.terr C.Dmax C.Dmax) ri.slots (by omega)
      rw [hi] at this
      exact this
    old := fun _ _ => rfl
    new := fun k h h' => absurd h' (by omega)
    traces := rfl
    exact := fun _ _ _ => ⟨fun n h h' => absurd h' (by omega), fun n h h' => absurd h' (by omega)⟩ }
  have key := expLoop_spec HL ix (zx hz) bx hN hdisk (Matrix.trace (1 : Matrix (Fin N → σ) (Fin N → σ) K)) (C.maxOrder - 1) 1 _ _ _ (Nat.le_refl _) rfl (Or.inr rfl) inv
    (fun k a b => absurd b (by omega))
  have pre : expMpo L C h lf rf disk = (expLoop L C x (FMpo.maxBond h) (Matrix.trace (1 : Matrix (Fin N → σ) (Fin N → σ) K)) (C.maxOrder - 1) 1
      ⟨x, ⟨i.slots, List.replicate N .none, -1⟩, lf, rf, disk, [], []⟩ >>= fun s => (do
        let d ← FMpo.centralize L.qr L.svd s.dens 0
        let t ← d.read 0
        let d' ← d.write 0 (L.nrm t).2
        pure ({ s with dens := d' }, (L.nrm t).1))) := by
    unfold expMpo
    rw [e1]
    show (FMpo.identity h >>= _) = _
    rw [e2]
    show (FMpo.trace i >>= _) = _
    rw [e3]; rfl
  obtain ⟨T, S, last, l1, run, st, k⟩ := key
  refine ⟨T, S, last, l1, run, st, ?_⟩
  rcases k with ⟨s, e, inv', p, q⟩ | ⟨e, p⟩ | ⟨e, p⟩
  · obtain ⟨di, dt⟩ := inv'.dens
    rw [Nat.add_sub_cancel] at di
    obtain ⟨d, t, d', R, f1, f2, f3, f4, f5, f6, f7, f8, f9⟩ := expFinish HL di dt hN2
    refine Or.inl ⟨{ s with dens := d' }, (L.nrm t).1, R, ?_, f4, f5, q, p, inv'.traces, fun k a b => inv'.new k a (by omega), fun k a => inv'.old k (by omega), f9, f6, f7, f8, inv'.exact⟩
    rw [pre, e]
    show (FMpo.centralize L.qr L.svd s.dens 0 >>= _) = _
    rw [f1]
    show (d.read 0 >>= _) = _
    rw [f2]
    show (d.write 0 (L.nrm t).2 >>= _) = _
    rw [f3]; rfl
  · refine Or.inr (Or.inl ⟨?_, p⟩)
    rw [pre, e]; rfl
  · refine Or.inr (Or.inr ⟨?_, p⟩)
    rw [pre, e]; rfl

/-- **C68.** For every Hamiltonian `H`, every `τ`, `max_taylor_order`, tolerance, `Dmax` and number of sweeps, whatever directories and environment files an earlier run left: the call follows the exponential series of
`X = -τH` from order 0 on, where each product and each sum may be replaced by an orthogonal projection of it. It has one of three outcomes.

* It returns a number `ν` and an operator `R` with `ν • R` equal to the partial sum of order `last`. `last` is `max_taylor_order - 1` or the first even order whose trace is small against the trace of the identity. The
  printed traces are those of the terms of order 1 … `last`, and the directory of each order holds its term. `R` has norm one unless the sum is zero; it is centred at site 0 although `GetCenter()` is -1.
* The assertion fails because the trace of a term of even order is not positive.
* The behaviour is undefined because a term is zero (a tensor without any component is contracted). -/
theorem C68_exp [CharZero K] {L : ExpLib σ K} (HL : ExpLibSpec L) (C : ExpCfg K) {h : FMpo σ K} {H : Matrix (Fin N → σ) (Fin N → σ) K} (hH : IsOp h H) (hc : CenterOk h)
    (hz : NoZeroBond h) (hN : NoShort C N (FMpo.maxBond h)) (lf rf : Nat → Option (Env3 K)) {disk : Nat → Option (MpoDir σ K)}
    (hdisk : ∀ n d, disk n = some d → ∃ O, HoldsOp d N O) :
    ∃ T S last, last ≤ C.maxOrder - 1 ∧ TaylorRun (-C.tau • H) T S last ∧
      (∀ k, 0 < k → k < last → k % 2 = 0 → C.pos (Matrix.trace (T k)) = true ∧
        C.small (Matrix.trace (T k)) (Matrix.trace (1 : Matrix (Fin N → σ) (Fin N → σ) K)) = false) ∧
      ((∃ s ν R, expMpo L C h lf rf disk = .ok (s, ν) ∧ IsOp s.dens R ∧ ν • R = S last ∧
          (last = C.maxOrder - 1 ∨ (0 < last ∧ last % 2 = 0 ∧ C.small (Matrix.trace (T last)) (Matrix.trace (1 : Matrix (Fin N → σ) (Fin N → σ) K)) = true)) ∧
          (0 < last → last % 2 = 0 → C.pos (Matrix.trace (T last)) = true) ∧
          s.traces = (List.range' 1 last).map (fun k => Matrix.trace (T k)) ∧
          (∀ k, 1 ≤ k → k ≤ last → ∃ d, s.disk k = some d ∧ HoldsOp d N (T k)) ∧ (∀ k, last < k → s.disk k = disk k) ∧
          (NormUnit L.nrm → Matrix.trace (S last * (S last).conjTranspose) ≠ 0 → Matrix.trace (R * R.conjTranspose) = 1) ∧
          s.dens.center = -1 ∧ s.dens.flags = mixedFlags N 0 ∧
          (∀ (i : Nat) (u : Ten (σ × σ) K), 0 < i → s.dens.slots[i]? = some (some u) → RightIso u)) ∨
        (expMpo L C h lf rf disk = .error .assertFail ∧ 0 < last ∧ last % 2 = 0 ∧ C.pos (Matrix.trace (T last)) = false) ∨
        (expMpo L C h lf rf disk = .error .ub ∧ 0 < last ∧ last < C.maxOrder - 1 ∧ T last = 0)) := by
  obtain ⟨T, S, last, l1, run, st, k⟩ := exp_run HL C hH hc hz hN lf rf hdisk
  refine ⟨T, S, last, l1, run, st, k.imp_left ?_⟩
  rintro ⟨s, ν, R, a1, a2, a3, a4, a5, a6, a7, a8, a9, a10, a11, a12, -⟩
  exact ⟨s, ν, R, a1, a2, a3, a4, a5, a6, a7, a8, a9, a10, a11, a12⟩

omit [StarRing K] in
/-- Without losses the terms are those of the exponential series. -/
theorem exact_terms [CharZero K] {X : Matrix (Fin N → σ) (Fin N → σ) K} {T S : Nat → Matrix (Fin N → σ) (Fin N → σ) K} {last : Nat} (h0 : S 0 = 1) (h1 : 1 ≤ last → T 1 = X)
    (ht : ∀ n, 2 ≤ n → n ≤ last → (n : K) • T n = T (n - 1) * X) (hs : ∀ n, 1 ≤ n → n ≤ last → S n = S (n - 1) + T n) :
    (∀ n, 1 ≤ n → n ≤ last → T n = ((n.factorial : Nat) : K)⁻¹ • X ^ n) ∧ ∀ n, n ≤ last → S n = ∑ k ∈ range (n + 1), ((k.factorial : Nat) : K)⁻¹ • X ^ k := by
  have hT : ∀ n, 1 ≤ n → n ≤ last → T n = ((n.factorial : Nat) : K)⁻¹ • X ^ n := by
    intro n
    induction n with
    | zero => intro h; omega
    | succ n ih =>
      intro _ h
      by_cases c : n = 0
      · subst c; simp [h1 (by omega)]
      · have e := ht (n + 1) (by omega) h
        rw [Nat.add_sub_cancel, ih (by omega) (by omega), Matrix.smul_mul, ← pow_succ] at e
        have nz : ((n + 1 : Nat) : K) ≠ 0 := by exact_mod_cast Nat.succ_ne_zero n
        rw [Nat.factorial_succ, Nat.cast_mul, mul_inv, mul_smul, ← e, smul_smul, inv_mul_cancel₀ nz, one_smul]
  refine ⟨hT, fun n => ?_⟩
  induction n with
  | zero => intro _; simp [h0]
  | succ n ih =>
    intro h
    rw [hs (n + 1) (by omega) h, Nat.add_sub_cancel, ih (by omega), sum_range_succ _ (n + 1), hT (n + 1) (by omega) h]

/-- **C68, without losses.** When no power of the Hamiltonian below `max_taylor_order` can exceed `Dmax` and every printed truncation error is zero, the returned number times the returned operator is the Taylor polynomial of
exp(-τH) up to the last printed order (`max_taylor_order - 1`, one less than the name of the argument says, or an even order with a small trace), and the printed traces are those of its terms. -/
theorem C68_taylor [CharZero K] [PartialOrder K] [StarOrderedRing K] {L : ExpLib σ K} (HL : ExpLibSpec L) (C : ExpCfg K) {h : FMpo σ K} {H : Matrix (Fin N → σ) (Fin N → σ) K} (hH : IsOp h H)
    (hc : CenterOk h) (hz : NoZeroBond h) (hN : 2 ≤ N) (hD : ∀ k < C.maxOrder, FMpo.maxBond h ^ k ≤ C.Dmax) (lf rf : Nat → Option (Env3 K)) {disk : Nat → Option (MpoDir σ K)}
    (hdisk : ∀ n d, disk n = some d → ∃ O, HoldsOp d N O) {s : ExpSt σ K} {ν : K} (ok : expMpo L C h lf rf disk = .ok (s, ν)) (errs : ∀ e ∈ s.errs, e = 0) :
    ∃ R last, IsOp s.dens R ∧ ν • R = ∑ k ∈ range (last + 1), ((k.factorial : Nat) : K)⁻¹ • (-C.tau • H) ^ k ∧
      s.traces = (List.range' 1 last).map (fun k => Matrix.trace (((k.factorial : Nat) : K)⁻¹ • (-C.tau • H) ^ k)) ∧
      (last = C.maxOrder - 1 ∨ (0 < last ∧ last < C.maxOrder - 1 ∧ last % 2 = 0 ∧
        C.small (Matrix.trace (((last.factorial : Nat) : K)⁻¹ • (-C.tau • H) ^ last)) (Matrix.trace (1 : Matrix (Fin N → σ) (Fin N → σ) K)) = true)) := by
  obtain ⟨T, S, last, l1, run, st, k⟩ := exp_run HL C hH hc hz (Or.inr ⟨hN, hD⟩) lf rf hdisk
  rcases k with ⟨s', ν', R, a1, a2, a3, a4, a5, a6, a7, a8, a9, a10, a11, a12, a13⟩ | ⟨e, -⟩ | ⟨e, -⟩
  · rw [a1] at ok
    cases ok
    obtain ⟨x1, x2⟩ := a13 hD (fun A => Matrix.trace_mul_conjTranspose_self_eq_zero_iff.mp) errs
    obtain ⟨y1, y2⟩ := exact_terms run.zero run.first x1 x2
    refine ⟨R, last, a2, by rw [a3, y2 last (Nat.le_refl _)], ?_, ?_⟩
    · rw [a6]
      refine List.map_congr_left fun j hj => ?_
      rw [List.mem_range'_1] at hj
      rw [y1 j (by omega) (by omega)]
    · by_cases c : last = C.maxOrder - 1
      · exact Or.inl c
      · obtain ⟨p, q, r⟩ := a4.resolve_left c
        refine Or.inr ⟨p, by omega, q, ?_⟩
        rw [← y1 last (by omega) (Nat.le_refl _)]; exact r
  · rw [e] at ok; cases ok
  · rw [e] at ok; cases ok

/-- Later passes leave the directories and the printed traces of earlier orders alone. -/
theorem expLoop_frame {L : ExpLib σ K} {C : ExpCfg K} {x : FMpo σ K} {dH : Nat} {t0 : K} : ∀ (k n : Nat) (s s' : ExpSt σ K), expLoop L C x dH t0 k n s = .ok s' →
    (∀ j, j < n → s'.disk j = s.disk j) ∧ ∃ l, s'.traces = s.traces ++ l
  | 0, n, s, s', h => by cases h; exact ⟨fun _ _ => rfl, [], by simp⟩
  | k + 1, n, s, s', h => by
    obtain ⟨s1, e1, h⟩ := bind_ok (show (expTerm L C x dH n s >>= _) = _ from h)
    obtain ⟨s2, e2, h⟩ := bind_ok (show (expAdd L C n s1 >>= _) = _ from h)
    have f1 : s1.disk = s.disk ∧ s1.traces = s.traces := by
      unfold expTerm at e1
      split at e1
      · obtain ⟨s0, a, b⟩ := bind_ok e1
        obtain ⟨t, c, d⟩ := bind_ok b
        have : s0.disk = s.disk ∧ s0.traces = s.traces := by
          split at a
          · obtain ⟨_, _, a⟩ := bind_ok a
            obtain ⟨_, _, a⟩ := bind_ok a
            cases a; exact ⟨rfl, rfl⟩
          · obtain ⟨_, _, a⟩ := bind_ok a
            obtain ⟨_, _, a⟩ := bind_ok a
            cases a; exact ⟨rfl, rfl⟩
        cases d; exact this
      · cases e1; exact ⟨rfl, rfl⟩
    have f2 : (∀ j, j < n → s2.1.disk j = s1.disk j) ∧ s2.1.traces = s1.traces ++ [s2.2] := by
      unfold expAdd at e2
      obtain ⟨_, _, a⟩ := bind_ok e2
      obtain ⟨_, _, a⟩ := bind_ok a
      obtain ⟨_, _, a⟩ := bind_ok a
      have up : ∀ (v : MpoDir σ K) (j : Nat), j < n → Function.update s1.disk n (some v) j = s1.disk j := fun v j hj => Function.update_of_ne (by omega) _ _
      split at a
      · obtain ⟨_, _, a⟩ := bind_ok a
        cases a; exact ⟨up _, rfl⟩
      · cases a; exact ⟨up _, rfl⟩
    have fin : (∃ l, s'.traces = s2.1.traces ++ l) ∧ (∀ j, j < n → s'.disk j = s2.1.disk j) := by
      split at h
      · split at h
        · split at h
          · cases h; exact ⟨⟨[], by simp⟩, fun _ _ => rfl⟩
          · have := expLoop_frame k (n + 1) _ _ h
            exact ⟨this.2, fun j hj => this.1 j (by omega)⟩
        · cases h
      · have := expLoop_frame k (n + 1) _ _ h
        exact ⟨this.2, fun j hj => this.1 j (by omega)⟩
    refine ⟨fun j hj => by rw [fin.2 j hj, f2.1 j hj, f1.1], ?_⟩
    obtain ⟨l, hl⟩ := fin.1
    exact ⟨[s2.2] ++ l, by rw [hl, f2.2, f1.2, List.append_assoc]⟩

/-- **C68, violated.** On two sites, or with `sweep_max = 0`, when the square of the Hamiltonian needs compression (`D(H)² > Dmax`) and no directory of an earlier run is found: a run that returns has used `-τH/2` for the term
of second order instead of `(τH)²/2`: that is what the directory of order 2 holds and what the second printed trace is the trace of. -/
theorem C68_no_update {L : ExpLib σ K} (HL : ExpLibSpec L) (C : ExpCfg K) {h : FMpo σ K} {H : Matrix (Fin N → σ) (Fin N → σ) K} (hH : IsOp h H) (hc : CenterOk h)
    (hN : 2 ≤ N) (hs : N = 2 ∨ C.sweeps = 0) (hD : C.Dmax < FMpo.maxBond h * FMpo.maxBond h) (hm : 3 ≤ C.maxOrder)
    (lf rf : Nat → Option (Env3 K)) {disk : Nat → Option (MpoDir σ K)} (hd : disk 2 = none) {s : ExpSt σ K} {ν : K} (ok : expMpo L C h lf rf disk = .ok (s, ν)) :
    (∃ d, s.disk 2 = some d ∧ HoldsOp d N ((2 : K)⁻¹ • (-C.tau • H))) ∧ s.traces[1]? = some (Matrix.trace ((2 : K)⁻¹ • (-C.tau • H))) := by
  obtain ⟨x, e1, ix, xc⟩ := C65_scale hH hc (-C.tau)
  obtain ⟨-, bx⟩ := isOp_dims hH hc e1
  obtain ⟨i, e2, ii, fi, ci⟩ := C65_identity hH
  have e3 := C65_trace ii
  have xs : x.size = h.size := by
    obtain ⟨us, r1, h1, -⟩ := ix.rep
    obtain ⟨vs, r2, h2, -⟩ := hH.rep
    rw [r1.size, r2.size, h1, h2]
  have xN : x.size = N := by
    obtain ⟨us, r1, h1, -⟩ := ix.rep
    rw [r1.size, h1]
  obtain ⟨is, ri, hi, i1, i2, iO⟩ := ii.rep
  have cx : CenterOk x := by unfold CenterOk at hc ⊢; rw [xc, xs]; exact hc
  have id' : IsOp (⟨i.slots, List.replicate N .none, -1⟩ : FMpo σ K) (1 : Matrix (Fin N → σ) (Fin N → σ) K) := IsOp.mk' (ts := is) ⟨ri.slots, by simp [hi], ri.link⟩ hi i1 i2 iO
  -- order 1
  obtain ⟨t1, d1, dir1, es1, S1, f1, it1, tf1, tc1, tb1, -, id1, -, -, -⟩ := expAdd_spec HL (C := C) (n := 1)
    (s := ⟨x, ⟨i.slots, List.replicate N .none, -1⟩, lf, rf, disk, [], []⟩) ix cx id' hN
  -- order 2
  obtain ⟨ts, rt, ht, u1, u2, tO⟩ := it1.rep
  obtain ⟨cs, c1, c2, c3⟩ : Tracked L.qr L.svd (L.tsvd 1 1) L.nrm (L.terr 1 1) N t1 := by
    have := tracked_plain (qr := L.qr) (svd := L.svd) (tsvd := L.tsvd 1 1) (nrm := L.nrm) (terr := L.terr 1 1) rt.slots (by omega)
    rw [ht, ← tf1, ← tc1] at this
    exact this
  obtain ⟨z, g1, iz, zc, -, -⟩ := C44_no_update HL.qr HL.svd (HL.tsvd 1 1) L.splitR L.splitL L.nrm2 L.conv hN hs c1 c2 c3 it1 ix
    (out := FMpo.fresh N) (Or.inr ⟨by simp [FMpo.fresh, FMps.fresh, FMps.size], ⟨0, by show (List.replicate N Option.none)[0]? = _; rw [List.getElem?_replicate, if_pos (by omega)]⟩, rfl⟩) lf rf
  have zs : z.out.size = N := by
    obtain ⟨us, r1, h1, -⟩ := iz.rep
    rw [r1.size, h1]
  obtain ⟨t2, e4, it2, ct2⟩ := C65_scale iz (Or.inr ⟨1, by omega, zc⟩) ((2 : Nat) : K)⁻¹
  have t2s : t2.size = N := by
    obtain ⟨us, r1, h1, -⟩ := it2.rep
    rw [r1.size, h1]
  obtain ⟨t3, d3, dir3, es3, S3, f3, it3, -, -, -, hold, -⟩ := expAdd_spec HL (C := C) (n := 2)
    (s := ⟨t2, d1, z.lf, z.rf, Function.update disk 1 (some dir1), [Matrix.trace (-C.tau • H)], es1⟩) it2 (Or.inr ⟨1, show 1 < t2.size by omega, by rw [ct2, zc]; rfl⟩) id1 hN
  have loop : ∃ s0, expLoop L C x (FMpo.maxBond h) (Matrix.trace (1 : Matrix (Fin N → σ) (Fin N → σ) K)) (C.maxOrder - 1) 1
      ⟨x, ⟨i.slots, List.replicate N .none, -1⟩, lf, rf, disk, [], []⟩ = .ok s0 ∧ s.disk = s0.disk ∧ s.traces = s0.traces := by
    obtain ⟨x', a1, b⟩ := bind_ok (show (FMpo.scale h (-C.tau) >>= _) = _ from ok)
    rw [e1] at a1; cases a1
    obtain ⟨i', a1, b⟩ := bind_ok b
    rw [e2] at a1; cases a1
    obtain ⟨t', a1, b⟩ := bind_ok b
    rw [e3] at a1; cases a1
    obtain ⟨s0, a1, b⟩ := bind_ok b
    obtain ⟨_, _, b⟩ := bind_ok b
    obtain ⟨_, _, b⟩ := bind_ok b
    obtain ⟨_, _, b⟩ := bind_ok b
    refine ⟨s0, a1, ?_⟩
    have := congrArg Prod.fst (Except.ok.inj b)
    exact ⟨(congrArg ExpSt.disk this).symm, (congrArg ExpSt.traces this).symm⟩
  obtain ⟨s0, lo, q1, q2⟩ := loop
  obtain ⟨k, hk⟩ : ∃ k, C.maxOrder - 1 = k + 1 + 1 := ⟨C.maxOrder - 3, by omega⟩
  rw [hk] at lo
  obtain ⟨s1, a1, lo⟩ := bind_ok (show (expTerm L C x (FMpo.maxBond h) 1 _ >>= _) = _ from lo)
  have a1' : s1 = ⟨x, ⟨i.slots, List.replicate N .none, -1⟩, lf, rf, disk, [], []⟩ := by
    unfold expTerm at a1
    rw [if_neg (by omega)] at a1
    cases a1; rfl
  subst a1'
  rw [f1] at lo
  obtain ⟨s2, a2, lo⟩ := bind_ok (show (expTerm L C x (FMpo.maxBond h) 2 ⟨t1, d1, lf, rf, Function.update disk 1 (some dir1), [] ++ [Matrix.trace (-C.tau • H)], [] ++ es1⟩ >>= _) = _ from lo)
  have a2' : s2 = ⟨t2, d1, z.lf, z.rf, Function.update disk 1 (some dir1), [Matrix.trace (-C.tau • H)], es1⟩ := by
    unfold expTerm at a2
    have hb : ¬ FMpo.maxBond h * FMpo.maxBond t1 ≤ C.Dmax := by
      rw [show FMpo.maxBond t1 = FMpo.maxBond h from tb1.trans bx]; omega
    rw [if_pos (by omega), if_neg hb, xN] at a2
    have eg : expGuess N (Function.update disk 1 (some dir1) 2) = .ok (FMpo.fresh N) := by
      rw [Function.update_of_ne (by omega), hd]; rfl
    obtain ⟨s', b1, a2⟩ := bind_ok a2
    obtain ⟨g, b2, b1⟩ := bind_ok b1
    have b3 := eg.symm.trans b2
    cases b3
    obtain ⟨z', b4, b1⟩ := bind_ok b1
    have b5 := g1.symm.trans b4
    cases b5
    cases b1
    obtain ⟨t', b6, a2⟩ := bind_ok a2
    have b7 := e4.symm.trans b6
    cases b7
    cases a2
    rfl
  subst a2'
  rw [f3] at lo
  have fin : (∀ j, j < 3 → s0.disk j = Function.update (Function.update disk 1 (some dir1)) 2 (some dir3) j) ∧
      ∃ l, s0.traces = [Matrix.trace (-C.tau • H)] ++ [Matrix.trace (((2 : Nat) : K)⁻¹ • (-C.tau • H))] ++ l := by
    obtain ⟨p, hp, lo⟩ := bind_ok lo
    cases hp
    rw [if_pos (by omega)] at lo
    split at lo
    · split at lo
      · cases lo; exact ⟨fun _ _ => rfl, [], by simp⟩
      · exact expLoop_frame k 3 _ _ lo
    · cases lo
  rw [q1, q2]
  obtain ⟨l, hl⟩ := fin.2
  refine ⟨⟨dir3, by rw [fin.1 2 (by omega), Function.update_self], by simpa using hold⟩, by rw [hl]; simp⟩

/-! ### Concrete cases -/

/-- A library over ℚ: complete bases; the truncation keeps the first `Dmax` directions of a fixed basis; no normalisation. -/
def exLib (D : Nat) : ExpLib Bool ℚ where
  qr := qrE pairEnum
  svd := svdE pairEnum
  tsvd _ b := tsvdE pairEnum b
  terr _ b := terrE pairEnum b
  splitR := splitRE pairEnum D
  splitL := splitLE pairEnum D
  nrm2 _ := 0
  conv _ _ := false
  nrm t := (1, t)

theorem exLib_spec (D : Nat) : ExpLibSpec (exLib D) where
  qr := qrE_spec pairEnum
  svd := svdE_spec pairEnum
  tsvd _ b := tsvdE_spec pairEnum b
  cap _ b t := Nat.min_le_left _ _
  splitR := splitRE_spec pairEnum D
  splitL := splitLE_spec pairEnum D
  nrm := ⟨fun _ => ⟨rfl, rfl⟩, fun _ _ _ _ => (one_mul _).symm⟩

/-- Two sites, bond dimension two. -/
def exH : FMpo Bool ℚ := ⟨[some exTL, some exTR], [.none, .none], -1⟩

theorem exH_op : IsOp (N := 2) exH (opMat 2 [exTL, exTR]) := ⟨[exTL, exTR], rfl, rfl, linked_mk rfl (List.IsChain.singleton _), rfl, rfl, rfl, rfl⟩

/-- Terms up to order 2, tolerance 10⁻³. -/
def exCfg (τ : ℚ) (D : Nat) : ExpCfg ℚ := ⟨τ, 3, D, 1, fun t => decide (0 < t), fun t t0 => decide (|t / t0| < 1 / 1000)⟩

/-- The printed traces and truncation errors. -/
def exPrinted (τ : ℚ) (D : Nat) : Option (List ℚ × List ℚ) :=
  match expMpo (exLib D) (exCfg τ D) exH (fun _ => none) (fun _ => none) (fun _ => none) with
  | .ok (s, _) => some (s.traces, s.errs)
  | .error _ => none

theorem exPrinted_free : exPrinted (1 / 2) 8 = some ([-2, 15 / 2], [0]) := by decide +kernel

theorem exPrinted_short : (exPrinted (-1 / 2) 3).map Prod.fst = some [2, 1] := by decide +kernel

theorem exH_bond : NoZeroBond exH := by
  intro i t h
  match i with
  | 0 => cases h; decide
  | 1 => cases h; decide
  | i + 2 => simp [exH] at h

/-- The hypotheses of `C68_taylor` hold for a Hamiltonian of bond dimension two on two sites and `Dmax = 8`: the run returns, and the result is the Taylor polynomial of second order. -/
example : ∃ (s : ExpSt Bool ℚ) (ν : ℚ) (R : Matrix (Fin 2 → Bool) (Fin 2 → Bool) ℚ), expMpo (exLib 8) (exCfg (1 / 2) 8) exH (fun _ => none) (fun _ => none) (fun _ => none) = .ok (s, ν) ∧ IsOp s.dens R ∧
    ν • R = 1 + (-(1 / 2 : ℚ)) • opMat 2 [exTL, exTR] + (2 : ℚ)⁻¹ • ((-(1 / 2 : ℚ)) • opMat 2 [exTL, exTR]) ^ 2 := by
  have key := exPrinted_free
  unfold exPrinted at key
  split at key
  · next s ν e =>
    simp only [Option.some.injEq, Prod.mk.injEq] at key
    obtain ⟨R, last, io, h1, h2, -⟩ := C68_taylor (exLib_spec 8) (exCfg (1 / 2) 8) exH_op (Or.inl rfl) exH_bond (by omega)
      (by decide +kernel) (fun _ => none) (fun _ => none) (disk := fun _ => none) (by simp) e (by rw [key.2]; simp)
    refine ⟨s, ν, R, e, io, ?_⟩
    have hl : last = 2 := by
      have := congrArg List.length h2
      rw [key.1] at this
      simpa using this.symm
    subst hl
    rw [h1]
    simp [sum_range_succ, exCfg]
  · cases key

/-- The hypotheses of `C68_exp` hold with a compressing product on three sites. -/
example : ∃ (T S : Nat → Matrix (Fin 3 → Bool) (Fin 3 → Bool) ℚ) (last : Nat), TaylorRun (-(exCfg (1 / 2) 3).tau • opMat 3 [exTL, exTM, exTR]) T S last ∧ last ≤ 2 := by
  have zb : NoZeroBond exV := by
    intro i t h
    match i with
    | 0 => cases h; decide
    | 1 => cases h; decide
    | 2 => cases h; decide
    | i + 3 => simp [exV] at h
  obtain ⟨T, S, last, h1, h2, -⟩ := C68_exp (exLib_spec 3) (exCfg (1 / 2) 3) exV_op (Or.inl rfl) zb (Or.inl ⟨by omega, Nat.le_refl _⟩) (fun _ => none) (fun _ => none)
    (disk := fun _ => none) (by simp)
  exact ⟨T, S, last, h2, h1⟩

/-- The violation on two sites with `Dmax = 3`: the term of second order is `-τH/2`. -/
example : ∃ (s : ExpSt Bool ℚ) (ν : ℚ), expMpo (exLib 3) (exCfg (-1 / 2) 3) exH (fun _ => none) (fun _ => none) (fun _ => none) = .ok (s, ν) ∧
    ∃ d, s.disk 2 = some d ∧ HoldsOp d 2 ((2 : ℚ)⁻¹ • (-(exCfg (-1 / 2) 3).tau • opMat 2 [exTL, exTR])) := by
  have key := exPrinted_short
  unfold exPrinted at key
  split at key
  · next s ν e =>
    exact ⟨s, ν, e, (C68_no_update (exLib_spec 3) (exCfg (-1 / 2) 3) exH_op (Or.inl rfl) (by omega) (Or.inl rfl) (by decide +kernel) (Nat.le_refl _) (fun _ => none) (fun _ => none)
      (disk := fun _ => none) rfl e).1⟩
  · cases key

end Verif.Props
