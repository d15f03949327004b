import Verif.Mps.TdvpPrepareFacts
import Verif.Props.TdvpMeasure
/-
The initial state of a TDVP run.
-/
namespace Verif.Props
open Verif.Mps Finset

section
variable {σ K : Type} [CommRing K] [StarRing K] [Fintype σ] [DecidableEq σ] {qr svd : Ten σ K → Ten σ K × Mat K}

/-- C59: with an empty MPS in memory and the files of an MPS on disk, the preparation of a TDVP run succeeds, leaves no
tensor in memory, and leaves on disk an MPS of the same length and boundary legs whose state is the product operator
applied to the given state, with `inst` on the sites before `site`, `op` on `site` and the identity after it. The sites
from 1 to `site` are right-isometries and the files after `site` are unchanged. -/
theorem C59_prepare (H : QRSpec qr) {ts : List (Ten σ K)} (hl : Linked ts) {m : FMps σ K} (hs : Slots m ts.length (fun _ => Option.none))
    (op : Op σ K) (inst : Option (Op σ K)) {site : Nat} (hi : site < ts.length) :
    ∃ d m', tdvpPrepare qr svd true op inst site (ts, m) = .ok (d, m') ∧ Slots m' ts.length (fun _ => Option.none) ∧
      Linked d ∧ d.length = ts.length ∧ headL d = headL ts ∧ lastR d = lastR ts ∧
      (∀ (s' : Fin ts.length → σ) (a b : Nat), a < headL ts →
        amp d (List.ofFn s') a b = ∑ s : Fin ts.length → σ,
          (∏ i : Fin ts.length, (if (i : Nat) < site then inst.getD idOp else if (i : Nat) = site then op else idOp) (s i) (s' i)) *
            amp ts (List.ofFn s) a b) ∧
      (∀ j u, 1 ≤ j → j ≤ site → d[j]? = some u → RightIso u) ∧ (∀ j, site < j → d[j]? = ts[j]?) := by
  obtain ⟨m1, e1, s1⟩ := actOperator_ok op inst rfl hi hs
  set O := corrOps op (inst.getD idOp) site with hO
  obtain ⟨a1, a2, a3⟩ := linked_actAll O hl
  have hlen : (actAll O ts).length = ts.length := by simp [actAll]
  obtain ⟨t, et⟩ := getE (ts := actAll O ts) (i := site) (by omega)
  obtain ⟨m2, e2, s2⟩ := s1.load hi t
  have self : (actAll O ts).set site t = actAll O ts := by
    apply List.ext_getElem?
    intro j
    rw [List.getElem?_set]
    by_cases h : site = j
    · subst h; rw [if_pos rfl, if_pos (by omega), et]
    · rw [if_neg h]
  obtain ⟨d, m3, t', k1, k2, k3, k4, k5, k6, k7⟩ := canonLoop_ok (svd := svd) H (N := ts.length) (d0 := actAll O ts) site (d := actAll O ts)
    (m := m2) (t := t) hlen hi (s2.congr fun j _ => by simp [upd, only]) (by rw [self]; exact a1) (by rw [self]; exact Eqv.refl _)
  have r3 := k3.read (i := 0) (by omega) (t := t') (by simp [only])
  obtain ⟨m4, e4, s4⟩ := k3.dealloc (i := 0) (by omega)
  refine ⟨d.set 0 t', m4, ?_, s4.congr fun j _ => by by_cases h : j = 0 <;> simp [upd, only, h], k4, by rw [k5.len, hlen],
    by rw [k5.head, a2], by rw [k5.last, a3], ?_, ?_, ?_⟩
  · unfold tdvpPrepare
    rw [e1]
    simp only [bind, Except.bind, if_true, et, e2]
    rw [k1]
    simp only [r3, e4]
    rfl
  · intro s' a b ha
    rw [k5.amp _ _ _ (by rw [a2]; exact ha), amp_actAll]
    rfl
  · intro j u h1 h2 hu
    rw [List.getElem?_set_ne (by omega)] at hu
    exact k6 j u h1 h2 hu
  · intro j hj
    rw [List.getElem?_set_ne (by omega), k7 j hj]
    simp only [actAll, List.getElem?_mapIdx]
    have : O j = idOp := by rw [hO, corrOps, if_neg (by omega), if_neg (by omega)]
    rw [this]
    cases ts[j]? <;> simp [actOp_id]

/-- C59, consequence: if the sites after `site` were right-isometries (the centre at or before `site`, as the program asks
the user to make sure), the prepared MPS is right-canonical with centre 0, as the sweep needs. -/
theorem C59_right_canonical (H : QRSpec qr) {ts : List (Ten σ K)} (hl : Linked ts) {m : FMps σ K}
    (hs : Slots m ts.length (fun _ => Option.none)) (op : Op σ K) (inst : Option (Op σ K)) {site : Nat} (hi : site < ts.length)
    (hc : ∀ j u, site < j → ts[j]? = some u → RightIso u) :
    ∃ d m', tdvpPrepare qr svd true op inst site (ts, m) = .ok (d, m') ∧ ∀ j u, 1 ≤ j → d[j]? = some u → RightIso u := by
  obtain ⟨d, m', e, _, _, _, _, _, _, h1, h2⟩ := C59_prepare (svd := svd) H hl hs op inst hi
  refine ⟨d, m', e, fun j u hj hu => ?_⟩
  by_cases h : j ≤ site
  · exact h1 j u hj h hu
  · exact hc j u (by omega) (by rw [← h2 j (by omega)]; exact hu)

/-- C59, the other setting: with the local-operator correlations switched off the file of `site` is loaded into the last
slot; if its left leg does not fit the last but one site, the contraction fails. -/
theorem C59_without_correlations_violation {ts : List (Ten σ K)} {m : FMps σ K} (hs : Slots m ts.length (fun _ => Option.none))
    (op : Op σ K) (inst : Option (Op σ K)) {site : Nat} (hi : site < ts.length) {k : Nat} (hk : ts.length = k + 2)
    {p t : Ten σ K} (hp : ts[k]? = some p) (ht : ts[site]? = some t) (hne : p.r ≠ t.l) :
    tdvpPrepare qr svd false op inst site (ts, m) = .error .ub := by
  obtain ⟨m1, e1, s1⟩ := actOperator_ok op inst rfl hi hs
  set O := corrOps op (inst.getD idOp) site with hO
  have g : ∀ {j : Nat} {x : Ten σ K}, ts[j]? = some x → (actAll O ts)[j]? = some (actOp (O j) x) := fun {j x} h => by
    simp only [actAll, List.getElem?_mapIdx, h, Option.map_some]
  have sz : m1.size = k + 2 := by unfold FMps.size; rw [s1.len, hk]
  obtain ⟨m2, e2, s2⟩ := s1.load (i := k + 1) (by omega) (actOp (O site) t)
  obtain ⟨m3, e3, s3⟩ := s2.loadTen (i := k) (by omega) (g hp)
  have f0 : (upd (upd (fun _ => (Option.none : Option (Ten σ K))) (k + 1) (some (actOp (O site) t))) k (some (actOp (O k) p))) k =
    some (actOp (O k) p) := by simp [upd]
  have f1 : (upd (upd (fun _ => (Option.none : Option (Ten σ K))) (k + 1) (some (actOp (O site) t))) k (some (actOp (O k) p))) (k + 1) =
    some (actOp (O site) t) := by simp [upd]
  have e4 : FMps.rightTen qr svd false m3 (k + 1) = .error .ub := by
    unfold FMps.rightTen
    simp only [s3.get (i := k) (by omega), s3.get (i := k + 1) (by omega), f0, f1]
    rw [if_neg (show ¬ (actOp (O k) p).r = (actOp (O site) t).l from hne)]
  unfold tdvpPrepare
  rw [e1]
  simp only [bind, Except.bind, Bool.false_eq_true, if_false, g ht, sz, show k + 2 - 1 = k + 1 from rfl, e2]
  rw [List.range'_concat, List.reverse_append, List.reverse_singleton, List.singleton_append, List.foldlM_cons]
  have : canonStep qr svd (actAll O ts, m2) (1 + 1 * k) = .error .ub := by
    rw [show 1 + 1 * k = k + 1 by omega]
    unfold canonStep
    simp only [Nat.add_sub_cancel, bind, Except.bind]
    rw [e3]
    simp only
    rw [e4]
  rw [this]
  rfl

end

/-- Non-vacuity: the operator on the middle of three sites, with a string on the first. -/
example (o i : Op Bool Int) : ∃ d m', tdvpPrepare qr0 (fun t => (t, fun _ _ => 0)) true o (some i) 1 (ghz 1, FMps.fresh 3) = .ok (d, m') ∧
    ∀ j u, 1 ≤ j → d[j]? = some u → RightIso u :=
  C59_right_canonical qr0_spec (ghz_linked 1) (by
    have := slots_of_empty (m := (FMps.fresh 3 : FMps Bool Int)) rfl
    exact this) o (some i) (show 1 < (ghz 1).length by decide) (fun j u hj hu => ghz_canon 1 j u (by omega) hu)

/-- Non-vacuity: two sites. -/
example (o i : Op Bool Int) : tdvpPrepare qr0 (fun t => (t, fun _ _ => 0)) false o (some i) 0 (ghz 0, FMps.fresh 2) = .error .ub :=
  C59_without_correlations_violation (by
    have := slots_of_empty (m := (FMps.fresh 2 : FMps Bool Int)) rfl
    exact this) o (some i) (show 0 < (ghz 0).length by decide) (k := 0) rfl (p := exA) (t := exA) rfl rfl (by decide)

end Verif.Props
