import Verif.Mps.EntropyFacts
import Verif.Mps.NormFacts
/-
The loop of `GetEntanglementEntropy`.
-/
namespace Verif.Mps
open Finset

variable {σ 𝕜 : Type} [RCLike 𝕜] [Fintype σ] {qr : Ten σ 𝕜 → Ten σ 𝕜 × Mat 𝕜} {svd3 : Ten σ 𝕜 → SvdR σ 𝕜} {nrm : Ten σ 𝕜 → 𝕜 × Ten σ 𝕜}

/-- The density matrix of the first `i` sites of a chain, not normalised. -/
def chainRho (ts : List (Ten σ 𝕜)) (i : Nat) : Matrix (Fin i → σ) (Fin i → σ) 𝕜 :=
  Matrix.of fun x y => ∑ z : Fin (ts.length - i) → σ, amp ts (List.ofFn x ++ List.ofFn z) 0 0 * star (amp ts (List.ofFn y ++ List.ofFn z) 0 0)

theorem chainRho_eqv {ts ts' : List (Ten σ 𝕜)} (h : Eqv ts ts') (h1 : headL ts = 1) (i : Nat) : chainRho ts' i = chainRho ts i := by
  unfold chainRho
  rw [h.len]
  congr 1
  funext x y
  refine sum_congr rfl fun z _ => ?_
  rw [h.amp _ 0 0 (by omega), h.amp _ 0 0 (by omega)]

/-- The entry for the bond left of site `i`: made from the diagonal of a decomposition of the density matrix. -/
def BondOK (svd3 : Ten σ 𝕜 → SvdR σ 𝕜) (n : Nat) (ts : List (Ten σ 𝕜)) (i : Nat) (e : Option ℝ) : Prop :=
  ∃ t, ∃ C : Matrix (Fin i → σ) (Fin (svd3 t).vt.l) 𝕜, C.conjTranspose * C = 1 ∧
    chainRho ts i = C * Matrix.diagonal (fun j : Fin (svd3 t).vt.l => (((svd3 t).s j * (svd3 t).s j : ℝ) : 𝕜)) * C.conjTranspose ∧ e = eeOf n (svd3 t).vt.l (svd3 t).s

theorem bond_split (H : SvdRSpec svd3) {ts : List (Ten σ 𝕜)} {i : Nat} {t : Ten σ 𝕜} (ht : ts[i + 1]? = some t) (hl : Linked ts) (h1 : headL ts = 1) (h2 : lastR ts = 1)
    (hL : ∀ j u, j < i + 1 → ts[j]? = some u → LeftIso u) (hR : ∀ j u, i + 1 < j → ts[j]? = some u → RightIso u) (n : Nat) :
    BondOK svd3 n ts (i + 1) (eeOf n (svd3 t).vt.l (svd3 t).s) := by
  have hi := (List.getElem?_eq_some_iff.mp ht).1
  have hs : ts = ts.take (i + 1) ++ t :: ts.drop (i + 2) := by
    have hc : ts[i + 1] :: ts.drop (i + 1 + 1) = ts.drop (i + 1) := List.getElem_cons_drop hi
    rw [← (List.getElem?_eq_some_iff.mp ht).2, hc, List.take_append_drop]
  have hn : (ts.take (i + 1)).length = i + 1 := by rw [List.length_take]; omega
  have hne : ts.take (i + 1) ≠ [] := by intro h; rw [h] at hn; simp at hn
  have hl' : Linked (ts.take (i + 1) ++ t :: ts.drop (i + 2)) := by rw [← hs]; exact hl
  have h1' : headL (ts.take (i + 1)) = 1 := by
    rw [hs, headL_append hne] at h1
    exact h1
  have hL' : ∀ u ∈ ts.take (i + 1), LeftIso u := by
    intro u hu
    obtain ⟨j, hj, rfl⟩ := List.getElem_of_mem hu
    refine hL j _ (by omega) ?_
    rw [List.getElem_take, List.getElem?_eq_getElem]
  have hR' : ∀ u ∈ ts.drop (i + 2), RightIso u := by
    intro u hu
    obtain ⟨j, hj, rfl⟩ := List.getElem_of_mem hu
    refine hR (i + 2 + j) _ (by omega) ?_
    rw [List.getElem_drop, List.getElem?_eq_getElem]
  refine ⟨t, leftVecs svd3 (i + 1) (ts.take (i + 1)) t, leftVecs_orth H hn hne hl' h1' hL', ?_, rfl⟩
  have := density_schmidt H hn (m := ts.length - (i + 1)) (by rw [List.length_drop]; omega) hne hl' h1' (by rw [← hs]; exact h2) hR'
  rw [← hs] at this
  exact this

/-- The step of the loop. -/
theorem entStep_ok (Hq : QRSpec qr) (H : SvdRSpec svd3) (n : Nat) {m : FMps σ 𝕜} {ts : List (Ten σ 𝕜)} {es : List (Option ℝ)} {i : Nat} (hr : Rep m ts) (hi : i + 1 < ts.length)
    (h1 : headL ts = 1) (h2 : lastR ts = 1)
    (hL : ∀ j u, j < i + 1 → ts[j]? = some u → LeftIso u) (hR : ∀ j u, i + 1 < j → ts[j]? = some u → RightIso u) :
    ∃ m' ts' e, FMps.entStep qr svd3 n (m, es) (i + 1) = .ok (m', es.set i e) ∧ Rep m' ts' ∧ Eqv ts ts' ∧ BondOK svd3 n ts (i + 1) e ∧
      (∀ j u, j < i → ts'[j]? = some u → LeftIso u) ∧ (∀ j u, i < j → ts'[j]? = some u → RightIso u) ∧
      m'.flags = (m.flags.set i .none).set (i + 1) .right ∧ m'.center = -1 := by
  obtain ⟨t, ht⟩ := getE hi
  obtain ⟨l, hl⟩ := getE (ts := ts) (i := i) (by omega)
  have hlk := linked_get hr.link i l t hl ht
  have Hs := svdR_pair H
  have E := eqv_set2 (t := l) (u := t) (p := mulR l (svd3 t).pair.2 (svd3 t).pair.1.l) (q := (svd3 t).pair.1) rfl rfl
      (Hs.dim t) (samePair_svd Hs l t hlk) hl ht hr.link
  refine ⟨⟨(m.slots.set i (some (mulR l (svd3 t).pair.2 (svd3 t).pair.1.l))).set (i + 1) (some (svd3 t).pair.1), (m.flags.set i .none).set (i + 1) .right, -1⟩, _, _, ?_,
    ⟨?_, ?_, E.2⟩, E.1, bond_split H ht hr.link h1 h2 hL hR n, ?_, ?_, rfl, rfl⟩
  · unfold FMps.entStep FMps.rightTen
    simp only [hr.get ht, hr.get hl]
    rw [if_pos hlk, if_pos trivial]
    rfl
  · simp only [hr.slots, map_set2]
  · simp [set2, hr.flen]
  · intro j u hj hu
    simp only [set2] at hu
    rw [List.getElem?_set_ne (by omega), List.getElem?_set_ne (by omega)] at hu
    exact hL j u (by omega) hu
  · intro j u hj hu
    simp only [set2] at hu
    by_cases hj' : i + 1 = j
    · subst hj'
      rw [List.getElem?_set_self (by rw [List.length_set]; exact hi)] at hu
      obtain rfl := Option.some.inj hu
      exact H.iso t
    · rw [List.getElem?_set_ne hj', List.getElem?_set_ne (by omega)] at hu
      exact hR j u (by omega) hu

theorem entLoop (Hq : QRSpec qr) (H : SvdRSpec svd3) (n : Nat) : ∀ (i : Nat) (m : FMps σ 𝕜) (ts : List (Ten σ 𝕜)) (es : List (Option ℝ)), Rep m ts → i < ts.length → i ≤ es.length →
    headL ts = 1 → lastR ts = 1 → (∀ j u, j < i → ts[j]? = some u → LeftIso u) → (∀ j u, i < j → ts[j]? = some u → RightIso u) → m.center = -1 →
    (∀ j, i < j → j < ts.length → m.flags[j]? = some .right) → m.flags[i]? = some .none →
    ∃ m' ts' es', (List.range' 1 i).reverse.foldlM (FMps.entStep qr svd3 n) (m, es) = .ok (m', es') ∧ Rep m' ts' ∧ Eqv ts ts' ∧ es'.length = es.length ∧
      (∀ j, j < i → ∃ e, es'[j]? = some e ∧ BondOK svd3 n ts (j + 1) e) ∧ (∀ j, i ≤ j → es'[j]? = es[j]?) ∧ (∀ j u, 0 < j → ts'[j]? = some u → RightIso u) ∧ m'.center = -1 ∧
      (∀ j, 0 < j → j < ts.length → m'.flags[j]? = some .right) ∧ m'.flags[0]? = some .none := by
  intro i
  induction i with
  | zero =>
    intro m ts es hr _ _ _ _ _ hR hc hf h0
    exact ⟨m, ts, es, rfl, hr, Eqv.refl _, rfl, fun j hj => absurd hj (by omega), fun _ _ => rfl, hR, hc, hf, h0⟩
  | succ i ih =>
    intro m ts es hr hi he h1 h2 hL hR hc hf h0
    obtain ⟨m1, ts1, e, x1, x2, x3, x4, x5, x6, x7, x8⟩ := entStep_ok (es := es) Hq H n hr hi h1 h2 hL hR
    have hfl := hr.flen
    obtain ⟨m', ts', es', y1, y2, y3, y4, y5, y6, y7, y8, y9, y10⟩ := ih m1 ts1 (es.set i e) x2 (by rw [x3.len]; omega) (by rw [List.length_set]; omega)
      (x3.head.trans h1) (x3.last.trans h2) x5 x6 x8 (fun j hj hj' => by
        rw [x7]
        by_cases c : i + 1 = j
        · subst c
          rw [List.getElem?_set_self (by rw [List.length_set]; omega)]
        · rw [List.getElem?_set_ne c, List.getElem?_set_ne (by omega)]
          exact hf j (by omega) (by rw [x3.len] at hj'; omega))
      (by rw [x7, List.getElem?_set_ne (by omega), List.getElem?_set_self (by omega)])
    refine ⟨m', ts', es', ?_, y2, x3.trans y3, by rw [y4, List.length_set], fun j hj => ?_, fun j hj => ?_, y7, y8, fun j hj hj' => y9 j hj (by rw [x3.len]; omega), y10⟩
    · rw [range'_rev_succ, Nat.add_comm 1 i, foldlM_cons_ok x1, y1]
    · by_cases c : j = i
      · subst c
        refine ⟨e, ?_, x4⟩
        rw [y6 j le_rfl, List.getElem?_set_self (by omega)]
      · obtain ⟨e', z1, t, C, z2, z3, z4⟩ := y5 j (by omega)
        exact ⟨e', z1, t, C, z2, by rw [← z3]; exact (chainRho_eqv x3 h1 _).symm, z4⟩
    · rw [y6 j (by omega), List.getElem?_set_ne (by omega)]

end Verif.Mps
