import Verif.Mpo.ApiVal
/- From histories of calls to the generated and the compressed matrices (helper facts). -/
namespace Verif.Mpo
open SparMat NullElem Finset

section
variable {C T : Type} [DecidableEq C] [DecidableEq T] [G : GenTypes C T]

theorem GenInv.valid {ids : List T} {idO : Nat → OpRepr} {g : Generator C T} {calls : List (Call C T)} {ts : List Term}
    (h : GenInv ids idO g calls ts) : ∀ t ∈ ts, t.Valid ids.length ∧ t.Shape := by
  intro t ht
  obtain ⟨k, hk, rfl⟩ := List.getElem_of_mem ht
  have := (List.forall₂_iff_get.1 h.terms).2 k (by rw [h.terms.length_eq]; exact hk) hk
  simp only [List.get_eq_getElem] at this
  exact this.shape

theorem GenInv.idShape {ids : List T} {idO : Nat → OpRepr} {g : Generator C T} {calls : List (Call C T)} {ts : List Term}
    (h : GenInv ids idO g calls ts) : IdShape ids.length idO := by
  intro i hi
  obtain ⟨lb, _, e⟩ := h.hid i hi
  exact ⟨lb, e⟩

variable {R : Type} [CommRing R]

open Classical in
/-- Value of the uncompressed matrices. -/
theorem GenInv.value {ids : List T} {idO : Nat → OpRepr} {g : Generator C T} {calls : List (Call C T)} {ts : List Term}
    (h : GenInv ids idO g calls ts) (hv : ∀ c ∈ calls, c.Valid ids.length) (hne : calls ≠ []) (v : Vals R C T)
    {ms : Nat → SparMat OpRepr} (hm : MatsAt g.fsm idO ts ids.length ts.length ms) :
    mpoVal v g ((List.range ids.length).map ms) =
      ∑ k ∈ range calls.length, (calls[k]?.elim 0 (fun c => if collides (calls.take k) c then 0 else termVal v ids c)) := by
  have hlen := h.terms.length_eq
  have hcl : 0 < calls.length := List.length_pos_of_ne_nil hne
  have hvt := fun t ht => (h.valid t ht).1
  have hst := fun t ht => (h.valid t ht).2
  rw [mpoVal_eq, ← matsFrom_zero]
  have h00 : g.fsm.idx ts 0 0 = 0 := by
    have h1 := (idx_lt h.fsm hvt (Nat.zero_le _) (show 0 < ts.length by omega)).2
    rw [dim_start h.fsm hvt (by intro e; rw [e] at hlen; simp at hlen; exact hne hlen)] at h1
    omega
  have := state_val h.fsm hvt h.idShape (coefVal v g) (opVal v g) hm ids.length 0 (by omega) 0 (by omega)
  rw [h00, if_neg (by omega)] at this
  rw [this, hlen]
  refine Finset.sum_congr rfl fun k hk => ?_
  have hkt := Finset.mem_range.1 hk
  have hkc : k < calls.length := by omega
  rw [List.getElem?_eq_getElem hkc]
  simp only [Option.elim]
  have hs := surv_iff_not_dropped h.fsm hvt hst h.idShape hkt
  have hd := dropped_iff h hv (List.getElem?_eq_getElem hkc)
  have hp := pathVal_resolved h v (hv _ (List.getElem_mem hkc)) (List.getElem?_eq_getElem hkc)
  by_cases hc : collides (calls.take k) calls[k]
  · rw [if_pos hc, if_neg]
    rintro ⟨_, hh⟩
    exact hs.1 hh (hd.2 hc)
  · rw [if_neg hc, if_pos ⟨⟨hkt, by omega⟩, hs.2 (fun hh => hc (hd.1 hh))⟩, hp]

omit G [DecidableEq C] [DecidableEq T] in
theorem rawChain_dimOK : ∀ {ms : List (SparMat OpRepr)} {m : SparMat OpRepr} {rdy fin : Option Nat} {n : Nat},
    RawChain rdy fin n (m :: ms) → DimOK (m :: ms)
  | [], m, rdy, fin, n, ⟨_, _, _, h, hr⟩ => ⟨h.ok, hr⟩
  | m2 :: ms, m, rdy, fin, n, ⟨_, _, _, h, hr⟩ => by
    refine ⟨h.ok, ?_, rawChain_dimOK hr⟩
    obtain ⟨_, _, e, _⟩ := hr
    exact e.symm

/-- The compression of the generated matrices. -/
theorem GenInv.compressed {ids : List T} {idO : Nat → OpRepr} {g : Generator C T} {calls : List (Call C T)} {ts : List Term}
    (h : GenInv ids idO g calls ts) (hne : calls ≠ []) :
    ∃ raw comp, g.fsm.genMatRepr = .ok raw ∧ g.fsm.genCompressed = .ok comp ∧
      (∀ (R : Type) [CommSemiring R] (cv : Label → R) (ov : Nat → Label → R), cv 0 = 1 →
        chainVal cv ov 0 comp 0 = chainVal cv ov 0 raw 0) ∧
      DimOK raw ∧ DimOK comp ∧ List.Forall₂ DimLe comp raw ∧ raw.length = ids.length ∧
      (∀ m, raw.head? = some m → m.rows = 1) ∧ (∀ m, comp.head? = some m → m.rows = 1) ∧
      ∀ (Q : Type) [AddCommGroup Q] (d : Label → Q) (q : Nat → Q), GChain d q raw → GChain d q comp := by
  have hlen := h.terms.length_eq
  have hvt := fun t ht => (h.valid t ht).1
  have hst := fun t ht => (h.valid t ht).2
  have htne : ts ≠ [] := by
    intro e; rw [e] at hlen; simp at hlen; exact hne hlen
  obtain ⟨ms, e1, hm⟩ := genMatRepr_spec h.fsm hvt
  obtain ⟨t0, ht0⟩ := List.exists_mem_of_ne_nil _ htne
  have hN : 0 < ids.length := by have := (hvt t0 ht0).tN; omega
  have hchain := rawChain_of h.fsm hvt hst h.idShape hm htne ids.length 0 (by omega)
  rw [matsFrom_succ ms hN] at hchain
  have hDraw := rawChain_dimOK hchain
  obtain ⟨rdy', fin', mr, hW, hrest⟩ := hchain
  have eraw : (List.range ids.length).map ms = ms 0 :: matsFrom ms ids.length 1 := by
    rw [← matsFrom_zero, matsFrom_succ ms hN]
  have hrf : ∀ s, rdy' = some s → fin' ≠ some s := hW.dist
  have d0 : (ms 0).rows = 1 := by rw [mr, dim_start h.fsm hvt htne]
  -- deterministic results
  have C1 := fun (R : Type) [CommSemiring R] (cv : Label → R) (ov : Nat → Label → R) (h0 : cv 0 = 1) =>
    colPass_spec cv ov h0 (matsFrom ms ids.length 1) 0 (ms 0) rdy' fin' hW.ok hW.cp hrf hrest
  obtain ⟨A', L, a1, a2, a3, a4, _, _, a7, a8⟩ := C1 Nat (fun _ => 1) (fun _ _ => 1) rfl
  have C2 := fun (R : Type) [CommSemiring R] (cv : Label → R) (ov : Nat → Label → R) (h0 : cv 0 = 1) =>
    rowPass_spec cv ov h0 L 0 A' a3 a4
  obtain ⟨a', L', b1, b2, b3, _, _, b6, b7⟩ := C2 Nat (fun _ => 1) (fun _ _ => 1) rfl
  refine ⟨_, a' :: L', e1, ?_, ?_, by rw [eraw]; exact hDraw, b3, ?_, by simp, ?_, ?_, ?_⟩
  · unfold Fsm.genCompressed
    rw [e1, eraw]
    simp only [bind, Except.bind, a1, b1]
  · intro R _ cv ov h0
    obtain ⟨A2, L2, c1, _, _, _, _, c6, _⟩ := C1 R cv ov h0
    rw [a1] at c1
    obtain ⟨rfl, rfl⟩ : A' = A2 ∧ L = L2 := by simpa using c1
    obtain ⟨A3, L3, d1, _, _, _, d5, _⟩ := C2 R cv ov h0
    rw [b1] at d1
    obtain ⟨rfl, rfl⟩ : a' = A3 ∧ L' = L3 := by simpa using d1
    rw [eraw, d5 0 (by omega), c6 0 (by omega)]
  · rw [eraw]
    have tr : ∀ (x y z : List (SparMat OpRepr)), List.Forall₂ DimLe x y → List.Forall₂ DimLe y z → List.Forall₂ DimLe x z := by
      intro x y z hxy
      induction hxy generalizing z with
      | nil => intro h; exact h
      | cons hab _ ih =>
        intro h
        cases h with
        | cons hbc h => exact List.Forall₂.cons ⟨Nat.le_trans hab.1 hbc.1, Nat.le_trans hab.2 hbc.2⟩ (ih _ h)
    exact tr _ _ _ b6 a7
  · rw [eraw]; rintro m hm'; simp at hm'; subst hm'; exact d0
  · rintro m hm'; simp at hm'; subst hm'; omega
  · intro Q _ d q h
    rw [eraw] at h
    exact b7 Q d q (a8 Q d q h)

end
end Verif.Mpo
