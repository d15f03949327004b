import Verif.Mpo.TensorFacts
import Verif.Mpo.PropFacts
import Mathlib.Algebra.Order.BigOperators.Group.Finset
/- No label of the generated matrices is outside the label tables (helper facts). -/
namespace Verif.Mpo
open SparMat NullElem Finset

section
variable (nc no : Nat)

/-- Counting valuations: labels inside the tables count 1, those outside `b`. -/
def mkC (b : ℕ) (l : Label) : ℕ := if l < nc then 1 else b
def mkO (b : ℕ) (_ : Nat) (l : Label) : ℕ := if l < no then 1 else b

theorem mkC_le (l : Label) : mkC nc 0 l ≤ mkC nc 1 l := by unfold mkC; split <;> simp
theorem mkO_le (s : Nat) (l : Label) : mkO no 0 s l ≤ mkO no 1 s l := by unfold mkO; split <;> simp
theorem mkC_one (l : Label) : mkC nc 1 l = 1 := by unfold mkC; split <;> rfl
theorem mkO_one (s : Nat) (l : Label) : mkO no 1 s l = 1 := by unfold mkO; split <;> rfl

theorem cval_one (c : CoefRepr) : CoefRepr.val (mkC nc 1) c = c.length := by
  induction c with
  | nil => rfl
  | cons a c ih =>
    have : CoefRepr.val (mkC nc 1) (a :: c) = mkC nc 1 a + CoefRepr.val (mkC nc 1) c := by simp [CoefRepr.val]
    rw [this, ih, mkC_one, List.length_cons, add_comm]

theorem cval_le (c : CoefRepr) : CoefRepr.val (mkC nc 0) c ≤ CoefRepr.val (mkC nc 1) c := by
  induction c with
  | nil => exact le_rfl
  | cons a c ih =>
    have : ∀ b, CoefRepr.val (mkC nc b) (a :: c) = mkC nc b a + CoefRepr.val (mkC nc b) c := fun b => by simp [CoefRepr.val]
    rw [this, this]
    exact add_le_add (mkC_le nc a) ih

theorem cval_good (c : CoefRepr) (h : CoefRepr.val (mkC nc 0) c = CoefRepr.val (mkC nc 1) c) : ∀ l ∈ c, l < nc := by
  induction c with
  | nil => simp
  | cons a c ih =>
    have e : ∀ b, CoefRepr.val (mkC nc b) (a :: c) = mkC nc b a + CoefRepr.val (mkC nc b) c := fun b => by simp [CoefRepr.val]
    rw [e, e] at h
    have h1 := mkC_le nc a
    have h2 := cval_le nc c
    intro l hl
    rcases List.mem_cons.1 hl with rfl | hl
    · have : mkC nc 0 l = mkC nc 1 l := by omega
      by_contra hc
      simp [mkC, hc] at this
    · exact ih (by omega) l hl

theorem val_le (s : Nat) (op : OpRepr) : OpRepr.val (mkC nc 0) (mkO no 0 s) op ≤ OpRepr.val (mkC nc 1) (mkO no 1 s) op := by
  induction op with
  | nil => exact le_rfl
  | cons kc op ih =>
    rw [val_cons, val_cons]
    exact add_le_add (Nat.mul_le_mul (cval_le nc kc.2) (mkO_le no s kc.1)) ih

theorem val_good (s : Nat) (op : OpRepr) (hc : ∀ kc ∈ op, kc.2 ≠ [])
    (h : OpRepr.val (mkC nc 0) (mkO no 0 s) op = OpRepr.val (mkC nc 1) (mkO no 1 s) op) : LabelsIn nc no op := by
  induction op with
  | nil => intro kc h; cases h
  | cons kc op ih =>
    rw [val_cons, val_cons] at h
    have h1 := Nat.mul_le_mul (cval_le nc kc.2) (mkO_le no s kc.1)
    have h2 := val_le nc no s op
    have hp : 0 < CoefRepr.val (mkC nc 1) kc.2 := by
      rw [cval_one]; exact List.length_pos_of_ne_nil (hc kc (by simp))
    intro k hk
    rcases List.mem_cons.1 hk with rfl | hk
    · have e : CoefRepr.val (mkC nc 0) k.2 * mkO no 0 s k.1 = CoefRepr.val (mkC nc 1) k.2 * mkO no 1 s k.1 := by omega
      rw [mkO_one, mul_one] at e
      have ho : k.1 < no := by
        by_contra hno
        simp only [mkO, hno, if_false, mul_zero] at e
        omega
      refine ⟨ho, cval_good nc k.2 ?_⟩
      simpa [mkO, ho] using e
    · exact ih (fun k hk => hc k (by simp [hk])) (by omega) k hk

theorem val_pos (s : Nat) (op : OpRepr) (hc : ∀ kc ∈ op, kc.2 ≠ []) (hne : op ≠ []) : 0 < OpRepr.val (mkC nc 1) (mkO no 1 s) op := by
  cases op with
  | nil => exact absurd rfl hne
  | cons kc op =>
    rw [val_cons, mkO_one, mul_one, cval_one]
    have := List.length_pos_of_ne_nil (hc kc (by simp))
    omega

theorem chain_le : ∀ (ms : List (SparMat OpRepr)) (i r : Nat), chainVal (mkC nc 0) (mkO no 0) i ms r ≤ chainVal (mkC nc 1) (mkO no 1) i ms r
  | [], _, _ => le_rfl
  | m :: ms, i, r => Finset.sum_le_sum fun c _ => Nat.mul_le_mul (val_le nc no i _) (chain_le ms (i + 1) c)

/-- Every matrix has no empty row and no empty column. -/
def FullAll (ms : List (SparMat OpRepr)) : Prop := ∀ m ∈ ms, Full .col m ∧ Full .row m

theorem chain_pos : ∀ (ms : List (SparMat OpRepr)) (m : SparMat OpRepr) (i r : Nat), DimOK (m :: ms) → FullAll (m :: ms) → r < m.rows →
    0 < chainVal (mkC nc 1) (mkO no 1) i (m :: ms) r
  | ms, m, i, r, hD, hF, hr => by
    obtain ⟨c, hc, hne⟩ := (hF m (by simp)).2 r hr
    have hc : c < m.cols := hc
    have hne : m.get r c ≠ [] := hne
    have hM : MatOK m := by cases ms with | nil => exact hD.1 | cons _ _ => exact hD.1
    have hv := val_pos nc no i _ (hM.canon r c hr hc).2 hne
    have hrest : 0 < chainVal (mkC nc 1) (mkO no 1) (i + 1) ms c := by
      cases ms with
      | nil => exact Nat.one_pos
      | cons m2 ms => exact chain_pos ms m2 (i + 1) c hD.2.2 (fun x hx => hF x (by simp [hx])) (by rw [← hD.2.1]; exact hc)
    refine lt_of_lt_of_le (Nat.mul_pos hv hrest) ?_
    exact Finset.single_le_sum (f := fun c => OpRepr.val (mkC nc 1) (mkO no 1 i) (m.get r c) * chainVal (mkC nc 1) (mkO no 1) (i + 1) ms c)
      (fun _ _ => Nat.zero_le _) (Finset.mem_range.2 hc)
  termination_by ms => ms.length

/-- If labels outside the tables do not matter for the value of the chain, there are none. -/
theorem labels_good : ∀ (ms : List (SparMat OpRepr)) (m : SparMat OpRepr) (i : Nat), DimOK (m :: ms) → FullAll (m :: ms) →
    (∀ r, r < m.rows → chainVal (mkC nc 0) (mkO no 0) i (m :: ms) r = chainVal (mkC nc 1) (mkO no 1) i (m :: ms) r) →
    ∀ x ∈ m :: ms, ∀ a b, a < x.rows → b < x.cols → LabelsIn nc no (x.get a b)
  | ms, m, i, hD, hF, h => by
    have hM : MatOK m := by cases ms with | nil => exact hD.1 | cons _ _ => exact hD.1
    have term : ∀ r c, r < m.rows → c < m.cols →
        OpRepr.val (mkC nc 0) (mkO no 0 i) (m.get r c) * chainVal (mkC nc 0) (mkO no 0) (i + 1) ms c =
          OpRepr.val (mkC nc 1) (mkO no 1 i) (m.get r c) * chainVal (mkC nc 1) (mkO no 1) (i + 1) ms c := by
      intro r c hr hc
      have := (Finset.sum_eq_sum_iff_of_le (s := range m.cols)
        (f := fun c => OpRepr.val (mkC nc 0) (mkO no 0 i) (m.get r c) * chainVal (mkC nc 0) (mkO no 0) (i + 1) ms c)
        (g := fun c => OpRepr.val (mkC nc 1) (mkO no 1 i) (m.get r c) * chainVal (mkC nc 1) (mkO no 1) (i + 1) ms c)
        (fun c _ => Nat.mul_le_mul (val_le nc no i _) (chain_le nc no ms (i + 1) c))).1 (h r hr)
      exact this c (Finset.mem_range.2 hc)
    have pos : ∀ c, c < m.cols → 0 < chainVal (mkC nc 1) (mkO no 1) (i + 1) ms c := by
      intro c hc
      cases ms with
      | nil => exact Nat.one_pos
      | cons m2 ms => exact chain_pos nc no ms m2 (i + 1) c hD.2.2 (fun x hx => hF x (by simp [hx])) (by rw [← hD.2.1]; exact hc)
    intro x hx
    rcases List.mem_cons.1 hx with rfl | hx
    · intro a b ha hb
      refine val_good nc no i _ (hM.canon a b ha hb).2 ?_
      have e := term a b ha hb
      have p := pos b hb
      have l1 := val_le nc no i (x.get a b)
      have l2 := chain_le nc no ms (i + 1) b
      by_contra hne
      have hlt := lt_of_le_of_ne l1 hne
      have h1 := Nat.mul_le_mul_left (OpRepr.val (mkC nc 0) (mkO no 0 i) (x.get a b)) l2
      have h2 := Nat.mul_lt_mul_of_pos_right hlt p
      omega
    · cases ms with
      | nil => cases hx
      | cons m2 ms =>
        refine labels_good ms m2 (i + 1) hD.2.2 (fun x hx => hF x (by simp [hx])) ?_ x hx
        intro c hc
        have hc' : c < m.cols := by rw [hD.2.1]; exact hc
        obtain ⟨r, hr, hne⟩ := (hF m (by simp)).1 c hc'
        have hr : r < m.rows := hr
        have hne : m.get r c ≠ [] := hne
        have e := term r c hr hc'
        have p := val_pos nc no i _ (hM.canon r c hr hc').2 hne
        have l1 := val_le nc no i (m.get r c)
        have l2 := chain_le nc no (m2 :: ms) (i + 1) c
        by_contra hne
        have hlt := lt_of_le_of_ne l2 hne
        have h1 := Nat.mul_le_mul_right (chainVal (mkC nc 0) (mkO no 0) (i + 1) (m2 :: ms) c) l1
        have h2 := Nat.mul_lt_mul_of_pos_left hlt p
        omega
  termination_by ms => ms.length

end

theorem gchain_full {Q : Type} [AddCommGroup Q] {d : Label → Q} : ∀ {ms : List (SparMat OpRepr)} {q : Nat → Q}, GChain d q ms → FullAll ms
  | [], _, _ => by intro m hm; cases hm
  | m :: ms, q, ⟨f1, f2, q', _, h⟩ => by
    intro x hx
    rcases List.mem_cons.1 hx with rfl | hx
    · exact ⟨f1, f2⟩
    · exact gchain_full h x hx

section
variable {C T : Type} [DecidableEq C] [DecidableEq T] [G : GenTypes C T]

theorem GenInv.opK_in {ids : List T} {idO : Nat → OpRepr} {g : Generator C T} {calls : List (Call C T)} {ts : List Term}
    (h : GenInv ids idO g calls ts) {k : Nat} (hk : k < ts.length) {s : Nat} (hs : s < ids.length) :
    LabelsIn g.coefHub.length g.opHub.length (opK idO ts k s) := by
  have hlen := h.terms.length_eq
  have hkc : k < calls.length := by omega
  have h0 : 0 < g.coefHub.length := by
    by_contra hc
    have := h.c0
    rw [List.getElem?_eq_none (by omega)] at this
    cases this
  have hres := (List.forall₂_iff_get.1 h.terms).2 k hkc hk
  simp only [List.get_eq_getElem] at hres
  obtain ⟨cl, hcl, hr⟩ := hres.rep
  by_cases hin : s < ts[k].head ∨ ts[k].tail < s
  · obtain ⟨lb, e1, e2⟩ := h.hid s hs
    rw [opK_id hk hin, e2]
    intro kc hkc
    simp only [List.mem_singleton] at hkc
    subst hkc
    refine ⟨?_, ?_⟩
    · rw [List.getElem?_eq_getElem hs] at e1
      exact (List.getElem?_eq_some_iff.1 e1).1
    · intro l hl
      simp only [kIdCoef, List.mem_singleton] at hl
      rw [hl]; exact h0
  · rw [not_or, not_lt, not_lt] at hin
    obtain ⟨lb, x, _, hx, e⟩ := hr s hin.1 hin.2
    have : opK idO ts k s = [(lb, if s = ts[k].head then [cl] else [0])] := by
      unfold opK; rw [List.getElem?_eq_getElem hk]; simp only [opAt]
      rw [if_neg (by omega), List.getD_eq_getElem?_getD, e]; rfl
    rw [this]
    intro kc hkc
    simp only [List.mem_singleton] at hkc
    subst hkc
    refine ⟨(List.getElem?_eq_some_iff.1 hx).1, ?_⟩
    have hcl' := (List.getElem?_eq_some_iff.1 hcl).1
    intro l hl
    simp only at hl
    split at hl <;> simp only [List.mem_singleton] at hl <;> rw [hl]
    · exact hcl'
    · exact h0

theorem val_in {nc no : Nat} {s : Nat} : ∀ {op : OpRepr}, LabelsIn nc no op →
    OpRepr.val (mkC nc 0) (mkO no 0 s) op = OpRepr.val (mkC nc 1) (mkO no 1 s) op
  | [], _ => rfl
  | kc :: op, h => by
    obtain ⟨h1, h2⟩ := h kc (by simp)
    rw [val_cons, val_cons, val_in fun k hk => h k (by simp [hk])]
    have : CoefRepr.val (mkC nc 0) kc.2 = CoefRepr.val (mkC nc 1) kc.2 := by
      unfold CoefRepr.val
      congr 1
      refine List.map_congr_left fun l hl => ?_
      simp [mkC, h2 l hl]
    rw [this]
    simp [mkO, h1]

/-- The value of the uncompressed chain does not depend on labels outside the tables. -/
theorem raw_val {ids : List T} {calls : List (Call C T)} {g : Generator C T} {idO : Nat → OpRepr} {ts : List Term} (h : GenInv ids idO g (effective calls) ts)
    (hne : effective calls ≠ []) {raw : List (SparMat OpRepr)} (e1 : g.fsm.genMatRepr = .ok raw) : 0 < g.coefHub.length ∧
    chainVal (mkC g.coefHub.length 0) (mkO g.opHub.length 0) 0 raw 0 = chainVal (mkC g.coefHub.length 1) (mkO g.opHub.length 1) 0 raw 0 := by
  have h0 : 0 < g.coefHub.length := by
    by_contra hc
    have := h.c0
    rw [List.getElem?_eq_none (by omega)] at this
    cases this
  have hlen := h.terms.length_eq
  have hvt := fun t ht => (h.valid t ht).1
  have htl : 0 < ts.length := by rw [← hlen]; exact List.length_pos_of_ne_nil hne
  refine ⟨h0, ?_⟩
  obtain ⟨ms, f1, hm⟩ := genMatRepr_spec h.fsm hvt
  rw [e1] at f1
  cases f1
  have h00 : g.fsm.idx ts 0 0 = 0 := by
    have h1 := (idx_lt h.fsm hvt (Nat.zero_le _) htl).2
    rw [dim_start h.fsm hvt (List.ne_nil_of_length_pos htl)] at h1
    omega
  have sv := fun (cv : Label → ℕ) ov => state_val h.fsm hvt h.idShape cv ov hm ids.length 0 (by omega) 0 htl
  simp only [h00, matsFrom_zero] at sv
  rw [sv, sv, if_neg (by omega), if_neg (by omega)]
  refine Finset.sum_congr rfl fun k hk => ?_
  have : pathVal idO ts ids.length (mkC g.coefHub.length 0) (mkO g.opHub.length 0) k 0 =
      pathVal idO ts ids.length (mkC g.coefHub.length 1) (mkO g.opHub.length 1) k 0 := by
    unfold pathVal
    refine Finset.prod_congr rfl fun s hs => ?_
    exact val_in (h.opK_in (Finset.mem_range.1 hk) (Finset.mem_Ico.1 hs).2)
  rw [this]

/-- The labels in what `Gen` works with, compressed or not, are in the tables. -/
theorem gen_labels {Q : Type} [DecidableEq Q] [AddCommGroup Q] {ids : List T} {calls : List (Call C T)} (hv : ∀ c ∈ calls, c.Valid ids.length)
    {g : Generator C T} (hg : history ids calls = .ok g) (hne : effective calls ≠ []) (tdiv : T → Q)
    (hneg : ∀ t, tdiv (GenTypes.tneg C t) = tdiv t) (hid : ∀ t ∈ ids, tdiv t = 0) (hneu : ∀ c ∈ effective calls, (c.ops.map tdiv).sum = 0)
    (compress : Bool) {l : List (SiteTen Q)} (hl : g.gen tdiv 0 compress = .ok l) :
    ∀ t ∈ l, ∀ x y, x < t.mat.rows → y < t.mat.cols → LabelsIn g.coefHub.length g.opHub.length (t.mat.get x y) := by
  obtain ⟨idO, ts, h⟩ := history_gen hv hg
  obtain ⟨raw, comp, e1, e2, e3, e4, e5, e6, e7, e8, e9, e10⟩ := h.compressed hne
  obtain ⟨q, hq, hG⟩ := h.gchain (effective_valid hv) hne tdiv hneg hid hneu e1
  obtain ⟨h0, hraw⟩ := raw_val h hne e1
  have c1 : ∀ b, mkC g.coefHub.length b 0 = 1 := fun b => if_pos h0
  have main : ∀ ms : List (SparMat OpRepr), (if compress then g.fsm.genCompressed else g.fsm.genMatRepr) = .ok ms → DimOK ms →
      (∀ m, ms.head? = some m → m.rows = 1) → GChain (labDiv tdiv g.opHub) q ms →
      chainVal (mkC g.coefHub.length 0) (mkO g.opHub.length 0) 0 ms 0 = chainVal (mkC g.coefHub.length 1) (mkO g.opHub.length 1) 0 ms 0 →
      ∀ t ∈ l, ∀ x y, x < t.mat.rows → y < t.mat.cols → LabelsIn g.coefHub.length g.opHub.length (t.mat.get x y) := by
    intro ms hms hD hr hG hval
    cases ms with
    | nil =>
      unfold Generator.gen at hl
      rw [hms] at hl
      simp only [bind, Except.bind, genMats, Except.ok.injEq] at hl
      subst hl
      simp
    | cons m rest =>
      obtain ⟨l', l1, -, -, l4, -⟩ := genMats_spec hD (hr m rfl) hG hq
      have : g.gen tdiv 0 compress = .ok l' := by
        unfold Generator.gen
        simp only [hms, bind, Except.bind]
        exact l1
      rw [hl] at this
      cases this
      have good := labels_good g.coefHub.length g.opHub.length rest m 0 hD (gchain_full hG) (fun r hr' => by
        have : r = 0 := by have := hr m rfl; omega
        rw [this]; exact hval)
      intro t ht
      obtain ⟨k, hk, rfl⟩ := List.getElem_of_mem ht
      have hk' : k < (m :: rest).length := by rw [← l4.length_eq]; exact hk
      have sh := (List.forall₂_iff_get.1 l4).2 k hk hk'
      simp only [List.get_eq_getElem] at sh
      intro x y hx hy
      obtain ⟨x', y', hx', hy', e⟩ := sh.2.2 x y (by rw [← sh.1]; exact hx) (by rw [← sh.2.1]; exact hy)
      rw [e]
      exact good _ (List.getElem_mem hk') x' y' hx' hy'
  cases compress with
  | true => exact main comp e2 e5 e9 (e10 Q _ q hG) (by rw [e3 ℕ _ _ (c1 0), e3 ℕ _ _ (c1 1)]; exact hraw)
  | false => exact main raw e1 e4 e8 hG hraw

end
end Verif.Mpo
