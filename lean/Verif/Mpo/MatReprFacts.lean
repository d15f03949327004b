import Verif.Mpo.MatRepr
import Verif.Mpo.Dense
import Verif.Mps.DmrgNumRun
/- The matrices of operators made by `GenMatReprMPO` (helper facts, not property statements). -/
namespace Verif.Mpo
open SparMat NullElem Finset Verif.Mps

section
variable {K : Type} [CommRing K] {d : Nat} {cs : List K} {os : List (Op d K)} {m : SparMat OpRepr}

/-- **Specification**: a matrix of operators as the DMRG executor sees it. -/
def opMat (r : SparMat (Option (Op d K))) : OpMat (Fin d) K := ⟨r.rows, r.cols, fun a b => r.get a b⟩

/-- **Specification**: the matrix of site `j`. -/
def opMats (rs : List (SparMat (Option (Op d K)))) (j : Nat) : OpMat (Fin d) K := (rs[j]?).elim ⟨1, 1, fun _ _ => none⟩ opMat

/-- Exactly the entries in `S` have been written. -/
structure Set (cs : List K) (os : List (Op d K)) (m : SparMat OpRepr) (S : Nat → Nat → Prop) (r : SparMat (Option (Op d K))) : Prop where
  wf : WF r
  rows : r.rows = m.rows
  cols : r.cols = m.cols
  on : ∀ a b, b < m.cols → S a b → m.get a b ≠ [] → r.get a b = some fun i o => OpRepr.val (cOf cs) (oOf os i o) (m.get a b)
  off : ∀ a b, b < m.cols → ¬ (S a b ∧ m.get a b ≠ []) → r.get a b = none

theorem matReprElem_ok (hlab : ∀ x y, x < m.rows → y < m.cols → LabelsIn cs.length os.length (m.get x y)) {S : Nat → Nat → Prop} {r : SparMat (Option (Op d K))}
    (h : Set cs os m S r) {x y : Nat} (hx : x < m.rows) (hy : y < m.cols) :
    ∃ r', matReprElem cs os m r x y = .ok r' ∧ Set cs os m (fun a b => S a b ∨ (a = x ∧ b = y)) r' := by
  unfold matReprElem
  by_cases he : m.get x y = []
  · rw [if_pos he]
    refine ⟨r, rfl, h.wf, h.rows, h.cols, fun a b hb hs hn => h.on a b hb ?_ hn, fun a b hb hs => h.off a b hb fun hc => hs ⟨.inl hc.1, hc.2⟩⟩
    rcases hs with hs | ⟨rfl, rfl⟩
    · exact hs
    · exact absurd he hn
  · rw [if_neg he, op_realize cs os _ he (hlab x y hx hy)]
    obtain ⟨r', e1, e2, e3, e4, e5⟩ := setElem_spec h.wf (by rw [h.rows]; exact hx) (by rw [h.cols]; exact hy)
      (some fun i o => OpRepr.val (cOf cs) (oOf os i o) (m.get x y) : Option (Op d K))
    rw [h.cols] at e5
    refine ⟨r', e1, e2, by rw [e3, h.rows], by rw [e4, h.cols], fun a b hb hs hn => ?_, fun a b hb hs => ?_⟩
    · rw [e5 a b hb]
      by_cases hc : a = x ∧ b = y
      · obtain ⟨rfl, rfl⟩ := hc
        rw [if_pos ⟨rfl, rfl⟩]; rfl
      · rw [if_neg hc]; exact h.on a b hb (hs.resolve_right hc) hn
    · rw [e5 a b hb, if_neg fun hc => hs ⟨.inr hc, by rw [hc.1, hc.2]; exact he⟩]
      exact h.off a b hb fun hc => hs ⟨.inl hc.1, hc.2⟩

theorem matReprRow_ok (hlab : ∀ x y, x < m.rows → y < m.cols → LabelsIn cs.length os.length (m.get x y)) {x : Nat} (hx : x < m.rows) :
    ∀ (ys : List Nat) (r : SparMat (Option (Op d K))) (S : Nat → Nat → Prop), (∀ y ∈ ys, y < m.cols) → Set cs os m S r →
    ∃ r', ys.foldlM (fun r y => matReprElem cs os m r x y) r = .ok r' ∧ Set cs os m (fun a b => S a b ∨ (a = x ∧ b ∈ ys)) r' := by
  intro ys
  induction ys with
  | nil => intro r S _ h; exact ⟨r, rfl, by simpa using h⟩
  | cons y ys ih =>
    intro r S hy h
    obtain ⟨r1, e1, w1⟩ := matReprElem_ok hlab h hx (hy y (by simp))
    obtain ⟨r2, e2, w2⟩ := ih r1 _ (fun z hz => hy z (by simp [hz])) w1
    refine ⟨r2, by rw [List.foldlM_cons, e1]; exact e2, ?_⟩
    convert w2 using 3 with a b
    simp only [List.mem_cons, eq_iff_iff]; tauto

theorem matReprRows_ok (hlab : ∀ x y, x < m.rows → y < m.cols → LabelsIn cs.length os.length (m.get x y)) :
    ∀ (xs : List Nat) (r : SparMat (Option (Op d K))) (S : Nat → Nat → Prop), (∀ x ∈ xs, x < m.rows) → Set cs os m S r →
    ∃ r', xs.foldlM (fun r x => (List.range m.cols).foldlM (fun r y => matReprElem cs os m r x y) r) r = .ok r' ∧
      Set cs os m (fun a b => S a b ∨ (a ∈ xs ∧ b < m.cols)) r' := by
  intro xs
  induction xs with
  | nil => intro r S _ h; exact ⟨r, rfl, by simpa using h⟩
  | cons x xs ih =>
    intro r S hx h
    obtain ⟨r1, e1, w1⟩ := matReprRow_ok hlab (hx x (by simp)) (List.range m.cols) r S (by simp) h
    obtain ⟨r2, e2, w2⟩ := ih r1 _ (fun z hz => hx z (by simp [hz])) w1
    refine ⟨r2, by rw [List.foldlM_cons, e1]; exact e2, ?_⟩
    convert w2 using 3 with a b
    simp only [List.mem_cons, List.mem_range, eq_iff_iff]; tauto

/-- The matrix of operators holds the values of the entries that are not empty, and nothing else. -/
structure ReprOf (cs : List K) (os : List (Op d K)) (m : SparMat OpRepr) (r : SparMat (Option (Op d K))) : Prop where
  rows : r.rows = m.rows
  cols : r.cols = m.cols
  some : ∀ a b, a < m.rows → b < m.cols → m.get a b ≠ [] → r.get a b = Option.some fun i o => OpRepr.val (cOf cs) (oOf os i o) (m.get a b)
  none : ∀ a b, a < m.rows → b < m.cols → m.get a b = [] → r.get a b = Option.none

theorem matReprSite_ok (hlab : ∀ x y, x < m.rows → y < m.cols → LabelsIn cs.length os.length (m.get x y)) :
    ∃ r, matReprSite cs os m = .ok r ∧ ReprOf cs os m r := by
  obtain ⟨r, e, w⟩ := matReprRows_ok hlab (List.range m.rows) (SparMat.mk' m.rows m.cols) (fun _ _ => False) (by simp)
    ⟨wf_mk' _ _, rfl, rfl, fun _ _ _ h => h.elim, fun a b _ _ => get_mk' _ _ _ _⟩
  exact ⟨r, e, w.rows, w.cols, fun a b ha hb hn => w.on a b hb (.inr ⟨by simpa using ha, hb⟩) hn, fun a b ha hb hn => w.off a b hb fun h => h.2 hn⟩

theorem matReprAll_ok : ∀ {ms : List (SparMat OpRepr)}, (∀ m ∈ ms, ∀ x y, x < m.rows → y < m.cols → LabelsIn cs.length os.length (m.get x y)) →
    ∃ rs, ms.mapM (matReprSite cs os) = .ok rs ∧ List.Forall₂ (ReprOf cs os) ms rs
  | [], _ => ⟨[], rfl, .nil⟩
  | m :: ms, h => by
    obtain ⟨r, e, w⟩ := matReprSite_ok (h m (by simp))
    obtain ⟨rs, e', w'⟩ := matReprAll_ok (ms := ms) fun x hx => h x (by simp [hx])
    exact ⟨r :: rs, by rw [List.mapM_cons, e]; simp only [bind, Except.bind, e']; rfl, .cons w w'⟩

theorem ReprOf.ten {r : SparMat (Option (Op d K))} (h : ReprOf cs os m r) {a b : Nat} (ha : a < m.rows) (hb : b < m.cols) (i o : Fin d) :
    (opMat r).ten.v (o, i) a b = OpRepr.val (cOf cs) (oOf os i o) (m.get a b) := by
  show ((r.get a b).elim 0 fun op => op i o) = _
  by_cases hn : m.get a b = []
  · rw [h.none a b ha hb hn, hn]; rfl
  · rw [h.some a b ha hb hn]; rfl

theorem amp_repr (x y : Nat → Fin d) : ∀ {ms : List (SparMat OpRepr)} {rs : List (SparMat (Option (Op d K)))}, List.Forall₂ (ReprOf cs os) ms rs →
    ∀ (i r : Nat), DimOK ms → (∀ m, ms.head? = some m → r < m.rows) → (ms = [] → r = 0) →
    amp (rs.map fun r => (opMat r).ten) ((List.range' i ms.length).map fun j => (y j, x j)) r 0 = chainVal (cOf cs) (fun s => oOf os (x s) (y s)) i ms r
  | _, _, .nil, i, r, _, _, h0 => by
    rw [h0 rfl]
    simp [amp, chainVal]
  | m :: ms, t :: ts, .cons h hs, i, r, hd, hr, _ => by
    rw [List.length_cons, List.range'_succ, List.map_cons, List.map_cons, amp, chainVal]
    have hl : (opMat t).ten.r = m.cols := h.cols
    rw [hl]
    refine Finset.sum_congr rfl fun c hc => ?_
    have hc' := Finset.mem_range.1 hc
    have hd' : DimOK ms := by cases ms with | nil => trivial | cons _ _ => exact hd.2.2
    rw [amp_repr x y hs (i + 1) c hd' ?_ ?_]
    · congr 1
      exact h.ten (hr m rfl) hc' (x i) (y i)
    · intro m2 hm2
      cases ms with
      | nil => cases hm2
      | cons m3 ms => cases hm2; rw [← hd.2.1]; exact hc'
    · rintro rfl
      have : m.cols = 1 := hd.2
      omega

/-- What is needed of the compressed matrices. -/
structure CompOK (nc no : Nat) (ms : List (SparMat OpRepr)) : Prop where
  dim : DimOK ms
  head : ∀ m, ms.head? = some m → m.rows = 1
  full : FullAll ms
  lab : ∀ m ∈ ms, ∀ x y, x < m.rows → y < m.cols → LabelsIn nc no (m.get x y)

theorem opMats_list (rs : List (SparMat (Option (Op d K)))) : (List.range rs.length).map (fun i => (opMats rs i).ten) = rs.map fun r => (opMat r).ten := by
  refine List.ext_getElem (by simp) fun n h1 h2 => ?_
  have : n < rs.length := by simpa using h2
  simp [opMats, this]

theorem dimOK_fit : ∀ {ms : List (SparMat OpRepr)}, DimOK ms → ∀ i (hi : i < ms.length), (ms[i]).cols = ((ms[i + 1]?).elim 1 fun m => m.rows)
  | [m], h, i, hi => by
    have : i = 0 := by simpa using hi
    subst this
    exact h.2
  | m :: m2 :: ms, h, 0, _ => h.2.1
  | m :: m2 :: ms, h, i + 1, hi => by
    have := dimOK_fit h.2.2 i (by simpa using hi)
    simpa using this

theorem compOK_opMats {ms : List (SparMat OpRepr)} (h : CompOK cs.length os.length ms) (hne : ms ≠ []) {rs : List (SparMat (Option (Op d K)))}
    (hr : List.Forall₂ (ReprOf cs os) ms rs) : OpMatsOK ms.length (opMats rs) := by
  have hlen := hr.length_eq
  have at' : ∀ i (hi : i < ms.length), ∃ r, rs[i]? = some r ∧ ReprOf cs os ms[i] r ∧ opMats rs i = opMat r := fun i hi => by
    have h1 := (List.forall₂_iff_get.1 hr).2 i hi (by omega)
    have h2 : rs[i]? = some rs[i] := List.getElem?_eq_getElem (by omega)
    exact ⟨rs[i], h2, h1, by unfold opMats; rw [h2]; rfl⟩
  have rows : ∀ i (hi : i < ms.length), (opMats rs i).rows = (ms[i]).rows := fun i hi => by
    obtain ⟨r, -, a, b⟩ := at' i hi; rw [b]; exact a.rows
  have cols : ∀ i (hi : i < ms.length), (opMats rs i).cols = (ms[i]).cols := fun i hi => by
    obtain ⟨r, -, a, b⟩ := at' i hi; rw [b]; exact a.cols
  have beyond : ∀ i, ms.length ≤ i → opMats rs i = ⟨1, 1, fun _ _ => none⟩ := fun i hi => by
    unfold opMats; rw [List.getElem?_eq_none (by omega)]; rfl
  have full : ∀ i (hi : i < ms.length), Full .col ms[i] ∧ Full .row ms[i] := fun i hi => h.full _ (List.getElem_mem hi)
  have fit : ∀ i, (opMats rs i).cols = (opMats rs (i + 1)).rows := fun i => by
    by_cases hi : i < ms.length
    · rw [cols i hi, dimOK_fit h.dim i hi]
      by_cases hj : i + 1 < ms.length
      · rw [rows _ hj, List.getElem?_eq_getElem hj]; rfl
      · rw [beyond _ (by omega), List.getElem?_eq_none (by omega)]; rfl
    · rw [beyond _ (by omega), beyond _ (by omega)]
  have h0 : 0 < ms.length := List.length_pos_of_ne_nil hne
  have hd : (ms[0]).rows = 1 := h.head _ (by rw [List.head?_eq_getElem?, List.getElem?_eq_getElem h0])
  have pos : ∀ i, i < ms.length → 0 < (opMats rs i).rows ∧ 0 < (opMats rs i).cols := by
    intro i
    induction i with
    | zero =>
      intro hi
      obtain ⟨c, hc, -⟩ := (full 0 hi).2 0 (by show 0 < (ms[0]).rows; omega)
      rw [rows 0 hi, cols 0 hi]
      have hc : c < (ms[0]).cols := hc
      omega
    | succ i ih =>
      intro hi
      have hp : 0 < (ms[i + 1]).rows := by rw [← rows _ hi, ← fit]; exact (ih (by omega)).2
      obtain ⟨c, hc, -⟩ := (full _ hi).2 0 hp
      have hc : c < (ms[i + 1]).cols := hc
      rw [rows _ hi, cols _ hi]
      omega
  refine ⟨by rw [rows 0 h0, hd], by rw [beyond _ le_rfl], fit, fun i hi => (pos i hi).2, fun i hi a ha => ?_, fun i hi b hb => ?_⟩
  · rw [rows i hi] at ha
    obtain ⟨c, hc, hn⟩ := (full i hi).2 a ha
    have hc : c < (ms[i]).cols := hc
    have hn : (ms[i]).get a c ≠ [] := hn
    obtain ⟨r, -, w, e⟩ := at' i hi
    refine ⟨c, by rw [cols i hi]; exact hc, ?_⟩
    rw [e]
    show (r.get a c).isSome
    rw [w.some a c ha hc hn]; rfl
  · rw [cols i hi] at hb
    obtain ⟨a, ha, hn⟩ := (full i hi).1 b hb
    have ha : a < (ms[i]).rows := ha
    have hn : (ms[i]).get a b ≠ [] := hn
    obtain ⟨r, -, w, e⟩ := at' i hi
    refine ⟨a, by rw [rows i hi]; exact ha, ?_⟩
    rw [e]
    show (r.get a b).isSome
    rw [w.some a b ha hb hn]; rfl

end

section
variable {C T : Type} [DecidableEq C] [DecidableEq T] [G : GenTypes C T]

/-- The compressed matrices of any history: no charges are needed. -/
theorem comp_ok {ids : List T} {calls : List (Call C T)} (hv : ∀ c ∈ calls, c.Valid ids.length) {g : Generator C T} (hg : history ids calls = .ok g)
    (hne : effective calls ≠ []) : ∃ ms, g.fsm.genCompressed = .ok ms ∧ ms.length = ids.length ∧ ms ≠ [] ∧ CompOK g.coefHub.length g.opHub.length ms ∧
      ∀ {R : Type} [CommRing R] (v : Vals R C T), mpoVal v g ms = keptSum v ids [] (effective calls) := by
  obtain ⟨idO, ts, h⟩ := history_gen hv hg
  obtain ⟨raw, comp, e1, e2, e3, e4, e5, e6, e7, e8, e9, e10⟩ := h.compressed hne
  obtain ⟨q, hq, hG⟩ := h.gchain (Q := Int) (effective_valid hv) hne (fun _ => 0) (fun _ => rfl) (fun _ _ => rfl) (fun _ _ => by simp) e1
  obtain ⟨h0, hraw⟩ := raw_val h hne e1
  have c1 : ∀ b, mkC g.coefHub.length b 0 = 1 := fun b => if_pos h0
  have hF := gchain_full (e10 Int _ q hG)
  have hlen : comp.length = ids.length := by rw [e6.length_eq, e7]
  have hl0 : 0 < ids.length := by
    obtain ⟨c, hc⟩ := List.exists_mem_of_ne_nil _ hne
    have := effective_valid hv c hc
    obtain ⟨s, hs⟩ := List.exists_mem_of_ne_nil _ this.ne
    have := this.lt s hs
    omega
  refine ⟨comp, e2, hlen, List.ne_nil_of_length_pos (by omega), ⟨e5, e9, hF, ?_⟩, ?_⟩
  · cases comp with
    | nil => intro m hm; cases hm
    | cons m rest =>
      refine labels_good g.coefHub.length g.opHub.length rest m 0 e5 hF fun r hr => ?_
      have : r = 0 := by have := e9 m rfl; omega
      rw [this, e3 ℕ _ _ (c1 0), e3 ℕ _ _ (c1 1)]
      exact hraw
  · intro R _ v
    rw [mpoVal_eq, e3 R _ _ (coefVal_zero h v), ← mpoVal_eq]
    exact value_raw hv hg hne e1 v

end

section
variable {d : Nat} {K : Type} [Field K] [DecidableEq K] [GenTypes K (Op d K)]

/-- `GenMatReprMPO` succeeds with matrices without empty rows or columns that multiply to `f` between the configurations `x` and `y`. -/
def MatRep (g : Generator K (Op d K)) (N : Nat) (f : (Nat → Fin d) → (Nat → Fin d) → K) : Prop :=
  ∃ rs, g.genMatReprMpo = .ok rs ∧ rs.length = N ∧ OpMatsOK N (opMats rs) ∧
    ∀ x y : Nat → Fin d, amp ((List.range N).map fun i => (opMats rs i).ten) (List.ofFn fun i : Fin N => (y i, x i)) 0 0 = f x y

/-- From the calls to the matrices of operators. -/
theorem matRepr_ok (h : ExactTypes d K) {ids : List (Op d K)} {calls : List (Call K (Op d K))} (hv : ∀ c ∈ calls, c.Valid ids.length) {g : Generator K (Op d K)}
    (hg : history ids calls = .ok g) (hne : effective calls ≠ []) :
    MatRep g ids.length fun x y => keptSum (opVals h x y) ids [] (effective calls) := by
  obtain ⟨ms, e1, e2, e3, e4, e5⟩ := comp_ok hv hg hne
  obtain ⟨rs, f1, f2⟩ := matReprAll_ok e4.lab
  have hl : rs.length = ids.length := by rw [← f2.length_eq, e2]
  refine ⟨rs, ?_, hl, e2 ▸ compOK_opMats e4 e3 f2, fun x y => ?_⟩
  · unfold Generator.genMatReprMpo
    rw [e1]; exact f1
  · show _ = keptSum (opVals h x y) ids [] (effective calls)
    rw [conf_list ids.length fun i => (y i, x i), ← hl, opMats_list, ← f2.length_eq,
      amp_repr x y f2 0 0 e4.dim (fun m hm => by rw [e4.head m hm]; exact Nat.one_pos) (fun _ => rfl), ← e5, mpoVal_eq]
    congr 1
    funext l
    unfold cOf coefVal opVals
    cases g.coefHub[l]? <;> rfl

end
end Verif.Mpo
