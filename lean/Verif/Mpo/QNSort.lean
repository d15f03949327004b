import Verif.Mpo.GradeApi
/-
Column grouping by quantum number (`SortSparOpReprMatColsByQN_`) and the assembly loop of `Gen`.
-/
namespace Verif.Mpo
open SparMat NullElem Finset

section
variable {Q : Type}

/-- `perm` lists the columns group by group: the first `d` have charge `q`, and so on. -/
def Aligned (qf : Nat → Q) : List (Q × Nat) → List Nat → Prop
  | [], perm => perm = []
  | (q, d) :: ps, perm => 1 ≤ d ∧ d ≤ perm.length ∧ (∀ c ∈ perm.take d, qf c = q) ∧ Aligned qf ps (perm.drop d)

theorem aligned_sector {qf : Nat → Q} : ∀ {ps : List (Q × Nat)} {perm : List Nat}, Aligned qf ps perm →
    ∀ (k : Nat) (hk : k < perm.length), sectorOf ps k = .ok (qf perm[k])
  | [], perm, h, k, hk => by
    have : perm = [] := h
    subst this; simp at hk
  | (q, d) :: ps, perm, ⟨h1, h2, h3, h4⟩, k, hk => by
    unfold sectorOf
    split
    · rename_i hkd
      rw [h3 perm[k]]
      rw [List.mem_take_iff_getElem]
      exact ⟨k, by omega, rfl⟩
    · rw [aligned_sector h4 (k - d) (by simp; omega)]
      simp only [List.getElem_drop]
      congr 2
      have : d + (k - d) = k := by omega
      simp [this]

theorem aligned_dim {qf : Nat → Q} : ∀ {ps : List (Q × Nat)} {perm : List Nat}, Aligned qf ps perm →
    (ps.map (·.2)).sum = perm.length
  | [], perm, h => by
    have : perm = [] := h
    subst this; rfl
  | (q, d) :: ps, perm, ⟨h1, h2, h3, h4⟩ => by
    have := aligned_dim h4
    simp only [List.map_cons, List.sum_cons, this, List.length_drop]; omega

theorem aligned_pos {qf : Nat → Q} : ∀ {ps : List (Q × Nat)} {perm : List Nat}, Aligned qf ps perm →
    ∀ qd ∈ ps, 1 ≤ qd.2
  | [], _, _, _, h => by cases h
  | (q, d) :: ps, perm, ⟨h1, h2, h3, h4⟩, qd, h => by
    rcases List.mem_cons.1 h with rfl | h
    · exact h1
    · exact aligned_pos h4 qd h

variable [DecidableEq Q]

theorem insertCol_spec {qf : Nat → Q} {col : Nat} {q : Q} (hq : qf col = q) :
    ∀ (ps : List (Q × Nat)) (pre suf : List Nat), Aligned qf ps suf →
      ∃ ps' suf', insertCol q col pre.length ps (pre ++ suf) = (ps', pre ++ suf') ∧ Aligned qf ps' suf' ∧
        suf'.Perm (col :: suf) ∧ (ps'.map (·.1) = ps.map (·.1) ∨ (ps'.map (·.1) = ps.map (·.1) ++ [q] ∧ q ∉ ps.map (·.1)))
  | [], pre, suf, h => by
    have : suf = [] := h
    subst this
    refine ⟨[(q, 1)], [col], ?_, ?_, by simp, Or.inr (by simp)⟩
    · simp [insertCol]
    · exact ⟨Nat.le_refl _, by simp, by simpa using hq, by simp [Aligned]⟩
  | (q', d) :: ps, pre, suf, ⟨h1, h2, h3, h4⟩ => by
    unfold insertCol
    split
    · rename_i hqq
      refine ⟨(q', d + 1) :: ps, col :: suf, by simp, ⟨by omega, by simp; omega, ?_, by simpa using h4⟩, List.Perm.refl _, Or.inl rfl⟩
      intro c hc
      simp only [List.take_succ_cons, List.mem_cons] at hc
      rcases hc with rfl | hc
      · rw [hq, hqq]
      · exact h3 c hc
    · rename_i hqq
      have hlen : (pre ++ suf.take d).length = pre.length + d := by simp; omega
      obtain ⟨ps', suf', e1, e2, e3, e4⟩ := insertCol_spec hq ps (pre ++ suf.take d) (suf.drop d) h4
      rw [hlen, List.append_assoc, List.take_append_drop] at e1
      have htl : (suf.take d).length = d := by simp; omega
      refine ⟨(q', d) :: ps', suf.take d ++ suf', ?_, ⟨h1, ?_, ?_, ?_⟩, ?_, ?_⟩
      · simp only [e1, List.append_assoc]
      · simp; omega
      · intro c hc
        rw [List.take_append_of_le_length (by omega), List.take_of_length_le (by omega)] at hc
        exact h3 c hc
      · rw [List.drop_append_of_le_length (by omega), List.drop_of_length_le (by omega)]
        exact e2
      · have : (suf.take d ++ suf').Perm (suf.take d ++ (col :: suf.drop d)) := e3.append_left _
        refine this.trans ?_
        refine (List.perm_middle).trans ?_
        rw [List.take_append_drop]
      · rcases e4 with e4 | ⟨e4, e5⟩
        · left; simp [e4]
        · right; exact ⟨by simp [e4], by simp only [List.map_cons, List.mem_cons, not_or]; exact ⟨fun h => hqq h.symm, e5⟩⟩

variable [AddCommGroup Q]

theorem calcRvb_ok {d : Label → Q} {vb : List (Q × Nat)} {row : Nat} {elem : OpRepr} {q r : Q} (hne : elem ≠ [])
    (hs : sectorOf vb row = .ok q) (hl : ∀ l, HasLab elem l → d l = q - r) : calcRvbQN d vb row elem = .ok r := by
  cases elem with
  | nil => exact absurd rfl hne
  | cons kc e =>
    unfold calcRvbQN
    rw [hs]
    have := hl kc.1 ⟨kc, by simp, rfl⟩
    simp only [bind, Except.bind, pure, Except.pure, this]
    simp

theorem colQN_ok {d : Label → Q} {vb : List (Q × Nat)} {m : SparMat OpRepr} {q q' : Nat → Q}
    (hvb : ∀ x, x < m.rows → sectorOf vb x = .ok (q x)) (hg : Graded d .row m q q') {y : Nat} (hy : y < m.cols) :
    (∃ x, x < m.rows ∧ m.get x y ≠ []) → colQN d vb m y = .ok (some (q' y)) := by
  have loop : ∀ (l : List Nat) (acc : Option Q), (∀ x ∈ l, x < m.rows) → (acc = none ∨ acc = some (q' y)) →
      ((∃ x ∈ l, m.get x y ≠ []) ∨ acc = some (q' y)) →
      l.foldlM (fun acc row =>
        if (m.get row y).isEmpty then .ok acc
        else do
          let q ← calcRvbQN d vb row (m.get row y)
          match acc with
          | none => .ok (some q)
          | some q0 => if q = q0 then .ok acc else .error .assertFail) acc = (.ok (some (q' y)) : Except Err (Option Q)) := by
    intro l
    induction l with
    | nil =>
      intro acc _ _ h
      rcases h with ⟨x, hx, _⟩ | h
      · cases hx
      · rw [h]; rfl
    | cons x l ih =>
      intro acc hx hacc h
      rw [List.foldlM_cons]
      have hxr := hx x (by simp)
      have hx' : ∀ x ∈ l, x < m.rows := fun z hz => hx z (by simp [hz])
      by_cases hnull : m.get x y = []
      · rw [hnull]
        simp only [List.isEmpty_nil, if_true, bind, Except.bind]
        refine ih acc hx' hacc ?_
        rcases h with ⟨z, hz, hzn⟩ | h
        · rcases List.mem_cons.1 hz with rfl | hz
          · exact absurd hnull hzn
          · exact Or.inl ⟨z, hz, hzn⟩
        · exact Or.inr h
      · have hc : calcRvbQN d vb x (m.get x y) = .ok (q' y) :=
          calcRvb_ok hnull (hvb x hxr) (fun l hl => hg x y hxr hy l hl)
        have hemp : (m.get x y).isEmpty = false := by
          cases hh : m.get x y with
          | nil => exact absurd hh hnull
          | cons _ _ => rfl
        rw [hemp, hc]
        rcases hacc with rfl | rfl
        · simp only [Bool.false_eq_true, if_false, bind, Except.bind]
          exact ih _ hx' (Or.inr rfl) (Or.inr rfl)
        · simp only [Bool.false_eq_true, if_false, bind, Except.bind, if_true]
          exact ih _ hx' (Or.inr rfl) (Or.inr rfl)
  rintro ⟨x, hx, hn⟩
  exact loop _ none (by simp) (Or.inl rfl) (Or.inl ⟨x, by simpa using hx, hn⟩)

theorem sortCols_ok {d : Label → Q} {vb : List (Q × Nat)} {m : SparMat OpRepr} {q q' : Nat → Q} (hw : WF m)
    (hvb : ∀ x, x < m.rows → sectorOf vb x = .ok (q x)) (hg : Graded d .row m q q') (hf : Full .col m) :
    ∃ m' ps perm, sortColsByQN d vb m = .ok (m', ps, perm) ∧ perm.Perm (List.range m.cols) ∧ Aligned q' ps perm ∧
      (ps.map (·.1)).Nodup ∧ WF m' ∧ m'.rows = m.rows ∧ m'.cols = m.cols ∧
      ∀ x y, x < m.rows → y < m.cols → m'.get x y = m.get x (perm.getD y 0) := by
  have loop : ∀ n, n ≤ m.cols → ∃ ps perm, (List.range n).foldlM (sortStep d vb m) ([], []) = .ok (ps, perm) ∧ perm.Perm (List.range n) ∧ Aligned q' ps perm ∧ (ps.map (·.1)).Nodup := by
    intro n
    induction n with
    | zero => intro _; exact ⟨[], [], rfl, by simp, rfl, by simp⟩
    | succ n ih =>
      intro hn
      obtain ⟨ps, perm, e1, e2, e3, e4⟩ := ih (by omega)
      obtain ⟨ps', suf', i1, i2, i3, i4⟩ := insertCol_spec (qf := q') (col := n) rfl ps [] perm e3
      simp only [List.nil_append, List.length_nil] at i1
      refine ⟨ps', suf', ?_, ?_, i2, ?_⟩
      · rw [List.range_succ, List.foldlM_append, e1]
        have hcq := colQN_ok hvb hg (show n < m.cols by omega) (hf n (by simp only [lines]; omega))
        simp only [List.foldlM_cons, List.foldlM_nil, bind, Except.bind, pure, Except.pure, sortStep, hcq, i1]
      · rw [List.range_succ]
        exact i3.trans ((e2.cons n).trans (List.perm_append_singleton _ _).symm)
      · rcases i4 with i4 | ⟨i4, i5⟩
        · rw [i4]; exact e4
        · rw [i4]
          exact List.nodup_append.2 ⟨e4, by simp, fun a ha b hb => by
            simp at hb; subst hb; exact fun h => i5 (h ▸ ha)⟩
  obtain ⟨ps, perm, e1, e2, e3, e4⟩ := loop m.cols (Nat.le_refl _)
  obtain ⟨m', t1, t2, t3, t4, t5⟩ := transposeCols_spec hw e2
  refine ⟨m', ps, perm, ?_, e2, e3, e4, t2, t3, t4, t5⟩
  unfold sortColsByQN
  simp only [e1, t1, bind, Except.bind, pure, Except.pure]

end

theorem sum_range_list {M : Type} [AddCommMonoid M] (g : Nat → M) (n : Nat) :
    ∑ c ∈ range n, g c = ((List.range n).map g).sum := by
  induction n with
  | zero => rfl
  | succ n ih => rw [Finset.sum_range_succ, List.range_succ, List.map_append, List.sum_append, ih]; simp

theorem sum_perm {M : Type} [AddCommMonoid M] (g : Nat → M) {n : Nat} {perm : List Nat} (h : perm.Perm (List.range n)) :
    ∑ c ∈ range n, g (perm.getD c 0) = ∑ c ∈ range n, g c := by
  rw [sum_range_list, sum_range_list, ← (h.map g).sum_eq]
  congr 1
  have hl : perm.length = n := by simpa using h.length_eq
  refine List.ext_getElem (by simp [hl]) fun i h1 h2 => ?_
  simp at h1 h2
  simp [h2]

section
variable {Q : Type} [DecidableEq Q] [AddCommGroup Q]

/-- The bonds of the tensor are made of non-empty sectors of pairwise different charge covering the matrix, and
every operator in the entry `(x, y)` has divergence (left charge of `x`) − (right charge of `y`). -/
structure TenOK (d : Label → Q) (t : SiteTen Q) : Prop where
  ldim : (t.lvb.map (·.2)).sum = t.mat.rows
  rdim : (t.rvb.map (·.2)).sum = t.mat.cols
  lnd : (t.lvb.map (·.1)).Nodup
  rnd : (t.rvb.map (·.1)).Nodup
  lpos : ∀ qd ∈ t.lvb, 1 ≤ qd.2
  rpos : ∀ qd ∈ t.rvb, 1 ≤ qd.2
  div : ∀ x y, x < t.mat.rows → y < t.mat.cols → ∀ l, HasLab (t.mat.get x y) l →
    ∃ ql qr, sectorOf t.lvb x = .ok ql ∧ sectorOf t.rvb y = .ok qr ∧ d l = ql - qr

/-- Each tensor's left bond is the right bond of its predecessor; the last one ends in the trivial bond. -/
def Linked : List (Q × Nat) → List (SiteTen Q) → Prop
  | vb, [] => vb = [(0, 1)]
  | vb, t :: ts => t.lvb = vb ∧ Linked t.rvb ts

theorem graded_permRows {d : Label → Q} {m m' : SparMat OpRepr} {q q' : Nat → Q} {perm : List Nat}
    (hp : perm.Perm (List.range m.rows)) (hr : m'.rows = m.rows) (hc : m'.cols = m.cols)
    (h : ∀ x y, x < m.rows → y < m.cols → m'.get x y = m.get (perm.getD x 0) y) (hg : Graded d .row m q q')
    (hf : Full .col m) :
    Graded d .row m' (fun x => q (perm.getD x 0)) q' ∧ Full .col m' := by
  have hl : perm.length = m.rows := by simpa using hp.length_eq
  have hlt : ∀ x, x < m.rows → perm.getD x 0 < m.rows := by
    intro x hx
    have : perm.getD x 0 ∈ perm := by simp [hl ▸ hx]
    simpa using hp.mem_iff.1 this
  constructor
  · intro x y hx hy l hlab
    simp only [lines, cross, hr, hc] at hx hy
    have : HasLab (m'.get x y) l := hlab
    rw [h x y hx hy] at this
    exact hg _ y (hlt x hx) hy l this
  · intro y hy
    simp only [lines, hc] at hy
    obtain ⟨x, hx, hn⟩ := hf y hy
    simp only [cross] at hx
    obtain ⟨k, hk, e⟩ := List.getElem_of_mem (hp.mem_iff.2 (by simpa using hx) : x ∈ perm)
    refine ⟨k, by simp only [cross, hr]; omega, ?_⟩
    show m'.get k y ≠ []
    rw [h k y (by omega) hy]
    have : perm.getD k 0 = x := by simp [hk, e]
    rw [this]; exact hn

/-- The matrix of the tensor has the shape of `m` and its entries are entries of `m`. -/
def Shuffled (t : SiteTen Q) (m : SparMat OpRepr) : Prop :=
  t.mat.rows = m.rows ∧ t.mat.cols = m.cols ∧
    ∀ x y, x < m.rows → y < m.cols → ∃ x' y', x' < m.rows ∧ y' < m.cols ∧ t.mat.get x y = m.get x' y'

theorem genLoop_spec {d : Label → Q} : ∀ (rest : List (SparMat OpRepr)) (m : SparMat OpRepr) (q : Nat → Q) (perm : List Nat)
    (vb : List (Q × Nat)), DimOK (m :: rest) → GChain d q (m :: rest) → perm.Perm (List.range m.rows) → Aligned q vb perm →
    (vb.map (·.1)).Nodup →
    ∃ l, genLoop d perm vb (m :: rest) = .ok l ∧ l.length = rest.length + 1 ∧ (∀ t ∈ l, TenOK d t) ∧ Linked vb l ∧
      List.Forall₂ Shuffled l (m :: rest) ∧
      ∀ (R : Type) [CommSemiring R] (cv : Label → R) (ov : Nat → Label → R) (i : Nat), ∀ x, x < m.rows →
        chainVal cv ov i (l.map (·.mat)) x = chainVal cv ov i (m :: rest) (perm.getD x 0) := by
  intro rest
  induction rest with
  | nil =>
    intro m q perm vb hD hG hp hal hnd
    obtain ⟨hM, hc1⟩ := hD
    obtain ⟨f1, f2, q', hg, hz⟩ := hG
    have hz : q' 0 = 0 := hz
    have hl : perm.length = m.rows := by simpa using hp.length_eq
    obtain ⟨m', t1, t2, t3, t4, t5⟩ := transposeRows_spec hM.wf hp
    cases vb with
    | nil =>
      have : perm = [] := hal
      rw [this] at hl
      have := hM.rpos
      simp at hl; omega
    | cons q0 vb =>
      obtain ⟨q0, d0⟩ := q0
      refine ⟨[⟨m', (q0, d0) :: vb, [(q0 - q0, 1)]⟩], ?_, rfl, ?_, ?_, ?_, ?_⟩
      · unfold genLoop
        simp only [t1, bind, Except.bind, pure, Except.pure]
      · intro t ht
        simp only [List.mem_singleton] at ht
        subst ht
        refine ⟨?_, by simp [t4, hc1], hnd, by simp, aligned_pos hal, by simp, ?_⟩
        · simp only [t3]; rw [aligned_dim hal, hl]
        · intro x y hx hy l hlab
          obtain ⟨g', _⟩ := graded_permRows hp t3 t4 t5 hg f1
          have hx' : x < perm.length := by simp only at hx; omega
          have hy' : y = 0 := by simp only at hy; omega
          subst hy'
          refine ⟨q perm[x], 0, aligned_sector hal x hx', by simp [sectorOf], ?_⟩
          have := g' x 0 hx hy l hlab
          rw [this, hz]; simp [hx']
      · exact ⟨rfl, by simp [Linked]⟩
      · refine List.Forall₂.cons ⟨t3, t4, fun x y hx hy => ⟨_, y, ?_, hy, t5 x y hx hy⟩⟩ List.Forall₂.nil
        have : perm.getD x 0 ∈ perm := by simp [hl ▸ hx]
        simpa using hp.mem_iff.1 this
      · intro R _ cv ov i x hx
        simp only [List.map_cons, List.map_nil, chainVal]
        rw [t4]
        refine Finset.sum_congr rfl fun c hc => ?_
        rw [t5 x c hx (Finset.mem_range.1 hc)]
  | cons m2 rest ih =>
    intro m q perm vb hD hG hp hal hnd
    obtain ⟨hM, hcols, hD'⟩ := hD
    obtain ⟨f1, f2, q', hg, hG'⟩ := hG
    have hl : perm.length = m.rows := by simpa using hp.length_eq
    obtain ⟨m1, t1, t2, t3, t4, t5⟩ := transposeRows_spec hM.wf hp
    obtain ⟨g', f'⟩ := graded_permRows hp t3 t4 t5 hg f1
    obtain ⟨m', ps, perm2, s1, s2, s3, s4, s5, s6, s7, s8⟩ := sortCols_ok (vb := vb) t2
      (fun x hx => by rw [aligned_sector hal x (by omega)]; simp [show x < perm.length by omega]) g' f'
    rw [t4] at s2 
    have hl2 : perm2.length = m.cols := by simpa using s2.length_eq
    have hp2 : ∀ y, y < m.cols → perm2.getD y 0 < m.cols := by
      intro y hy
      have : perm2.getD y 0 ∈ perm2 := by simp [hl2 ▸ hy]
      simpa using s2.mem_iff.1 this
    obtain ⟨l, e1, e2, e3, e4, e5, e6⟩ := ih m2 q' perm2 ps hD' hG' (by rw [← hcols]; exact s2) s3 s4
    refine ⟨⟨m', vb, ps⟩ :: l, ?_, by simp [e2], ?_, ⟨rfl, e4⟩, ?_, ?_⟩
    · unfold genLoop
      simp only [t1, s1, e1, bind, Except.bind, pure, Except.pure]
    · intro t ht
      rcases List.mem_cons.1 ht with rfl | ht
      · refine ⟨?_, ?_, hnd, s4, aligned_pos hal, aligned_pos s3, ?_⟩
        · simp only [s6, t3]; rw [aligned_dim hal, hl]
        · simp only [s7, t4]; rw [aligned_dim s3, hl2]
        · intro x y hx hy l hlab
          simp only at hx hy hlab
          have hx' : x < perm.length := by omega
          have hy' : y < perm2.length := by omega
          refine ⟨q perm[x], q' perm2[y], aligned_sector hal x hx', aligned_sector s3 y hy', ?_⟩
          rw [s8 x y (by omega) (by omega)] at hlab
          have := g' x _ (by simp only [lines]; omega) (by simp only [cross]; have := hp2 y (by omega); omega) l hlab
          rw [this]; simp [hx', hy']
      · exact e3 t ht
    · refine List.Forall₂.cons ⟨s6.trans t3, s7.trans t4, fun x y hx hy => ⟨perm.getD x 0, perm2.getD y 0, ?_, hp2 y hy, ?_⟩⟩ e5
      · have : perm.getD x 0 ∈ perm := by simp [hl ▸ hx]
        simpa using hp.mem_iff.1 this
      · rw [s8 x y (by omega) (by omega), t5 x _ hx (hp2 y hy)]
    · intro R _ cv ov i x hx
      have key : ∀ (M : SparMat OpRepr) ms r, chainVal cv ov i (M :: ms) r =
          ∑ c ∈ range M.cols, OpRepr.val cv (ov i) (M.get r c) * chainVal cv ov (i + 1) ms c := fun _ _ _ => rfl
      rw [List.map_cons, key, key, s7, t4]
      rw [← sum_perm (fun c => OpRepr.val cv (ov i) (m.get (perm.getD x 0) c) * chainVal cv ov (i + 1) (m2 :: rest) c) s2]
      refine Finset.sum_congr rfl fun c hc => ?_
      have hc' := Finset.mem_range.1 hc
      rw [s8 x c (by omega) (by omega), t5 x _ hx (hp2 c hc'), e6 R cv ov (i + 1) c (by omega)]

/-- `Gen` on a graded chain from charge zero to charge zero. -/
theorem genMats_spec {d : Label → Q} {m : SparMat OpRepr} {rest : List (SparMat OpRepr)} {q : Nat → Q}
    (hD : DimOK (m :: rest)) (hr : m.rows = 1) (hG : GChain d q (m :: rest)) (hq : q 0 = 0) :
    ∃ l, genMats d 0 (m :: rest) = .ok l ∧ (∀ t ∈ l, TenOK d t) ∧ Linked [(0, 1)] l ∧
      List.Forall₂ Shuffled l (m :: rest) ∧
      ∀ (R : Type) [CommSemiring R] (cv : Label → R) (ov : Nat → Label → R) (i : Nat),
        chainVal cv ov i (l.map (·.mat)) 0 = chainVal cv ov i (m :: rest) 0 := by
  obtain ⟨f1, f2, q', hg, hG'⟩ := hG
  have hM : MatOK m := by cases rest with | nil => exact hD.1 | cons _ _ => exact hD.1
  obtain ⟨m', ps, perm, s1, s2, s3, s4, s5, s6, s7, s8⟩ := sortCols_ok (vb := [(0, 1)]) hM.wf
    (fun x hx => by
      have : x = 0 := by omega
      subst this; rw [hq]; simp [sectorOf]) hg f1
  have hl2 : perm.length = m.cols := by simpa using s2.length_eq
  have hp2 : ∀ y, y < m.cols → perm.getD y 0 < m.cols := by
    intro y hy
    have : perm.getD y 0 ∈ perm := by simp [hl2 ▸ hy]
    simpa using s2.mem_iff.1 this
  have hcp := hM.cpos
  cases ps with
  | nil => have : perm = [] := s3; rw [this] at hl2; simp at hl2; omega
  | cons p0 ps =>
    obtain ⟨q0, d0⟩ := p0
    have hten : TenOK d ⟨m', [(q0 - q0, 1)], (q0, d0) :: ps⟩ := by
      refine ⟨by simp [s6, hr], ?_, by simp, s4, by simp, aligned_pos s3, ?_⟩
      · simp only [s7]; rw [aligned_dim s3, hl2]
      · intro x y hx hy l hlab
        simp only at hx hy hlab
        have hx0 : x = 0 := by omega
        subst hx0
        have hy' : y < perm.length := by omega
        refine ⟨0, q' perm[y], by simp [sectorOf], aligned_sector s3 y hy', ?_⟩
        rw [s8 0 y (by omega) (by omega)] at hlab
        have := hg 0 _ (by simp only [lines]; omega) (by simp only [cross]; exact hp2 y (by omega)) l hlab
        rw [this, hq]; simp [hy']
    cases rest with
    | nil =>
      have hc1 : m.cols = 1 := hD.2
      have hz : q' 0 = 0 := hG'
      have hperm : perm = [0] := by
        have : perm.Perm [0] := by rw [hc1] at s2; exact s2
        exact List.perm_singleton.1 this
      have hps : (q0, d0) :: ps = [(0, 1)] := by
        obtain ⟨a1, a2, a3, a4⟩ := s3
        rw [hperm] at a2 a3 a4
        have hd1 : d0 = 1 := by simp at a2; omega
        subst hd1
        have e0 : q' 0 = q0 := a3 0 (by simp)
        have : ps = [] := by
          cases ps with
          | nil => rfl
          | cons p ps =>
            obtain ⟨b1, b2, _⟩ := a4
            simp at b2; omega
        rw [this, ← e0, hz]
      refine ⟨[⟨m', [(q0 - q0, 1)], (q0, d0) :: ps⟩], ?_, by simpa using hten, ?_, ?_, ?_⟩
      · unfold genMats
        simp only [s1, bind, Except.bind, pure, Except.pure, genLoop]
      · exact ⟨by simp, hps⟩
      · exact List.Forall₂.cons ⟨s6, s7, fun x y hx hy => ⟨x, _, hx, hp2 y hy, s8 x y hx hy⟩⟩ List.Forall₂.nil
      · intro R _ cv ov i
        simp only [List.map_cons, List.map_nil, chainVal]
        rw [s7, ← sum_perm (fun c => OpRepr.val cv (ov i) (m.get 0 c) * 1) s2]
        refine Finset.sum_congr rfl fun c hc => ?_
        rw [s8 0 c (by omega) (Finset.mem_range.1 hc)]
    | cons m2 rest =>
      obtain ⟨_, hcols, hD'⟩ := hD
      obtain ⟨l, e1, e2, e3, e4, e5, e6⟩ := genLoop_spec rest m2 q' perm ((q0, d0) :: ps) hD' hG' (by rw [← hcols]; exact s2) s3 s4
      refine ⟨⟨m', [(q0 - q0, 1)], (q0, d0) :: ps⟩ :: l, ?_, ?_, ⟨by simp, e4⟩, ?_, ?_⟩
      · unfold genMats
        simp only [s1, e1, bind, Except.bind, pure, Except.pure]
      · intro t ht
        rcases List.mem_cons.1 ht with rfl | ht
        · exact hten
        · exact e3 t ht
      · exact List.Forall₂.cons ⟨s6, s7, fun x y hx hy => ⟨x, _, hx, hp2 y hy, s8 x y hx hy⟩⟩ e5
      · intro R _ cv ov i
        have key : ∀ (M : SparMat OpRepr) ms r, chainVal cv ov i (M :: ms) r =
            ∑ c ∈ range M.cols, OpRepr.val cv (ov i) (M.get r c) * chainVal cv ov (i + 1) ms c := fun _ _ _ => rfl
        rw [List.map_cons, key, key, s7]
        rw [← sum_perm (fun c => OpRepr.val cv (ov i) (m.get 0 c) * chainVal cv ov (i + 1) (m2 :: rest) c) s2]
        refine Finset.sum_congr rfl fun c hc => ?_
        have hc' := Finset.mem_range.1 hc
        rw [s8 0 c (by omega) (by omega), e6 R cv ov (i + 1) c (by omega)]

end
end Verif.Mpo
