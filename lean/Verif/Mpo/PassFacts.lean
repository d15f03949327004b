import Verif.Mpo.GradeFacts
/- The two compression sweeps (helper facts, not property statements). -/
namespace Verif.Mpo
open SparMat NullElem Finset

/-- Well-formed, canonical and non-empty. -/
structure MatOK (m : SparMat OpRepr) : Prop where
  wf : WF m
  canon : CanonM m
  rpos : 0 < m.rows
  cpos : 0 < m.cols

/-- Consecutive bond dimensions agree and the last one is 1. -/
def DimOK : List (SparMat OpRepr) → Prop
  | [] => True
  | [m] => MatOK m ∧ m.cols = 1
  | m :: m' :: rest => MatOK m ∧ m.cols = m'.rows ∧ DimOK (m' :: rest)

section
variable {R : Type} [CommSemiring R]

/-- Value of the row `r` of the product of a list of operator matrices, the first one acting on site `i`. -/
def chainVal (cv : Label → R) (ov : Nat → Label → R) : Nat → List (SparMat OpRepr) → Nat → R
  | _, [], _ => 1
  | i, m :: ms, r => ∑ c ∈ range m.cols, OpRepr.val cv (ov i) (m.get r c) * chainVal cv ov (i + 1) ms c

theorem chainVal_two (cv : Label → R) (ov : Nat → Label → R) (i : Nat) (a b a' b' : SparMat OpRepr)
    (rest : List (SparMat OpRepr)) (r : Nat) (hb : b'.cols = b.cols)
    (h : ∀ z, z < b.cols → ∑ p ∈ range a.cols, OpRepr.val cv (ov i) (a.get r p) * OpRepr.val cv (ov (i + 1)) (b.get p z) =
      ∑ p ∈ range a'.cols, OpRepr.val cv (ov i) (a'.get r p) * OpRepr.val cv (ov (i + 1)) (b'.get p z)) :
    chainVal cv ov i (a :: b :: rest) r = chainVal cv ov i (a' :: b' :: rest) r := by
  have key : ∀ (x y : SparMat OpRepr), chainVal cv ov i (x :: y :: rest) r =
      ∑ z ∈ range y.cols, (∑ p ∈ range x.cols, OpRepr.val cv (ov i) (x.get r p) * OpRepr.val cv (ov (i + 1)) (y.get p z)) *
        chainVal cv ov (i + 2) rest z := by
    intro x y
    simp only [chainVal, Finset.mul_sum, Finset.sum_mul]
    rw [Finset.sum_comm]
    refine Finset.sum_congr rfl fun z _ => Finset.sum_congr rfl fun p _ => ?_
    ring
  rw [key, key, hb]
  refine Finset.sum_congr rfl fun z hz => ?_
  rw [h z (Finset.mem_range.1 hz)]

end

/-! ### Structure of raw FSM matrices -/

/-- Column property of partially compressed matrices: every column other than the final state's has a
single operator (up to null entries), with identity coefficient in the ready column. -/
def CP (A : SparMat OpRepr) (rdy fin : Option Nat) : Prop :=
  ∀ s, s < A.cols → some s ≠ fin → ∃ l c, c ≠ [] ∧ (some s = rdy → c = kIdCoef) ∧
    ∀ x, x < A.rows → A.get x s = [] ∨ A.get x s = [(l, c)]

/-- Structure of one FSM matrix between bonds with the given ready/final indices. -/
structure RawW (rdy fin rdy' fin' : Option Nat) (W : SparMat OpRepr) : Prop where
  ok : MatOK W
  dist : ∀ s, rdy' = some s → fin' ≠ some s
  R1 : ∀ s, s < W.cols → some s ≠ fin' → ∃ p0 l c, p0 < W.rows ∧ some p0 ≠ fin ∧ c ≠ [] ∧
    (some s = rdy' → some p0 = rdy ∧ c = kIdCoef) ∧ W.get p0 s = [(l, c)] ∧ ∀ p, p < W.rows → p ≠ p0 → W.get p s = []
  R2 : ∀ p, p < W.rows → some p ≠ rdy → ∀ s, s < W.cols → AllId (W.get p s)
  R3 : ∀ p, p < W.rows → some p = fin → ∃ f l, fin' = some f ∧ f < W.cols ∧ W.get p f = [(l, kIdCoef)] ∧
    ∀ s, s < W.cols → s ≠ f → W.get p s = []

/-- A chain of raw FSM matrices to the right of a bond of dimension `n`. -/
def RawChain : Option Nat → Option Nat → Nat → List (SparMat OpRepr) → Prop
  | _, _, n, [] => n = 1
  | rdy, fin, n, w :: rest => ∃ rdy' fin', w.rows = n ∧ RawW rdy fin rdy' fin' w ∧ RawChain rdy' fin' w.cols rest

/-- Row `j` has one entry, an operator with identity coefficient, at the final index. -/
def PureRow (A : SparMat OpRepr) (fin : Option Nat) (j : Nat) : Prop :=
  ∃ f l, fin = some f ∧ f < A.cols ∧ A.get j f = [(l, kIdCoef)] ∧ ∀ s, s < A.cols → s ≠ f → A.get j s = []

/-- Row `j` starts a path of single identity-coefficient entries to the right end. -/
def MarkedIn : List (SparMat OpRepr) → Nat → Prop
  | [], _ => True
  | m :: rest, j => ∃ f l, f < m.cols ∧ m.get j f = [(l, kIdCoef)] ∧ (∀ s, s < m.cols → s ≠ f → m.get j s = []) ∧
      MarkedIn rest f

/-- At every bond of dimension other than 1, each index has an all-identity column on the left or a marked row
on the right. -/
def Good : List (SparMat OpRepr) → Prop
  | [] => True
  | [_] => True
  | a :: b :: rest => (a.cols = 1 ∨ ∀ j, j < a.cols → LineId .col a j ∨ MarkedIn (b :: rest) j) ∧ Good (b :: rest)

theorem RawW.cp {rdy fin rdy' fin' : Option Nat} {W : SparMat OpRepr} (h : RawW rdy fin rdy' fin' W) :
    CP W rdy' fin' := by
  intro s hs hne
  obtain ⟨p0, l, c, hp0, _, hc, hr, he, hu⟩ := h.R1 s hs hne
  refine ⟨l, c, hc, fun h => (hr h).2, fun x hx => ?_⟩
  by_cases hxp : x = p0
  · right; rw [hxp, he]
  · left; exact hu x hx hxp

/-- After extraction a CP column is all-identity. -/
theorem cp_base {A : SparMat OpRepr} (hA : WF A) {rdy fin : Option Nat} (hcp : CP A rdy fin) {s : Nat}
    (hs : s < A.cols) (hne : some s ≠ fin) : ∀ x, x < A.rows → AllId (baseL .col A s x) := by
  obtain ⟨l, c, hc, _, hx⟩ := hcp s hs hne
  intro x hxr
  by_cases hE : ext .col A s
  · exact baseL_id_of_ext hA (ax := .col) hxr hE
  · unfold baseL
    rw [if_neg hE]
    by_cases hnull : atL .col A s x = []
    · rw [hnull]; simp
    · have hconst : tryCatchCoef .col A s = c := by
        refine tryCatch_const hA (ax := .col) (c := c) ?_ hxr hnull
        intro y hy hny
        rcases hx y hy with h | h
        · exact absurd h hny
        · show opCoef (A.get y s) = c
          rw [h]; rfl
      have hcid : c = kIdCoef := by
        unfold ext at hE
        rw [hconst] at hE
        by_contra hcc
        exact hE ⟨hc, hcc⟩
      rcases hx x hxr with h | h
      · exact absurd h hnull
      · show AllId (A.get x s)
        rw [h, hcid]; intro kc hkc; simp at hkc; rw [hkc]

theorem cp_ready {A : SparMat OpRepr} {rdy fin : Option Nat} (hcp : CP A rdy fin)
    (hdist : ∀ s, rdy = some s → fin ≠ some s) {s : Nat}
    (hs : s < A.cols) (hr : some s = rdy) : LineId .col A s := by
  obtain ⟨l, c, hc, hid, hx⟩ := hcp s hs (fun h => hdist s hr.symm h.symm)
  intro x hxr
  rcases hx x hxr with h | h
  · show AllId (A.get x s); rw [h]; simp
  · show AllId (A.get x s)
    rw [h, hid hr]; intro kc hkc; simp at hkc; rw [hkc]

theorem bond_of_cp {A W : SparMat OpRepr} {rdy fin rdy' fin' : Option Nat} (hcp : CP A rdy fin)
    (hdist : ∀ s, rdy = some s → fin ≠ some s) (hW : RawW rdy fin rdy' fin' W) (hl : A.cols = W.rows) :
    BondCond .col A W := by
  intro p hp
  by_cases hr : some p = rdy
  · left; exact cp_ready hcp hdist hp hr
  · right
    intro z hz
    exact hW.R2 p (by rw [← hl]; exact hp) hr z hz

theorem incompleteMulti_single {d : CoefRepr} {l : Label} {c : CoefRepr} {r : OpRepr} (hd : d ≠ []) (hc : c ≠ [])
    (h : incompleteMulti d [(l, c)] = .ok r) : ∃ c', c' ≠ [] ∧ r = [(l, c')] := by
  unfold incompleteMulti at h
  split at h
  · simp_all
  · split at h
    · cases h; exact ⟨c, hc, rfl⟩
    · split at h
      · cases h; exact ⟨d, hd, rfl⟩
      · cases h

section
variable {R : Type} [CommSemiring R] {cv ov ov' : Label → R}

/-- The next matrix keeps the column property. -/
theorem cp_step {A W A' B : SparMat OpRepr} {T F2} {rdy fin rdy' fin' : Option Nat} (hA : WF A) (hcp : CP A rdy fin)
    (hdist : ∀ s, rdy = some s → fin ≠ some s) (hW : RawW rdy fin rdy' fin' W) (hl : A.cols = W.rows)
    (C : CompRes cv ov ov' .col A W A' B T F2) : CP B rdy' fin' := by
  intro s hs hne
  have hcr : B.cols = W.cols := C.crF
  have hsW : s < W.cols := by omega
  obtain ⟨p0, l, c, hp0, hp0f, hc, hr, he, hu⟩ := hW.R1 s hsW hne
  have hp0A : p0 < A.cols := by omega
  have hmul := C.mul p0 s hp0A hsW
  have he' : atL Axis.col.other W p0 s = [(l, c)] := he
  rw [he'] at hmul
  obtain ⟨c', hc', hF2⟩ := incompleteMulti_single (diagC_ne _ _ _) hc hmul
  refine ⟨l, c', hc', ?_, ?_⟩
  · intro hrd
    obtain ⟨h1, h2⟩ := hr hrd
    have hdi : diagC .col A p0 = kIdCoef := by
      by_contra hcon
      exact ext_of_lineId hA (cp_ready hcp hdist hp0A h1) ((ext_iff _ _ _).2 hcon)
    rw [hdi, incompleteMulti_id, hF2] at hmul
    simp only [Except.ok.injEq, List.cons.injEq, Prod.mk.injEq, true_and, and_true] at hmul
    rw [← hmul, h2]
  · intro x hx
    have hxl : x < lines .col A' := by rw [← C.ln]; exact hx
    by_cases hT : T p0 x = []
    · left
      refine (C.nul2 x s hxl hsW).2 (fun p hp => ?_)
      by_cases hpp : p = p0
      · left; rw [hpp, hT]
      · right; exact hu p (by rw [← hl]; exact hp) hpp
    · right
      have hid := (C.id1 p0 x hp0A hxl (cp_base hA hcp hp0A hp0f) hT).1
      have := C.one x s hxl hsW p0 hp0A (fun p hp hpp => Or.inr (hu p (by rw [← hl]; exact hp) hpp)) hT
      rw [hid, incompleteMulti_id, hF2] at this
      simp only [Except.ok.injEq] at this
      exact this.symm

/-- A kept column of the target is all-identity, or the corresponding row of the new follower is pure. -/
theorem good_step {A W A' B : SparMat OpRepr} {T F2} {rdy fin rdy' fin' : Option Nat} (hA : WF A) (hcp : CP A rdy fin)
    (hW : RawW rdy fin rdy' fin' W) (hl : A.cols = W.rows)
    (C : CompRes cv ov ov' .col A W A' B T F2) {j : Nat} (hj : j < A'.cols) :
    LineId .col A' j ∨ PureRow B fin' j := by
  have hcr : B.cols = W.cols := C.crF
  by_cases hL : LineId .col A' j
  · exact Or.inl hL
  right
  obtain ⟨p, hp, h1, h2⟩ := C.kept j hj
  have hnb : ¬ ∀ x, x < A.rows → AllId (baseL .col A p x) := by
    intro h
    apply hL
    intro x hx
    rw [C.crA] at hx
    rw [h1 x hx]; exact h x hx
  have hpf : some p = fin := by
    by_contra hpf
    exact hnb (cp_base hA hcp hp hpf)
  have hdi : diagC .col A p = kIdCoef := by
    by_contra hcon
    exact hnb (fun x hx => baseL_id_of_ext hA (ax := .col) hx ((ext_iff _ _ _).2 hcon))
  have hTp : T p j = kIdCoef := by rw [h2 j hj, if_pos rfl]
  have hrow : ∀ z, z < W.cols → B.get j z = W.get p z := by
    intro z hz
    have hone := C.one j z hj hz p hp (fun q hq hqp => by
      left
      by_contra hT
      have hqf : some q ≠ fin := by rw [← hpf]; intro h; exact hqp (Option.some.inj h)
      exact hL (C.id1 q j hq hj (cp_base hA hcp hq hqf) hT).2) (by rw [hTp]; simp)
    have hmul := C.mul p z hp hz
    rw [hdi, incompleteMulti_id] at hmul
    rw [hTp, incompleteMulti_id] at hone
    simp only [Except.ok.injEq] at hmul hone
    have : atL Axis.col.other B j z = atL Axis.col.other W p z := by rw [← hone, ← hmul]
    exact this
  obtain ⟨f, l, hf, hfl, hfe, hfu⟩ := hW.R3 p (by rw [← hl]; exact hp) hpf
  exact ⟨f, l, hf, by omega, by rw [hrow f hfl]; exact hfe, fun s hs hne => by
    rw [hrow s (by omega)]; exact hfu s (by omega) hne⟩

/-- A pure row of the target keeps a single entry, and the follower row it points to is pure. -/
theorem pure_step {A W A' B : SparMat OpRepr} {T F2} {rdy fin rdy' fin' : Option Nat} (hA : WF A)
    (hW : RawW rdy fin rdy' fin' W) (hl : A.cols = W.rows)
    (C : CompRes cv ov ov' .col A W A' B T F2) {j : Nat} (hj : j < A.rows) (hP : PureRow A fin j) :
    ∃ f l, f < A'.cols ∧ A'.get j f = [(l, kIdCoef)] ∧ (∀ s, s < A'.cols → s ≠ f → A'.get j s = []) ∧
      PureRow B fin' f := by
  have hcr : B.cols = W.cols := C.crF
  obtain ⟨f, l, hf, hfl, hfe, hfu⟩ := hP
  -- kept columns that are non-null in row j come from f
  have hk : ∀ k, k < A'.cols → A'.get j k ≠ [] → (∀ x, x < A.rows → atL .col A' k x = baseL .col A f x) ∧
      ∀ j', j' < A'.cols → T f j' = if j' = k then kIdCoef else [] := by
    intro k hk hne
    obtain ⟨p, hp, h1, h2⟩ := C.kept k hk
    have hpf : p = f := by
      by_contra hpf
      apply hne
      have h3 : atL .col A' k j = [] := by
        rw [h1 j hj, baseL_nil]; exact hfu p hp hpf
      exact h3
    subst hpf
    exact ⟨h1, h2⟩
  have hnn : ¬ atL .col A f j = [] := by
    show ¬ A.get j f = []
    rw [hfe]; simp
  have hex : ∃ k, k < A'.cols ∧ T f k ≠ [] ∧ A'.get j k ≠ [] := by
    by_contra hcon
    apply hnn
    refine (C.nul1 f j hfl hj).2 (fun k hk => ?_)
    by_contra hh
    rw [not_or] at hh
    exact hcon ⟨k, hk, hh.1, hh.2⟩
  obtain ⟨k, hkl, hTk, hAk⟩ := hex
  obtain ⟨g1, g2⟩ := hk k hkl hAk
  have hdi : diagC .col A f = kIdCoef := by
    by_contra hcon
    have hE := (ext_iff .col A f).2 hcon
    have := tryCatch_ext hA hE.2 (ax := .col) (i := f) (x := j) hj hnn
    have h4 : opCoef (atL .col A f j) = kIdCoef := by
      show opCoef (A.get j f) = kIdCoef
      rw [hfe]; rfl
    rw [h4] at this
    exact hE.2 (coefEqv_id_iff.1 (coefEqv_symm this))
  have hbase : baseL .col A f j = [(l, kIdCoef)] := by
    unfold baseL
    rw [if_neg (fun hE => (ext_iff .col A f).1 hE hdi)]
    exact hfe
  refine ⟨k, l, hkl, ?_, ?_, ?_⟩
  · have := g1 j hj
    rw [hbase] at this
    exact this
  · intro s hs hsk
    by_contra hne
    have := (hk s hs hne).2 s hs
    rw [g2 s hs, if_neg hsk, if_pos rfl] at this
    simp at this
  · have hTf : T f k = kIdCoef := by rw [g2 k hkl, if_pos rfl]
    have hrow : ∀ z, z < W.cols → B.get k z = W.get f z := by
      intro z hz
      have hone := C.one k z hkl hz f hfl (fun q hq hqp => by
        left
        have h5 : atL .col A q j = [] := hfu q hq hqp
        rcases (C.nul1 q j hq hj).1 h5 k hkl with h | h
        · exact h
        · exact absurd h hAk) (by rw [hTf]; simp)
      have hmul := C.mul f z hfl hz
      rw [hdi, incompleteMulti_id] at hmul
      rw [hTf, incompleteMulti_id] at hone
      simp only [Except.ok.injEq] at hmul hone
      have : atL Axis.col.other B k z = atL Axis.col.other W f z := by rw [← hone, ← hmul]
      exact this
    obtain ⟨f', l', hf', hfl', hfe', hfu'⟩ := hW.R3 f (by rw [← hl]; exact hfl) hf.symm
    exact ⟨f', l', hf', by omega, by rw [hrow f' hfl']; exact hfe', fun s hs hne => by
      rw [hrow s (by omega)]; exact hfu' s (by omega) hne⟩

end

/-- Pointwise dimension bound. -/
def DimLe (m' m : SparMat OpRepr) : Prop := m'.rows ≤ m.rows ∧ m'.cols ≤ m.cols

section
variable {R : Type} [CommSemiring R] (cv : Label → R) (ov : Nat → Label → R)

theorem colPass_spec (h0 : cv 0 = 1) : ∀ (rest : List (SparMat OpRepr)) (i : Nat) (A : SparMat OpRepr) (rdy fin : Option Nat),
    MatOK A → CP A rdy fin → (∀ s, rdy = some s → fin ≠ some s) → RawChain rdy fin A.cols rest →
    ∃ A' L, colPass A rest = .ok (A' :: L) ∧ A'.rows = A.rows ∧ DimOK (A' :: L) ∧ Good (A' :: L) ∧
      (∀ j, j < A.rows → PureRow A fin j → MarkedIn (A' :: L) j) ∧
      (∀ r, r < A.rows → chainVal cv ov i (A' :: L) r = chainVal cv ov i (A :: rest) r) ∧
      List.Forall₂ DimLe (A' :: L) (A :: rest) ∧
      (∀ (Q : Type) [AddCommGroup Q] (d : Label → Q) (q : Nat → Q), GChain d q (A :: rest) → GChain d q (A' :: L)) := by
  intro rest
  induction rest with
  | nil =>
    intro i A rdy fin hA hcp hd hr
    have h1 : A.cols = 1 := hr
    refine ⟨A, [], rfl, rfl, ⟨hA, h1⟩, trivial, ?_, fun _ _ => rfl, ?_, fun _ _ _ _ h => h⟩
    · rintro j hj ⟨f, l, _, hf, he, hu⟩
      exact ⟨f, l, hf, he, hu, trivial⟩
    · exact List.Forall₂.cons ⟨Nat.le_refl _, Nat.le_refl _⟩ List.Forall₂.nil
  | cons W rest ih =>
    intro i A rdy fin hA hcp hd hr
    obtain ⟨rdy', fin', hrows, hW, hrest⟩ := hr
    by_cases h1 : A.cols = 1
    · obtain ⟨W', L, e1, e2, e3, e4, e5, e6, e7, e8⟩ := ih (i + 1) W rdy' fin' hW.ok hW.cp hW.dist hrest
      refine ⟨A, W' :: L, ?_, rfl, ⟨hA, by omega, e3⟩, ⟨Or.inl h1, e4⟩, ?_, ?_, ?_, ?_⟩
      · have : compress .col A W = .ok (A, W) := by
          unfold compress
          rw [if_neg (by simp [lines, Axis.other]; omega), if_pos (by simpa [lines] using h1)]
        unfold colPass
        simp only [this, e1, bind, Except.bind, pure, Except.pure]
      · rintro j hj ⟨f, l, hf, hfl, he, hu⟩
        refine ⟨f, l, hfl, he, hu, ?_⟩
        exact e5 f (by omega) (hW.R3 f (by omega) hf.symm)
      · intro r hr
        simp only [chainVal]
        refine Finset.sum_congr rfl fun c hc => ?_
        have hc' := Finset.mem_range.1 hc
        congr 1
        exact e6 c (by omega)
      · exact List.Forall₂.cons ⟨Nat.le_refl _, Nat.le_refl _⟩ e7
      · rintro Q _ d q ⟨f1, f2, q', g, h⟩
        exact ⟨f1, f2, q', g, e8 Q d q' h⟩
    · have h2 : 2 ≤ lines .col A := by have := hA.cpos; simp only [lines]; omega
      obtain ⟨A', B, T, F2, hc, C⟩ := compress_spec cv (ov i) (ov (i + 1)) (ax := .col) h0 hA.wf hW.ok.wf hA.canon
        hW.ok.canon (by simp only [lines, Axis.other]; omega) h2 hA.rpos (bond_of_cp hcp hd hW hrows.symm)
      obtain ⟨A₁, B₁, T₁, G₁, hc₁, C₁⟩ := compress_spec cntC cntO cntO (ax := .col) rfl hA.wf hW.ok.wf hA.canon
        hW.ok.canon (by simp only [lines, Axis.other]; omega) h2 hA.rpos (bond_of_cp hcp hd hW hrows.symm)
      rw [hc] at hc₁
      simp only [Except.ok.injEq, Prod.mk.injEq] at hc₁
      obtain ⟨rfl, rfl⟩ := hc₁
      have hAr : A'.rows = A.rows := C.crA
      have hBr : B.rows = A'.cols := C.ln
      have hBc : B.cols = W.cols := C.crF
      have hApos : 0 < A'.cols := C.pos
      have hAle : A'.cols ≤ A.cols := C.le
      have hBok : MatOK B := ⟨C.wF, C.cF, by omega, by have := hW.ok.cpos; omega⟩
      have hAok : MatOK A' := ⟨C.wA, C.cA, by have := hA.rpos; omega, by omega⟩
      obtain ⟨B', L, e1, e2, e3, e4, e5, e6, e7, e8⟩ := ih (i + 1) B rdy' fin' hBok
        (cp_step hA.wf hcp hd hW hrows.symm C) hW.dist (by rw [hBc]; exact hrest)
      refine ⟨A', B' :: L, ?_, hAr, ⟨hAok, by omega, e3⟩, ⟨Or.inr ?_, e4⟩, ?_, ?_, ?_, ?_⟩
      · unfold colPass
        simp only [hc, e1, bind, Except.bind, pure, Except.pure]
      · intro j hj
        rcases good_step hA.wf hcp hW hrows.symm C hj with h | h
        · exact Or.inl h
        · exact Or.inr (e5 j (by omega) h)
      · intro j hj hP
        obtain ⟨f, l, hfl, he, hu, hB⟩ := pure_step hA.wf hW hrows.symm C hj hP
        exact ⟨f, l, hfl, he, hu, e5 f (by omega) hB⟩
      · intro r hr
        have hstep : chainVal cv ov i (A :: W :: rest) r = chainVal cv ov i (A' :: B :: rest) r := by
          refine chainVal_two cv ov i A W A' B rest r hBc (fun z hz => ?_)
          exact C.value cv (ov i) (ov (i + 1)) hA.wf h0 (x := r) (z := z) hr hz
        rw [hstep]
        have key : ∀ M ms, chainVal cv ov i (M :: ms) r =
          ∑ c ∈ range M.cols, OpRepr.val cv (ov i) (M.get r c) * chainVal cv ov (i + 1) ms c := fun _ _ => rfl
        rw [key, key]
        refine Finset.sum_congr rfl fun c hc => ?_
        have hc' := Finset.mem_range.1 hc
        congr 1
        exact e6 c (by omega)
      · refine List.Forall₂.cons ⟨by omega, hAle⟩ ?_
        cases e7 with
        | cons h t => exact List.Forall₂.cons ⟨Nat.le_trans h.1 (by omega), Nat.le_trans h.2 (by omega)⟩ t
      · intro Q _ d q h
        obtain ⟨f1, f2, q', g, h⟩ := gchain_col C₁ hA.canon hW.ok.canon hrows h
        exact ⟨f1, f2, q', g, e8 Q d q' h⟩

theorem markedIn_row {m : SparMat OpRepr} {rest : List (SparMat OpRepr)} {j : Nat} (h : MarkedIn (m :: rest) j) :
    LineId .row m j := by
  obtain ⟨f, l, hf, he, hu, _⟩ := h
  intro x hx
  show AllId (m.get j x)
  by_cases hxf : x = f
  · rw [hxf, he]; intro kc hkc; simp at hkc; rw [hkc]
  · rw [hu x hx hxf]; simp

theorem rowPass_spec (h0 : cv 0 = 1) : ∀ (rest : List (SparMat OpRepr)) (i : Nat) (a : SparMat OpRepr),
    DimOK (a :: rest) → Good (a :: rest) →
    ∃ a' L, rowPass (a :: rest) = .ok (a' :: L) ∧ a'.rows = a.rows ∧ DimOK (a' :: L) ∧
      (∀ j, j < a.rows → MarkedIn (a :: rest) j → LineId .row a' j) ∧
      (∀ r, r < a.rows → chainVal cv ov i (a' :: L) r = chainVal cv ov i (a :: rest) r) ∧
      List.Forall₂ DimLe (a' :: L) (a :: rest) ∧
      (∀ (Q : Type) [AddCommGroup Q] (d : Label → Q) (q : Nat → Q), GChain d q (a :: rest) → GChain d q (a' :: L)) := by
  intro rest
  induction rest with
  | nil =>
    intro i a hD _
    exact ⟨a, [], rfl, rfl, hD, fun j _ h => markedIn_row h, fun _ _ => rfl,
      List.Forall₂.cons ⟨Nat.le_refl _, Nat.le_refl _⟩ List.Forall₂.nil, fun _ _ _ _ h => h⟩
  | cons b rest ih =>
    intro i a hD hG
    obtain ⟨hA, hdim, hD'⟩ := hD
    obtain ⟨hbond, hG'⟩ := hG
    obtain ⟨b', L, e1, e2, e3, e4, e5, e6, e7⟩ := ih (i + 1) b hD' hG'
    have hgr : ∀ (Q : Type) [AddCommGroup Q] (d : Label → Q) (q : Nat → Q), GChain d q (a :: b :: rest) →
        GChain d q (a :: b' :: L) := by
      rintro Q _ d q ⟨f1, f2, q', g, h⟩
      exact ⟨f1, f2, q', g, e7 Q d q' h⟩
    have hb'ok : MatOK b' := by
      cases L with
      | nil => exact e3.1
      | cons _ _ => exact e3.1
    have key : ∀ (j : Nat) (M : SparMat OpRepr) ms r, chainVal cv ov j (M :: ms) r =
      ∑ c ∈ range M.cols, OpRepr.val cv (ov j) (M.get r c) * chainVal cv ov (j + 1) ms c := fun _ _ _ _ => rfl
    have hmid : ∀ r, chainVal cv ov i (a :: b' :: L) r = chainVal cv ov i (a :: b :: rest) r := by
      intro r
      rw [key, key]
      refine Finset.sum_congr rfl fun c hc => ?_
      have hc' := Finset.mem_range.1 hc
      congr 1
      exact e5 c (by omega)
    by_cases h1 : a.cols = 1
    · refine ⟨a, b' :: L, ?_, rfl, ⟨hA, by omega, e3⟩, fun j _ h => markedIn_row h, fun r _ => hmid r, ?_, hgr⟩
      · have : compress .row b' a = .ok (b', a) := by
          unfold compress
          rw [if_neg (by simp [lines, Axis.other]; omega), if_pos (by simp only [lines]; omega)]
        unfold rowPass
        simp only [e1, this, bind, Except.bind, pure, Except.pure]
      · exact List.Forall₂.cons ⟨Nat.le_refl _, Nat.le_refl _⟩ e6
    · have hbc : BondCond .row b' a := by
        intro j hj
        have hj' : j < a.cols := by simp only [lines] at hj; omega
        rcases hbond.resolve_left h1 j hj' with h | h
        · exact Or.inr h
        · exact Or.inl (e4 j (by omega) h)
      have h2 : 2 ≤ lines .row b' := by have := hA.cpos; simp only [lines]; omega
      obtain ⟨b'', a', T, F2, hc, C⟩ := compress_spec cv (ov (i + 1)) (ov i) (ax := .row) h0 hb'ok.wf hA.wf hb'ok.canon
        hA.canon (by simp only [lines, Axis.other]; omega) h2 hb'ok.cpos hbc
      obtain ⟨b₁, a₁, T₁, G₁, hc₁, C₁⟩ := compress_spec cntC cntO cntO (ax := .row) rfl hb'ok.wf hA.wf hb'ok.canon
        hA.canon (by simp only [lines, Axis.other]; omega) h2 hb'ok.cpos hbc
      rw [hc] at hc₁
      simp only [Except.ok.injEq, Prod.mk.injEq] at hc₁
      obtain ⟨rfl, rfl⟩ := hc₁
      have har : a'.rows = a.rows := C.crF
      have hac : a'.cols = b''.rows := C.ln
      have hbc' : b''.cols = b'.cols := C.crA
      have hbpos : 0 < b''.rows := C.pos
      have hble : b''.rows ≤ b'.rows := C.le
      refine ⟨a', b'' :: L, ?_, har, ?_, ?_, ?_, ?_, fun Q _ d q h =>
        gchain_row C₁ hb'ok.canon hA.canon (by omega) (hgr Q d q h)⟩
      · unfold rowPass
        simp only [e1, hc, bind, Except.bind, pure, Except.pure]
      · refine ⟨⟨C.wF, C.cF, by have := hA.rpos; omega, by omega⟩, hac, ?_⟩
        have hb''ok : MatOK b'' := ⟨C.wA, C.cA, by omega, by have := hb'ok.cpos; omega⟩
        cases L with
        | nil => exact ⟨hb''ok, by rw [hbc']; exact e3.2⟩
        | cons m ms => exact ⟨hb''ok, by rw [hbc']; exact e3.2.1, e3.2.2⟩
      · rintro j hj ⟨f, l, hfl, he, hu, hm⟩
        have hfb : f < b.rows := by omega
        have hlf : LineId .row b' f := e4 f hfb hm
        have hne := ext_of_lineId hb'ok.wf hlf
        have hdi : diagC .row b' f = kIdCoef := by
          by_contra hcon; exact hne ((ext_iff _ _ _).2 hcon)
        have hfl' : f < lines .row b' := by simp only [lines]; omega
        have hbase : ∀ x, x < cross .row b' → AllId (baseL .row b' f x) := by
          intro x hx
          unfold baseL; rw [if_neg hne]; exact hlf x hx
        have hjc : j < cross Axis.row.other a := hj
        intro k hk
        show AllId (a'.get j k)
        have hkl : k < lines .row b'' := by simp only [lines]; simp only [cross] at hk; omega
        by_cases hT : T f k = []
        · have : atL Axis.row.other a' k j = [] := by
            refine (C.nul2 k j hkl hjc).2 (fun p hp => ?_)
            by_cases hpf : p = f
            · left; rw [hpf, hT]
            · right
              simp only [lines] at hp
              exact hu p (by omega) hpf
          have : a'.get j k = [] := this
          rw [this]; simp
        · have hid := (C.id1 f k hfl' hkl hbase hT).1
          have hone := C.one k j hkl hjc f hfl' (fun p hp hpf => by
            right
            simp only [lines] at hp
            exact hu p (by omega) hpf) hT
          have hmul := C.mul f j hfl' hjc
          rw [hdi, incompleteMulti_id] at hmul
          rw [hid, incompleteMulti_id] at hone
          simp only [Except.ok.injEq] at hmul hone
          have h3 : atL Axis.row.other a' k j = atL Axis.row.other a f j := by rw [← hone, ← hmul]
          have h4 : a'.get j k = a.get j f := h3
          rw [h4, he]; intro kc hkc; simp at hkc; rw [hkc]
      · intro r hr
        rw [← hmid r]
        refine (chainVal_two cv ov i a b' a' b'' L r hbc' (fun z hz => ?_)).symm
        have := C.value cv (ov (i + 1)) (ov i) hb'ok.wf h0 (x := z) (z := r) hz hr
        simp only [lines, atL, Axis.other] at this
        have e : a.cols = b'.rows := by omega
        rw [e, hac]
        rw [show (∑ p ∈ range b'.rows, OpRepr.val cv (ov i) (a.get r p) * OpRepr.val cv (ov (i + 1)) (b'.get p z)) =
          ∑ p ∈ range b'.rows, OpRepr.val cv (ov (i + 1)) (b'.get p z) * OpRepr.val cv (ov i) (a.get r p) from
          Finset.sum_congr rfl fun p _ => mul_comm _ _, this]
        exact Finset.sum_congr rfl fun p _ => mul_comm _ _
      · refine List.Forall₂.cons ⟨by omega, by omega⟩ ?_
        cases e6 with
        | cons h t => exact List.Forall₂.cons ⟨Nat.le_trans hble h.1, Nat.le_trans (by omega) h.2⟩ t

end
end Verif.Mpo
