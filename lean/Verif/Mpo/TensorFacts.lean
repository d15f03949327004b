import Verif.Mpo.Tensors
import Verif.Mpo.Sem
import Verif.Mpo.PassFacts
/- From symbolic matrices to arrays of numbers (helper facts, not property statements). -/
namespace Verif.Mpo
open Finset

section
variable {K : Type} [CommRing K] {d : Nat}

/-- All labels of the entry are in the tables. -/
def LabelsIn (nc no : Nat) (op : OpRepr) : Prop := ∀ kc ∈ op, kc.1 < no ∧ ∀ l ∈ kc.2, l < nc

/-- Value of a coefficient label and of an operator label between an incoming and an outgoing state. -/
def cOf (cs : List K) (l : Label) : K := (cs[l]?).getD 0
def oOf (os : List (Op d K)) (i o : Fin d) (l : Label) : K := (os[l]?.map fun t => t i o).getD 0

theorem coef_realize (cs : List K) (c : CoefRepr) (h : ∀ l ∈ c, l < cs.length) : CoefRepr.realize cs c = .ok (CoefRepr.val (cOf cs) c) := by
  have : ∀ (c : CoefRepr) (acc : K), (∀ l ∈ c, l < cs.length) →
      c.foldlM (fun acc l => (cs[l]?).elim (.error .oob) fun x => .ok (acc + x)) acc = (.ok (acc + CoefRepr.val (cOf cs) c) : Except Err K) := by
    intro c
    induction c with
    | nil => intro acc _; simp [pure, Except.pure]
    | cons l c ih =>
      intro acc h
      have hl := h l (by simp)
      rw [List.foldlM_cons, List.getElem?_eq_getElem hl]
      rw [show ((some cs[l]).elim (.error .oob) fun x => .ok (acc + x) : Except Err K) = .ok (acc + cs[l]) from rfl]
      show List.foldlM _ (acc + cs[l]) c = _
      rw [ih _ fun l' h' => h l' (by simp [h'])]
      simp [CoefRepr.val, cOf, List.getElem?_eq_getElem hl, add_assoc]
  have := this c 0 h
  rw [zero_add] at this
  exact this

theorem realizeTerm_ok (cs : List K) (os : List (Op d K)) (kc : Label × CoefRepr) (h1 : kc.1 < os.length) (h2 : ∀ l ∈ kc.2, l < cs.length) :
    realizeTerm cs os kc = .ok fun i o => CoefRepr.val (cOf cs) kc.2 * oOf os i o kc.1 := by
  unfold realizeTerm
  rw [coef_realize cs kc.2 h2, List.getElem?_eq_getElem h1]
  simp [bind, Except.bind, oOf, List.getElem?_eq_getElem h1]

theorem op_realize (cs : List K) (os : List (Op d K)) (op : OpRepr) (hne : op ≠ []) (h : LabelsIn cs.length os.length op) :
    OpRepr.realize cs os op = .ok fun i o => OpRepr.val (cOf cs) (oOf os i o) op := by
  have fold : ∀ (op : OpRepr) (acc : Op d K), LabelsIn cs.length os.length op →
      op.foldlM (fun (op : Op d K) kc => do
        let t ← realizeTerm cs os kc
        return fun x y => op x y + t x y) acc = .ok fun i o => acc i o + OpRepr.val (cOf cs) (oOf os i o) op := by
    intro op
    induction op with
    | nil => intro acc _; simp [pure, Except.pure]
    | cons kc op ih =>
      intro acc h
      have hk := h kc (by simp)
      rw [List.foldlM_cons, realizeTerm_ok cs os kc hk.1 hk.2]
      simp only [bind, Except.bind, pure, Except.pure] at ih ⊢
      rw [ih _ fun k hk => h k (by simp [hk])]
      simp [val_cons, add_assoc]
  cases op with
  | nil => exact absurd rfl hne
  | cons kc op =>
    have hk := h kc (by simp)
    rw [OpRepr.realize, realizeTerm_ok cs os kc hk.1 hk.2]
    simp only [bind, Except.bind]
    have := fold op (fun i o => CoefRepr.val (cOf cs) kc.2 * oOf os i o kc.1) fun k hk => h k (by simp [hk])
    simp only [bind, Except.bind] at this
    rw [this]
    simp [val_cons]

variable [DecidableEq K]

theorem addOp_ok (t : MpoTen d K) (op : Op d K) {a b : Nat} (ha : a < t.l) (hb : b < t.r) :
    ∃ t', t.addOp op a b = .ok t' ∧ t'.l = t.l ∧ t'.r = t.r ∧
      ∀ a' i o b', t'.e a' i o b' = if a' = a ∧ b' = b ∧ op i o ≠ 0 then op i o else t.e a' i o b' := by
  have inner : ∀ (i : Fin d) (os : List (Fin d)) (t : MpoTen d K), a < t.l → b < t.r →
      ∃ t', os.foldlM (fun t o => if op i o ≠ 0 then MpoTen.set t a i o b (op i o) else .ok t) t = .ok t' ∧ t'.l = t.l ∧ t'.r = t.r ∧
        ∀ a' i' o b', t'.e a' i' o b' = if a' = a ∧ b' = b ∧ i' = i ∧ o ∈ os ∧ op i o ≠ 0 then op i o else t.e a' i' o b' := by
    intro i os
    induction os with
    | nil => intro t _ _; exact ⟨t, rfl, rfl, rfl, by simp⟩
    | cons o os ih =>
      intro t ha hb
      rw [List.foldlM_cons]
      by_cases h0 : op i o ≠ 0
      · rw [if_pos h0, MpoTen.set, if_pos ⟨ha, hb⟩]
        obtain ⟨t', e1, e2, e3, e4⟩ := ih { t with e := fun a' i' o' b' => if a' = a ∧ i' = i ∧ o' = o ∧ b' = b then op i o else t.e a' i' o' b' } ha hb
        refine ⟨t', e1, e2, e3, fun a' i' o' b' => ?_⟩
        rw [e4]
        by_cases c : a' = a ∧ b' = b ∧ i' = i
        · obtain ⟨rfl, rfl, rfl⟩ := c
          by_cases ho : o' = o
          · subst ho; simp [h0]
          · simp [ho]
        · have x1 : ¬ (a' = a ∧ b' = b ∧ i' = i ∧ o' ∈ os ∧ op i o' ≠ 0) := fun ⟨p, q, r, _⟩ => c ⟨p, q, r⟩
          have x2 : ¬ (a' = a ∧ b' = b ∧ i' = i ∧ o' ∈ o :: os ∧ op i o' ≠ 0) := fun ⟨p, q, r, _⟩ => c ⟨p, q, r⟩
          have x3 : ¬ (a' = a ∧ i' = i ∧ o' = o ∧ b' = b) := fun ⟨p, q, _, r⟩ => c ⟨p, r, q⟩
          rw [if_neg x1, if_neg x2]
          exact if_neg x3
      · rw [if_neg h0]
        obtain ⟨t', e1, e2, e3, e4⟩ := ih t ha hb
        refine ⟨t', e1, e2, e3, fun a' i' o' b' => ?_⟩
        rw [e4]
        by_cases ho : o' = o
        · subst ho; rw [if_neg fun h => h0 h.2.2.2.2, if_neg fun h => h0 h.2.2.2.2]
        · simp [ho]
  have outer : ∀ (is : List (Fin d)) (t : MpoTen d K), a < t.l → b < t.r →
      ∃ t', is.foldlM (fun t i => (List.finRange d).foldlM (fun t o => if op i o ≠ 0 then MpoTen.set t a i o b (op i o) else .ok t) t) t = .ok t' ∧
        t'.l = t.l ∧ t'.r = t.r ∧ ∀ a' i o b', t'.e a' i o b' = if a' = a ∧ b' = b ∧ i ∈ is ∧ op i o ≠ 0 then op i o else t.e a' i o b' := by
    intro is
    induction is with
    | nil => intro t _ _; exact ⟨t, rfl, rfl, rfl, by simp⟩
    | cons i is ih =>
      intro t ha hb
      rw [List.foldlM_cons]
      obtain ⟨t1, f1, f2, f3, f4⟩ := inner i (List.finRange d) t ha hb
      rw [f1]
      obtain ⟨t', e1, e2, e3, e4⟩ := ih t1 (by omega) (by omega)
      refine ⟨t', e1, by omega, by omega, fun a' i' o' b' => ?_⟩
      rw [e4, f4]
      by_cases c : a' = a ∧ b' = b ∧ op i' o' ≠ 0
      · obtain ⟨rfl, rfl, h0⟩ := c
        by_cases hi : i' = i
        · subst hi; simp [h0]
        · simp [h0, hi]
      · rw [if_neg fun h => c ⟨h.1, h.2.1, h.2.2.2⟩, if_neg ?_, if_neg fun h => c ⟨h.1, h.2.1, h.2.2.2⟩]
        rintro ⟨p, q, rfl, -, r⟩
        exact c ⟨p, q, r⟩
  obtain ⟨t', e1, e2, e3, e4⟩ := outer (List.finRange d) t ha hb
  exact ⟨t', e1, e2, e3, fun a' i o b' => by rw [e4]; simp⟩

section
variable {Q : Type} {cs : List K} {os : List (Op d K)} {s : SiteTen Q}

/-- Exactly the entries in `S` have been written. -/
structure Written (cs : List K) (os : List (Op d K)) (s : SiteTen Q) (S : Nat → Nat → Prop) (t : MpoTen d K) : Prop where
  l : t.l = s.mat.rows
  r : t.r = s.mat.cols
  on : ∀ a b, S a b → ∀ i o, t.e a i o b = OpRepr.val (cOf cs) (oOf os i o) (s.mat.get a b)
  off : ∀ a b, ¬ S a b → ∀ i o, t.e a i o b = 0

theorem addElem_ok (hlab : ∀ x y, x < s.mat.rows → y < s.mat.cols → LabelsIn cs.length os.length (s.mat.get x y)) {S : Nat → Nat → Prop} {t : MpoTen d K}
    (h : Written cs os s S t) {x y : Nat} (hx : x < s.mat.rows) (hy : y < s.mat.cols) :
    ∃ t', addElem cs os s.mat t x y = .ok t' ∧ Written cs os s (fun a b => S a b ∨ (a = x ∧ b = y)) t' := by
  unfold addElem
  by_cases he : s.mat.get x y = []
  · rw [if_pos he]
    refine ⟨t, rfl, h.l, h.r, ?_, fun a b hab i o => h.off a b (fun hs => hab (.inl hs)) i o⟩
    intro a b hab i o
    by_cases hs : S a b
    · exact h.on a b hs i o
    · obtain ⟨rfl, rfl⟩ := hab.resolve_left hs
      rw [h.off a b hs, he]; rfl
  · rw [if_neg he, op_realize cs os _ he (hlab x y hx hy)]
    obtain ⟨t', e1, e2, e3, e4⟩ := addOp_ok t (fun i o => OpRepr.val (cOf cs) (oOf os i o) (s.mat.get x y)) (a := x) (b := y)
      (by rw [h.l]; exact hx) (by rw [h.r]; exact hy)
    refine ⟨t', e1, by rw [e2, h.l], by rw [e3, h.r], ?_, ?_⟩
    · intro a b hab i o
      rw [e4]
      by_cases hc : a = x ∧ b = y
      · obtain ⟨rfl, rfl⟩ := hc
        by_cases h0 : OpRepr.val (cOf cs) (oOf os i o) (s.mat.get a b) = 0
        · rw [if_neg fun h => h.2.2 h0]
          by_cases hs : S a b
          · exact h.on a b hs i o
          · rw [h.off a b hs, h0]
        · rw [if_pos ⟨rfl, rfl, h0⟩]
      · rw [if_neg fun h => hc ⟨h.1, h.2.1⟩]
        exact h.on a b (hab.resolve_right hc) i o
    · intro a b hab i o
      rw [e4, if_neg fun h => hab (.inr ⟨h.1, h.2.1⟩)]
      exact h.off a b (fun hs => hab (.inl hs)) i o

theorem rowLoop_ok (hlab : ∀ x y, x < s.mat.rows → y < s.mat.cols → LabelsIn cs.length os.length (s.mat.get x y)) {x : Nat} (hx : x < s.mat.rows) :
    ∀ (ys : List Nat) (t : MpoTen d K) (S : Nat → Nat → Prop), (∀ y ∈ ys, y < s.mat.cols) → Written cs os s S t →
    ∃ t', ys.foldlM (fun t y => addElem cs os s.mat t x y) t = .ok t' ∧ Written cs os s (fun a b => S a b ∨ (a = x ∧ b ∈ ys)) t' := by
  intro ys
  induction ys with
  | nil => intro t S _ h; exact ⟨t, rfl, by simpa using h⟩
  | cons y ys ih =>
    intro t S hy h
    obtain ⟨t1, e1, w1⟩ := addElem_ok hlab h hx (hy y (by simp))
    obtain ⟨t2, e2, w2⟩ := ih t1 _ (fun z hz => hy z (by simp [hz])) w1
    refine ⟨t2, by rw [List.foldlM_cons, e1]; exact e2, ?_⟩
    convert w2 using 3 with a b
    simp only [List.mem_cons, eq_iff_iff]; tauto

theorem colLoop_ok (hlab : ∀ x y, x < s.mat.rows → y < s.mat.cols → LabelsIn cs.length os.length (s.mat.get x y)) {y : Nat} (hy : y < s.mat.cols) :
    ∀ (xs : List Nat) (t : MpoTen d K) (S : Nat → Nat → Prop), (∀ x ∈ xs, x < s.mat.rows) → Written cs os s S t →
    ∃ t', xs.foldlM (fun t x => addElem cs os s.mat t x y) t = .ok t' ∧ Written cs os s (fun a b => S a b ∨ (a ∈ xs ∧ b = y)) t' := by
  intro xs
  induction xs with
  | nil => intro t S _ h; exact ⟨t, rfl, by simpa using h⟩
  | cons x xs ih =>
    intro t S hx h
    obtain ⟨t1, e1, w1⟩ := addElem_ok hlab h (hx x (by simp)) hy
    obtain ⟨t2, e2, w2⟩ := ih t1 _ (fun z hz => hx z (by simp [hz])) w1
    refine ⟨t2, by rw [List.foldlM_cons, e1]; exact e2, ?_⟩
    convert w2 using 3 with a b
    simp only [List.mem_cons, eq_iff_iff]; tauto

theorem matLoop_ok (hlab : ∀ x y, x < s.mat.rows → y < s.mat.cols → LabelsIn cs.length os.length (s.mat.get x y)) :
    ∀ (xs : List Nat) (t : MpoTen d K) (S : Nat → Nat → Prop), (∀ x ∈ xs, x < s.mat.rows) → Written cs os s S t →
    ∃ t', xs.foldlM (fun t x => (List.range s.mat.cols).foldlM (fun t y => addElem cs os s.mat t x y) t) t = .ok t' ∧
      Written cs os s (fun a b => S a b ∨ (a ∈ xs ∧ b < s.mat.cols)) t' := by
  intro xs
  induction xs with
  | nil => intro t S _ h; exact ⟨t, rfl, by simpa using h⟩
  | cons x xs ih =>
    intro t S hx h
    obtain ⟨t1, e1, w1⟩ := rowLoop_ok hlab (hx x (by simp)) (List.range s.mat.cols) t S (by simp) h
    obtain ⟨t2, e2, w2⟩ := ih t1 _ (fun z hz => hx z (by simp [hz])) w1
    refine ⟨t2, by rw [List.foldlM_cons, e1]; exact e2, ?_⟩
    convert w2 using 3 with a b
    simp only [List.mem_cons, List.mem_range, eq_iff_iff]; tauto

/-- The tensor holds the values of all entries of the matrix. -/
structure Holds (cs : List K) (os : List (Op d K)) (s : SiteTen Q) (t : MpoTen d K) : Prop where
  l : t.l = s.mat.rows
  r : t.r = s.mat.cols
  e : ∀ a b, a < s.mat.rows → b < s.mat.cols → ∀ i o, t.e a i o b = OpRepr.val (cOf cs) (oOf os i o) (s.mat.get a b)

/-- What is needed of a site: the bonds fit the matrix and the labels the tables. -/
structure SiteOK (nc no : Nat) (s : SiteTen Q) : Prop where
  ld : bondDim s.lvb = s.mat.rows
  rd : bondDim s.rvb = s.mat.cols
  lab : ∀ x y, x < s.mat.rows → y < s.mat.cols → LabelsIn nc no (s.mat.get x y)

theorem empty_written (h : SiteOK cs.length os.length s) : Written cs os s (fun _ _ => False) (emptyTen s : MpoTen d K) :=
  ⟨h.ld, h.rd, fun _ _ h => h.elim, fun _ _ _ _ _ => rfl⟩

theorem headTen_ok (h : SiteOK cs.length os.length s) (h1 : s.mat.rows = 1) : ∃ t, headTen cs os s = .ok t ∧ Holds cs os s t := by
  obtain ⟨t, e, w⟩ := rowLoop_ok h.lab (x := 0) (by omega) (List.range s.mat.cols) _ _ (by simp) (empty_written h)
  exact ⟨t, e, w.l, w.r, fun a b ha hb => w.on a b (.inr ⟨by omega, by simpa using hb⟩)⟩

theorem tailTen_ok (h : SiteOK cs.length os.length s) (h1 : s.mat.cols = 1) : ∃ t, tailTen cs os s = .ok t ∧ Holds cs os s t := by
  obtain ⟨t, e, w⟩ := colLoop_ok h.lab (y := 0) (by omega) (List.range s.mat.rows) _ _ (by simp) (empty_written h)
  exact ⟨t, e, w.l, w.r, fun a b ha hb => w.on a b (.inr ⟨by simpa using ha, by omega⟩)⟩

theorem centTen_ok (h : SiteOK cs.length os.length s) : ∃ t, centTen cs os s = .ok t ∧ Holds cs os s t := by
  obtain ⟨t, e, w⟩ := matLoop_ok h.lab (List.range s.mat.rows) _ _ (by simp) (empty_written h)
  exact ⟨t, e, w.l, w.r, fun a b ha hb => w.on a b (.inr ⟨by simpa using ha, hb⟩)⟩

/-- The bonds of neighbouring matrices agree and the last one is trivial. -/
def DimChain : Nat → List (SiteTen Q) → Prop
  | n, [] => n = 1
  | n, s :: l => s.mat.rows = n ∧ DimChain s.mat.cols l

theorem restTens_ok : ∀ (l : List (SiteTen Q)) (n : Nat), (∀ s ∈ l, SiteOK cs.length os.length s) → DimChain n l →
    ∃ ts, restTens cs os l = .ok ts ∧ List.Forall₂ (Holds cs os) l ts
  | [], _, _, _ => ⟨[], rfl, .nil⟩
  | [s], n, h, hd => by
    obtain ⟨t, e, w⟩ := tailTen_ok (h s (by simp)) hd.2
    exact ⟨[t], by simp only [restTens, e]; rfl, .cons w .nil⟩
  | s :: s2 :: l, n, h, hd => by
    obtain ⟨t, e, w⟩ := centTen_ok (h s (by simp))
    obtain ⟨ts, e', w'⟩ := restTens_ok (s2 :: l) s.mat.cols (fun x hx => h x (by simp [hx])) hd.2
    exact ⟨t :: ts, by simp only [restTens, e, bind, Except.bind, e']; rfl, .cons w w'⟩

theorem allTens_ok {l : List (SiteTen Q)} (h : ∀ s ∈ l, SiteOK cs.length os.length s) (hd : DimChain 1 l) :
    ∃ ts, allTens cs os l = .ok ts ∧ List.Forall₂ (Holds cs os) l ts := by
  cases l with
  | nil => exact ⟨[], rfl, .nil⟩
  | cons s l =>
    obtain ⟨t, e, w⟩ := headTen_ok (h s (by simp)) hd.1
    obtain ⟨ts, e', w'⟩ := restTens_ok l s.mat.cols (fun x hx => h x (by simp [hx])) hd.2
    exact ⟨t :: ts, by simp only [allTens, e, bind, Except.bind, e']; rfl, .cons w w'⟩

end
end
end Verif.Mpo
