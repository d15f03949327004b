import Verif.Mps.VarProd
import Verif.Mps.FmpoFacts
import Verif.Mps.TruncMps
/-
The environments of the compressing product are overlaps of the output with the exact product, and a sweep that ends at site 1 leaves an orthogonal projection of the
exact product.
-/
namespace Verif.Mps
open Finset

section chain
variable {τ K : Type} [CommRing K]

theorem amp_append {t : Ten τ K} {B : List (Ten τ K)} : ∀ (A : List (Ten τ K)) (sa sb : List τ) (a b : Nat), sa.length = A.length →
    Linked (A ++ t :: B) → InHead (A ++ t :: B) a →
    amp (A ++ t :: B) (sa ++ sb) a b = ∑ k ∈ range t.l, amp A sa a k * amp (t :: B) sb k b := by
  intro A
  induction A with
  | nil =>
    intro sa sb a b hs hl ha
    have : sa = [] := by simpa using hs
    subst this
    have ha' : a < t.l := ha t rfl
    simp only [List.nil_append, amp.eq_1]
    simp [ha']
  | cons t0 A ih =>
    intro sa sb a b hs hl ha
    match sa, hs with
    | s0 :: sa, hs =>
      simp only [List.cons_append, amp_cons]
      have : ∀ k ∈ range t0.r, t0.v s0 a k * amp (A ++ t :: B) (sa ++ sb) k b =
          ∑ x ∈ range t.l, t0.v s0 a k * amp A sa k x * amp (t :: B) sb x b := by
        intro k hk
        rw [ih sa sb k b (by simpa using hs) (linked_cons hl), Finset.mul_sum]
        · exact Finset.sum_congr rfl fun x _ => by ring
        · intro u hu
          cases A with
          | nil => simp at hu; subst hu; have := linked_head hl; rw [← this]; exact mem_range.mp hk
          | cons w A => simp at hu; subst hu; have := linked_head hl; rw [← this]; exact mem_range.mp hk
      rw [sum_congr rfl this, sum_comm]
      exact sum_congr rfl fun x _ => by rw [Finset.sum_mul]

theorem sum_words_split {M : Type} [AddCommMonoid M] [Fintype τ] (m : Nat) : ∀ (n N : Nat), N = n + m → ∀ (f : List τ → M),
    ∑ s : Fin N → τ, f (List.ofFn s) = ∑ l : Fin n → τ, ∑ r : Fin m → τ, f (List.ofFn l ++ List.ofFn r) := by
  intro n
  induction n with
  | zero => intro N h f; have : N = m := by omega
            subst this; simp [one_nsmul]
  | succ n ih =>
    intro N h f
    obtain ⟨N, rfl⟩ : ∃ k, N = k + 1 := ⟨N - 1, by omega⟩
    rw [sum_cons, sum_cons]
    refine sum_congr rfl fun x _ => ?_
    have := ih N (by omega) (fun l => f (x :: l))
    simp only [List.ofFn_cons, List.cons_append]
    exact this

variable [StarRing K] [Fintype τ]

/-- `E` is the overlap of the conjugated chain `O` with the chain `P`, both of length `n`, from the left end. -/
def SemL (n : Nat) (E : Mat K) (O P : List (Ten τ K)) (d D : Nat) : Prop :=
  O.length = n ∧ P.length = n ∧ ∀ a < d, ∀ c < D, E a c = ∑ l : Fin n → τ, star (amp O (List.ofFn l) 0 a) * amp P (List.ofFn l) 0 c

/-- The same from the right end. -/
def SemR (n : Nat) (E : Mat K) (O P : List (Ten τ K)) (d D : Nat) : Prop :=
  O.length = n ∧ P.length = n ∧ ∀ a < d, ∀ c < D, E a c = ∑ r : Fin n → τ, star (amp O (List.ofFn r) a 0) * amp P (List.ofFn r) c 0

theorem semL_step {n : Nat} {E E' : Mat K} {O P : List (Ten τ K)} {o p : Ten τ K} (h : SemL n E O P o.l p.l)
    (h' : ∀ a' < o.r, ∀ c < p.r, E' a' c = ∑ x, ∑ a ∈ range o.l, ∑ b ∈ range p.l, star (o.v x a a') * E a b * p.v x b c)
    (lo : Linked (O ++ [o])) (lp : Linked (P ++ [p])) (io : InHead (O ++ [o]) 0) (ip : InHead (P ++ [p]) 0) :
    SemL (n + 1) E' (O ++ [o]) (P ++ [p]) o.r p.r := by
  obtain ⟨hO, hP, h⟩ := h
  refine ⟨by simp [hO], by simp [hP], fun a' ha' c hc => ?_⟩
  rw [h' a' ha' c hc, sum_snoc]
  refine sum_congr rfl fun x _ => ?_
  have e1 : ∀ l : Fin n → τ, star (amp (O ++ [o]) (List.ofFn (Fin.snoc l x : Fin (n + 1) → τ)) 0 a') *
      amp (P ++ [p]) (List.ofFn (Fin.snoc l x : Fin (n + 1) → τ)) 0 c =
      ∑ a ∈ range o.l, ∑ b ∈ range p.l, star (o.v x a a') * (star (amp O (List.ofFn l) 0 a) * amp P (List.ofFn l) 0 b) * p.v x b c := by
    intro l
    rw [ofFn_snoc', amp_snoc o x a' ha' O _ 0 (by simp [hO]) lo io, amp_snoc p x c hc P _ 0 (by simp [hP]) lp ip, star_sum, Finset.sum_mul_sum]
    refine sum_congr rfl fun a _ => sum_congr rfl fun b _ => ?_
    rw [star_mul']; ring
  rw [sum_congr rfl fun l _ => e1 l]
  conv_rhs => rw [sum_comm]
  refine sum_congr rfl fun a ha => ?_
  conv_rhs => rw [sum_comm]
  refine sum_congr rfl fun b hb => ?_
  rw [h a (mem_range.mp ha) b (mem_range.mp hb), Finset.mul_sum, Finset.sum_mul]

theorem semR_step {n : Nat} {E E' : Mat K} {O P : List (Ten τ K)} {o p : Ten τ K} (h : SemR n E O P o.r p.r)
    (h' : ∀ a < o.l, ∀ c < p.l, E' a c = ∑ x, ∑ a' ∈ range o.r, ∑ b ∈ range p.r, star (o.v x a a') * E a' b * p.v x c b) :
    SemR (n + 1) E' (o :: O) (p :: P) o.l p.l := by
  obtain ⟨hO, hP, h⟩ := h
  refine ⟨by simp [hO], by simp [hP], fun a ha c hc => ?_⟩
  rw [h' a ha c hc, sum_cons]
  refine sum_congr rfl fun x _ => ?_
  have e1 : ∀ l : Fin n → τ, star (amp (o :: O) (List.ofFn (Fin.cons x l : Fin (n + 1) → τ)) a 0) *
      amp (p :: P) (List.ofFn (Fin.cons x l : Fin (n + 1) → τ)) c 0 =
      ∑ a' ∈ range o.r, ∑ b ∈ range p.r, star (o.v x a a') * (star (amp O (List.ofFn l) a' 0) * amp P (List.ofFn l) b 0) * p.v x c b := by
    intro l
    rw [List.ofFn_cons, amp_cons, amp_cons, star_sum, Finset.sum_mul_sum]
    refine sum_congr rfl fun a _ => sum_congr rfl fun b _ => ?_
    rw [star_mul']; ring
  rw [sum_congr rfl fun l _ => e1 l]
  conv_rhs => rw [sum_comm]
  refine sum_congr rfl fun a ha => ?_
  conv_rhs => rw [sum_comm]
  refine sum_congr rfl fun b hb => ?_
  rw [h a (mem_range.mp ha) b (mem_range.mp hb), Finset.mul_sum, Finset.sum_mul]

/-- The overlap of two chains through a cut. -/
theorem sem_cut {n m N : Nat} {EL ER : Mat K} {OL PL OR PR : List (Ten τ K)} {o p : Ten τ K} (hN : N = n + m)
    (hl : SemL n EL OL PL o.l p.l) (hr : SemR m ER (o :: OR) (p :: PR) o.l p.l)
    (lo : Linked (OL ++ o :: OR)) (lp : Linked (PL ++ p :: PR)) (io : InHead (OL ++ o :: OR) 0) (ip : InHead (PL ++ p :: PR) 0) :
    ∑ s : Fin N → τ, star (amp (OL ++ o :: OR) (List.ofFn s) 0 0) * amp (PL ++ p :: PR) (List.ofFn s) 0 0 =
      ∑ a ∈ range o.l, ∑ c ∈ range p.l, EL a c * ER a c := by
  obtain ⟨hO, hP, hl⟩ := hl
  obtain ⟨hO', hP', hr⟩ := hr
  rw [sum_words_split m n N hN (fun l => star (amp (OL ++ o :: OR) l 0 0) * amp (PL ++ p :: PR) l 0 0)]
  have e1 : ∀ (l : Fin n → τ) (r : Fin m → τ), star (amp (OL ++ o :: OR) (List.ofFn l ++ List.ofFn r) 0 0) * amp (PL ++ p :: PR) (List.ofFn l ++ List.ofFn r) 0 0 =
      ∑ a ∈ range o.l, ∑ c ∈ range p.l, (star (amp OL (List.ofFn l) 0 a) * amp PL (List.ofFn l) 0 c) *
        (star (amp (o :: OR) (List.ofFn r) a 0) * amp (p :: PR) (List.ofFn r) c 0) := by
    intro l r
    rw [amp_append OL _ _ 0 0 (by simp [hO]) lo io, amp_append PL _ _ 0 0 (by simp [hP]) lp ip, star_sum, Finset.sum_mul_sum]
    refine sum_congr rfl fun a _ => sum_congr rfl fun b _ => ?_
    rw [star_mul']; ring
  rw [sum_congr rfl fun l _ => sum_congr rfl fun r _ => e1 l r]
  rw [sum_congr rfl fun l _ => sum_comm, sum_comm]
  refine sum_congr rfl fun a ha => ?_
  rw [sum_congr rfl fun l _ => sum_comm, sum_comm]
  refine sum_congr rfl fun c hc => ?_
  rw [hl a (mem_range.mp ha) c (mem_range.mp hc), hr a (mem_range.mp ha) c (mem_range.mp hc), Finset.sum_mul_sum]

end chain

section env
variable {σ K : Type} [CommRing K] [StarRing K] [Fintype σ]

/-- The two operand legs of an environment taken together. -/
def fuse (e : Env3 K) : Mat K := fun a c => e.v a (c / e.d2) (c % e.d2)

theorem updL_fuse {e : Env3 K} {o t u : Ten (σ × σ) K} (h : o.l = e.d0 ∧ t.l = e.d1 ∧ u.l = e.d2) :
    ∃ e', updL e o t u = .ok e' ∧ e'.d0 = o.r ∧ e'.d1 = t.r ∧ e'.d2 = u.r ∧
      ∀ a' c, fuse e' a' c = ∑ x, ∑ a ∈ range o.l, ∑ b ∈ range (prodTen t u).l, star (o.v x a a') * fuse e a b * (prodTen t u).v x b c := by
  refine ⟨_, if_pos h, rfl, rfl, rfl, fun a' c => ?_⟩
  obtain ⟨h0, h1, h2⟩ := h
  simp only [fuse, prodTen]
  rw [Fintype.sum_prod_type]
  refine sum_congr rfl fun s _ => sum_congr rfl fun s' _ => ?_
  rw [sum_comm, h0]
  refine sum_congr rfl fun a _ => ?_
  rw [h2, h1, sum_range_mul_div e.d1 e.d2 (fun b1 b2 => star (o.v (s, s') a a') * e.v a b1 b2 * ∑ q, t.v (s, q) b1 (c / u.r) * u.v (q, s') b2 (c % u.r)),
    sum_comm]
  refine sum_congr rfl fun b1 _ => ?_
  rw [sum_comm]
  refine sum_congr rfl fun b2 _ => ?_
  rw [Finset.mul_sum]
  exact sum_congr rfl fun q _ => by ring

theorem updR_fuse {e : Env3 K} {o t u : Ten (σ × σ) K} (h : o.r = e.d0 ∧ t.r = e.d1 ∧ u.r = e.d2) :
    ∃ e', updR e o t u = .ok e' ∧ e'.d0 = o.l ∧ e'.d1 = t.l ∧ e'.d2 = u.l ∧
      ∀ a c, fuse e' a c = ∑ x, ∑ a' ∈ range o.r, ∑ b ∈ range (prodTen t u).r, star (o.v x a a') * fuse e a' b * (prodTen t u).v x c b := by
  refine ⟨_, if_pos h, rfl, rfl, rfl, fun a' c => ?_⟩
  obtain ⟨h0, h1, h2⟩ := h
  simp only [fuse, prodTen]
  rw [Fintype.sum_prod_type]
  refine sum_congr rfl fun s _ => sum_congr rfl fun s' _ => ?_
  rw [sum_comm, h0]
  refine sum_congr rfl fun a _ => ?_
  rw [h2, h1, sum_range_mul_div e.d1 e.d2 (fun b1 b2 => star (o.v (s, s') a' a) * e.v a b1 b2 * ∑ q, t.v (s, q) (c / u.l) b1 * u.v (q, s') (c % u.l) b2),
    sum_comm]
  refine sum_congr rfl fun b1 _ => ?_
  rw [sum_comm]
  refine sum_congr rfl fun b2 _ => ?_
  rw [Finset.mul_sum]
  exact sum_congr rfl fun q _ => by ring

omit [StarRing K] in
theorem varTwo_fuse {el er : Env3 K} {tl tr ul ur : Ten (σ × σ) K}
    (h : ul.l = el.d2 ∧ tl.l = el.d1 ∧ ur.r = er.d2 ∧ tr.r = er.d1 ∧ ul.r = ur.l ∧ tl.r = tr.l) :
    ∃ T, varTwo el er tl tr ul ur = .ok T ∧ T.l = el.d0 ∧ T.r = er.d0 ∧
      ∀ x y a a', T.v x y a a' = ∑ c ∈ range (prodTen tl ul).r, (∑ b ∈ range (prodTen tl ul).l, fuse el a b * (prodTen tl ul).v x b c) *
        (∑ d ∈ range (prodTen tr ur).r, (prodTen tr ur).v y c d * fuse er a' d) := by
  refine ⟨_, if_pos h, rfl, rfl, fun x y a a' => ?_⟩
  obtain ⟨h1, h2, h3, h4, h5, h6⟩ := h
  simp only [fuse, prodTen]
  rw [← h5]
  rw [sum_range_mul_div tl.r ul.r (fun c1 c2 => (∑ b ∈ range (tl.l * ul.l), el.v a (b / el.d2) (b % el.d2) *
      ∑ q, tl.v (x.1, q) (b / ul.l) c1 * ul.v (q, x.2) (b % ul.l) c2) *
    ∑ d ∈ range (tr.r * ur.r), (∑ q, tr.v (y.1, q) c1 (d / ur.r) * ur.v (q, y.2) c2 (d % ur.r)) * er.v a' (d / er.d2) (d % er.d2))]
  refine sum_congr rfl fun c1 _ => sum_congr rfl fun c2 _ => ?_
  congr 1
  · rw [h1, h2, sum_range_mul_div el.d1 el.d2 (fun b1 b2 => el.v a b1 b2 * ∑ q, tl.v (x.1, q) b1 c1 * ul.v (q, x.2) b2 c2), sum_comm]
    refine sum_congr rfl fun b1 _ => ?_
    rw [sum_comm]
    refine sum_congr rfl fun b2 _ => ?_
    rw [Finset.mul_sum]
    exact sum_congr rfl fun q _ => by ring
  · rw [h3, h4, sum_range_mul_div er.d1 er.d2 (fun d1 d2 => (∑ q, tr.v (y.1, q) c1 d1 * ur.v (q, y.2) c2 d2) * er.v a' d1 d2), sum_comm]
    refine sum_congr rfl fun b1 _ => ?_
    rw [sum_comm]
    refine sum_congr rfl fun b2 _ => ?_
    rw [Finset.sum_mul]
    exact sum_congr rfl fun q _ => by ring

/-- What the code relies on from the truncated SVD of a two-site block in the right-moving half: `u` is an isometry on the bond it shares with `s·vt`. -/
structure SplitRSpec (splitR : Two σ K → Ten (σ × σ) K × Ten (σ × σ) K) : Prop where
  dimL : ∀ T, (splitR T).1.l = T.l
  dimR : ∀ T, (splitR T).2.r = T.r
  mid : ∀ T, (splitR T).1.r = (splitR T).2.l
  iso : ∀ T, LeftIso (splitR T).1

/-- In the left-moving half: `vt` is an isometry and `u·s = T·vt†`, whichever singular values are kept. -/
structure SplitLSpec (splitL : Two σ K → Ten (σ × σ) K × Ten (σ × σ) K) : Prop where
  dimL : ∀ T, (splitL T).1.l = T.l
  dimR : ∀ T, (splitL T).2.r = T.r
  mid : ∀ T, (splitL T).1.r = (splitL T).2.l
  iso : ∀ T, RightIso (splitL T).2
  proj : ∀ (T : Two σ K) x a j, a < T.l → j < (splitL T).2.l →
    (splitL T).1.v x a j = ∑ y, ∑ b ∈ range T.r, T.v x y a b * star ((splitL T).2.v y j b)

/-- The overlap of the exact product with the output right after an update of the left-moving half is the squared norm of the tensor with the weights. -/
theorem overlap_center {splitL : Two σ K → Ten (σ × σ) K × Ten (σ × σ) K} (H : SplitLSpec splitL) {T : Two σ K} {n m N : Nat} {EL ER : Mat K}
    {OL PL OR PR : List (Ten (σ × σ) K)} {p q : Ten (σ × σ) K} (hN : N = n + (m + 2)) (hl : SemL n EL OL PL T.l p.l) (hr : SemR m ER OR PR T.r q.r)
    (hT : ∀ x y a a', T.v x y a a' = ∑ c ∈ range p.r, (∑ b ∈ range p.l, EL a b * p.v x b c) * (∑ d ∈ range q.r, q.v y c d * ER a' d))
    (lo : Linked (OL ++ (splitL T).1 :: (splitL T).2 :: OR)) (lp : Linked (PL ++ p :: q :: PR))
    (io : InHead (OL ++ (splitL T).1 :: (splitL T).2 :: OR) 0) (ip : InHead (PL ++ p :: q :: PR) 0) :
    ∑ s : Fin N → σ × σ, star (amp (OL ++ (splitL T).1 :: (splitL T).2 :: OR) (List.ofFn s) 0 0) * amp (PL ++ p :: q :: PR) (List.ofFn s) 0 0 =
      normSq (splitL T).1 := by
  set w := (splitL T).1 with hw
  set v := (splitL T).2 with hv
  have wl : w.l = T.l := H.dimL T
  have vr : v.r = T.r := H.dimR T
  have wv : w.r = v.l := H.mid T
  have pq : p.r = q.l := linked_get lp PL.length p q (by simp) (by simp)
  have s1 : SemR (m + 1) (fun a c => ∑ y, ∑ a' ∈ range v.r, ∑ d ∈ range q.r, star (v.v y a a') * ER a' d * q.v y c d) (v :: OR) (q :: PR) v.l q.l :=
    semR_step (by rw [vr]; exact hr) (fun a _ c _ => rfl)
  have s2 := semR_step (o := w) (p := p) (by rw [wv, pq]; exact s1) (fun a _ c _ => rfl)
  rw [sem_cut hN (by rw [wl]; exact hl) s2 lo lp io ip]
  unfold normSq
  rw [sum_comm]
  have e1 : ∀ c ∈ range p.l, ∀ a ∈ range w.l, EL a c * ∑ x, ∑ j ∈ range w.r, ∑ b ∈ range p.r, star (w.v x a j) *
      (∑ y, ∑ a' ∈ range v.r, ∑ d ∈ range q.r, star (v.v y j a') * ER a' d * q.v y b d) * p.v x c b =
      ∑ x, ∑ j ∈ range w.r, ∑ b ∈ range p.r, ∑ y, ∑ a' ∈ range v.r, ∑ d ∈ range q.r,
        star (w.v x a j) * (EL a c * p.v x c b) * (star (v.v y j a') * (q.v y b d * ER a' d)) := by
    intro c _ a _
    rw [Finset.mul_sum]
    refine sum_congr rfl fun x _ => ?_
    rw [Finset.mul_sum]
    refine sum_congr rfl fun j _ => ?_
    rw [Finset.mul_sum]
    refine sum_congr rfl fun b _ => ?_
    rw [Finset.mul_sum, Finset.sum_mul, Finset.mul_sum]
    refine sum_congr rfl fun y _ => ?_
    rw [Finset.mul_sum, Finset.sum_mul, Finset.mul_sum]
    refine sum_congr rfl fun a' _ => ?_
    rw [Finset.mul_sum, Finset.sum_mul, Finset.mul_sum]
    exact sum_congr rfl fun d _ => by ring
  rw [sum_congr rfl fun c hc => sum_congr rfl fun a ha => e1 c hc a ha]
  rw [sum_comm, sum_congr rfl fun a _ => sum_comm, sum_comm]
  refine sum_congr rfl fun x _ => sum_congr rfl fun a ha => ?_
  rw [sum_comm]
  refine sum_congr rfl fun j hj => ?_
  have ha' : a < T.l := by rw [← wl]; exact mem_range.mp ha
  have hj' : j < v.l := by rw [← wv]; exact mem_range.mp hj
  have e2 : w.v x a j = ∑ c ∈ range p.l, ∑ b ∈ range p.r, ∑ y, ∑ a' ∈ range v.r, ∑ d ∈ range q.r,
      (EL a c * p.v x c b) * (star (v.v y j a') * (q.v y b d * ER a' d)) := by
    rw [hw, H.proj T x a j ha' hj', ← vr]
    have e3 : ∀ y, ∀ a' ∈ range v.r, T.v x y a a' * star (v.v y j a') =
        ∑ c ∈ range p.l, ∑ b ∈ range p.r, ∑ d ∈ range q.r, (EL a c * p.v x c b) * (star (v.v y j a') * (q.v y b d * ER a' d)) := by
      intro y a' _
      rw [hT, Finset.sum_mul, sum_comm]
      refine sum_congr rfl fun b _ => ?_
      rw [Finset.sum_mul_sum, Finset.sum_mul]
      refine sum_congr rfl fun c _ => ?_
      rw [Finset.sum_mul]
      exact sum_congr rfl fun d _ => by ring
    rw [sum_congr rfl fun y _ => sum_congr rfl (e3 y)]
    rw [sum_congr rfl fun y _ => sum_comm, sum_comm]
    refine sum_congr rfl fun c _ => ?_
    rw [sum_congr rfl fun y _ => sum_comm, sum_comm]
  conv_rhs => rw [mul_comm, e2, Finset.mul_sum]
  refine sum_congr rfl fun c _ => ?_
  rw [Finset.mul_sum]
  refine sum_congr rfl fun b _ => ?_
  rw [Finset.mul_sum]
  refine sum_congr rfl fun y _ => ?_
  rw [Finset.mul_sum]
  refine sum_congr rfl fun a' _ => ?_
  rw [Finset.mul_sum]
  refine sum_congr rfl fun d _ => ?_
  rw [← e2]; ring

end env
end Verif.Mps
