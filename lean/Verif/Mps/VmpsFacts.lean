import Verif.Mps.Vmps
import Verif.Mps.VarProdFacts
/-
The environments of the two-site optimisation are matrix elements of the operator between partial chains, and the effective Hamiltonian is the
operator restricted to the two-site block.
-/
namespace Verif.Mps
open Finset

variable {σ K : Type} [CommRing K] [StarRing K] [Fintype σ]

theorem zip_ofFn {α β : Type} {n : Nat} (f : Fin n → α) (g : Fin n → β) : (List.ofFn fun i => (f i, g i)) = List.zip (List.ofFn f) (List.ofFn g) := by
  apply List.ext_getElem
  · simp
  · intro i h1 h2; simp

theorem pull3 {M A B C L : Type} [AddCommMonoid M] [Fintype L] (S : Finset A) (T : Finset B) (U : Finset C) (f : L → L → A → B → C → M) :
    ∑ l, ∑ l', ∑ a ∈ S, ∑ c ∈ T, ∑ b ∈ U, f l l' a c b = ∑ a ∈ S, ∑ c ∈ T, ∑ b ∈ U, ∑ l, ∑ l', f l l' a c b := by
  calc _ = ∑ u : L × L, ∑ p ∈ S ×ˢ T ×ˢ U, f u.1 u.2 p.1 p.2.1 p.2.2 := by simp only [Fintype.sum_prod_type, Finset.sum_product]
    _ = ∑ p ∈ S ×ˢ T ×ˢ U, ∑ u : L × L, f u.1 u.2 p.1 p.2.1 p.2.2 := sum_comm
    _ = _ := by simp only [Fintype.sum_prod_type, Finset.sum_product]

/-- `e` is the matrix element of the first `n` sites of the operator chain `W` between the chain `O`, conjugated, and itself. -/
def BlkL (n : Nat) (e : Env3 K) (W : List (Ten (σ × σ) K)) (O : List (Ten σ K)) (d D : Nat) : Prop :=
  W.length = n ∧ O.length = n ∧ e.d0 = d ∧ e.d1 = D ∧ e.d2 = d ∧ ∀ a < d, ∀ c < D, ∀ b < d, e.v a c b =
    ∑ l : Fin n → σ, ∑ l' : Fin n → σ, star (amp O (List.ofFn l) 0 a) * amp W (List.zip (List.ofFn l) (List.ofFn l')) 0 c * amp O (List.ofFn l') 0 b

/-- The same from the right end. -/
def BlkR (n : Nat) (e : Env3 K) (W : List (Ten (σ × σ) K)) (O : List (Ten σ K)) (d D : Nat) : Prop :=
  W.length = n ∧ O.length = n ∧ e.d0 = d ∧ e.d1 = D ∧ e.d2 = d ∧ ∀ a < d, ∀ c < D, ∀ b < d, e.v a c b =
    ∑ l : Fin n → σ, ∑ l' : Fin n → σ, star (amp O (List.ofFn l) a 0) * amp W (List.zip (List.ofFn l) (List.ofFn l')) c 0 * amp O (List.ofFn l') b 0

theorem blkL_step {n : Nat} {e : Env3 K} {W : List (Ten (σ × σ) K)} {O : List (Ten σ K)} {w : Ten (σ × σ) K} {t : Ten σ K} (h : BlkL n e W O t.l w.l)
    (lo : Linked (O ++ [t])) (lw : Linked (W ++ [w])) (io : InHead (O ++ [t]) 0) (iw : InHead (W ++ [w]) 0) :
    BlkL (n + 1) (siteLenv w e t) (W ++ [w]) (O ++ [t]) t.r w.r := by
  obtain ⟨hW, hO, h0, h1, h2, h⟩ := h
  refine ⟨by simp [hW], by simp [hO], rfl, rfl, rfl, fun a' ha c' hc b' hb => ?_⟩
  show ∑ s, ∑ s', ∑ a ∈ range e.d0, ∑ c ∈ range e.d1, ∑ b ∈ range e.d2, star (t.v s a a') * w.v (s, s') c c' * t.v s' b b' * e.v a c b = _
  rw [h0, h1, h2, sum_snoc]
  refine sum_congr rfl fun s _ => ?_
  conv_rhs => enter [2, l]; rw [sum_snoc]
  rw [sum_comm (s := univ (α := Fin n → σ))]
  refine sum_congr rfl fun s' _ => ?_
  have e1 : ∀ l l' : Fin n → σ, star (amp (O ++ [t]) (List.ofFn (Fin.snoc l s : Fin (n + 1) → σ)) 0 a') *
      amp (W ++ [w]) (List.zip (List.ofFn (Fin.snoc l s : Fin (n + 1) → σ)) (List.ofFn (Fin.snoc l' s' : Fin (n + 1) → σ))) 0 c' *
      amp (O ++ [t]) (List.ofFn (Fin.snoc l' s' : Fin (n + 1) → σ)) 0 b' =
      ∑ a ∈ range t.l, ∑ c ∈ range w.l, ∑ b ∈ range t.l, star (t.v s a a') * w.v (s, s') c c' * t.v s' b b' *
        (star (amp O (List.ofFn l) 0 a) * amp W (List.zip (List.ofFn l) (List.ofFn l')) 0 c * amp O (List.ofFn l') 0 b) := by
    intro l l'
    rw [ofFn_snoc', ofFn_snoc', List.zip_append (by simp), amp_snoc t s a' ha O _ 0 (by simp [hO]) lo io,
      amp_snoc t s' b' hb O _ 0 (by simp [hO]) lo io, show List.zip [s] [s'] = [(s, s')] from rfl,
      amp_snoc w (s, s') c' hc W _ 0 (by simp [hW]) lw iw, star_sum, Finset.sum_mul_sum, Finset.sum_mul]
    refine sum_congr rfl fun a _ => ?_
    rw [Finset.sum_mul_sum]
    refine sum_congr rfl fun c _ => sum_congr rfl fun b _ => ?_
    rw [star_mul']; ring
  rw [sum_congr rfl fun l _ => sum_congr rfl fun l' _ => e1 l l']
  rw [pull3]
  refine sum_congr rfl fun a ha => sum_congr rfl fun c hc => sum_congr rfl fun b hb => ?_
  rw [h a (mem_range.mp ha) c (mem_range.mp hc) b (mem_range.mp hb), Finset.mul_sum]
  exact sum_congr rfl fun l _ => by rw [Finset.mul_sum]

theorem blkR_step {n : Nat} {e : Env3 K} {W : List (Ten (σ × σ) K)} {O : List (Ten σ K)} {w : Ten (σ × σ) K} {t : Ten σ K} (h : BlkR n e W O t.r w.r) :
    BlkR (n + 1) (siteRenv w e t) (w :: W) (t :: O) t.l w.l := by
  obtain ⟨hW, hO, h0, h1, h2, h⟩ := h
  refine ⟨by simp [hW], by simp [hO], rfl, rfl, rfl, fun a' ha c' hc b' hb => ?_⟩
  show ∑ s, ∑ s', ∑ a ∈ range e.d0, ∑ c ∈ range e.d1, ∑ b ∈ range e.d2, star (t.v s a' a) * w.v (s, s') c' c * t.v s' b' b * e.v a c b = _
  rw [h0, h1, h2, sum_cons]
  refine sum_congr rfl fun s _ => ?_
  conv_rhs => enter [2, l]; rw [sum_cons]
  rw [sum_comm (s := univ (α := Fin n → σ))]
  refine sum_congr rfl fun s' _ => ?_
  have e1 : ∀ l l' : Fin n → σ, star (amp (t :: O) (List.ofFn (Fin.cons s l : Fin (n + 1) → σ)) a' 0) *
      amp (w :: W) (List.zip (List.ofFn (Fin.cons s l : Fin (n + 1) → σ)) (List.ofFn (Fin.cons s' l' : Fin (n + 1) → σ))) c' 0 *
      amp (t :: O) (List.ofFn (Fin.cons s' l' : Fin (n + 1) → σ)) b' 0 =
      ∑ a ∈ range t.r, ∑ c ∈ range w.r, ∑ b ∈ range t.r, star (t.v s a' a) * w.v (s, s') c' c * t.v s' b' b *
        (star (amp O (List.ofFn l) a 0) * amp W (List.zip (List.ofFn l) (List.ofFn l')) c 0 * amp O (List.ofFn l') b 0) := by
    intro l l'
    rw [List.ofFn_cons, List.ofFn_cons, List.zip_cons_cons, amp_cons, amp_cons, amp_cons, star_sum, Finset.sum_mul_sum, Finset.sum_mul]
    refine sum_congr rfl fun a _ => ?_
    rw [Finset.sum_mul_sum]
    refine sum_congr rfl fun c _ => sum_congr rfl fun b _ => ?_
    rw [star_mul']; ring
  rw [sum_congr rfl fun l _ => sum_congr rfl fun l' _ => e1 l l']
  rw [pull3]
  refine sum_congr rfl fun a ha => sum_congr rfl fun c hc => sum_congr rfl fun b hb => ?_
  rw [h a (mem_range.mp ha) c (mem_range.mp hc) b (mem_range.mp hb), Finset.mul_sum]
  exact sum_congr rfl fun l _ => by rw [Finset.mul_sum]

/-- The amplitude of a word in the state made of the block `X` between the chains `L` (of length `n`) and `R`. -/
def bamp (n : Nat) (L R : List (Ten σ K)) (X : Blk2 σ K) (ws : List σ) : K :=
  match ws.drop n with
  | x :: y :: r => ∑ a ∈ range X.l, ∑ b ∈ range X.r, amp L (ws.take n) 0 a * X.v x y a b * amp R r b 0
  | _ => 0

omit [StarRing K] [Fintype σ] in
theorem bamp_eq {n : Nat} (L R : List (Ten σ K)) (X : Blk2 σ K) {l r : List σ} (x y : σ) (h : l.length = n) :
    bamp n L R X (l ++ x :: y :: r) = ∑ a ∈ range X.l, ∑ b ∈ range X.r, amp L l 0 a * X.v x y a b * amp R r b 0 := by
  unfold bamp
  rw [← h]
  simp

theorem sum_words_two {M : Type} [AddCommMonoid M] {n m N : Nat} (h : N = n + (m + 2)) (f : List σ → M) :
    ∑ s : Fin N → σ, f (List.ofFn s) = ∑ l : Fin n → σ, ∑ x, ∑ y, ∑ r : Fin m → σ, f (List.ofFn l ++ x :: y :: List.ofFn r) := by
  rw [sum_words_split (m + 2) n N h f]
  refine sum_congr rfl fun l _ => ?_
  rw [sum_cons]
  refine sum_congr rfl fun x _ => ?_
  rw [sum_cons]
  refine sum_congr rfl fun y _ => sum_congr rfl fun r _ => ?_
  rw [List.ofFn_cons, List.ofFn_cons]

omit [StarRing K] [Fintype σ] in
theorem amp_two {t u : Ten σ K} {A B : List (Ten σ K)} {sa sb : List σ} {x y : σ} (hs : sa.length = A.length) (hl : Linked (A ++ t :: u :: B))
    (hi : InHead (A ++ t :: u :: B) 0) :
    amp (A ++ t :: u :: B) (sa ++ x :: y :: sb) 0 0 =
      ∑ a ∈ range t.l, ∑ k ∈ range t.r, ∑ b ∈ range u.r, amp A sa 0 a * (t.v x a k * u.v y k b) * amp B sb b 0 := by
  rw [amp_append A sa _ 0 0 hs hl hi]
  refine sum_congr rfl fun a _ => ?_
  rw [amp_cons, Finset.mul_sum]
  refine sum_congr rfl fun k _ => ?_
  rw [amp_cons, Finset.mul_sum, Finset.mul_sum]
  exact sum_congr rfl fun b _ => by ring

omit [StarRing K] [Fintype σ] in
/-- A chain is the state of its merged pair. -/
theorem bamp_merge {n : Nat} {t u : Ten σ K} {A B : List (Ten σ K)} (hl : Linked (A ++ t :: u :: B)) (hi : InHead (A ++ t :: u :: B) 0) (hA : A.length = n)
    {ws : List σ} (hw : ws.length = n + (B.length + 2)) : bamp n A B (mergeTen t u) ws = amp (A ++ t :: u :: B) ws 0 0 := by
  obtain ⟨l, x, y, r, rfl, h⟩ : ∃ l x y r, ws = l ++ x :: y :: r ∧ l.length = n := by
    refine ⟨ws.take n, ws[n]'(by omega), ws[n + 1]'(by omega), ws.drop (n + 2), ?_, by simp; omega⟩
    rw [← List.drop_eq_getElem_cons, ← List.drop_eq_getElem_cons, List.take_append_drop]
  rw [bamp_eq A B _ x y h, amp_two (by omega) hl hi]
  refine sum_congr rfl fun a _ => ?_
  rw [sum_comm]
  refine sum_congr rfl fun b _ => ?_
  show _ * (∑ k ∈ range t.r, t.v x a k * u.v y k b) * _ = _
  rw [Finset.mul_sum, Finset.sum_mul]

omit [StarRing K] [Fintype σ] in
theorem sandwich {U V P Q : Type} [Fintype U] [Fintype V] [Fintype P] [Fintype Q] (f : U → P → K) (Z : P → Q → K) (g : V → Q → K) :
    ∑ u, ∑ v, ∑ p, ∑ q, f u p * Z p q * g v q = ∑ p, ∑ q, (∑ u, f u p) * Z p q * ∑ v, g v q := by
  rw [sum_congr rfl fun u _ => sum_comm, sum_comm]
  refine sum_congr rfl fun p _ => ?_
  rw [sum_congr rfl fun u _ => sum_comm, sum_comm]
  refine sum_congr rfl fun q _ => ?_
  rw [Finset.sum_mul, Finset.sum_mul]
  exact sum_congr rfl fun u _ => by rw [Finset.mul_sum]

theorem reorder8 {M A B C : Type} [AddCommMonoid M] [Fintype A] [Fintype B] [Fintype C] (F : A → B → B → C → A → B → B → C → M) :
    ∑ l, ∑ x, ∑ y, ∑ r, ∑ l', ∑ x', ∑ y', ∑ r', F l x y r l' x' y' r' =
      ∑ z : B × B × B × B, ∑ u : A × A, ∑ v : C × C, F u.1 z.1 z.2.1 v.1 u.2 z.2.2.1 z.2.2.2 v.2 := by
  simp only [← Fintype.sum_prod_type']
  exact Fintype.sum_equiv (ι := A × B × B × C × A × B × B × C) (κ := (B × B × B × B) × (A × A) × C × C)
    ⟨fun i => ((i.2.1, i.2.2.1, i.2.2.2.2.2.1, i.2.2.2.2.2.2.1), (i.1, i.2.2.2.2.1), (i.2.2.2.1, i.2.2.2.2.2.2.2)),
    fun j => (j.2.1.1, j.1.1, j.1.2.1, j.2.2.1, j.2.1.2, j.1.2.2.1, j.1.2.2.2, j.2.2.2), fun _ => rfl, fun _ => rfl⟩ _ _ fun _ => rfl

omit [StarRing K] [Fintype σ] in
theorem prod3 {A B C D : Type} [Fintype A] [Fintype B] [Fintype C] [Fintype D] (f : A → B → K) (g : C → D → K) (h : A → B → K) :
    (∑ a, ∑ b, f a b) * (∑ c, ∑ d, g c d) * (∑ a, ∑ b, h a b) = ∑ p : A × C × A, ∑ q : B × D × B, f p.1 q.1 * g p.2.1 q.2.1 * h p.2.2 q.2.2 := by
  simp only [← Fintype.sum_prod_type', Fintype.sum_mul_sum]
  exact Fintype.sum_equiv (ι := ((A × B) × C × D) × A × B) (κ := (A × C × A) × B × D × B)
    ⟨fun i => ((i.1.1.1, i.1.2.1, i.2.1), (i.1.1.2, i.1.2.2, i.2.2)), fun j => (((j.1.1, j.2.1), (j.1.2.1, j.2.2.1)), (j.1.2.2, j.2.2.2)),
      fun _ => rfl, fun _ => rfl⟩ _ _ fun _ => rfl

/-- **The effective Hamiltonian**: its matrix elements are those of the operator between the states of the two blocks. -/
theorem bamp_elem {n m N : Nat} {e f : Env3 K} {WL WR : List (Ten (σ × σ) K)} {w1 w2 : Ten (σ × σ) K} {L R : List (Ten σ K)} {X Y : Blk2 σ K}
    (hN : N = n + (m + 2)) (he : BlkL n e WL L X.l w1.l) (hf : BlkR m f WR R X.r w2.r) (hl : Y.l = X.l) (hr : Y.r = X.r)
    (lw : Linked (WL ++ w1 :: w2 :: WR)) (iw : InHead (WL ++ w1 :: w2 :: WR) 0) :
    ∑ s : Fin N → σ, ∑ s' : Fin N → σ, star (bamp n L R X (List.ofFn s)) * amp (WL ++ w1 :: w2 :: WR) (List.zip (List.ofFn s) (List.ofFn s')) 0 0 *
      bamp n L R Y (List.ofFn s') =
    ∑ i : Fin X.l × σ × σ × Fin X.r, ∑ j : Fin X.l × σ × σ × Fin X.r, star (X.v i.2.1 i.2.2.1 i.1 i.2.2.2) *
      effCoef e f w1 w2 i.1 i.2.1 i.2.2.1 i.2.2.2 j.1 j.2.1 j.2.2.1 j.2.2.2 * Y.v j.2.1 j.2.2.1 j.1 j.2.2.2 := by
  obtain ⟨hW, hL, e0, e1, e2, he⟩ := he
  obtain ⟨hW', hR, f0, f1, f2, hf⟩ := hf
  have h1 : ∀ s : Fin N → σ, ∑ s' : Fin N → σ, star (bamp n L R X (List.ofFn s)) * amp (WL ++ w1 :: w2 :: WR) (List.zip (List.ofFn s) (List.ofFn s')) 0 0 *
      bamp n L R Y (List.ofFn s') = _ := fun s => sum_words_two hN (fun ws' => star (bamp n L R X (List.ofFn s)) *
        amp (WL ++ w1 :: w2 :: WR) (List.zip (List.ofFn s) ws') 0 0 * bamp n L R Y ws')
  rw [sum_congr rfl fun s _ => h1 s]
  rw [sum_words_two hN (fun ws => ∑ l' : Fin n → σ, ∑ x', ∑ y', ∑ r' : Fin m → σ, star (bamp n L R X ws) *
        amp (WL ++ w1 :: w2 :: WR) (List.zip ws (List.ofFn l' ++ x' :: y' :: List.ofFn r')) 0 0 * bamp n L R Y (List.ofFn l' ++ x' :: y' :: List.ofFn r'))]
  rw [reorder8]
  have key : ∀ z : σ × σ × σ × σ, ∀ (u : (Fin n → σ) × (Fin n → σ)) (v : (Fin m → σ) × (Fin m → σ)),
      star (bamp n L R X (List.ofFn u.1 ++ z.1 :: z.2.1 :: List.ofFn v.1)) *
        amp (WL ++ w1 :: w2 :: WR) (List.zip (List.ofFn u.1 ++ z.1 :: z.2.1 :: List.ofFn v.1) (List.ofFn u.2 ++ z.2.2.1 :: z.2.2.2 :: List.ofFn v.2)) 0 0 *
        bamp n L R Y (List.ofFn u.2 ++ z.2.2.1 :: z.2.2.2 :: List.ofFn v.2) =
      ∑ p : Fin X.l × Fin w1.l × Fin X.l, ∑ q : Fin X.r × Fin w2.r × Fin X.r,
        (star (amp L (List.ofFn u.1) 0 p.1) * amp WL (List.zip (List.ofFn u.1) (List.ofFn u.2)) 0 p.2.1 * amp L (List.ofFn u.2) 0 p.2.2) *
        (star (X.v z.1 z.2.1 p.1 q.1) * (∑ c2 ∈ range w1.r, w1.v (z.1, z.2.2.1) p.2.1 c2 * w2.v (z.2.1, z.2.2.2) c2 q.2.1) * Y.v z.2.2.1 z.2.2.2 p.2.2 q.2.2) *
        (star (amp R (List.ofFn v.1) q.1 0) * amp WR (List.zip (List.ofFn v.1) (List.ofFn v.2)) q.2.1 0 * amp R (List.ofFn v.2) q.2.2 0) := by
    intro z u v
    rw [bamp_eq L R X _ _ (by simp), bamp_eq L R Y _ _ (by simp), List.zip_append (by simp), List.zip_cons_cons, List.zip_cons_cons,
      amp_two (by simp [hW]) lw iw, hl, hr, star_sum]
    have g1 : ∀ a ∈ range w1.l, ∑ k ∈ range w1.r, ∑ b ∈ range w2.r, amp WL (List.zip (List.ofFn u.1) (List.ofFn u.2)) 0 a *
        (w1.v (z.1, z.2.2.1) a k * w2.v (z.2.1, z.2.2.2) k b) * amp WR (List.zip (List.ofFn v.1) (List.ofFn v.2)) b 0 =
        ∑ b ∈ range w2.r, amp WL (List.zip (List.ofFn u.1) (List.ofFn u.2)) 0 a *
          (∑ k ∈ range w1.r, w1.v (z.1, z.2.2.1) a k * w2.v (z.2.1, z.2.2.2) k b) * amp WR (List.zip (List.ofFn v.1) (List.ofFn v.2)) b 0 := by
      intro a _
      rw [sum_comm]
      refine sum_congr rfl fun b _ => ?_
      rw [Finset.mul_sum, Finset.sum_mul]
    rw [sum_congr rfl g1]
    simp only [star_sum]
    rw [Finset.sum_range, sum_congr rfl fun (a : Fin X.l) _ => Finset.sum_range (M := K) _, Finset.sum_range (n := w1.l),
      sum_congr rfl fun (a : Fin w1.l) _ => Finset.sum_range (M := K) _, Finset.sum_range (n := X.l),
      sum_congr rfl fun (a : Fin X.l) _ => Finset.sum_range (M := K) (n := X.r) _, prod3]
    refine sum_congr rfl fun p _ => sum_congr rfl fun q _ => ?_
    rw [star_mul', star_mul']; ring
  rw [sum_congr rfl fun z _ => (sum_congr rfl fun u _ => sum_congr rfl fun v _ => key z u v).trans (sandwich _ _ _)]
  have g2 : ∀ (z : σ × σ × σ × σ) (p : Fin X.l × Fin w1.l × Fin X.l) (q : Fin X.r × Fin w2.r × Fin X.r),
      (∑ u : (Fin n → σ) × (Fin n → σ), star (amp L (List.ofFn u.1) 0 p.1) * amp WL (List.zip (List.ofFn u.1) (List.ofFn u.2)) 0 p.2.1 * amp L (List.ofFn u.2) 0 p.2.2) *
        (star (X.v z.1 z.2.1 p.1 q.1) * (∑ c2 ∈ range w1.r, w1.v (z.1, z.2.2.1) p.2.1 c2 * w2.v (z.2.1, z.2.2.2) c2 q.2.1) * Y.v z.2.2.1 z.2.2.2 p.2.2 q.2.2) *
        (∑ v : (Fin m → σ) × (Fin m → σ), star (amp R (List.ofFn v.1) q.1 0) * amp WR (List.zip (List.ofFn v.1) (List.ofFn v.2)) q.2.1 0 * amp R (List.ofFn v.2) q.2.2 0) =
      star (X.v z.1 z.2.1 p.1 q.1) * (e.v p.1 p.2.1 p.2.2 * (∑ c2 ∈ range w1.r, w1.v (z.1, z.2.2.1) p.2.1 c2 * w2.v (z.2.1, z.2.2.2) c2 q.2.1) * f.v q.1 q.2.1 q.2.2) *
        Y.v z.2.2.1 z.2.2.2 p.2.2 q.2.2 := by
    intro z p q
    rw [he _ p.1.2 _ p.2.1.2 _ p.2.2.2, hf _ q.1.2 _ q.2.1.2 _ q.2.2.2, Fintype.sum_prod_type, Fintype.sum_prod_type]
    ring
  rw [sum_congr rfl fun z _ => sum_congr rfl fun p _ => sum_congr rfl fun q _ => g2 z p q]
  have g3 : ∀ i j : Fin X.l × σ × σ × Fin X.r, star (X.v i.2.1 i.2.2.1 i.1 i.2.2.2) *
      effCoef e f w1 w2 i.1 i.2.1 i.2.2.1 i.2.2.2 j.1 j.2.1 j.2.2.1 j.2.2.2 * Y.v j.2.1 j.2.2.1 j.1 j.2.2.2 =
      ∑ c1 : Fin w1.l, ∑ c3 : Fin w2.r, star (X.v i.2.1 i.2.2.1 i.1 i.2.2.2) * (e.v i.1 c1 j.1 *
        (∑ c2 ∈ range w1.r, w1.v (i.2.1, j.2.1) c1 c2 * w2.v (i.2.2.1, j.2.2.1) c2 c3) * f.v i.2.2.2 c3 j.2.2.2) * Y.v j.2.1 j.2.2.1 j.1 j.2.2.2 := by
    intro i j
    rw [effCoef, e1, f1, Finset.sum_range, Finset.mul_sum, Finset.sum_mul]
    refine sum_congr rfl fun c1 _ => ?_
    rw [sum_comm, Finset.sum_range, Finset.mul_sum, Finset.sum_mul]
    refine sum_congr rfl fun c3 _ => ?_
    congr 2
    rw [Finset.mul_sum, Finset.sum_mul]
    exact sum_congr rfl fun c2 _ => by ring
  rw [sum_congr rfl fun i _ => sum_congr rfl fun j _ => g3 i j]
  simp only [← Fintype.sum_prod_type']
  exact Fintype.sum_equiv (ι := (σ × σ × σ × σ) × (Fin X.l × Fin w1.l × Fin X.l) × Fin X.r × Fin w2.r × Fin X.r)
    (κ := (Fin X.l × σ × σ × Fin X.r) × (Fin X.l × σ × σ × Fin X.r) × Fin w1.l × Fin w2.r)
    ⟨fun i => ((i.2.1.1, i.1.1, i.1.2.1, i.2.2.1), (i.2.1.2.2, i.1.2.2.1, i.1.2.2.2, i.2.2.2.2), i.2.1.2.1, i.2.2.2.1),
      fun j => ((j.1.2.1, j.1.2.2.1, j.2.1.2.1, j.2.1.2.2.1), (j.1.1, j.2.2.1, j.2.1.1), (j.1.2.2.2, j.2.2.2, j.2.1.2.2.2)),
      fun _ => rfl, fun _ => rfl⟩ _ _ fun _ => rfl

end Verif.Mps
