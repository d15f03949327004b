import Verif.Mpo.Models
import Verif.Mpo.PropFacts
import Verif.Mpo.InstFacts
/-
The predefined Hamiltonian terms as histories of `AddTerm` calls.
-/
namespace Verif.Mpo
open SparMat NullElem
variable {d : Nat} {K : Type} [Field K] [DecidableEq K] [GenTypes K (Op d K)]

/-- Site by site: `a` on `i`, `b` on `j`, `f` strictly between, the identity elsewhere. -/
def strF (i j : Nat) (a f b : Op d K) (s : Nat) : Op d K :=
  if s = i then a else if s = j then b else if i < s ∧ s < j then f else idOp

/-- The call made for a two-operator term with a string between. -/
def strCall (coef : K) (i j : Nat) (a f b : Op d K) : Call K (Op d K) :=
  ⟨coef, a :: (List.replicate (j - (i + 1)) f ++ [b]), i :: (List.range' (i + 1) (j - (i + 1)) ++ [j])⟩

theorem addTermInst_two (g : Generator K (Op d K)) (coef : K) {i j : Nat} (a f b : Op d K) :
    g.addTermInst coef [(i, a), (j, b)] [f] none =
      g.addTerm (strCall coef i j a f b).coef (strCall coef i j a f b).ops (strCall coef i j a f b).idxs := by
  unfold Generator.addTermInst
  rw [instList_none _ _ _ (by simp) (by simp)]
  show g.addTerm coef _ _ = _
  have hseg : (List.range ([(i, a), (j, b)].length - 1)).map (gapSeg [(i, a), (j, b)] [f]) =
      [(List.range' (i + 1) (j - (i + 1))).map (fun k => (k, f))] := rfl
  rw [hseg]
  simp only [inter, strCall, List.map_append, List.map_cons, List.map_map, List.cons_append, List.map_nil]
  congr 2
  · congr 1
    rw [show ((fun x : Nat × Op d K => x.2) ∘ fun k => (k, f)) = fun _ => f from rfl, List.map_const', List.length_range']
  · rw [show ((fun x : Nat × Op d K => x.1) ∘ fun k => (k, f)) = id from rfl, List.map_id]

theorem strCall_valid (coef : K) {i j N : Nat} (a f b : Op d K) (hij : i < j) (hj : j < N) : (strCall coef i j a f b).Valid N := by
  have e : i :: (List.range' (i + 1) (j - (i + 1)) ++ [j]) = List.range' i (j + 1 - i) := by
    rw [show j + 1 - i = (j - (i + 1) + 1) + 1 by omega, List.range'_succ, List.range'_concat]
    simp; omega
  refine ⟨by simp [strCall], by simp [strCall], ?_, ?_⟩
  · show (i :: (List.range' (i + 1) (j - (i + 1)) ++ [j])).Nodup
    rw [e]; exact List.nodup_range'
  · intro s hs
    have hs : s ∈ i :: (List.range' (i + 1) (j - (i + 1)) ++ [j]) := hs
    rw [e, List.mem_range'_1] at hs
    omega

theorem zip_replicate_range' {α : Type} (f : α) (a n : Nat) : (List.range' a n).zip (List.replicate n f) = (List.range' a n).map (fun k => (k, f)) := by
  induction n generalizing a with
  | zero => rfl
  | succ n ih => rw [List.range'_succ, List.replicate_succ, List.zip_cons_cons, ih, List.map_cons]

theorem strCall_val (v : Vals K K (Op d K)) (coef : K) {i j N : Nat} (a f b : Op d K) (hij : i < j) (hj : j < N) :
    termVal v (uniformIds d N) (strCall coef i j a f b) = v.cval coef * ∏ s ∈ Finset.range N, v.tval s (strF i j a f b s) := by
  have hlen : (uniformIds d N : List (Op d K)).length = N := by simp [uniformIds]
  have := termVal_of_fun v (uniformIds d N) (strCall coef i j a f b) (by rw [hlen]; exact strCall_valid coef a f b hij hj) (strF i j a f b) ?_ ?_
  · rw [this, hlen]; rfl
  · intro p hp
    have hz : (strCall coef i j a f b).idxs.zip (strCall coef i j a f b).ops =
        (i, a) :: ((List.range' (i + 1) (j - (i + 1))).map (fun k => (k, f)) ++ [(j, b)]) := by
      simp only [strCall, List.zip_cons_cons]
      rw [List.zip_append (by simp), zip_replicate_range']
      rfl
    rw [hz] at hp
    rcases List.mem_cons.1 hp with rfl | hp
    · simp [strF]
    · rcases List.mem_append.1 hp with hp | hp
      · obtain ⟨k, hk, rfl⟩ := List.mem_map.1 hp
        rw [List.mem_range'_1] at hk
        unfold strF
        rw [if_neg (by simp; omega), if_neg (by simp; omega), if_pos (by simp; omega)]
      · simp at hp; subst hp
        unfold strF
        rw [if_neg (by simp; omega), if_pos rfl]
  · intro s hs hns
    rw [hlen] at hs
    simp only [strCall, List.mem_cons, List.mem_append, List.mem_range'_1, List.mem_nil_iff, or_false, not_or] at hns
    unfold strF
    rw [if_neg hns.1, if_neg hns.2.2, if_neg (by omega)]
    simp [uniformIds, hs]

theorem strCall_div {Q : Type} [AddCommMonoid Q] (tdiv : Op d K → Q) (coef : K) (i j : Nat) (a f b : Op d K) (hf : tdiv f = 0) :
    ((strCall coef i j a f b).ops.map tdiv).sum = tdiv a + tdiv b := by
  simp [strCall, hf]

/-- The meaning of the numbers between a column and a row basis state of the chain. -/
def opVals (h : ExactTypes d K) (x y : Nat → Fin d) : Vals K K (Op d K) where
  cval := id
  tval := fun s t => t (x s) (y s)
  one := h.one
  cneg := h.cneg
  tneg := fun s t => h.tneg t (x s) (y s)

/-- The four calls of `AddHubbardHoppingTerms`. -/
def hubHopCalls (o : HubOps K) (t : K) (i j : Nat) : List (Call K (Op 4 K)) :=
  [strCall (-t) (min i j) (max i j) o.bupcF o.f o.bupa, strCall t (min i j) (max i j) o.bupaF o.f o.bupc,
    strCall (-t) (min i j) (max i j) o.bdnc o.f o.Fbdna, strCall t (min i j) (max i j) o.bdna o.f o.Fbdnc]

theorem hubbardHop_calls [GenTypes K (Op 4 K)] (o : HubOps K) (g : Generator K (Op 4 K)) (t : K) {i j : Nat} (hij : i ≠ j) :
    addHubbardHopping o g t i j = (hubHopCalls o t i j).foldlM (fun g c => g.addTerm c.coef c.ops c.idxs) g := by
  have h2 : ∀ (g : Generator K (Op 4 K)) (c : K) (a b : Op 4 K), g.addTerm2 c a (min i j) (some b) (max i j) (some o.f) [] =
      g.addTerm (strCall c (min i j) (max i j) a o.f b).coef (strCall c (min i j) (max i j) a o.f b).ops
        (strCall c (min i j) (max i j) a o.f b).idxs := by
    intro g c a b
    rw [← addTermInst_two]
    simp only [Generator.addTerm2]
    rw [if_neg (by omega), if_pos trivial, if_neg (by omega)]
  unfold addHubbardHopping hubHopCalls
  simp only [h2, List.foldlM_cons, List.foldlM_nil]
  simp

/-- The amplitude of the term that moves a particle from the right to the left site. -/
def tjT0 [StarRing K] (t : K) (i j : Nat) : K := if i < j then t else star t

/-- The four calls of `AddTJHoppingTerms`. -/
def tjHopCalls [StarRing K] (o : TjOps K) (t : K) (i j : Nat) : List (Call K (Op 3 K)) :=
  [strCall (-tjT0 t i j) (min i j) (max i j) o.bupc o.f o.bupa, strCall (-tjT0 t i j) (min i j) (max i j) o.bdnc o.f o.bdna,
    strCall (-star (tjT0 t i j)) (min i j) (max i j) o.bupa o.f o.bupc, strCall (-star (tjT0 t i j)) (min i j) (max i j) o.bdna o.f o.bdnc]

theorem tjHop_calls [StarRing K] [GenTypes K (Op 3 K)] (o : TjOps K) (g : Generator K (Op 3 K)) (t : K) {i j : Nat} (hij : i ≠ j) :
    addTJHopping o g t i j = (tjHopCalls o t i j).foldlM (fun g c => g.addTerm c.coef c.ops c.idxs) g := by
  have h0 : (if i < j then .ok t else if j < i then .ok (star t) else .error .exitFail : Except Err K) = .ok (tjT0 t i j) := by
    unfold tjT0
    by_cases h : i < j
    · rw [if_pos h, if_pos h]
    · rw [if_neg h, if_neg h, if_pos (by omega)]
  unfold addTJHopping tjHopCalls
  rw [h0]
  simp only [addTermInst_two, List.foldlM_cons, List.foldlM_nil, bind_pure]
  rfl

/-- Without insertion operator: the two-site call. -/
def pairCall (coef : K) (i j : Nat) (a b : Op d K) : Call K (Op d K) := ⟨coef, [a, b], [i, j]⟩

theorem pairCall_valid (coef : K) {i j N : Nat} (a b : Op d K) (hij : i ≠ j) (hi : i < N) (hj : j < N) : (pairCall coef i j a b).Valid N := by
  refine ⟨rfl, by simp [pairCall], by simp [pairCall]; omega, ?_⟩
  intro s hs
  simp [pairCall] at hs
  omega

theorem pairCall_val (v : Vals K K (Op d K)) (coef : K) {i j N : Nat} (a b : Op d K) (hij : i ≠ j) (hi : i < N) (hj : j < N) :
    termVal v (uniformIds d N) (pairCall coef i j a b) = v.cval coef * ∏ s ∈ Finset.range N, v.tval s (strF i j a idOp b s) := by
  have hlen : (uniformIds d N : List (Op d K)).length = N := by simp [uniformIds]
  have := termVal_of_fun v (uniformIds d N) (pairCall coef i j a b) (by rw [hlen]; exact pairCall_valid coef a b hij hi hj) (strF i j a idOp b) ?_ ?_
  · rw [this, hlen]; rfl
  · intro p hp
    simp [pairCall] at hp
    rcases hp with rfl | rfl
    · simp [strF]
    · unfold strF
      rw [if_neg (by simp; omega), if_pos rfl]
  · intro s hs hns
    rw [hlen] at hs
    simp [pairCall] at hns
    unfold strF
    rw [if_neg hns.1, if_neg hns.2]
    simp [uniformIds, hs]

/-- The three calls of `AddHeisenbergCoupling`. -/
def heisCalls (sz sp sm : Op d K) (J : K) (i j : Nat) : List (Call K (Op d K)) :=
  [pairCall J (min i j) (max i j) sz sz, pairCall (J / 2) (min i j) (max i j) sp sm, pairCall (J / 2) (min i j) (max i j) sm sp]

theorem heis_calls (sz sp sm : Op d K) (g : Generator K (Op d K)) (J : K) {i j : Nat} (hij : i ≠ j) :
    addHeisenberg sz sp sm g J i j = (heisCalls sz sp sm J i j).foldlM (fun g c => g.addTerm c.coef c.ops c.idxs) g := by
  unfold addHeisenberg heisCalls
  rw [if_neg hij]
  simp [pairCall]

end Verif.Mpo
