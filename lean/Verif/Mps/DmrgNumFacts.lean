import Verif.Mps.DmrgNum
import Verif.Mps.VmpsRun
/-
The block operators of the DMRG executor are the components of the environments of the two-site optimisation, and the super-block Hamiltonian is the
effective Hamiltonian (helper facts, not property statements).
-/
namespace Verif.Mps
open Finset Verif.Disk Verif.Algo

/-- **Specification**: the dense MPO tensor of a matrix of operators; null entries are zero. -/
def OpMat.ten {σ K : Type} [Zero K] (m : OpMat σ K) : Ten (σ × σ) K := ⟨m.rows, m.cols, fun p a b => (m.e a b).elim 0 fun op => op p.2 p.1⟩

section
variable {σ K : Type} [CommRing K] [StarRing K] [Fintype σ]

/-- The components of an environment. -/
def grp (e : Env3 K) : List (Option (BOp K)) := (List.range e.d1).map fun c => some ⟨e.d0, fun ket bra => e.v bra c ket⟩

omit [CommRing K] [StarRing K] in
theorem grp_length (e : Env3 K) : (grp e).length = e.d1 := by simp [grp]

omit [CommRing K] [StarRing K] in
theorem comp_grp (e : Env3 K) {c : Nat} (h : c < e.d1) : comp (grp e) c = some ⟨e.d0, fun ket bra => e.v bra c ket⟩ := by
  unfold comp grp
  rw [List.getElem?_map, List.getElem?_range h]
  rfl

omit [StarRing K] [Fintype σ] in
theorem accum_sb (d : Nat) : ∀ (l : List (σ → σ → Nat → Nat → K)), l ≠ [] →
    accum SBOp.add (l.map fun f => some (⟨d, f⟩ : SBOp σ K)) = some ⟨d, fun i o a b => (l.map fun f => f i o a b).sum⟩
  | [], h => absurd rfl h
  | f :: l, _ => by
    have : ∀ (l : List (σ → σ → Nat → Nat → K)) (g : σ → σ → Nat → Nat → K),
        (l.map fun f => some (⟨d, f⟩ : SBOp σ K)).foldl (fun a b => a.bind fun a => b.bind (SBOp.add a)) (some ⟨d, g⟩) =
          some ⟨d, fun i o a b => g i o a b + (l.map fun f => f i o a b).sum⟩ := by
      intro l
      induction l with
      | nil => intro g; simp
      | cons f l ih =>
        intro g
        rw [List.map_cons, List.foldl_cons]
        simp only [Option.bind_some, SBOp.add, if_true]
        rw [ih]
        simp [add_assoc]
    rw [List.map_cons, accum, this]
    simp

omit [StarRing K] [Fintype σ] in
theorem sum_filterMap {α β : Type} (f : α → Option β) (g : β → K) : ∀ (l : List α), ((l.filterMap f).map g).sum = (l.map fun a => (f a).elim 0 g).sum
  | [] => rfl
  | a :: l => by
    have ih := sum_filterMap f g l
    cases h : f a with
    | none => rw [List.filterMap_cons_none h, ih]; simp [h]
    | some b => rw [List.filterMap_cons_some h, List.map_cons, List.sum_cons, ih]; simp [h]

omit [StarRing K] in
theorem listsum_range (n : Nat) (f : Nat → K) : ((List.range n).map f).sum = ∑ i ∈ range n, f i := by
  induction n with
  | zero => rfl
  | succ n ih => rw [List.range_succ, List.map_append, List.sum_append, ih, Finset.sum_range_succ]; simp

omit [StarRing K] [Fintype σ] in
/-- A line of the matrix against the components of an environment. -/
theorem line_sum (n : Nat) (q : Nat → Option (σ → σ → K)) (e : Env3 K) (hn : e.d1 = n) (hq : ∃ c, c < n ∧ (q c).isSome) :
    accum SBOp.add ((List.range n).filterMap fun c => (q c).map fun op => (comp (grp e) c).map (outer op)) =
      some ⟨e.d0, fun i o ket bra => ∑ c ∈ range n, ((q c).elim 0 fun op => op i o) * e.v bra c ket⟩ := by
  have e1 : ((List.range n).filterMap fun c => (q c).map fun op => (comp (grp e) c).map (outer op)) =
      ((List.range n).filterMap fun c => (q c).map fun op => (fun (i o : σ) (a b : Nat) => op i o * e.v b c a)).map fun f => some (⟨e.d0, f⟩ : SBOp σ K) := by
    rw [List.map_filterMap]
    refine List.filterMap_congr fun c hc => ?_
    rw [comp_grp e (by rw [hn]; simpa using hc)]
    cases q c <;> rfl
  rw [e1, accum_sb]
  · congr 2
    funext i o ket bra
    rw [sum_filterMap, listsum_range]
    refine sum_congr rfl fun c _ => ?_
    cases q c <;> simp
  · obtain ⟨c, hc, hs⟩ := hq
    obtain ⟨op, ho⟩ := Option.isSome_iff_exists.1 hs
    exact List.ne_nil_of_mem (List.mem_filterMap.2 ⟨c, List.mem_range.2 hc, by rw [ho]; rfl⟩)

/-- Growing the right block operators. -/
theorem updRight_grp {m : OpMat σ K} {e : Env3 K} {t : Ten σ K} (h0 : e.d0 = t.r) (h2 : e.d2 = t.r) (h1 : e.d1 = m.cols)
    (hf : ∀ a, a < m.rows → ∃ b, b < m.cols ∧ (m.e a b).isSome) : updRightOps m (grp e) t = grp (siteRenv m.ten e t) := by
  unfold updRightOps
  show _ = (List.range m.rows).map _
  refine List.map_congr_left fun row hr => ?_
  unfold siteBlockOp
  rw [line_sum m.cols (m.e row) e h1 (hf row (by simpa using hr))]
  simp only [Option.bind_some, absorbR, if_pos h0]
  show some (BOp.mk t.l _) = some (BOp.mk t.l _)
  congr 2
  funext ket bra
  show _ = ∑ s, ∑ s', ∑ a' ∈ range e.d0, ∑ c' ∈ range e.d1, ∑ b' ∈ range e.d2, star (t.v s bra a') * m.ten.v (s, s') row c' * t.v s' ket b' * e.v a' c' b'
  rw [h0, h1, h2]
  simp only [Finset.mul_sum, Finset.sum_mul]
  refine sum_congr rfl fun o _ => ?_
  rw [sum_congr rfl fun b _ => Finset.sum_congr rfl fun i _ => Finset.sum_comm]
  rw [Finset.sum_comm]
  refine sum_congr rfl fun i _ => sum_congr rfl fun b _ => sum_congr rfl fun c _ => sum_congr rfl fun a _ => ?_
  show _ = star (t.v o bra b) * ((m.e row c).elim 0 fun op => op i o) * t.v i ket a * e.v b c a
  ring

/-- Growing the left block operators. -/
theorem updLeft_grp {m : OpMat σ K} {e : Env3 K} {t : Ten σ K} (h0 : e.d0 = t.l) (h2 : e.d2 = t.l) (h1 : e.d1 = m.rows)
    (hf : ∀ b, b < m.cols → ∃ a, a < m.rows ∧ (m.e a b).isSome) : updLeftOps m (grp e) t = grp (siteLenv m.ten e t) := by
  unfold updLeftOps
  show _ = (List.range m.cols).map _
  refine List.map_congr_left fun col hr => ?_
  unfold blockSiteOp
  rw [line_sum m.rows (fun a => m.e a col) e h1 (hf col (by simpa using hr))]
  simp only [Option.bind_some, absorbL, if_pos h0]
  show some (BOp.mk t.r _) = some (BOp.mk t.r _)
  congr 2
  funext ket bra
  show _ = ∑ s, ∑ s', ∑ a ∈ range e.d0, ∑ c ∈ range e.d1, ∑ b ∈ range e.d2, star (t.v s a bra) * m.ten.v (s, s') c col * t.v s' b ket * e.v a c b
  rw [h0, h1, h2]
  simp only [Finset.mul_sum, Finset.sum_mul]
  refine sum_congr rfl fun o _ => ?_
  rw [sum_congr rfl fun b _ => Finset.sum_congr rfl fun i _ => Finset.sum_comm]
  rw [Finset.sum_comm]
  refine sum_congr rfl fun i _ => sum_congr rfl fun b _ => sum_congr rfl fun c _ => sum_congr rfl fun a _ => ?_
  show _ = star (t.v o b bra) * ((m.e c col).elim 0 fun op => op i o) * t.v i a ket * e.v b c a
  ring

end

section ham
variable {σ 𝕜 : Type} [RCLike 𝕜] [Fintype σ] [DecidableEq σ]

theorem accum_add {M : Type} [AddCommMonoid M] : ∀ (l : List M), l ≠ [] → accum (fun f g : M => some (f + g)) (l.map some) = some l.sum
  | [], h => absurd rfl h
  | f :: l, _ => by
    have : ∀ (l : List M) (g : M), (l.map some).foldl (fun a b => a.bind fun a => b.bind fun b => some (a + b)) (some g) = some (g + l.sum) := by
      intro l
      induction l with
      | nil => intro g; simp
      | cons f l ih =>
        intro g
        rw [List.map_cons, List.foldl_cons]
        simp only [Option.bind_some]
        rw [ih]
        simp [add_assoc]
    rw [List.map_cons, accum]
    exact (this l f).trans (by simp)

theorem list_sum_apply {X Y : Type} (l : List ((X → 𝕜) →ₗ[𝕜] (Y → 𝕜))) (v : X → 𝕜) (p : Y) : l.sum v p = (l.map fun f => f v p).sum := by
  induction l with
  | nil => rfl
  | cons f l ih => rw [List.sum_cons, List.map_cons, List.sum_cons, LinearMap.add_apply, Pi.add_apply, ih]

/-- The left half for one state of the middle bond. -/
theorem blockSite_grp {m : OpMat σ 𝕜} {e : Env3 𝕜} {l r : Nat} (h0 : e.d0 = l) (h1 : e.d1 = m.rows) {j : Nat} (hf : ∃ a, a < m.rows ∧ (m.e a j).isSome) :
    ∃ f, blockSiteMul l r ((List.range (grp e).length).filterMap (fun i => (m.e i j).map fun op => (comp (grp e) i, op))) = some f ∧
      ∀ v y b a x, f v (y, b, a, x) = ∑ c ∈ range e.d1, ∑ x', ∑ a' : Fin l, m.ten.v (x, x') c j * e.v a c a' * v (a', x', y, b) := by
  have e1 : (((List.range (grp e).length).filterMap (fun i => (m.e i j).map fun op => (comp (grp e) i, op))).map fun x =>
      (x.1.bind fun o => o.on l).map fun o => (rot (𝕜 := 𝕜) (A := σ) (B := σ) (C := Fin r) (D := Fin l) x.2).comp (rot (B := σ) (C := σ) (D := Fin r) o)) =
      ((List.range e.d1).filterMap fun c => (m.e c j).map fun op => (rot (𝕜 := 𝕜) (A := σ) (B := σ) (C := Fin r) (D := Fin l) op).comp
        (rot (B := σ) (C := σ) (D := Fin r) fun a b : Fin l => e.v b c a)).map some := by
    rw [grp_length, List.map_filterMap, List.map_filterMap]
    refine List.filterMap_congr fun c hc => ?_
    rw [comp_grp e (by simpa using hc)]
    cases m.e c j with
    | none => rfl
    | some op => simp [BOp.on, h0]
  unfold blockSiteMul
  rw [e1, accum_add]
  · refine ⟨_, rfl, fun v y b a x => ?_⟩
    rw [list_sum_apply, sum_filterMap, listsum_range]
    refine sum_congr rfl fun c _ => ?_
    cases hm : m.e c j with
    | none => simp [OpMat.ten, hm]
    | some op =>
      simp only [Option.map_some, Option.elim_some, LinearMap.comp_apply, rot, LinearMap.coe_mk, AddHom.coe_mk, OpMat.ten, hm]
      refine sum_congr rfl fun x' _ => ?_
      rw [Finset.sum_mul]
      exact sum_congr rfl fun a' _ => by ring
  · obtain ⟨c, hc, hs⟩ := hf
    obtain ⟨op, ho⟩ := Option.isSome_iff_exists.1 hs
    exact List.ne_nil_of_mem (List.mem_filterMap.2 ⟨c, List.mem_range.2 (by omega), by rw [ho]; rfl⟩)

/-- The right half. -/
theorem siteBlock_grp {m : OpMat σ 𝕜} {f : Env3 𝕜} {l r : Nat} (h0 : f.d0 = r) (h1 : f.d1 = m.cols) {j : Nat} (hf : ∃ b, b < m.cols ∧ (m.e j b).isSome) :
    ∃ g, siteBlockMul l r ((List.range m.cols).filterMap (fun k => (m.e j k).map fun op => (op, comp (grp f) k))) = some g ∧
      ∀ v a x y b, g v (a, x, y, b) = ∑ c ∈ range f.d1, ∑ b' : Fin r, ∑ y', m.ten.v (y, y') j c * f.v b c b' * v (y', b', a, x) := by
  have e1 : (((List.range m.cols).filterMap (fun k => (m.e j k).map fun op => (op, comp (grp f) k))).map fun x =>
      (x.2.bind fun o => o.on r).map fun o => (rot (𝕜 := 𝕜) (A := Fin r) (B := Fin l) (C := σ) (D := σ) o).comp (rot (B := Fin r) (C := Fin l) (D := σ) x.1)) =
      ((List.range f.d1).filterMap fun c => (m.e j c).map fun op => (rot (𝕜 := 𝕜) (B := Fin l) (C := σ) (D := σ) (fun a b : Fin r => f.v b c a)).comp
        (rot (B := Fin r) (C := Fin l) (D := σ) op)).map some := by
    rw [← h1, List.map_filterMap, List.map_filterMap]
    refine List.filterMap_congr fun c hc => ?_
    rw [comp_grp f (by simpa using hc)]
    cases m.e j c with
    | none => rfl
    | some op => simp [BOp.on, h0]
  unfold siteBlockMul
  rw [e1, accum_add]
  · refine ⟨_, rfl, fun v a x y b => ?_⟩
    rw [list_sum_apply, sum_filterMap, listsum_range]
    refine sum_congr rfl fun c _ => ?_
    cases hm : m.e j c with
    | none => simp [OpMat.ten, hm]
    | some op =>
      simp only [Option.map_some, Option.elim_some, LinearMap.comp_apply, rot, LinearMap.coe_mk, AddHom.coe_mk, OpMat.ten, hm]
      refine sum_congr rfl fun b' _ => ?_
      rw [Finset.sum_mul]
      exact sum_congr rfl fun a' _ => by ring
  · obtain ⟨c, hc, hs⟩ := hf
    obtain ⟨op, ho⟩ := Option.isSome_iff_exists.1 hs
    exact List.ne_nil_of_mem (List.mem_filterMap.2 ⟨c, List.mem_range.2 (by omega), by rw [ho]; rfl⟩)

/-- The super-block Hamiltonian is the effective Hamiltonian. -/
theorem superHam_grp {m1 m2 : OpMat σ 𝕜} {e f : Env3 𝕜} {l r : Nat} (he : e.d0 = l) (hf : f.d0 = r) (h1 : e.d1 = m1.rows) (h2 : f.d1 = m2.cols)
    (hpos : 0 < m1.cols) (hc : ∀ b, b < m1.cols → ∃ a, a < m1.rows ∧ (m1.e a b).isSome) (hr : ∀ a, a < m1.cols → ∃ b, b < m2.cols ∧ (m2.e a b).isSome) :
    superHam m1 m2 (grp e) (grp f) l r = some (effHam e f m1.ten m2.ten l r) := by
  have key : ∀ j, ∃ g, j < m1.cols → ((blockSiteMul l r ((List.range (grp e).length).filterMap (fun i => (m1.e i j).map fun op => (comp (grp e) i, op)))).bind fun x =>
      (siteBlockMul l r ((List.range m2.cols).filterMap (fun k => (m2.e j k).map fun op => (op, comp (grp f) k)))).map fun y => y.comp x) = some g ∧
      ∀ v a x y b, g v (a, x, y, b) = ∑ c3 ∈ range f.d1, ∑ b' : Fin r, ∑ y', m2.ten.v (y, y') j c3 * f.v b c3 b' *
        ∑ c1 ∈ range e.d1, ∑ x', ∑ a' : Fin l, m1.ten.v (x, x') c1 j * e.v a c1 a' * v (a', x', y', b') := by
    intro j
    by_cases hj : j < m1.cols
    · obtain ⟨x, hx, vx⟩ := blockSite_grp (r := r) he h1 (hc j hj)
      obtain ⟨y, hy, vy⟩ := siteBlock_grp (l := l) hf h2 (hr j hj)
      refine ⟨y.comp x, fun _ => ⟨by rw [hx, hy]; rfl, fun v a s s' b => ?_⟩⟩
      rw [LinearMap.comp_apply, vy]
      simp only [vx]
    · exact ⟨0, fun h => absurd h hj⟩
  choose g hg using key
  have e1 : (hamTerms m1 m2 (grp e) (grp f)).map (fun x => (blockSiteMul l r x.1).bind fun f => (siteBlockMul l r x.2).map fun g => g.comp f) =
      ((List.range m1.cols).map g).map some := by
    unfold hamTerms
    rw [List.map_map, List.map_map]
    refine List.map_congr_left fun j hj => ?_
    exact (hg j (by simpa using hj)).1
  unfold superHam superMul
  rw [e1, accum_add _ (by simpa using hpos.ne'), Option.map_some]
  congr 1
  refine LinearMap.ext fun v => ?_
  ext ⟨a, x, y, b⟩
  show ((List.range m1.cols).map g).sum v (a, x, y, b) = (Matrix.mulVec _ _) (a, x, y, b)
  rw [list_sum_apply, List.map_map, listsum_range]
  simp only [Matrix.mulVec, dotProduct, Matrix.of_apply, effCoef]
  have L : ∀ j ∈ range m1.cols, ((fun f => f v.ofLp (a, x, y, b)) ∘ g) j = ∑ q : Fin l × σ × σ × Fin r,
      (∑ c1 ∈ range e.d1, ∑ c3 ∈ range f.d1, e.v a c1 q.1 * m1.ten.v (x, q.2.1) c1 j * m2.ten.v (y, q.2.2.1) j c3 * f.v b c3 q.2.2.2) * v.ofLp q := by
    intro j hj
    show g j v.ofLp (a, x, y, b) = _
    rw [(hg j (mem_range.1 hj)).2, Fintype.sum_prod_type]
    simp only [Fintype.sum_prod_type, Finset.mul_sum, Finset.sum_mul]
    -- bring both sides to the same order of summation
    rw [Finset.sum_comm' (t' := Finset.univ) (s' := fun _ => range f.d1) (by simp)]
    have : ∀ b' : Fin r, ∑ c3 ∈ range f.d1, ∑ y', ∑ c1 ∈ range e.d1, ∑ x', ∑ a' : Fin l,
          m2.ten.v (y, y') j c3 * f.v b c3 b' * (m1.ten.v (x, x') c1 j * e.v a c1 a' * v.ofLp (a', x', y', b')) =
        ∑ a' : Fin l, ∑ x', ∑ y', ∑ c1 ∈ range e.d1, ∑ c3 ∈ range f.d1,
          e.v a c1 a' * m1.ten.v (x, x') c1 j * m2.ten.v (y, y') j c3 * f.v b c3 b' * v.ofLp (a', x', y', b') := by
      intro b'
      calc _ = ∑ c3 ∈ range f.d1, ∑ y', ∑ c1 ∈ range e.d1, ∑ a' : Fin l, ∑ x', e.v a c1 a' * m1.ten.v (x, x') c1 j * m2.ten.v (y, y') j c3 * f.v b c3 b' * v.ofLp (a', x', y', b') := by
            refine sum_congr rfl fun c3 _ => sum_congr rfl fun y' _ => sum_congr rfl fun c1 _ => ?_
            rw [Finset.sum_comm]
            exact sum_congr rfl fun a' _ => sum_congr rfl fun x' _ => by ring
        _ = ∑ c3 ∈ range f.d1, ∑ y', ∑ a' : Fin l, ∑ x', ∑ c1 ∈ range e.d1, e.v a c1 a' * m1.ten.v (x, x') c1 j * m2.ten.v (y, y') j c3 * f.v b c3 b' * v.ofLp (a', x', y', b') := by
            refine sum_congr rfl fun c3 _ => sum_congr rfl fun y' _ => ?_
            rw [Finset.sum_comm]
            exact sum_congr rfl fun a' _ => Finset.sum_comm
        _ = ∑ c3 ∈ range f.d1, ∑ a' : Fin l, ∑ x', ∑ y', ∑ c1 ∈ range e.d1, e.v a c1 a' * m1.ten.v (x, x') c1 j * m2.ten.v (y, y') j c3 * f.v b c3 b' * v.ofLp (a', x', y', b') := by
            refine sum_congr rfl fun c3 _ => ?_
            rw [Finset.sum_comm]
            exact sum_congr rfl fun a' _ => Finset.sum_comm
        _ = _ := by
            rw [Finset.sum_comm]
            refine sum_congr rfl fun a' _ => ?_
            rw [Finset.sum_comm]
            refine sum_congr rfl fun x' _ => ?_
            rw [Finset.sum_comm]
            refine sum_congr rfl fun y' _ => ?_
            rw [Finset.sum_comm]
    rw [sum_congr rfl fun b' _ => this b']
    rw [Finset.sum_comm]
    refine sum_congr rfl fun a' _ => ?_
    rw [Finset.sum_comm]
    refine sum_congr rfl fun x' _ => ?_
    rw [Finset.sum_comm]
  rw [sum_congr rfl L, Finset.sum_comm]
  refine sum_congr rfl fun q _ => ?_
  rw [← Finset.sum_mul]
  congr 1
  rw [Finset.sum_comm]
  rfl

end ham
end Verif.Mps
