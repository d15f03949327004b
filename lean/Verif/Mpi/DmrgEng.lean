import Verif.Algo.LanczosStep
import Verif.Mps.DmrgNumRun
import Verif.Mpi.DmrgRun
import Mathlib.Analysis.InnerProductSpace.l2Space
/-
The numbers of the parallel DMRG executor: an instance of `DEng` with dense tensors over `ℝ` or `ℂ` in exact arithmetic, in the notation of
Verif/Mps/DmrgNum.lean. A default-constructed tensor is `none` or `⊤`.
-/
namespace Verif.Mpi
open Finset Verif.Mps Verif.Algo
open Verif.Disk (Dir)

section
variable {σ 𝕜 : Type} [RCLike 𝕜] [Fintype σ]

/-- Two-site states with legs of any dimensions: the state with bonds of dimensions `l` and `r` is a vector that has only the component `(l, r)`.
Simplification: zero states of different dimensions are not distinguished. -/
noncomputable abbrev AllV (σ 𝕜 : Type) [RCLike 𝕜] [Fintype σ] := lp (fun p : Nat × Nat => TwoV σ 𝕜 p.1 p.2) 2

/-- A state as a vector. -/
noncomputable def asV (l r : Nat) : TwoV σ 𝕜 l r →ₗᵢ[𝕜] AllV σ 𝕜 where
  toLinearMap := lp.lsingle (E := fun p : Nat × Nat => TwoV σ 𝕜 p.1 p.2) 2 (l, r)
  norm_map' x := lp.norm_single (E := fun p : Nat × Nat => TwoV σ 𝕜 p.1 p.2) (by norm_num) (l, r) x

theorem asV_apply (l r : Nat) (x : TwoV σ 𝕜 l r) : (asV l r x : AllV σ 𝕜) (l, r) = x :=
  lp.single_apply_self (E := fun p : Nat × Nat => TwoV σ 𝕜 p.1 p.2) 2 (l, r) x

/-- The two contractions with a state; the legs of `x` and `y` after the transpositions are (outgoing block, outgoing site, incoming block, incoming site)
and (incoming site, incoming block, outgoing site, outgoing block) (dmrg_mpi_impl_slave.h:324, 357, 365-366, 440-441). -/
noncomputable def siteProd (x y : SBOp σ 𝕜) (v : TwoV σ 𝕜 x.d y.d) : TwoV σ 𝕜 x.d y.d :=
  WithLp.toLp 2 fun p => ∑ i', ∑ a' : Fin y.d, (∑ a : Fin x.d, ∑ i, x.v i p.2.1 a p.1 * v (a, i, i', a')) * y.v i' p.2.2.1 a' p.2.2.2

open Classical in
/-- The same with states of any dimensions; legs that do not fit fail an assertion of the library. -/
noncomputable def prodO : Option (SBOp σ 𝕜) → Option (SBOp σ 𝕜) → WithTop (AllV σ 𝕜) → WithTop (AllV σ 𝕜)
  | some x, some y, some v =>
    if v = asV x.d y.d (v (x.d, y.d)) then ((asV x.d y.d (siteProd x y (v (x.d, y.d))) : AllV σ 𝕜) : WithTop (AllV σ 𝕜)) else ⊤
  | _, _, _ => ⊤

/-- The parallel decomposition `MPISVDMaster`/`MPISVDSlave`: the state of the master's call for a block, that of the workers, and the two new tensors from the final state of
the master, by direction (dmrg_mpi_impl_master.h:209-238). -/
structure SvdLib (σ 𝕜 SL : Type) where
  inp : Blk2 σ 𝕜 → SL
  wk : SL
  out : Dir → SL → Ten σ 𝕜 × Ten σ 𝕜

/-- The decomposition of one process. -/
def splitD (P : DmrgPar σ 𝕜) : Dir → Blk2 σ 𝕜 → Ten σ 𝕜 × Ten σ 𝕜
  | .r => P.splitR
  | .l => P.splitL

/-- **Specification**: every execution of the parallel decomposition ends with the result of the serial one at the master. -/
def SvdLib.OK {SL VL : Type} (S : SvdLib σ 𝕜 SL) (P : DmrgPar σ 𝕜) (lact : Nat → SL → Act SL VL) (W : Nat) : Prop :=
  ∀ T, LibOk lact W (S.inp T) S.wk fun s => ∀ dir, S.out dir s = splitD P dir T

/-- The block that is decomposed: the Lanczos vector (dmrg_mpi_impl_master.h:215-221). -/
noncomputable def gsBlk (t u : LTen σ 𝕜) (l : Option (LzM (AllV σ 𝕜))) : Blk2 σ 𝕜 :=
  match l.bind (·.res) with
  | some r => ofV (r.vec (t.ten.l, u.ten.r))
  | none => mergeTen t.ten u.ten

/-- The new tensors; if Lanczos used an undefined tensor, nothing is said. -/
noncomputable def newTens (t u : LTen σ 𝕜) (l : Option (LzM (AllV σ 𝕜))) (p : Ten σ 𝕜 × Ten σ 𝕜) : LTen σ 𝕜 × LTen σ 𝕜 :=
  match l.bind (·.res) with
  | some r => (⟨p.1, some r.energy⟩, ⟨p.2, some r.energy⟩)
  | none => (⟨t.ten, none⟩, ⟨u.ten, none⟩)

/-- The first state (dmrg_mpi_impl_master.h:189-190, lanczos_dmrg_solver_mpi_master.h:65-66). -/
noncomputable def startV (t u : LTen σ 𝕜) : AllV σ 𝕜 := asV t.ten.l u.ten.r (normalize 𝕜 (toV (mergeTen t.ten u.ten)))

/-- The numerical work of master and workers on a chain of `N` sites. -/
noncomputable def dmrgEng {SL : Type} (N : Nat) (P : DmrgPar σ 𝕜) (S : SvdLib σ 𝕜 SL) :
    DEng (LTen σ 𝕜) (Option (BOp 𝕜)) (σ → σ → 𝕜) (WithTop (AllV σ 𝕜)) (Option (SBOp σ 𝕜)) (Option (SBOp σ 𝕜)) (WithTop ℝ) (Option (LzM (AllV σ 𝕜))) SL where
  N := N
  w := bondsOf P
  trivL t := trivOps t.ten.l
  trivR t := trivOps t.ten.r
  -- dmrg_mpi_impl_master.h:287-293
  bgrp i es j := (List.range es.length).filterMap fun c => ((P.m i).e c j).map fun op => (comp es c, op)
  -- dmrg_mpi_impl_master.h:294-300
  sgrp i es j := (List.range (P.m i).cols).filterMap fun c => ((P.m i).e j c).map fun op => (op, comp es c)
  -- dmrg_mpi_impl_slave.h:302-324
  mkB l := accum SBOp.add (l.map fun x => x.1.map (outer x.2))
  -- dmrg_mpi_impl_slave.h:331-357
  mkS l := accum SBOp.add (l.map fun x => x.2.map (outer x.1))
  mul := prodO
  ovl := ovlO 𝕜
  -- dmrg_mpi_impl_slave.h:488-489
  absL c t := c.bind (absorbL t.ten)
  -- dmrg_mpi_impl_slave.h:503-504
  absR c t := c.bind (absorbR t.ten)
  start t u := (startV t u : AllV σ 𝕜)
  lz0 t u x ov :=
    match x, ov with
    | some x, some ov => some (lzBegin 𝕜 P.tri (t.ten.l * (Fintype.card σ * Fintype.card σ) * u.ten.r) (startV t u) x ov)
    | _, _ => none
  lzVec := lzVecO
  lzTake := lzTakeO 𝕜 P.tri P.maxIter P.tol
  iters := P.maxIter
  svdIn t u l := S.inp (gsBlk t u l)
  svdWk := S.wk
  svdOut _ dir _ t u l s := newTens t u l (S.out dir s)
  svdVal _ dir _ t u l := newTens t u l (splitD P dir (gsBlk t u l))

variable {N : Nat} {P : DmrgPar σ 𝕜} {SL VL : Type} {S : SvdLib σ 𝕜 SL} {lact : Nat → SL → Act SL VL} {W : Nat}

theorem LibOk.mono {m w : SL} {p q : SL → Prop} (h : LibOk lact W m w p) (hpq : ∀ s, p s → q s) : LibOk lact W m w q := by
  obtain ⟨⟨b, hb⟩, h2, h3⟩ := h
  exact ⟨⟨b, hb.bound, fun n s hs hst => ⟨(hb.good n s hs hst).1, hpq _ (hb.good n s hs hst).2⟩⟩, h2, h3⟩

theorem eng_lzRun (H : WithTop (AllV σ 𝕜) → WithTop (AllV σ 𝕜)) : ∀ n l, (dmrgEng N P S).lzRun H n l = lzLoopO (𝕜 := 𝕜) P.tri P.maxIter P.tol H n l := by
  intro n
  induction n with
  | zero =>
    intro l
    have hv : (dmrgEng N P S).lzVec l = lzVecO l := rfl
    rw [DEng.lzRun, lzLoopO, hv]
    cases lzVecO l <;> rfl
  | succ n ih =>
    intro l
    have hv : (dmrgEng N P S).lzVec l = lzVecO l := rfl
    rw [DEng.lzRun, lzLoopO, hv]
    cases lzVecO l with
    | none => rfl
    | some v => exact ih _

theorem eng_ok (hK : 2 ≤ P.maxIter) (hS : S.OK P lact W) : (dmrgEng N P S).OK lact W where
  ovl_zero := ovlO_zero
  ovl_add := ovlO_add
  stops H t u := by
    rw [eng_lzRun]
    refine lzLoopO_stops (by omega) H _ _ fun s hs hn => ?_
    revert hs
    generalize H ((dmrgEng N P S).start t u) = x
    generalize (dmrgEng N P S).ovl ((dmrgEng N P S).start t u) x = ov
    intro hs
    cases x with
    | top => cases hs
    | coe x =>
      cases ov with
      | top => cases hs
      | coe ov =>
        have e := Option.some.inj hs
        subst e
        unfold lzBegin lzRound at hn ⊢
        split at hn
        · cases hn
        · rename_i hg
          rw [if_neg hg]
          show 0 + 1 ≤ P.maxIter - 1 ∧ P.maxIter ≤ P.maxIter + (0 + 1)
          omega
  svd clk dir i t u res := (hS (gsBlk t u res)).mono fun s hs => by
    show newTens t u res (S.out dir s) = newTens t u res _
    rw [hs dir]

/-- Growing to the left is that of the serial program. -/
theorem eng_growR (i : Nat) (e : List (Option (BOp 𝕜))) (t : LTen σ 𝕜) : (dmrgEng N P S).alg.growR i e t = (dmrgAlg P).growR i e t := by
  show (List.range (P.m i).rows).map _ = (List.range (P.m i).rows).map _
  refine List.map_congr_left fun j _ => ?_
  show (accum SBOp.add (List.map _ (List.filterMap _ _))).bind _ = (siteBlockOp (P.m i) e j).bind _
  unfold siteBlockOp
  rw [List.map_filterMap]
  congr 3
  funext c
  cases (P.m i).e j c <;> rfl

/-- Growing to the right as well, if the group has the right number of components. -/
theorem eng_growL (hf : (P.m i).cols = (P.m (i + 1)).rows) (e : List (Option (BOp 𝕜))) (he : e.length = (P.m i).rows) (t : LTen σ 𝕜) :
    (dmrgEng N P S).alg.growL i e t = (dmrgAlg P).growL i e t := by
  show (List.range (P.m (i + 1)).rows).map _ = (List.range (P.m i).cols).map _
  rw [hf]
  refine List.map_congr_left fun j _ => ?_
  show (accum SBOp.add (List.map _ (List.filterMap _ _))).bind _ = (blockSiteOp (P.m i) e j).bind _
  unfold blockSiteOp
  rw [List.map_filterMap, he]
  congr 3
  funext c
  cases (P.m i).e c j <;> rfl

theorem eng_renv (ψ : Nat → LTen σ 𝕜) (k : Nat) : (dmrgEng N P S).alg.renv N ψ k = (dmrgAlg P).renv N ψ k := by
  induction k with
  | zero => rfl
  | succ k ih =>
    show (dmrgEng N P S).alg.growR _ ((dmrgEng N P S).alg.renv N ψ k) _ = (dmrgAlg P).growR _ ((dmrgAlg P).renv N ψ k) _
    rw [ih, eng_growR]

variable [DecidableEq σ]

theorem eng_lenv (hM : OpMatsOK N P.m) {ψ : Nat → LTen σ 𝕜} (ht : Closed N (tens ψ)) : ∀ i, i < N → (dmrgEng N P S).alg.lenv ψ i = (dmrgAlg P).lenv ψ i := by
  intro i
  induction i with
  | zero => intro _; rfl
  | succ i ih =>
    intro hi
    show (dmrgEng N P S).alg.growL _ ((dmrgEng N P S).alg.lenv ψ i) _ = (dmrgAlg P).growL _ ((dmrgAlg P).lenv ψ i) _
    obtain ⟨a, b, c, d⟩ := lenv_grp hM ht i (by omega)
    rw [ih (by omega), eng_growL (hM.fit i)]
    rw [a, grp_length, d]

omit [DecidableEq σ] in
/-- One term of the product. -/
theorem eng_term {m1 m2 : OpMat σ 𝕜} {e f : Env3 𝕜} {l r : Nat} (he : e.d0 = l) (hf : f.d0 = r) (h1 : e.d1 = m1.rows) (h2 : f.d1 = m2.cols) {j : Nat}
    (hc : ∃ a, a < m1.rows ∧ (m1.e a j).isSome) (hr : ∃ b, b < m2.cols ∧ (m2.e j b).isSome) (v : TwoV σ 𝕜 l r) :
    ∃ y : TwoV σ 𝕜 l r, prodO (accum SBOp.add (((List.range (grp e).length).filterMap fun c => (m1.e c j).map fun op => (comp (grp e) c, op)).map fun x => x.1.map (outer x.2)))
        (accum SBOp.add (((List.range m2.cols).filterMap fun c => (m2.e j c).map fun op => (op, comp (grp f) c)).map fun x => x.2.map (outer x.1)))
        ((asV l r v : AllV σ 𝕜) : WithTop (AllV σ 𝕜)) = ((asV l r y : AllV σ 𝕜) : WithTop (AllV σ 𝕜)) ∧
      ∀ p, y p = ∑ q : Fin l × σ × σ × Fin r, (∑ c1 ∈ range e.d1, ∑ c3 ∈ range f.d1,
        e.v p.1 c1 q.1 * m1.ten.v (p.2.1, q.2.1) c1 j * m2.ten.v (p.2.2.1, q.2.2.1) j c3 * f.v p.2.2.2 c3 q.2.2.2) * v q := by
  have ea : (((List.range (grp e).length).filterMap fun c => (m1.e c j).map fun op => (comp (grp e) c, op)).map fun x => x.1.map (outer x.2)) =
      ((List.range m1.rows).filterMap fun c => (m1.e c j).map fun op => (comp (grp e) c).map (outer op)) := by
    rw [List.map_filterMap, grp_length, h1]
    refine List.filterMap_congr fun c _ => ?_
    cases m1.e c j <;> rfl
  have eb : (((List.range m2.cols).filterMap fun c => (m2.e j c).map fun op => (op, comp (grp f) c)).map fun x => x.2.map (outer x.1)) =
      ((List.range m2.cols).filterMap fun c => (m2.e j c).map fun op => (comp (grp f) c).map (outer op)) := by
    rw [List.map_filterMap]
    refine List.filterMap_congr fun c _ => ?_
    cases m2.e j c <;> rfl
  rw [ea, eb, line_sum m1.rows (fun c => m1.e c j) e h1 hc, line_sum m2.cols (fun c => m2.e j c) f h2 hr]
  subst he hf
  refine ⟨siteProd ⟨e.d0, fun i o ket bra => ∑ c ∈ range m1.rows, ((m1.e c j).elim 0 fun op => op i o) * e.v bra c ket⟩
    ⟨f.d0, fun i o ket bra => ∑ c ∈ range m2.cols, ((m2.e j c).elim 0 fun op => op i o) * f.v bra c ket⟩ v, ?_, fun p => ?_⟩
  · simp only [WithTop.some_eq_coe, prodO]
    refine (if_pos ?_).trans ?_ <;> rw [asV_apply]
  · show (∑ i', ∑ a' : Fin f.d0, (∑ a : Fin e.d0, ∑ i, (∑ c ∈ range m1.rows, ((m1.e c j).elim 0 fun op => op i p.2.1) * e.v p.1 c a) * v (a, i, i', a')) *
      ∑ c ∈ range m2.cols, ((m2.e j c).elim 0 fun op => op i' p.2.2.1) * f.v p.2.2.2 c a') = _
    simp only [Fintype.sum_prod_type]
    rw [Finset.sum_congr rfl fun i' _ => Finset.sum_congr rfl fun a' _ => Finset.sum_mul _ _ _]
    have e1 : ∀ (i' : σ) (a' : Fin f.d0) (a : Fin e.d0), (∑ i, (∑ c ∈ range m1.rows, ((m1.e c j).elim 0 fun op => op i p.2.1) * e.v p.1 c a) * v (a, i, i', a')) *
        ∑ c ∈ range m2.cols, ((m2.e j c).elim 0 fun op => op i' p.2.2.1) * f.v p.2.2.2 c a' =
        ∑ i, (∑ c1 ∈ range e.d1, ∑ c3 ∈ range f.d1, e.v p.1 c1 a * m1.ten.v (p.2.1, i) c1 j * m2.ten.v (p.2.2.1, i') j c3 * f.v p.2.2.2 c3 a') * v (a, i, i', a') := by
      intro i' a' a
      rw [Finset.sum_mul]
      refine sum_congr rfl fun i _ => ?_
      rw [mul_right_comm, Finset.sum_mul_sum, h1, h2]
      congr 1
      refine sum_congr rfl fun c1 _ => sum_congr rfl fun c3 _ => ?_
      show _ = e.v p.1 c1 a * ((m1.e c1 j).elim 0 fun op => op i p.2.1) * ((m2.e j c3).elim 0 fun op => op i' p.2.2.1) * f.v p.2.2.2 c3 a'
      ring
    rw [Finset.sum_congr rfl fun i' _ => Finset.sum_congr rfl fun a' _ => Finset.sum_congr rfl fun a _ => e1 i' a' a]
    -- the order of summation
    rw [Finset.sum_congr rfl fun i' _ => Finset.sum_comm, Finset.sum_comm]
    refine sum_congr rfl fun a _ => ?_
    rw [Finset.sum_congr rfl fun i' _ => Finset.sum_comm, Finset.sum_comm]

theorem coe_list_sum {X : Type} [AddCommMonoid X] : ∀ l : List X, ((l.map (WithTop.some : X → WithTop X)).sum) = ((l.sum : X) : WithTop X)
  | [] => rfl
  | a :: l => by rw [List.map_cons, List.sum_cons, coe_list_sum l, List.sum_cons]; rfl

/-- The product of all workers together is the effective Hamiltonian. -/
theorem eng_prod {e f : Env3 𝕜} {l r i : Nat} (he : e.d0 = l) (hf : f.d0 = r) (h1 : e.d1 = (P.m i).rows) (h2 : f.d1 = (P.m (i + 1)).cols)
    (hfit : (P.m i).cols = (P.m (i + 1)).rows) (hc : ∀ b, b < (P.m i).cols → ∃ a, a < (P.m i).rows ∧ ((P.m i).e a b).isSome)
    (hr : ∀ a, a < (P.m (i + 1)).rows → ∃ b, b < (P.m (i + 1)).cols ∧ ((P.m (i + 1)).e a b).isSome) (v : TwoV σ 𝕜 l r) :
    (dmrgEng N P S).prod i (grp e) (grp f) ((asV l r v : AllV σ 𝕜) : WithTop (AllV σ 𝕜)) =
      ((asV l r (effHam e f (P.m i).ten (P.m (i + 1)).ten l r v) : AllV σ 𝕜) : WithTop (AllV σ 𝕜)) := by
  have key : ∀ j, ∃ y : TwoV σ 𝕜 l r, j < (P.m (i + 1)).rows →
      (dmrgEng N P S).mul ((dmrgEng N P S).mkB ((dmrgEng N P S).bgrp i (grp e) j)) ((dmrgEng N P S).mkS ((dmrgEng N P S).sgrp (i + 1) (grp f) j))
        ((asV l r v : AllV σ 𝕜) : WithTop (AllV σ 𝕜)) = ((asV l r y : AllV σ 𝕜) : WithTop (AllV σ 𝕜)) ∧
      ∀ p, y p = ∑ q : Fin l × σ × σ × Fin r, (∑ c1 ∈ range e.d1, ∑ c3 ∈ range f.d1,
        e.v p.1 c1 q.1 * (P.m i).ten.v (p.2.1, q.2.1) c1 j * (P.m (i + 1)).ten.v (p.2.2.1, q.2.2.1) j c3 * f.v p.2.2.2 c3 q.2.2.2) * v q := by
    intro j
    by_cases hj : j < (P.m (i + 1)).rows
    · obtain ⟨y, hy⟩ := eng_term he hf h1 h2 (hc j (by rw [hfit]; exact hj)) (hr j hj) v
      exact ⟨y, fun _ => hy⟩
    · exact ⟨0, fun h => absurd h hj⟩
  choose g hg using key
  unfold DEng.prod
  show ((List.range (P.m (i + 1)).rows).map _).sum = _
  have e1 : (List.range (P.m (i + 1)).rows).map (fun j => (dmrgEng N P S).mul ((dmrgEng N P S).mkB ((dmrgEng N P S).bgrp i (grp e) j))
      ((dmrgEng N P S).mkS ((dmrgEng N P S).sgrp (i + 1) (grp f) j)) ((asV l r v : AllV σ 𝕜) : WithTop (AllV σ 𝕜))) =
      ((List.range (P.m (i + 1)).rows).map fun j => asV l r (g j)).map (WithTop.some : AllV σ 𝕜 → WithTop (AllV σ 𝕜)) := by
    rw [List.map_map]
    exact List.map_congr_left fun j hj => (hg j (by simpa using hj)).1
  rw [e1, coe_list_sum]
  congr 1
  rw [show (fun j => asV l r (g j)) = (asV (σ := σ) (𝕜 := 𝕜) l r : TwoV σ 𝕜 l r → AllV σ 𝕜) ∘ g from rfl, ← List.map_map, ← map_list_sum]
  congr 1
  ext p
  have hsum : ∀ L : List Nat, ((L.map g).sum : TwoV σ 𝕜 l r) p = (L.map fun j => g j p).sum := by
    intro L
    induction L with
    | nil => rfl
    | cons a L ih => rw [List.map_cons, List.sum_cons, List.map_cons, List.sum_cons, ← ih]; rfl
  rw [hsum, listsum_range]
  rw [sum_congr rfl fun j hj => (hg j (mem_range.1 hj)).2 p]
  show _ = (Matrix.mulVec _ _) p
  simp only [Matrix.mulVec, dotProduct, Matrix.of_apply, effCoef]
  rw [Finset.sum_comm]
  refine sum_congr rfl fun q _ => ?_
  rw [← Finset.sum_mul]
  congr 1
  rw [Finset.sum_comm, ← hfit]
  rfl

end
end Verif.Mpi
