import Verif.Mps.Vmps
import Verif.Disk.Dmrg
/-
The numbers of the DMRG executor (algorithm/dmrg/dmrg_impl.h, dmrg_init.h, lanczos_dmrg_solver_impl.h): block operators, super-block Hamiltonian and
local update with dense tensors over `ℝ` or `ℂ` in exact arithmetic. The order in which tensors and block operators are loaded, used and written is
that of Verif/Disk/Dmrg.lean, of which this is an instance.

A default-constructed tensor, which has no legs, is `none`; using one, or legs with different dimensions, gives `none` (undefined behaviour or a failed
assertion in the code). QR, the truncated SVD and LAPACK's tridiagonal solver are parameters. Quantum numbers and fermionic signs are not modelled.
-/
namespace Verif.Mps
open Finset Verif.Disk Verif.Algo

/-- The matrix of one site of a `MatReprMPO` (one_dim_tn/mpo/mat_repr_mpo.h): `e a b` is `none` where `IsNull(a, b)`, else the operator with its
legs (incoming, outgoing). -/
structure OpMat (σ K : Type) where
  rows : Nat
  cols : Nat
  e : Nat → Nat → Option (σ → σ → K)

/-- A block operator, an element of an operator group: both legs have the dimension of the bond; leg 0 meets the MPS, leg 1 its conjugate
(dmrg_init.h:158, 202; the picture at lanczos_dmrg_solver_impl.h:255-264). -/
structure BOp (K : Type) where
  d : Nat
  v : Nat → Nat → K

/-- The product of a block operator and a site operator, indexed by (incoming, outgoing) of the site and the two legs of the block
(dmrg_init.h:148, 192; the order of the legs in memory differs between left and right). -/
structure SBOp (σ K : Type) where
  d : Nat
  v : σ → σ → Nat → Nat → K

/-- The accumulation used everywhere: the first term is assigned to a default-constructed tensor, the others are added
(dmrg_init.h:149-153, 193-197; lanczos_dmrg_solver_impl.h:210-216, 233-239, 274-280). -/
def accum {M : Type} (add : M → M → Option M) : List (Option M) → Option M
  | [] => none
  | x :: xs => xs.foldl (fun a b => a.bind fun a => b.bind (add a)) x

section ops
variable {σ K : Type} [CommRing K] [StarRing K] [Fintype σ]

/-- `+=` of two such products. -/
def SBOp.add (x y : SBOp σ K) : Option (SBOp σ K) := if x.d = y.d then some ⟨x.d, fun i o a b => x.v i o a b + y.v i o a b⟩ else none

/-- `Contract(op, block_op, {{}, {}})` (dmrg_init.h:148, 192). -/
def outer (op : σ → σ → K) (o : BOp K) : SBOp σ K := ⟨o.d, fun i o' a b => op i o' * o.v a b⟩

/-- A component of a group; default-constructed, or outside of the vector, is `none`. -/
def comp (es : List (Option (BOp K))) (c : Nat) : Option (BOp K) := (es[c]?).join

/-- The loop over the columns (dmrg_init.h:144-155). -/
def siteBlockOp (m : OpMat σ K) (es : List (Option (BOp K))) (row : Nat) : Option (SBOp σ K) :=
  accum SBOp.add ((List.range m.cols).filterMap fun col => (m.e row col).map fun op => (comp es col).map (outer op))

/-- The loop over the rows (dmrg_init.h:188-199). -/
def blockSiteOp (m : OpMat σ K) (es : List (Option (BOp K))) (col : Nat) : Option (SBOp σ K) :=
  accum SBOp.add ((List.range m.rows).filterMap fun row => (m.e row col).map fun op => (comp es row).map (outer op))

/-- The two contractions with the MPS tensor and its conjugate, growing to the left (dmrg_init.h:156-158). -/
def absorbR (t : Ten σ K) (x : SBOp σ K) : Option (BOp K) :=
  if x.d = t.r then some ⟨t.l, fun ket bra => ∑ o, ∑ b ∈ range t.r, (∑ i, ∑ a ∈ range t.r, t.v i ket a * x.v i o a b) * star (t.v o bra b)⟩ else none

/-- The same growing to the right (dmrg_init.h:200-202). -/
def absorbL (t : Ten σ K) (x : SBOp σ K) : Option (BOp K) :=
  if x.d = t.l then some ⟨t.r, fun ket bra => ∑ o, ∑ b ∈ range t.l, (∑ i, ∑ a ∈ range t.l, x.v i o a b * t.v i a ket) * star (t.v o b bra)⟩ else none

/-- `UpdateRightBlockOps` (dmrg_init.h:133-161); its assertion is in `dUpdL`. -/
def updRightOps (m : OpMat σ K) (es : List (Option (BOp K))) (t : Ten σ K) : List (Option (BOp K)) :=
  (List.range m.rows).map fun row => (siteBlockOp m es row).bind (absorbR t)

/-- `UpdateLeftBlockOps` (dmrg_init.h:178-205); its assertion is in `dUpdR`. -/
def updLeftOps (m : OpMat σ K) (es : List (Option (BOp K))) (t : Ten σ K) : List (Option (BOp K)) :=
  (List.range m.cols).map fun col => (blockSiteOp m es col).bind (absorbL t)

/-- The trivial group: one operator on a trivial bond with `id_scalar({0, 0}) = 1` (dmrg_init.h:222-226, 247-251, 294-298). -/
def trivOps (d : Nat) : List (Option (BOp K)) := [some ⟨d, fun a b => if a = 0 ∧ b = 0 then 1 else 0⟩]

end ops

section gauge
variable {σ K : Type} [CommRing K] [Fintype σ] [DecidableEq σ]

/-- `IndexCombine(index_0, index_1, dir)` of a bond of dimension `l` and a physical leg: entry 1 where the third index numbers the pair. The numbering is
arbitrary. -/
def combiner (fuse : (l : Nat) → Fin l × σ ≃ Fin (l * Fintype.card σ)) (l : Nat) : Ten σ K :=
  ⟨l, l * Fintype.card σ, fun s a j => if h : a < l then (if j = fuse l (⟨a, h⟩, s) then 1 else 0) else 0⟩

/-- `LeftCanonicalizeTen(i)` and the replacement of the tensor by a combiner (vmps_init.h:170-199). Bonds of different dimensions, which `Contract` rejects, leave the
pair unchanged. -/
def boundaryL (qr : Ten σ K → Ten σ K × Mat K) (fuse : (l : Nat) → Fin l × σ ≃ Fin (l * Fintype.card σ)) (dmax : Nat) (t u : Ten σ K) : Ten σ K × Ten σ K :=
  if t.r = u.l then
    let q := (qr t).1
    let u1 := mulL (qr t).2 (qr t).1.r u
    if q.l * Fintype.card σ > dmax then (q, u1)
    else if q.l * Fintype.card σ > q.r then
      (combiner fuse q.l, mulL (fun j b => ∑ s, ∑ a ∈ range q.l, (combiner fuse q.l).v s a j * q.v s a b) (q.l * Fintype.card σ) u1)
    else (q, u1)
  else (t, u)

/-- `RightCanonicalizeTen(i)` with its default, a QR of the tensor with exchanged bonds (finite_mps.h:258-271). -/
def rightQR (qr : Ten σ K → Ten σ K × Mat K) (t u : Ten σ K) : Ten σ K × Ten σ K :=
  if t.r = u.l then (mulRT t (qr u.tr).2 (qr u.tr).1.r, (qr u.tr).1.tr) else (t, u)

/-- The same at the right end (vmps_init.h:213-235): the combiner of the physical leg and the right bond. -/
def boundaryR (qr : Ten σ K → Ten σ K × Mat K) (fuse : (l : Nat) → Fin l × σ ≃ Fin (l * Fintype.card σ)) (dmax : Nat) (t u : Ten σ K) : Ten σ K × Ten σ K :=
  if t.r = u.l then
    let t1 := (rightQR qr t u).1
    let q := (rightQR qr t u).2
    if Fintype.card σ * q.r > dmax then (t1, q)
    else if Fintype.card σ * q.r > q.l then
      (mulR t1 (fun a j => ∑ s, ∑ b ∈ range q.r, q.v s a b * (combiner fuse q.r).tr.v s j b) (q.r * Fintype.card σ), (combiner fuse q.r).tr)
    else (t1, q)
  else (t, u)

end gauge

section upd
variable {σ 𝕜 : Type} [RCLike 𝕜] [Fintype σ] [DecidableEq σ]

/-- `Contract(x, op, 0, 0, 1, temp)`: leg 0 of a tensor with four legs is contracted with leg 0 of `op`; the other leg of `op` comes last
(lanczos_dmrg_solver_impl.h:209, 211, 232, 234). -/
def rot {A A' B C D : Type} [Fintype A] (k : A → A' → 𝕜) : (A × B × C × D → 𝕜) →ₗ[𝕜] (B × C × D × A' → 𝕜) where
  toFun x p := ∑ a, x (a, p.1, p.2.1, p.2.2.1) * k a p.2.2.2
  map_add' x y := by funext p; simp [add_mul, Finset.sum_add_distrib]
  map_smul' c x := by funext p; simp [Finset.mul_sum, mul_assoc]

/-- The matrix of a block operator on a bond of dimension `l`. -/
def BOp.on (o : BOp 𝕜) (l : Nat) : Option (Fin l → Fin l → 𝕜) := if o.d = l then some fun a b => o.v a b else none

/-- `BlockSiteTermsMulTwoSiteState` (lanczos_dmrg_solver_impl.h:200-219). -/
noncomputable def blockSiteMul (l r : Nat) (terms : List (Option (BOp 𝕜) × (σ → σ → 𝕜))) : Option ((Fin l × σ × σ × Fin r → 𝕜) →ₗ[𝕜] (σ × Fin r × Fin l × σ → 𝕜)) :=
  accum (fun f g => some (f + g)) (terms.map fun x => (x.1.bind fun o => o.on l).map fun o => (rot x.2).comp (rot o))

/-- `SiteBlockTermsMulTwoSiteState` (lanczos_dmrg_solver_impl.h:223-243). -/
noncomputable def siteBlockMul (l r : Nat) (terms : List ((σ → σ → 𝕜) × Option (BOp 𝕜))) : Option ((σ × Fin r × Fin l × σ → 𝕜) →ₗ[𝕜] (Fin l × σ × σ × Fin r → 𝕜)) :=
  accum (fun f g => some (f + g)) (terms.map fun x => (x.2.bind fun o => o.on r).map fun o => (rot o).comp (rot x.1))

/-- `SetEffectiveHamiltonianTerms_` (dmrg_impl.h:320-341) for the groups `es`, `fs` and the matrices `m1`, `m2` of the two sites. -/
def hamTerms (m1 m2 : OpMat σ 𝕜) (es fs : List (Option (BOp 𝕜))) :
    List (List (Option (BOp 𝕜) × (σ → σ → 𝕜)) × List ((σ → σ → 𝕜) × Option (BOp 𝕜))) :=
  (List.range m1.cols).map fun j =>
    ((List.range es.length).filterMap (fun i => (m1.e i j).map fun op => (comp es i, op)),
     (List.range m2.cols).filterMap (fun k => (m2.e j k).map fun op => (op, comp fs k)))

/-- `super_block_hamiltonian_mul_two_site_state` (lanczos_dmrg_solver_impl.h:246-283). -/
noncomputable def superMul (l r : Nat) (terms : List (List (Option (BOp 𝕜) × (σ → σ → 𝕜)) × List ((σ → σ → 𝕜) × Option (BOp 𝕜)))) :
    Option ((Fin l × σ × σ × Fin r → 𝕜) →ₗ[𝕜] (Fin l × σ × σ × Fin r → 𝕜)) :=
  accum (fun f g => some (f + g)) (terms.map fun x => (blockSiteMul l r x.1).bind fun f => (siteBlockMul l r x.2).map fun g => g.comp f)

/-- The operator given to the Lanczos solver, on the space with the standard inner product. -/
noncomputable def superHam (m1 m2 : OpMat σ 𝕜) (es fs : List (Option (BOp 𝕜))) (l r : Nat) : Option (TwoV σ 𝕜 l r →ₗ[𝕜] TwoV σ 𝕜 l r) :=
  (superMul l r (hamTerms m1 m2 es fs)).map fun f =>
    ((WithLp.linearEquiv 2 𝕜 (Fin l × σ × σ × Fin r → 𝕜)).symm.toLinearMap.comp f).comp (WithLp.linearEquiv 2 𝕜 (Fin l × σ × σ × Fin r → 𝕜)).toLinearMap

/-- The parameters of the run: the MPO, the decompositions, the numbering used by `IndexCombine`, the largest bond dimension and the parameters of the
Lanczos solver. -/
structure DmrgPar (σ 𝕜 : Type) [Fintype σ] where
  m : Nat → OpMat σ 𝕜
  splitR : Blk2 σ 𝕜 → Ten σ 𝕜 × Ten σ 𝕜
  splitL : Blk2 σ 𝕜 → Ten σ 𝕜 × Ten σ 𝕜
  qr : Ten σ 𝕜 → Ten σ 𝕜 × Mat 𝕜
  fuse : (l : Nat) → Fin l × σ ≃ Fin (l * Fintype.card σ)
  dmax : Nat
  tri : TriSolver
  maxIter : Nat
  tol : ℝ

/-- The call of `LanczosSolver` (dmrg_impl.h:220-230; lanczos_dmrg_solver_impl.h:62-196, which differs from the solver of Verif/Algo/LanczosNum.lean only in the
multiplication). -/
noncomputable def lanczosD (P : DmrgPar σ 𝕜) (i : Nat) (es fs : List (Option (BOp 𝕜))) (t u : Ten σ 𝕜) :
    Option (GsRes (TwoV σ 𝕜 (mergeTen t u).l (mergeTen t u).r)) :=
  (superHam (P.m i) (P.m (i + 1)) es fs (mergeTen t u).l (mergeTen t u).r).bind fun H => gsSolve H (toV (mergeTen t u)) P.tri P.maxIter
    ((mergeTen t u).l * (Fintype.card σ * Fintype.card σ) * (mergeTen t u).r) P.tol

/-- `TwoSiteUpdate_` up to the new tensors (dmrg_impl.h:214-278); `i` is the left site. If the solver does not return, nothing is said. -/
noncomputable def updTwoD (P : DmrgPar σ 𝕜) (dir : Dir) (i : Nat) (es fs : List (Option (BOp 𝕜))) (t u : Ten σ 𝕜) : LTen σ 𝕜 × LTen σ 𝕜 :=
  match lanczosD P i es fs t u with
  | none => (⟨t, none⟩, ⟨u, none⟩)
  | some r =>
    match dir with
    | .r => (⟨(P.splitR (ofV r.vec)).1, some r.energy⟩, ⟨(P.splitR (ofV r.vec)).2, some r.energy⟩)
    | .l => (⟨(P.splitL (ofV r.vec)).1, some r.energy⟩, ⟨(P.splitL (ofV r.vec)).2, some r.energy⟩)

/-- The local operations of the executor on a chain of `N` sites. -/
noncomputable def dmrgAlg (P : DmrgPar σ 𝕜) : Alg (LTen σ 𝕜) (List (Option (BOp 𝕜))) where
  trivL t := trivOps t.ten.l
  trivR t := trivOps t.ten.r
  growL i e t := updLeftOps (P.m i) e t.ten
  growR i e t := updRightOps (P.m i) e t.ten
  opt _ dir i e f t u := updTwoD P dir (match dir with | .r => i | .l => i - 1) e f t.ten u.ten

/-- The work of `CheckAndUpdateBoundaryMPSTensors` at one site (vmps_init.h:168-235); it reports no energy. -/
def boundaryG (P : DmrgPar σ 𝕜) : Gauge (LTen σ 𝕜) where
  gl _ t u := (⟨(boundaryL P.qr P.fuse P.dmax t.ten u.ten).1, t.e0⟩, ⟨(boundaryL P.qr P.fuse P.dmax t.ten u.ten).2, u.e0⟩)
  gr _ t u := (⟨(boundaryR P.qr P.fuse P.dmax t.ten u.ten).1, t.e0⟩, ⟨(boundaryR P.qr P.fuse P.dmax t.ten u.ten).2, u.e0⟩)

/-- `RightCanonicalizeTen(i)` in `DMRGPostProcess_` (dmrg_impl.h:465); the left half is not used. -/
def postG (P : DmrgPar σ 𝕜) : Gauge (LTen σ 𝕜) where
  gl _ t u := (t, u)
  gr _ t u := (⟨(rightQR P.qr t.ten u.ten).1, t.e0⟩, ⟨(rightQR P.qr t.ten u.ten).2, u.e0⟩)

/-- The number of components of the block operators on the bond to the left of site `i`. -/
def bondsOf (P : DmrgPar σ 𝕜) (i : Nat) : Nat := (P.m i).rows

end upd
end Verif.Mps
