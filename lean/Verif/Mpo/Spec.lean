import Verif.Mpo.Gen
import Verif.Mpo.Sem
import Mathlib.Algebra.BigOperators.Group.Finset.Basic
/-
Specification vocabulary for the MPO generator properties. Nothing here refers to how the generator works.
-/
namespace Verif.Mpo
open Finset

/-- Arguments of one call `AddTerm(coef, ops, idxs)`. -/
structure Call (C T : Type) where
  coef : C
  ops : List T
  idxs : List Nat

/-- The call meets the documented precondition on a chain of `N` sites: as many sites as operators, at least
one, pairwise different sites inside the chain (in any order). -/
structure Call.Valid {C T : Type} (N : Nat) (c : Call C T) : Prop where
  len : c.ops.length = c.idxs.length
  ne : c.idxs ≠ []
  nodup : c.idxs.Nodup
  lt : ∀ s ∈ c.idxs, s < N

/-- Numerical meaning of coefficients and of operators. Fixing one ingoing and one outgoing local basis state
per site turns the operator `t` on site `s` into the number `tval s t`; a product of operators on different
sites is then the product of these numbers. -/
structure Vals (R C T : Type) [CommRing R] [GenTypes C T] where
  cval : C → R
  tval : Nat → T → R
  one : cval (GenTypes.cone T) = 1
  cneg : ∀ c, cval (GenTypes.cneg T c) = - cval c
  tneg : ∀ s t, tval s (GenTypes.tneg C t) = - tval s t

section
variable {R C T : Type} [CommRing R] [DecidableEq C] [DecidableEq T] [GenTypes C T]

/-- The call adds nothing: zero coefficient, or smaller than the machine epsilon. -/
def Call.negligible (c : Call C T) : Bool := decide (c.coef = GenTypes.czero T) || GenTypes.tooSmall T c.coef

/-- Meaning of a call: coefficient × listed operators on their sites × identity on all other sites. -/
def termVal (v : Vals R C T) (ids : List T) (c : Call C T) : R :=
  v.cval c.coef * ((c.idxs.zip c.ops).map (fun a => v.tval a.1 a.2)).prod *
    ∏ s ∈ (range ids.length).filter (fun s => s ∉ c.idxs), (ids[s]?.map (v.tval s)).getD 0

/-- The meaning of a label-valued site matrix list under the generator's final label tables: the row-0 entry of
the product of the site matrices, each symbolic entry evaluated with the tables. -/
def coefVal (v : Vals R C T) (g : Generator C T) (l : Label) : R := (g.coefHub[l]?.map v.cval).getD 0
def opVal (v : Vals R C T) (g : Generator C T) (s : Nat) (l : Label) : R := (g.opHub[l]?.map (v.tval s)).getD 0

/-- A history of `AddTerm` calls on a new generator with identity operators `ids`. -/
def history (ids : List T) (calls : List (Call C T)) : Except Err (Generator C T) :=
  calls.foldlM (fun g c => g.addTerm c.coef c.ops c.idxs) (Generator.new ids)

/-- Same one-site term up to moving the sign between operator and coefficient. -/
def sameOneSite (a b : Call C T) : Prop :=
  ∃ s, a.idxs = [s] ∧ b.idxs = [s] ∧ normalize a.coef a.ops = normalize b.coef b.ops

/-- The collision of property C01: a one-site term is added at a site where at least one one-site term was
added before and all of those are equal to it. -/
def collides (before : List (Call C T)) (c : Call C T) : Prop :=
  (∃ b ∈ before, sameOneSite b c) ∧ ∀ b ∈ before, b.idxs = c.idxs → sameOneSite b c

/-- The calls that are not negligible, in order. -/
def effective (calls : List (Call C T)) : List (Call C T) := calls.filter (fun c => !c.negligible)

end

section
variable {R : Type} [CommSemiring R]
/-- Product of matrices of numbers, given as functions with their column counts, applied from the right to the
vector of ones: `matChain [(W₀,d₁),…,(W_{n-1},d_n)] r = Σ_{c₁<d₁,…,c_n<d_n} W₀ r c₁ * W₁ c₁ c₂ ⋯`. With `d_n = 1` this
is the row `r` of the matrix product. -/
def matChain : List ((Nat → Nat → R) × Nat) → Nat → R
  | [], _ => 1
  | (w, d) :: rest, r => ∑ c ∈ range d, w r c * matChain rest c
end

section
variable {R C T : Type} [CommRing R] [DecidableEq C] [DecidableEq T] [GenTypes C T]

/-- The operator denoted by a list of symbolic site matrices: entry `(x,y)` of site `s` is the sum, over the
operator's terms, of coefficient value times operator value at `s`; the MPO is the product of the matrices, read at
the single row of the first bond. -/
def mpoVal (v : Vals R C T) (g : Generator C T) (ms : List (SparMat OpRepr)) : R :=
  matChain (ms.zipIdx.map (fun ms => ((fun x y => OpRepr.val (coefVal v g) (opVal v g ms.2) (ms.1.get x y)), ms.1.cols))) 0

open Classical in
/-- Sum of the terms of `calls`, each call left out that collides with the calls made before it (`before` are the
calls already made). -/
noncomputable def keptSum (v : Vals R C T) (ids : List T) : List (Call C T) → List (Call C T) → R
  | _, [] => 0
  | before, c :: calls =>
    (if collides before c then 0 else termVal v ids c) + keptSum v ids (before ++ [c]) calls

/-- No call collides with the calls made before it. -/
def NoCollision (calls : List (Call C T)) : Prop :=
  ∀ before c after, calls = before ++ c :: after → ¬ collides before c

end

/-! ### States of the machine at a bond -/

/-- What a term is doing at bond `b` (between sites `b-1` and `b`): not started, finished, or in progress (then it
has a state of its own, named by the position of the term). -/
inductive BondState where
  | ready
  | final
  | inside (k : Nat)
deriving DecidableEq

/-- State at bond `b` of the `k`-th term, which acts on the sites `idxs`. -/
def stateAt (idxs : List Nat) (k b : Nat) : BondState :=
  if idxs.all (fun s => b ≤ s) then .ready else if idxs.all (fun s => s < b) then .final else .inside k

/-! ### Quantum numbers -/

/-- A bond, as a list of (quantum number, dimension), seen as the list of the quantum numbers of its indices. -/
def expand {Q : Type} (vb : List (Q × Nat)) : List Q := vb.flatMap (fun qd => List.replicate qd.2 qd.1)

/-- What makes the tensors of an MPO consistent: the first left and the last right bond are the one-dimensional
bond of charge zero, neighbouring tensors have the same bond, on each bond all sectors are non-empty and of
pairwise different quantum number, and every tensor has divergence zero: for each operator in an entry, the quantum
number of its row equals its divergence plus the quantum number of its column. -/
def Consistent {Q : Type} [Zero Q] [Add Q] (div : Label → Q) : List (Q × Nat) → List (SiteTen Q) → Prop
  | vb, [] => vb = [(0, 1)]
  | vb, t :: ts => t.lvb = vb ∧ (t.rvb.map (·.1)).Nodup ∧ (∀ qd ∈ t.rvb, 1 ≤ qd.2) ∧
      (expand t.lvb).length = t.mat.rows ∧ (expand t.rvb).length = t.mat.cols ∧
      (∀ x y ql qr, (expand t.lvb)[x]? = some ql → (expand t.rvb)[y]? = some qr →
        ∀ kc ∈ t.mat.get x y, ql = div kc.1 + qr) ∧ Consistent div t.rvb ts

end Verif.Mpo
