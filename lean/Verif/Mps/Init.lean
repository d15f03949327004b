import Verif.Mps.Fmps
import Mathlib.Algebra.BigOperators.Group.List.Basic
import Mathlib.Algebra.Group.Basic
/-
Product-state initialisation (include/qlmps/one_dim_tn/mps/finite_mps/finite_mps_init.h).

Quantum numbers are the elements of an abelian group `Q`; `qn i s` is the quantum number of local state `s` of
site `i` (`pb_out_set[i].GetQNSctFromActualCoor(s).GetQn()`).
-/
namespace Verif.Mps

/-- A tensor as these functions create it: the sectors (quantum number, dimension) of its left (IN) and right (OUT)
bond, its site, and the divergence asked for or produced by the element set. -/
structure QTen (Q σ : Type) where
  lq : List (Q × Nat)
  rq : List (Q × Nat)
  site : Nat
  lab : σ

section
variable {Q σ K : Type} [AddCommGroup Q]

/-- `Index::GetQNSctFromActualCoor(c)` on a bond (tensor library): the sector containing coordinate `c`. -/
def sectorAt : List (Q × Nat) → Nat → Option Q
  | [], _ => none
  | (q, d) :: l, c => if c < d then some q else sectorAt l (c - d)

/-- Total quantum number (finite_mps_init.h:230-233, 285-288, 343-346). -/
def divOf (qn : Nat → σ → Q) (labs : List σ) : Q := ((labs.zipIdx).map (fun p => qn p.2 p.1)).sum

/-- The middle and tail part shared by both product-state initialisers, from site `i` with incoming right bond
`rv` (finite_mps_init.h:244-258, 299-313): `rvb_qn = lvb_qn - q_i` for the middle sites, zero at the tail. -/
def initTail (qn : Nat → σ → Q) : Nat → Q → List σ → List (QTen Q σ)
  | _, _, [] => []
  | i, rv, [s] => [⟨[(rv, 1)], [(0, 1)], i, s⟩]
  | i, rv, s :: s' :: ss => ⟨[(rv, 1)], [(rv - qn i s, 1)], i, s⟩ :: initTail qn (i + 1) (rv - qn i s) (s' :: ss)

/-- The tensors `DirectStateInitMps` stores (finite_mps_init.h:237-258). For a single site the tensor written first
is overwritten by the tail code (and leaked). -/
def directInit (qn : Nat → σ → Q) : List σ → List (QTen Q σ)
  | [] => []
  | [s] => [⟨[(divOf qn [s] - qn 0 s, 1)], [(0, 1)], 0, s⟩]
  | s :: s' :: ss =>
    ⟨[(0, 1)], [(divOf qn (s :: s' :: ss) - qn 0 s, 1)], 0, s⟩ ::
      initTail qn 1 (divOf qn (s :: s' :: ss) - qn 0 s) (s' :: ss)

/-- The tensors `DirectStateInitZeroDivMps` stores (finite_mps_init.h:292-313). -/
def zeroDivInit (qn : Nat → σ → Q) : List σ → List (QTen Q σ)
  | [] => []
  | [s] => [⟨[(0 - qn 0 s, 1)], [(0, 1)], 0, s⟩]
  | s :: s' :: ss =>
    ⟨[(0, 1)], [(0 - qn 0 s, 1)], 0, s⟩ :: initTail qn 1 (0 - qn 0 s) (s' :: ss)

/-- The values: a tensor of bond dimension one whose only non-zero element is `(0, stat_lab, 0)`
(finite_mps_init.h:242, 251, 258, 297, 306, 313). -/
def QTen.ten [DecidableEq σ] [CommRing K] (t : QTen Q σ) : Ten σ K :=
  ⟨1, 1, fun s a b => if s = t.lab ∧ a = 0 ∧ b = 0 then 1 else 0⟩

/-- The calls both initialisers make on the MPS (finite_mps_init.h:224, 241-261): deallocate everything, store the
tensors, `Centralize(0)`. -/
def initCalls [DecidableEq σ] [CommRing K] (ts : List (QTen Q σ)) : List (Call σ K) :=
  (List.range ts.length).map Call.dealloc ++ ts.zipIdx.map (fun p => Call.write p.2 p.1.ten) ++ [.centralize 0]

/-! ### `ExtendDirectRandomInitMps` -/

/-- Sectors of the right bond of a middle site (finite_mps_init.h:365-370): for each state `j` the sector at
coordinate `j * enlarged_dim` of the left bond, minus the local quantum number. -/
def extBond (qn : Nat → σ → Q) (D i : Nat) (lv : List (Q × Nat)) : Nat → List σ → Option (List (Q × Nat))
  | _, [] => some []
  | j, s :: ss => do
    let q ← sectorAt lv (j * D)
    let rest ← extBond qn D i lv (j + 1) ss
    some ((q - qn i s, D) :: rest)

/-- The bonds created for the middle sites `i, i+1, …, i+n-1` (finite_mps_init.h:363-375); `col i` is the column
`stat_labs_set[·][i]`. The result lists the right bonds. -/
def extMiddle (qn : Nat → σ → Q) (D : Nat) (col : Nat → List σ) : Nat → Nat → List (Q × Nat) →
    Option (List (List (Q × Nat)))
  | 0, _, _ => some []
  | n + 1, i, lv => do
    let r ← extBond qn D i lv 0 (col i)
    let rest ← extMiddle qn D col n (i + 1) r
    some (r :: rest)

/-- All right bonds of `ExtendDirectRandomInitMps` on `N ≥ 2` sites except the last, which is `{(0, 1)}`
(finite_mps_init.h:351-381); `div` is the total quantum number of the first state. -/
def extBonds (qn : Nat → σ → Q) (D N : Nat) (col : Nat → List σ) (div : Q) : Option (List (List (Q × Nat))) := do
  let r0 := (col 0).map (fun s => (div - qn 0 s, D))
  let rest ← extMiddle qn D col (N - 2) 1 r0
  some (r0 :: rest)

/-- All bonds from left to right, the outer ones included. -/
def extAll (qn : Nat → σ → Q) (D N : Nat) (col : Nat → List σ) (div : Q) : Option (List (List (Q × Nat))) := do
  let bs ← extBonds qn D N col div
  some ([(0, 1)] :: bs ++ [[(0, 1)]])

end
end Verif.Mps
