import Verif.Mpo.Gen
import Mathlib.Algebra.Field.Basic
import Mathlib.Algebra.Star.Basic
import Mathlib.Logic.Function.Basic
import Mathlib.Data.Fintype.Pi
/-
The predefined sites, operators and Hamiltonian terms: /repo/include/qlmps/model_relevant.

An operator tensor with legs (in, out) is the function of its two coordinates; by the convention of the library (hubbard_operators.h:18) the element at
`({col, row})` is `⟨row| O |col⟩`. Numbers are exact.
-/
namespace Verif.Mpo

/-- The supported symmetries: `U1U1QN` (N, Sz), `TrivialRepQN`, `U1QN` (Sz). -/
inductive Sym where
  | u1u1
  | trivial
  | u1
deriving DecidableEq

/-- `sites::HubbardSite` (hubbard_sites.h:27-75): labels of the basis states and the sectors (quantum number, dimension) of the physical index. A
quantum number is the pair (N, Sz); a number that is not conserved is 0. -/
structure HubSite where
  dbl : Fin 4
  up : Fin 4
  dn : Fin 4
  emp : Fin 4
  bond : List ((Int × Int) × Nat)

/-- `HubbardSite::HubbardSite` (hubbard_sites.h:31-60). -/
def hubSite : Sym → HubSite
  | .u1u1 => ⟨0, 1, 2, 3, [((2, 0), 1), ((1, 1), 1), ((1, -1), 1), ((0, 0), 1)]⟩
  | .trivial => ⟨0, 1, 2, 3, [((0, 0), 4)]⟩
  | .u1 => ⟨0, 2, 3, 1, [((0, 0), 2), ((0, 1), 1), ((0, -1), 1)]⟩

/-- `sites::tJSite` (tJ_sites.h:27-63). -/
structure TjSite where
  up : Fin 3
  dn : Fin 3
  emp : Fin 3
  bond : List ((Int × Int) × Nat)

/-- `tJSite::tJSite` (tJ_sites.h:31-58). -/
def tjSite : Sym → TjSite
  | .u1u1 => ⟨0, 1, 2, [((1, 1), 1), ((1, -1), 1), ((0, 0), 1)]⟩
  | .trivial => ⟨0, 1, 2, [((0, 0), 3)]⟩
  | .u1 => ⟨0, 1, 2, [((0, 1), 1), ((0, -1), 1), ((0, 0), 1)]⟩

/-- `sites::SpinOneHalfSite` (spin_one_half_sites.h:25-49). -/
structure SpinSite where
  up : Fin 2
  dn : Fin 2
  bond : List ((Int × Int) × Nat)

/-- `SpinOneHalfSite::SpinOneHalfSite` (spin_one_half_sites.h:29-43). `U1U1QN` is rejected at compile time. -/
def spinSite : Sym → Option SpinSite
  | .u1u1 => none
  | .trivial => some ⟨0, 1, [((0, 0), 2)]⟩
  | .u1 => some ⟨0, 1, [((0, 1), 1), ((0, -1), 1)]⟩

/-- An operator tensor: element at `({col, row})`. -/
abbrev Op (d : Nat) (K : Type) := Fin d → Fin d → K

section
variable {d : Nat} {K : Type}

/-- A new tensor, all elements zero, after the assignments `t({c, r}) = v` in order. -/
def mkOp [Zero K] (l : List (Fin d × Fin d × K)) : Op d K :=
  l.foldl (fun t e => Function.update t e.1 (Function.update (t e.1) e.2.1 e.2.2)) (fun _ _ => 0)

/-- The identity operator of a site (`GenIdOp`, site_vec.h:40-46). -/
def idOp [Zero K] [One K] : Op d K := fun c r => if c = r then 1 else 0

/-- Identity operators of `GenUniformSites(N)` (model_site_base.h:25-27, site_vec.h:67-73, 140-145). -/
def uniformIds [Zero K] [One K] (d N : Nat) : List (Op d K) := List.replicate N idOp

/-- `HubbardOperators` (hubbard_operators.h:21-175). The references `cupccdna`, `cdnccupa`, `Uterm` are `sp`, `sm`, `nupndn`. `sx` and `sy` exist for the
trivial symmetry only, `sy` for complex elements only. -/
structure HubOps (K : Type) where
  sz : Op 4 K
  sp : Op 4 K
  sm : Op 4 K
  id : Op 4 K
  sx : Op 4 K
  sy : Op 4 K
  f : Op 4 K
  bupc : Op 4 K
  bupa : Op 4 K
  bdnc : Op 4 K
  bdna : Op 4 K
  bupcF : Op 4 K
  bupaF : Op 4 K
  Fbdnc : Op 4 K
  Fbdna : Op 4 K
  cupccdnc : Op 4 K
  cdnacupa : Op 4 K
  nupndn : Op 4 K
  nf : Op 4 K
  nfsquare : Op 4 K
  nup : Op 4 K
  ndn : Op 4 K

variable [Field K]

/-- `HubbardOperators(site)` (hubbard_operators.h:53-119); `im` is the imaginary unit of the element type. -/
def hubOps (im : K) (s : HubSite) : HubOps K where
  sz := mkOp [(s.up, s.up, 2⁻¹), (s.dn, s.dn, -2⁻¹)]
  sp := mkOp [(s.dn, s.up, 1)]
  sm := mkOp [(s.up, s.dn, 1)]
  id := mkOp [(s.dbl, s.dbl, 1), (s.up, s.up, 1), (s.dn, s.dn, 1), (s.emp, s.emp, 1)]
  sx := mkOp [(s.dn, s.up, 2⁻¹), (s.up, s.dn, 2⁻¹)]
  sy := mkOp [(s.dn, s.up, -(2⁻¹ * im)), (s.up, s.dn, 2⁻¹ * im)]
  f := mkOp [(s.dbl, s.dbl, 1), (s.up, s.up, -1), (s.dn, s.dn, -1), (s.emp, s.emp, 1)]
  bupc := mkOp [(s.dn, s.dbl, 1), (s.emp, s.up, 1)]
  bdnc := mkOp [(s.up, s.dbl, 1), (s.emp, s.dn, 1)]
  bupa := mkOp [(s.dbl, s.dn, 1), (s.up, s.emp, 1)]
  bdna := mkOp [(s.dbl, s.up, 1), (s.dn, s.emp, 1)]
  bupcF := mkOp [(s.dn, s.dbl, -1), (s.emp, s.up, 1)]
  Fbdnc := mkOp [(s.up, s.dbl, 1), (s.emp, s.dn, -1)]
  bupaF := mkOp [(s.dbl, s.dn, 1), (s.up, s.emp, -1)]
  Fbdna := mkOp [(s.dbl, s.up, -1), (s.dn, s.emp, 1)]
  cupccdnc := mkOp [(s.emp, s.dbl, 1)]
  cdnacupa := mkOp [(s.dbl, s.emp, 1)]
  nupndn := mkOp [(s.dbl, s.dbl, 1)]
  nf := mkOp [(s.dbl, s.dbl, 2), (s.up, s.up, 1), (s.dn, s.dn, 1)]
  nfsquare := mkOp [(s.dbl, s.dbl, 4), (s.up, s.up, 1), (s.dn, s.dn, 1)]
  nup := mkOp [(s.dbl, s.dbl, 1), (s.up, s.up, 1)]
  ndn := mkOp [(s.dbl, s.dbl, 1), (s.dn, s.dn, 1)]

/-- `tJOperators` (tJ_operators.h:20-98). -/
structure TjOps (K : Type) where
  sz : Op 3 K
  sp : Op 3 K
  sm : Op 3 K
  id : Op 3 K
  f : Op 3 K
  bupc : Op 3 K
  bupa : Op 3 K
  bdnc : Op 3 K
  bdna : Op 3 K
  nf : Op 3 K
  nup : Op 3 K
  ndn : Op 3 K
  bdnc_multi_bupa : Op 3 K
  bupc_multi_bdna : Op 3 K

/-- `tJOperators(site)` (tJ_operators.h:41-74). -/
def tjOps (s : TjSite) : TjOps K where
  sz := mkOp [(s.up, s.up, 2⁻¹), (s.dn, s.dn, -2⁻¹)]
  sp := mkOp [(s.dn, s.up, 1)]
  sm := mkOp [(s.up, s.dn, 1)]
  id := mkOp [(s.up, s.up, 1), (s.dn, s.dn, 1), (s.emp, s.emp, 1)]
  f := mkOp [(s.up, s.up, -1), (s.dn, s.dn, -1), (s.emp, s.emp, 1)]
  bupc := mkOp [(s.emp, s.up, 1)]
  bdnc := mkOp [(s.emp, s.dn, 1)]
  bupa := mkOp [(s.up, s.emp, 1)]
  bdna := mkOp [(s.dn, s.emp, 1)]
  nf := mkOp [(s.up, s.up, 1), (s.dn, s.dn, 1)]
  nup := mkOp [(s.up, s.up, 1)]
  ndn := mkOp [(s.dn, s.dn, 1)]
  bdnc_multi_bupa := mkOp [(s.dn, s.up, 1)]
  bupc_multi_bdna := mkOp [(s.up, s.dn, 1)]

/-- `SpinOneHalfOperators` (spin_one_half_operators.h:21-75). -/
structure SpinOps (K : Type) where
  sz : Op 2 K
  sp : Op 2 K
  sm : Op 2 K
  id : Op 2 K
  sx : Op 2 K
  sy : Op 2 K

/-- `SpinOneHalfOperators(site)` (spin_one_half_operators.h:34-53). -/
def spinOps (im : K) (s : SpinSite) : SpinOps K where
  sz := mkOp [(s.up, s.up, 2⁻¹), (s.dn, s.dn, -2⁻¹)]
  sp := mkOp [(s.dn, s.up, 1)]
  sm := mkOp [(s.up, s.dn, 1)]
  id := mkOp [(s.up, s.up, 1), (s.dn, s.dn, 1)]
  sx := mkOp [(s.dn, s.up, 2⁻¹), (s.up, s.dn, 2⁻¹)]
  sy := mkOp [(s.dn, s.up, -(2⁻¹ * im)), (s.up, s.dn, 2⁻¹ * im)]

/-- The quantum numbers of the indices of a bond. -/
def bondQns (bond : List ((Int × Int) × Nat)) : List (Int × Int) := bond.flatMap fun qd => List.replicate qd.2 qd.1

/-- Quantum number of a basis label. -/
def labelQn (bond : List ((Int × Int) × Nat)) (k : Fin d) : Int × Int := (bondQns bond)[k.1]?.getD 0

/-- `Div()` of an operator tensor (the argument of `Gen`'s bookkeeping, mpogen_impl.h:380): quantum number of the outgoing minus that of the ingoing
label at the first element that is not zero. -/
def opDiv [DecidableEq K] (bond : List ((Int × Int) × Nat)) (t : Op d K) : Int × Int :=
  (((List.finRange d).flatMap fun c => (List.finRange d).map fun r => (c, r)).find? (fun p => decide (t p.1 p.2 ≠ 0))).elim 0
    fun p => labelQn bond p.2 - labelQn bond p.1

/-- Coefficients and operator tensors are numbers and matrices of numbers; which numbers count as too small and which tensors have a negative first
element is left open. -/
structure ExactTypes (d : Nat) (K : Type) [Field K] [GenTypes K (Op d K)] : Prop where
  zero : GenTypes.czero (C := K) (Op d K) = 0
  one : GenTypes.cone (C := K) (Op d K) = 1
  cneg : ∀ c : K, GenTypes.cneg (Op d K) c = -c
  tneg : ∀ (t : Op d K) c r, GenTypes.tneg K t c r = -t c r

variable [DecidableEq K] [GenTypes K (Op 4 K)] [GenTypes K (Op 3 K)]

/-- `AddHubbardHoppingTerms` (hubbard_operators.h:183-193). -/
def addHubbardHopping (o : HubOps K) (g : Generator K (Op 4 K)) (t : K) (i j : Nat) : Except Err (Generator K (Op 4 K)) := do
  let g ← g.addTerm2 (-t) o.bupcF (min i j) (some o.bupa) (max i j) (some o.f) []
  let g ← g.addTerm2 t o.bupaF (min i j) (some o.bupc) (max i j) (some o.f) []
  let g ← g.addTerm2 (-t) o.bdnc (min i j) (some o.Fbdna) (max i j) (some o.f) []
  g.addTerm2 t o.bdna (min i j) (some o.Fbdnc) (max i j) (some o.f) []

/-- `AddTJHoppingTerms` (tJ_operators.h:111-129). The `std::runtime_error` for equal sites is `exitFail`. -/
def addTJHopping [StarRing K] (o : TjOps K) (g : Generator K (Op 3 K)) (t : K) (i j : Nat) : Except Err (Generator K (Op 3 K)) := do
  let t0 ← (if i < j then .ok t else if j < i then .ok (star t) else .error .exitFail : Except Err K)
  let g ← g.addTermInst (-t0) [(min i j, o.bupc), (max i j, o.bupa)] [o.f] none
  let g ← g.addTermInst (-t0) [(min i j, o.bdnc), (max i j, o.bdna)] [o.f] none
  let g ← g.addTermInst (-star t0) [(min i j, o.bupa), (max i j, o.bupc)] [o.f] none
  g.addTermInst (-star t0) [(min i j, o.bdna), (max i j, o.bdnc)] [o.f] none

/-- `AddHeisenbergCoupling` (spin_one_half_operators.h:88-98) with the operators `sz`, `sp`, `sm` of any operator set. -/
def addHeisenberg [GenTypes K (Op d K)] (sz sp sm : Op d K) (g : Generator K (Op d K)) (J : K) (i j : Nat) : Except Err (Generator K (Op d K)) := do
  if i = j then .error .assertFail
  else
    let g ← g.addTerm J [sz, sz] [min i j, max i j]
    let g ← g.addTerm (J / 2) [sp, sm] [min i j, max i j]
    g.addTerm (J / 2) [sm, sp] [min i j, max i j]

end
end Verif.Mpo
