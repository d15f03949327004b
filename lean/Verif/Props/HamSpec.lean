import Verif.Props.ModelSpec
import Verif.Mpo.Spec
/-
Specification for C72: Hamiltonians put together from the predefined terms, as programs that call the builders and as Fock space operators.
-/
namespace Verif.Fock
open Verif.Mpo

/-- One-site operators of the Hubbard and of the t-J model a Hamiltonian may contain. -/
inductive HubOn where
  | dbl
  | n
  | n2
  | nup
  | ndn
  | sz
deriving DecidableEq

inductive TjOn where
  | n
  | nup
  | ndn
  | sz
deriving DecidableEq

/-- A term of a Hamiltonian: hopping, Heisenberg coupling, density-density coupling, one-site term. -/
inductive HamTerm (On : Type) (N : Nat) (K : Type) where
  | hop (t : K) (i j : Fin N)
  | heis (J : K) (i j : Fin N)
  | dens (V : K) (i j : Fin N)
  | site (k : On) (c : K) (i : Fin N)

variable {On K : Type} {N d : Nat}

def HamTerm.coef : HamTerm On N K → K
  | .hop t _ _ => t
  | .heis J _ _ => J
  | .dens V _ _ => V
  | .site _ c _ => c

/-- A two-site term acts on two different sites. -/
def HamTerm.Proper : HamTerm On N K → Prop
  | .hop _ i j => i ≠ j
  | .heis _ i j => i ≠ j
  | .dens _ i j => i ≠ j
  | .site _ _ _ => True

/-- No site carries two one-site terms of the same kind. -/
def OneEach (ts : List (HamTerm On N K)) : Prop :=
  ts.Pairwise fun a b => ∀ k c i c' i', a = .site k c i → b = .site k c' i' → i ≠ i'

section
variable [Field K]

/-- The operator a one-site term stands for. -/
def HubOn.fock : HubOn → Fin N → Matrix (Conf N) (Conf N) K
  | .dbl, i => num (i, .up) * num (i, .dn)
  | .n, i => density i
  | .n2, i => density i * density i
  | .nup, i => num (i, .up)
  | .ndn, i => num (i, .dn)
  | .sz, i => Sz i

def TjOn.fock : TjOn → Fin N → Matrix (Conf N) (Conf N) K
  | .n, i => density i
  | .nup, i => num (i, .up)
  | .ndn, i => num (i, .dn)
  | .sz, i => Sz i

/-- The operator a term stands for; `conj` is what the amplitude of the reverse hopping is. -/
def HamTerm.fock (on : On → Fin N → Matrix (Conf N) (Conf N) K) (conj : K → K) : HamTerm On N K → Matrix (Conf N) (Conf N) K
  | .hop t i j => hopping (-t) (-conj t) i j
  | .heis J i j => heisenberg J i j
  | .dens V i j => V • (density i * density j)
  | .site k c i => c • on k i

/-- The tensor passed to `AddTerm` for a one-site term. -/
def HubOn.op (o : HubOps K) : HubOn → Op 4 K
  | .dbl => o.nupndn
  | .n => o.nf
  | .n2 => o.nfsquare
  | .nup => o.nup
  | .ndn => o.ndn
  | .sz => o.sz

def TjOn.op (o : TjOps K) : TjOn → Op 3 K
  | .n => o.nf
  | .nup => o.nup
  | .ndn => o.ndn
  | .sz => o.sz

variable [DecidableEq K]

/-- The call of the program that adds the term: a builder or `AddTerm`. -/
def addHubTerm [GenTypes K (Op 4 K)] (o : HubOps K) (g : Generator K (Op 4 K)) : HamTerm HubOn N K → Except Err (Generator K (Op 4 K))
  | .hop t i j => addHubbardHopping o g t i j
  | .heis J i j => addHeisenberg o.sz o.sp o.sm g J i j
  | .dens V i j => g.addTerm V [o.nf, o.nf] [i.1, j.1]
  | .site k c i => g.addTerm c [k.op o] [i.1]

def addTjTerm [StarRing K] [GenTypes K (Op 3 K)] (o : TjOps K) (g : Generator K (Op 3 K)) : HamTerm TjOn N K → Except Err (Generator K (Op 3 K))
  | .hop t i j => addTJHopping o g t i j
  | .heis J i j => addHeisenberg o.sz o.sp o.sm g J i j
  | .dens V i j => g.addTerm V [o.nf, o.nf] [i.1, j.1]
  | .site k c i => g.addTerm c [k.op o] [i.1]

/-- Spin chains: exchange and field. -/
inductive SpinTerm (N : Nat) (K : Type) where
  | heis (J : K) (i j : Fin N)
  | field (b : K) (i : Fin N)

def SpinTerm.coef : SpinTerm N K → K
  | .heis J _ _ => J
  | .field b _ => b

def SpinTerm.Proper : SpinTerm N K → Prop
  | .heis _ i j => i ≠ j
  | .field _ _ => True

def OneField (ts : List (SpinTerm N K)) : Prop := ts.Pairwise fun a b => ∀ b1 i b2 i', a = .field b1 i → b = .field b2 i' → i ≠ i'

def SpinTerm.fock : SpinTerm N K → Matrix (Conf N) (Conf N) K
  | .heis J i j => heisenberg J i j
  | .field b i => b • Sz i

def addSpinTerm [GenTypes K (Op 2 K)] (o : SpinOps K) (g : Generator K (Op 2 K)) : SpinTerm N K → Except Err (Generator K (Op 2 K))
  | .heis J i j => addHeisenberg o.sz o.sp o.sm g J i j
  | .field b i => g.addTerm b [o.sz] [i.1]

end
end Verif.Fock
