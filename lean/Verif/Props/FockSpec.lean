import Mathlib.Data.Matrix.Mul
import Mathlib.Data.Fintype.Pi
import Mathlib.Data.Fintype.Prod
/-
Specification: spin-1/2 fermions on a chain of `N` sites in the occupation number basis. Nothing here refers to the library.

The modes are ordered site by site, on a site spin up before spin down, and `c_m |n⟩ = (-1)^(number of particles in modes before m) |n with m emptied⟩`.
-/
namespace Verif.Fock
open Finset

inductive Spin where
  | up
  | dn
deriving DecidableEq

instance : Fintype Spin := ⟨{.up, .dn}, by intro s; cases s <;> simp⟩

/-- Occupation of one site: by an up-spin and by a down-spin particle. -/
abbrev Occ := Bool × Bool

/-- Is the mode of spin `σ` occupied? -/
def occ : Spin → Occ → Bool
  | .up, o => o.1
  | .dn, o => o.2

/-- The occupation with the mode of spin `σ` emptied. -/
def clear : Spin → Occ → Occ
  | .up, o => (false, o.2)
  | .dn, o => (o.1, false)

/-- Occupation of the whole chain. -/
abbrev Conf (N : Nat) := Fin N → Occ

/-- Mode order: by site, then spin up before spin down. -/
def modeLt {N : Nat} (a b : Fin N × Spin) : Prop := a.1 < b.1 ∨ (a.1 = b.1 ∧ a.2 = .up ∧ b.2 = .dn)

instance {N : Nat} (a b : Fin N × Spin) : Decidable (modeLt a b) := by unfold modeLt; infer_instance

/-- Number of particles in the modes before `m`. -/
def before {N : Nat} (n : Conf N) (m : Fin N × Spin) : Nat :=
  (univ.filter (fun k : Fin N × Spin => modeLt k m ∧ occ k.2 (n k.1) = true)).card

variable {K : Type} [CommRing K] {N : Nat}

/-- The annihilation operator of a mode: entry (row `n'`, column `n`) is `⟨n'| c_m |n⟩`. -/
def ann (m : Fin N × Spin) : Matrix (Conf N) (Conf N) K := fun n' n =>
  if occ m.2 (n m.1) = true ∧ n' = Function.update n m.1 (clear m.2 (n m.1)) then (-1) ^ before n m else 0

/-- The creation operator: the adjoint (all entries are real). -/
def cre (m : Fin N × Spin) : Matrix (Conf N) (Conf N) K := (ann m).transpose

/-- Number operator of a mode. -/
def num (m : Fin N × Spin) : Matrix (Conf N) (Conf N) K := cre m * ann m

end Verif.Fock
