import Verif.Props.FockSpec
import Verif.Mpo.Models
/-
Specification of the Hamiltonian terms in terms of fermion operators (`FockSpec`), and of the basis labels of the predefined sites.
-/
namespace Verif.Fock
open Verif.Mpo

/-- Which occupation a basis label of a Hubbard site stands for. -/
def hubOcc (s : HubSite) (k : Fin 4) : Occ :=
  if k = s.dbl then (true, true) else if k = s.up then (true, false) else if k = s.dn then (false, true) else (false, false)

/-- Which occupation a basis label of a t-J site stands for; there is no label for the doubly occupied site. -/
def tjOcc (s : TjSite) (k : Fin 3) : Occ := if k = s.up then (true, false) else if k = s.dn then (false, true) else (false, false)

/-- Which occupation a basis label of a spin-1/2 site stands for: one particle, the spin is that of the particle. -/
def spinOcc (s : SpinSite) (k : Fin 2) : Occ := if k = s.up then (true, false) else (false, true)

variable {K : Type} {N d : Nat}

section
variable [CommRing K]

/-- Matrix element of the operator that acts as the tensor `o` on site `i` and as the identity elsewhere. -/
def onSite (o : Op d K) (i : Fin N) (x y : Nat → Fin d) : K := ∏ s : Fin N, if s = i then o (x s) (y s) else if x s = y s then 1 else 0

/-- Matrix element of the operator that acts as `f` on the sites before `i`, as the tensor `o` on site `i` and as the identity behind. -/
def withString (f o : Op d K) (i : Fin N) (x y : Nat → Fin d) : K :=
  ∏ s : Fin N, if s < i then f (x s) (y s) else if s = i then o (x s) (y s) else if x s = y s then 1 else 0

/-- Density of site `i`. -/
def density (i : Fin N) : Matrix (Conf N) (Conf N) K := num (i, .up) + num (i, .dn)

/-- `Σ_σ (a c†_{iσ} c_{jσ} + b c†_{jσ} c_{iσ})`. -/
def hopping (a b : K) (i j : Fin N) : Matrix (Conf N) (Conf N) K :=
  ∑ σ : Spin, (a • (cre (i, σ) * ann (j, σ)) + b • (cre (j, σ) * ann (i, σ)))
end

section
variable [Field K]

/-- Spin operators of site `i`. -/
def Sz (i : Fin N) : Matrix (Conf N) (Conf N) K := (2⁻¹ : K) • (num (i, .up) - num (i, .dn))
def Sp (i : Fin N) : Matrix (Conf N) (Conf N) K := cre (i, .up) * ann (i, .dn)
def Sm (i : Fin N) : Matrix (Conf N) (Conf N) K := cre (i, .dn) * ann (i, .up)

/-- `J (S^z_i S^z_j + ½ (S^+_i S^-_j + S^-_i S^+_j))`. -/
def heisenberg (J : K) (i j : Fin N) : Matrix (Conf N) (Conf N) K := J • (Sz i * Sz j + (2⁻¹ : K) • (Sp i * Sm j + Sm i * Sp j))

end
end Verif.Fock
