import Verif.Mps.DmrgNum
/-
The other form of the super-block Hamiltonian of DMRG: the operators of a block and of the site beside it are multiplied out before the Lanczos iteration
(algorithm/dmrg/lanczos_dmrg_solver_impl.h:285-415). The library declares it next to the form it uses, Verif/Mps/DmrgNum.lean.
-/
namespace Verif.Mps
open Verif.Disk Verif.Algo

section
variable {σ 𝕜 : Type} [RCLike 𝕜] [Fintype σ]

/-- The sum of the products of block and site operators, legs (outgoing block, outgoing site, incoming block, incoming site) as after `Transpose({1, 3, 0, 2})`
(lanczos_dmrg_solver_impl.h:306-332). A bond that does not fit is noticed here instead of in the product with the state. -/
def combineBlockSite (l : Nat) (terms : List (Option (BOp 𝕜) × (σ → σ → 𝕜))) : Option (Fin l → σ → Fin l → σ → 𝕜) :=
  accum (fun f g => some (f + g)) (terms.map fun x => (x.1.bind fun o => o.on l).map fun o => fun l1 s1 l0 s0 => o l0 l1 * x.2 s0 s1)

/-- The same on the right, legs (incoming site, incoming block, outgoing site, outgoing block) as after `Transpose({0, 2, 1, 3})` (lanczos_dmrg_solver_impl.h:342-368). -/
def combineSiteBlock (r : Nat) (terms : List ((σ → σ → 𝕜) × Option (BOp 𝕜))) : Option (σ → Fin r → σ → Fin r → 𝕜) :=
  accum (fun f g => some (f + g)) (terms.map fun x => (x.2.bind fun o => o.on r).map fun o => fun s0 r0 s1 r1 => x.1 s0 s1 * o r0 r1)

/-- `combine_operators_in_super_blk_hamiltonian` (lanczos_dmrg_solver_impl.h:295-379). That it empties the block operators, after their last use, is not modelled. -/
def combine (l r : Nat) (terms : List (List (Option (BOp 𝕜) × (σ → σ → 𝕜)) × List ((σ → σ → 𝕜) × Option (BOp 𝕜)))) :
    List (Option (Fin l → σ → Fin l → σ → 𝕜)) × List (Option (σ → Fin r → σ → Fin r → 𝕜)) :=
  (terms.map fun x => combineBlockSite l x.1, terms.map fun x => combineSiteBlock r x.2)

/-- The two contractions with one pair of operators (lanczos_dmrg_solver_impl.h:394-398). -/
def pairMul {l r : Nat} (b : Fin l → σ → Fin l → σ → 𝕜) (c : σ → Fin r → σ → Fin r → 𝕜) (x : Fin l × σ × σ × Fin r → 𝕜) : Fin l × σ × σ × Fin r → 𝕜 :=
  fun p => ∑ s0', ∑ r0, (∑ l0, ∑ s0, b p.1 p.2.1 l0 s0 * x (l0, s0, s0', r0)) * c s0' r0 p.2.2.1 p.2.2.2

/-- `super_block_hamiltonian_mul_two_site_state` with the operators multiplied out (lanczos_dmrg_solver_impl.h:382-415, with `save_mem`). -/
def combinedMul {l r : Nat} (ops : List (Option (Fin l → σ → Fin l → σ → 𝕜)) × List (Option (σ → Fin r → σ → Fin r → 𝕜))) (x : Fin l × σ × σ × Fin r → 𝕜) : Option (Fin l × σ × σ × Fin r → 𝕜) :=
  accum (fun f g => some (f + g)) ((ops.1.zip ops.2).map fun p => p.1.bind fun b => p.2.map fun c => pairMul b c x)

end
end Verif.Mps
