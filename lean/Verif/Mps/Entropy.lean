import Verif.Mps.TruncMps
import Mathlib.Analysis.SpecialFunctions.Log.Basic
import Mathlib.Analysis.RCLike.Basic
/-
`FiniteMPS::GetEntanglementEntropy` (finite_mps.h:276-309).
-/
namespace Verif.Mps
open Finset

/-- The result of `SVD(t, 1, …, &u, &s, &vt)` without truncation (finite_mps.h:250, utilities.h:36-60); `s` is the real diagonal. The new bond is `vt.l`. -/
structure SvdR (σ 𝕜 : Type) where
  u : Mat 𝕜
  s : Nat → ℝ
  vt : Ten σ 𝕜

section
variable {σ 𝕜 : Type} [RCLike 𝕜]

/-- The two tensors `RightCanonicalizeTen(i, true)` goes on with: `vt` and `u·s` (finite_mps.h:251-255). -/
def SvdR.pair (x : SvdR σ 𝕜) : Ten σ 𝕜 × Mat 𝕜 := (x.vt, fun a j => x.u a j * (x.s j : 𝕜))

/-- What the code relies on from the SVD of the tensor library: `t = u·s·vt`, the columns of `u` and the rows of `vt` orthonormal. -/
structure SvdRSpec [Fintype σ] (svd3 : Ten σ 𝕜 → SvdR σ 𝕜) : Prop where
  dim : ∀ t, (svd3 t).vt.r = t.r
  fac : ∀ t s a b, a < t.l → b < t.r → t.v s a b = ∑ j ∈ range (svd3 t).vt.l, (svd3 t).u a j * ((svd3 t).s j : 𝕜) * (svd3 t).vt.v s j b
  cols : ∀ t x, x < (svd3 t).vt.l → ∀ y, y < (svd3 t).vt.l → ∑ a ∈ range t.l, star ((svd3 t).u a x) * (svd3 t).u a y = if x = y then 1 else 0
  iso : ∀ t, RightIso (svd3 t).vt

/-- The power loop (finite_mps.h:293-296): `p_to_n = p`, then one multiplication for each `j` from 1 to `n - 1`. -/
noncomputable def powLoop (n : Nat) (p : ℝ) : ℝ := (List.range' 1 (n - 1)).foldl (fun q _ => q * p) p

/-- The loop over the singular values and the entry of the list (finite_mps.h:284-306) for a diagonal of length `d`. `none` is NaN: for `n == 1` a vanishing `p` gives `-0 * log(0)`.
`n - 1` is computed in `size_t`, so it wraps around for `n = 0`. -/
noncomputable def eeOf (n d : Nat) (s : Nat → ℝ) : Option ℝ :=
  open Classical in
  if n = 1 then if ∃ k < d, s k * s k = 0 then none else some ((List.range d).foldl (fun ee k => ee + -(s k * s k) * Real.log (s k * s k)) 0)
  else some (-Real.log ((List.range d).foldl (fun x k => x + powLoop n (s k * s k)) 0) / (if n = 0 then 2 ^ 64 - 1 else (n : ℝ) - 1))

/-- The body of the loop over the sites (finite_mps.h:282-307). -/
noncomputable def FMps.entStep (qr : Ten σ 𝕜 → Ten σ 𝕜 × Mat 𝕜) (svd3 : Ten σ 𝕜 → SvdR σ 𝕜) (n : Nat) (x : FMps σ 𝕜 × List (Option ℝ)) (i : Nat) : Except Err (FMps σ 𝕜 × List (Option ℝ)) :=
  match x.1.slots[i]? with
  | some (some t) =>
    match x.1.rightTen qr (fun t => (svd3 t).pair) true i with
    | .ok m => .ok (m, x.2.set (i - 1) (eeOf n (svd3 t).vt.l (svd3 t).s))
    | .error e => .error e
  | _ => .error .ub

/-- `GetEntanglementEntropy(n)` (finite_mps.h:277-309): the MPS afterwards and the returned list. An empty MPS asks for a list of `2^64 - 1` entries. -/
noncomputable def FMps.entropy (qr : Ten σ 𝕜 → Ten σ 𝕜 × Mat 𝕜) (svd3 : Ten σ 𝕜 → SvdR σ 𝕜) (nrm : Ten σ 𝕜 → 𝕜 × Ten σ 𝕜) (n : Nat) (m : FMps σ 𝕜) :
    Except Err (FMps σ 𝕜 × List (Option ℝ)) :=
  if m.size = 0 then .error .ub
  else do
    let m1 ← m.centralize qr (fun t => (svd3 t).pair) ((m.size - 1 : Nat) : Int)
    let t ← m1.read (m.size - 1)
    let m2 ← m1.write (m.size - 1) (nrm t).2
    (List.range' 1 (m.size - 1)).reverse.foldlM (FMps.entStep qr svd3 n) (m2, List.replicate (m.size - 1) (some 0))

end
end Verif.Mps
