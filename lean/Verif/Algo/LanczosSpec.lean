import Mathlib.Analysis.InnerProductSpace.Basic
import Mathlib.LinearAlgebra.Span.Basic
import Mathlib.Algebra.BigOperators.Group.Finset.Basic
/-
Vocabulary for the numerical statements about the Lanczos solver, independent of the model.
-/
namespace Verif.Algo
open Finset

/-- The Krylov space spanned by `v, H v, …, H^(n-1) v`. -/
def krySpace {𝕜 V : Type} [RCLike 𝕜] [NormedAddCommGroup V] [InnerProductSpace 𝕜 V] (H : V →ₗ[𝕜] V) (v : V) (n : Nat) :
    Submodule 𝕜 V := Submodule.span 𝕜 ((fun i => (H ^ i) v) '' Set.Iio n)

/-- `(E, x)` is a lowest eigenpair of the `n × n` symmetric tridiagonal matrix with diagonal `a` and off-diagonal `b`:
the eigenvalue equation, normalisation, and no vector has a smaller Rayleigh quotient. What LAPACK promises. -/
structure LowestTri (a b : Nat → ℝ) (n : Nat) (E : ℝ) (x : Nat → ℝ) : Prop where
  eig : ∀ i, i < n → (if i = 0 then 0 else b (i - 1) * x (i - 1)) + a i * x i + (if i + 1 < n then b i * x (i + 1) else 0) = E * x i
  unit : ∑ i ∈ range n, x i ^ 2 = 1
  low : ∀ y : Nat → ℝ, E * ∑ i ∈ range n, y i ^ 2 ≤
    ∑ i ∈ range n, a i * y i ^ 2 + 2 * ∑ i ∈ range (n - 1), b i * (y i * y (i + 1))

/-- `(d, z)` is the spectral decomposition of the `n × n` symmetric tridiagonal matrix with diagonal `a` and off-diagonal
`b`: `z` is orthogonal and its column `j` is an eigenvector with eigenvalue `d j`. What LAPACK promises. -/
structure TriEig (a b : Nat → ℝ) (n : Nat) (d : Nat → ℝ) (z : Nat → Nat → ℝ) : Prop where
  eig : ∀ i j, i < n → j < n → (if i = 0 then 0 else b (i - 1) * z (i - 1) j) + a i * z i j +
    (if i + 1 < n then b i * z (i + 1) j else 0) = d j * z i j
  cols : ∀ j k, j < n → k < n → ∑ i ∈ range n, z i j * z i k = if j = k then 1 else 0
  rows : ∀ i k, i < n → k < n → ∑ j ∈ range n, z i j * z k j = if i = k then 1 else 0

end Verif.Algo
