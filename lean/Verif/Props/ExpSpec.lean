import Verif.Mps.ExpMpo
import Verif.Props.VarProd
/-
Specification for C68: the Taylor expansion of an operator with orthogonal projections after every product and every sum.
-/
namespace Verif.Props
open Verif.Mps Finset

variable {σ K : Type} [Field K] [StarRing K] [Fintype σ] {N : Nat}

/-- `B` is an orthogonal projection of `A`: `⟨A, B⟩ = ⟨B, B⟩`, hence `‖A - B‖² = ‖A‖² - ‖B‖²` (`frob_pythagoras`). -/
def Proj (A B : Matrix (Fin N → σ) (Fin N → σ) K) : Prop := Matrix.trace (A * B.conjTranspose) = Matrix.trace (B * B.conjTranspose)

/-- The terms `T n` and partial sums `S n` of the exponential series of `X` up to order `last`, where each product `T (n-1) · X` and each sum may have been replaced by an orthogonal projection
of it. -/
structure TaylorRun [DecidableEq σ] (X : Matrix (Fin N → σ) (Fin N → σ) K) (T S : Nat → Matrix (Fin N → σ) (Fin N → σ) K) (last : Nat) : Prop where
  zero : S 0 = 1
  first : 1 ≤ last → T 1 = X
  term : ∀ n, 2 ≤ n → n ≤ last → Proj (T (n - 1) * X) ((n : K) • T n)
  sum : ∀ n, 1 ≤ n → n ≤ last → Proj (S (n - 1) + T n) (S n)

/-- No projection discards anything. -/
def TaylorExact (X : Matrix (Fin N → σ) (Fin N → σ) K) (T S : Nat → Matrix (Fin N → σ) (Fin N → σ) K) (last : Nat) : Prop :=
  (∀ n, 2 ≤ n → n ≤ last → (n : K) • T n = T (n - 1) * X) ∧ ∀ n, 1 ≤ n → n ≤ last → S n = S (n - 1) + T n

/-- What the code relies on from the tensor library: QR and SVD factorise into isometries; the truncated SVD with limits `Dmin`, `Dmax` keeps at most `Dmax` directions, projects
orthogonally and reports the discarded weight; the split of a two-site block projects; the number `Normalize` returns times the tensor it leaves is
the old tensor. -/
structure ExpLibSpec (L : ExpLib σ K) : Prop where
  qr : QRSpec L.qr
  svd : SVDSpec L.svd
  tsvd : ∀ a b, TruncSpec (L.tsvd a b) (L.terr a b)
  cap : ∀ a b t, (L.tsvd a b t).1.l ≤ b
  splitR : SplitRSpec L.splitR
  splitL : SplitLSpec L.splitL
  nrm : NormSpec L.nrm

end Verif.Props
