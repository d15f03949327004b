import Verif.Mps.VarProd
import Mathlib.Algebra.Field.Defs
/-
The Taylor expansion of exp(-τH) as a `FiniteMPO` (one_dim_tn/mpo/finite_mpo/exp_finite_mpo.h).

The tensor library enters through the parameters in `ExpLib`. Timing and the formatting of the printed lines are not modelled; the printed traces and truncation errors are
recorded.
-/
namespace Verif.Mps
open Finset
variable {σ K : Type} [Field K]

/-- `GetMaxBondDim` (finite_mpo.h:281-287): the largest right bond of all tensors but the last, at least 1. It is only called on objects without empty slots. -/
def FMpo.maxBond (m : FMpo σ K) : Nat :=
  (m.slots.take (m.size - 1)).foldl (fun D o => max D (match o with | some t => t.r | Option.none => 0)) 1

/-- What the code uses of the tensor library: QR and SVD, the truncated SVD of `Truncate` as a function of its limits `Dmin`, `Dmax` (its `trunc_err` is the
constant 1e-16 at exp_finite_mpo.h:86, 105) with the reported error, the split of a two-site block, the norm and the convergence test of the compressing product, `Normalize` of a tensor. -/
structure ExpLib (σ K : Type) where
  qr : Ten (σ × σ) K → Ten (σ × σ) K × Mat K
  svd : Ten (σ × σ) K → Ten (σ × σ) K × Mat K
  tsvd : Nat → Nat → Ten (σ × σ) K → Ten (σ × σ) K × Mat K
  terr : Nat → Nat → Ten (σ × σ) K → K
  splitR : Two σ K → Ten (σ × σ) K × Ten (σ × σ) K
  splitL : Two σ K → Ten (σ × σ) K × Ten (σ × σ) K
  nrm2 : Ten (σ × σ) K → K
  conv : K → K → Bool
  nrm : Ten (σ × σ) K → K × Ten (σ × σ) K

/-- The arguments (exp_finite_mpo.h:45-55) and the two comparisons of numbers: `pos t` is `t > 0.0` (line 117), `small t t0` is `std::abs(t / t0) < tol_taylor_expansion` (line 118). -/
structure ExpCfg (K : Type) where
  tau : K
  maxOrder : Nat
  Dmax : Nat
  sweeps : Nat
  pos : K → Bool
  small : K → K → Bool

/-- The variables of the loop: `taylor_term`, `density_matrix`, the environment files in the temporary directory, the directories `<prefix>_H<n>_tau<τ>`, the printed traces and truncation errors. -/
structure ExpSt (σ K : Type) where
  term : FMpo σ K
  dens : FMpo σ K
  lf : Nat → Option (Env3 K)
  rf : Nat → Option (Env3 K)
  disk : Nat → Option (MpoDir σ K)
  traces : List K
  errs : List K

/-- Lines 81, 88 of exp_finite_mpo.h: a new object of `N` sites after `Load` of the directory of order `n`. `Load` of a directory that does not exist returns false and leaves the object
empty (finite_mpo.h:239-242). -/
def expGuess (N : Nat) (d : Option (MpoDir σ K)) : Except Err (FMpo σ K) :=
  match d with
  | some d => FMpo.loadDir (FMpo.fresh N) d
  | Option.none => .ok (FMpo.fresh N)

variable [StarRing K] [Fintype σ] [DecidableEq σ]

/-- Lines 82-97 of exp_finite_mpo.h: the next term, `x` being `m_tau_h`. The move assignment (finite_mpo.h:100-107) hands over tensors, flags and centre. -/
def expTerm (L : ExpLib σ K) (C : ExpCfg K) (x : FMpo σ K) (dH : Nat) (n : Nat) (s : ExpSt σ K) : Except Err (ExpSt σ K) :=
  if 1 < n then do
    let s' ← (if dH * FMpo.maxBond s.term ≤ C.Dmax then do
        let p ← FMpo.product s.term x (FMpo.fresh x.size)
        let r ← FMpo.truncate L.qr L.svd (L.tsvd 1 (FMpo.maxBond p)) (L.terr 1 (FMpo.maxBond p)) p
        pure { s with term := r.1, errs := s.errs ++ r.2 }
      else do
        let g ← expGuess x.size (s.disk n)
        let z ← FMpo.varProduct L.qr L.svd L.splitR L.splitL L.nrm2 L.conv C.sweeps s.term x g s.lf s.rf
        pure { s with term := z.out, lf := z.lf, rf := z.rf })
    let t ← FMpo.scale s'.term (n : K)⁻¹
    pure { s' with term := t }
  else .ok s

/-- Lines 98-107: the term is added, dumped and traced; the sum is truncated when a bond exceeds `Dmax`. The result carries the trace. -/
def expAdd (L : ExpLib σ K) (C : ExpCfg K) (n : Nat) (s : ExpSt σ K) : Except Err (ExpSt σ K × K) := do
  let d ← FMpo.addAssign s.dens s.term
  let dir ← FMpo.dump s.term ((s.disk n).getD ⟨fun _ => Option.none, Option.none⟩)
  let t ← FMpo.trace s.term
  if C.Dmax < FMpo.maxBond d then do
    let r ← FMpo.truncate L.qr L.svd (L.tsvd C.Dmax C.Dmax) (L.terr C.Dmax C.Dmax) d
    pure ({ s with term := t.1, dens := r.1, disk := Function.update s.disk n (some dir), traces := s.traces ++ [t.2], errs := s.errs ++ r.2 }, t.2)
  else
    pure ({ s with term := t.1, dens := d, disk := Function.update s.disk n (some dir), traces := s.traces ++ [t.2] }, t.2)

/-- The loop (exp_finite_mpo.h:79-122), `k` passes left, the next one of order `n`, `t0` the trace of the identity. The assertion at line 117 is live in a debug build. -/
def expLoop (L : ExpLib σ K) (C : ExpCfg K) (x : FMpo σ K) (dH : Nat) (t0 : K) : Nat → Nat → ExpSt σ K → Except Err (ExpSt σ K)
  | 0, _, s => .ok s
  | k + 1, n, s => do
    let s1 ← expTerm L C x dH n s
    let s2 ← expAdd L C n s1
    if n % 2 = 0 then
      if C.pos s2.2 then
        if C.small s2.2 t0 then .ok s2.1 else expLoop L C x dH t0 k (n + 1) s2.1
      else .error .assertFail
    else expLoop L C x dH t0 k (n + 1) s2.1

/-- `ExpFiniteMPO` (exp_finite_mpo.h:44-130), with the environment files and directories found on disk. The result is the final state, whose `dens` is the returned operator, and
the returned number. -/
def expMpo (L : ExpLib σ K) (C : ExpCfg K) (h : FMpo σ K) (lf rf : Nat → Option (Env3 K)) (disk : Nat → Option (MpoDir σ K)) : Except Err (ExpSt σ K × K) := do
  let x ← FMpo.scale h (-C.tau)
  let i ← FMpo.identity h
  let t0 ← FMpo.trace i
  let s ← expLoop L C x (FMpo.maxBond h) t0.2 (C.maxOrder - 1) 1 ⟨x, t0.1, lf, rf, disk, [], []⟩
  let d ← FMpo.centralize L.qr L.svd s.dens 0
  let t ← d.read 0
  let d' ← d.write 0 (L.nrm t).2
  pure ({ s with dens := d' }, (L.nrm t).1)

end Verif.Mps
