import Verif.Mps.Fmpo
/-
The compressing product of two `FiniteMPO`s (finite_mpo_utility.h:174-330): a variational two-site sweep that keeps its environment
tensors on disk.

The truncated SVD of a two-site block enters as parameters `splitR` (`u`, `s·vt`) and `splitL` (`u·s`, `vt`). Timing and printing are not modelled.
A contraction of legs with different dimensions, a file that is not there and an empty slot are undefined behaviour.
-/
namespace Verif.Mps
open Finset
variable {σ K : Type} [CommRing K]

/-- An environment tensor (finite_mpo_utility.h:441, 459): legs to the output, to the first and to the second operand. -/
structure Env3 (K : Type) where
  d0 : Nat
  d1 : Nat
  d2 : Nat
  v : Nat → Nat → Nat → K

/-- The block of two neighbouring sites of the output (finite_mpo_utility.h:374-376): outer left and right dimensions, the physical
pairs of the two sites, the outer bonds. -/
structure Two (σ K : Type) where
  l : Nat
  r : Nat
  v : σ × σ → σ × σ → Nat → Nat → K

/-- `UpdateLenv` (finite_mpo_utility.h:500-515): the conjugated output tensor `o`, the operands `t` and `u`. Leg 2 of `o` meets leg 2 of `t`, leg 1 of `t` meets
leg 2 of `u`, leg 1 of `o` meets leg 1 of `u`. -/
def updL [StarRing K] [Fintype σ] (e : Env3 K) (o t u : Ten (σ × σ) K) : Except Err (Env3 K) :=
  if o.l = e.d0 ∧ t.l = e.d1 ∧ u.l = e.d2 then
    .ok ⟨o.r, t.r, u.r, fun a' c1 c2 => ∑ s, ∑ s', ∑ q, ∑ a ∈ range e.d0, ∑ b1 ∈ range e.d1, ∑ b2 ∈ range e.d2,
      star (o.v (s, s') a a') * e.v a b1 b2 * t.v (s, q) b1 c1 * u.v (q, s') b2 c2⟩
  else .error .ub

/-- `UpdateRenv` (finite_mpo_utility.h:465-483). -/
def updR [StarRing K] [Fintype σ] (e : Env3 K) (o t u : Ten (σ × σ) K) : Except Err (Env3 K) :=
  if o.r = e.d0 ∧ t.r = e.d1 ∧ u.r = e.d2 then
    .ok ⟨o.l, t.l, u.l, fun a b1 b2 => ∑ s, ∑ s', ∑ q, ∑ a' ∈ range e.d0, ∑ c1 ∈ range e.d1, ∑ c2 ∈ range e.d2,
      star (o.v (s, s') a a') * e.v a' c1 c2 * t.v (s, q) b1 c1 * u.v (q, s') b2 c2⟩
  else .error .ub

/-- The contractions of `MPOProductVariationalSingleStep` (finite_mpo_utility.h:361-374): the left environment with both left operand tensors, the right
environment with both right operand tensors, and the two halves. -/
def varTwo [Fintype σ] (el er : Env3 K) (tl tr ul ur : Ten (σ × σ) K) : Except Err (Two σ K) :=
  if ul.l = el.d2 ∧ tl.l = el.d1 ∧ ur.r = er.d2 ∧ tr.r = er.d1 ∧ ul.r = ur.l ∧ tl.r = tr.l then
    .ok ⟨el.d0, er.d0, fun x y a a' => ∑ c1 ∈ range tl.r, ∑ c2 ∈ range ul.r,
      (∑ q, ∑ b1 ∈ range el.d1, ∑ b2 ∈ range el.d2, el.v a b1 b2 * ul.v (q, x.2) b2 c2 * tl.v (x.1, q) b1 c1) *
      (∑ q, ∑ d1 ∈ range er.d1, ∑ d2 ∈ range er.d2, ur.v (q, y.2) c2 d2 * er.v a' d1 d2 * tr.v (y.1, q) c1 d1)⟩
  else .error .ub

/-- The output object and the environment files `l<k>`, `r<k>` in the temporary directory. -/
structure VarSt (σ K : Type) where
  out : FMpo σ K
  lf : Nat → Option (Env3 K)
  rf : Nat → Option (Env3 K)

/-- `ReadQLTensorFromFile`; a missing file leaves the tensor unusable. -/
def readEnv (f : Nat → Option (Env3 K)) (k : Nat) : Except Err (Env3 K) :=
  match f k with
  | some e => .ok e
  | none => .error .ub

variable [StarRing K] [Fintype σ]

/-- One update of the right-moving half sweep (finite_mpo_utility.h:240-274). -/
def varStepR (splitR : Two σ K → Ten (σ × σ) K × Ten (σ × σ) K) (m1 m2 : FMpo σ K) (N : Nat) (x : VarSt σ K × Env3 K) (i : Nat) :
    Except Err (VarSt σ K × Env3 K) := do
  let er ← readEnv x.1.rf (N - (i + 1) - 1)
  let tl ← m1.read i
  let tr ← m1.read (i + 1)
  let ul ← m2.read i
  let ur ← m2.read (i + 1)
  let T ← varTwo x.2 er tl tr ul ur
  let o1 ← x.1.out.write i (splitR T).1
  let o2 ← o1.write (i + 1) (splitR T).2
  let el ← updL x.2 (splitR T).1 tl ul
  pure (⟨o2, Function.update x.1.lf (i + 1) (some el), Function.update x.1.rf (N - (i + 1) - 1) none⟩, el)

/-- One update of the left-moving half sweep (finite_mpo_utility.h:279-310). -/
def varStepL (splitL : Two σ K → Ten (σ × σ) K × Ten (σ × σ) K) (m1 m2 : FMpo σ K) (N : Nat) (x : VarSt σ K × Env3 K) (i : Nat) :
    Except Err (VarSt σ K × Env3 K) := do
  let el ← readEnv x.1.lf i
  let tl ← m1.read i
  let tr ← m1.read (i + 1)
  let ul ← m2.read i
  let ur ← m2.read (i + 1)
  let T ← varTwo el x.2 tl tr ul ur
  let o1 ← x.1.out.write i (splitL T).1
  let o2 ← o1.write (i + 1) (splitL T).2
  let er ← updR x.2 (splitL T).2 tr ur
  pure (⟨o2, Function.update x.1.lf i none, Function.update x.1.rf (N - i - 1) (some er)⟩, er)

/-- One sweep (finite_mpo_utility.h:237-310). -/
def varSweep (splitR splitL : Two σ K → Ten (σ × σ) K × Ten (σ × σ) K) (m1 m2 : FMpo σ K) (N : Nat) (s : VarSt σ K) : Except Err (VarSt σ K) := do
  let el ← readEnv s.lf 0
  let x ← (List.range (N - 2)).foldlM (varStepR splitR m1 m2 N) (s, el)
  let er ← readEnv x.1.rf 0
  let y ← (List.range' 1 (N - 2)).reverse.foldlM (varStepL splitL m1 m2 N) (x.1, er)
  pure y.1

/-- The sweeps (finite_mpo_utility.h:232-322): at most `n` more, the `k`-th being next. `nrm2` is `Get2Norm` of the tensor at site 1, read through the non-const access,
and `conv new old` the convergence test, made from the second sweep on. -/
def varSweeps (splitR splitL : Two σ K → Ten (σ × σ) K × Ten (σ × σ) K) (nrm2 : Ten (σ × σ) K → K) (conv : K → K → Bool) (m1 m2 : FMpo σ K) (N : Nat) :
    Nat → Nat → K → VarSt σ K → Except Err (VarSt σ K)
  | 0, _, _, s => .ok s
  | n + 1, k, old, s => do
    let s1 ← varSweep splitR splitL m1 m2 N s
    let t ← s1.out.read 1
    let o ← s1.out.touch 1
    if 1 ≤ k ∧ conv (nrm2 t) old = true then .ok { s1 with out := o }
    else varSweeps splitR splitL nrm2 conv m1 m2 N n (k + 1) (nrm2 t) { s1 with out := o }

/-- The boundary environments (finite_mpo_utility.h:437-442, 455-460): one entry, 1 (the outer bonds have dimension `d0`, `d1`, `d2`). -/
def unitEnv (d0 d1 d2 : Nat) : Env3 K := ⟨d0, d1, d2, fun a b c => if a = 0 ∧ b = 0 ∧ c = 0 then 1 else 0⟩

/-- One pass of the loop of `Generate3MPOEnvs` (finite_mpo_utility.h:447-452). -/
def varGenStep (out m1 m2 : FMpo σ K) (N : Nat) (x : (Nat → Option (Env3 K)) × Env3 K) (i : Nat) : Except Err ((Nat → Option (Env3 K)) × Env3 K) := do
  let o ← out.read (N - i)
  let t ← m1.read (N - i)
  let u ← m2.read (N - i)
  let e ← updR x.2 o t u
  pure (Function.update x.1 i (some e), e)

/-- `Generate3MPOEnvs` (finite_mpo_utility.h:427-463). -/
def varGen (out m1 m2 : FMpo σ K) (lf rf : Nat → Option (Env3 K)) : Except Err (VarSt σ K) :=
  if out.size = m1.size ∧ out.size = m2.size then do
    let o ← out.read (out.size - 1)
    let t ← m1.read (out.size - 1)
    let u ← m2.read (out.size - 1)
    let x ← (List.range' 1 (out.size - 2)).foldlM (varGenStep out m1 m2 out.size)
      (Function.update rf 0 (some (unitEnv o.r t.r u.r)), unitEnv o.r t.r u.r)
    let o ← out.read 0
    let t ← m1.read 0
    let u ← m2.read 0
    pure ⟨out, Function.update lf 0 (some (unitEnv o.l t.l u.l)), x.1⟩
  else .error .assertFail

/-- The scan for an empty slot (finite_mpo_utility.h:205-214) through the non-const `operator()`, which resets flags and centre; `true` when a slot is empty. -/
def varScan (m : FMpo σ K) : Nat → Nat → Except Err (FMpo σ K × Bool)
  | 0, _ => .ok (m, false)
  | n + 1, i =>
    match m.slots[i]? with
    | Option.none => .error .ub
    | some Option.none => .ok (⟨m.slots, m.flags.set i .none, -1⟩, true)
    | some (some _) => varScan ⟨m.slots, m.flags.set i .none, -1⟩ n (i + 1)

/-- `MpoProduct(mpo1, mpo2, output, Dmin, Dmax, trunc_err, sweeps, tol, temp_path)` (finite_mpo_utility.h:191-330) of three different objects, with the environment
files `lf`, `rf` that happen to be in the directory. With fewer than two sites the loop bound `N - 2` wraps around or the flag of site 1 is written out of bounds. -/
def FMpo.varProduct (qr svd : Ten (σ × σ) K → Ten (σ × σ) K × Mat K) (splitR splitL : Two σ K → Ten (σ × σ) K × Ten (σ × σ) K)
    (nrm2 : Ten (σ × σ) K → K) (conv : K → K → Bool) (sweeps : Nat) (m1 m2 out : FMpo σ K) (lf rf : Nat → Option (Env3 K)) :
    Except Err (VarSt σ K) :=
  if 2 ≤ m1.size then do
    let sc ← varScan out m1.size 0
    let c ← FMpo.centralize qr svd (if sc.2 then m1 else sc.1) 0
    let s ← varGen c m1 m2 lf rf
    let z ← varSweeps splitR splitL nrm2 conv m1 m2 m1.size sweeps 0 0 s
    pure { z with out := ⟨z.out.slots, .left :: .none :: List.replicate (m1.size - 2) .right, 1⟩ }
  else .error .ub

end Verif.Mps
