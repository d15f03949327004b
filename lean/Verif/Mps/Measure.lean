import Verif.Mps.Fmps
import Mathlib.Algebra.Star.BigOperators
/-
Measurements with the whole MPS in memory (one_dim_tn/mps/finite_mps/finite_mps_measu_memory.h) and the two
arithmetic functions of finite_mps_ops.h.

A one-site operator is the table of its entries; the first leg is contracted with the MPS tensor, the second
with its conjugate. Writing the result files is not modelled.
-/
namespace Verif.Mps
open Finset

/-- A one-site operator tensor. -/
abbrev Op (σ K : Type) := σ → σ → K

section
variable {σ K : Type} [CommRing K] [StarRing K] [Fintype σ]

/-- Reading through the const `operator[]` (duovector.h:145-150): dereferences the pointer. -/
def FMps.read (m : FMps σ K) (i : Nat) : Except Err (Ten σ K) :=
  match m.slots[i]? with
  | some (some t) => .ok t
  | _ => .error .ub

/-- `OneSiteOpAvg` (finite_mps_measu_memory.h:354-375). -/
def oneSiteAvg (t : Ten σ K) (op : Op σ K) : K :=
  ∑ a ∈ range t.l, ∑ b ∈ range t.r, ∑ s', (∑ s, t.v s a b * op s s') * star (t.v s' a b)

/-- `ContractHeadSite` (finite_mps_measu_memory.h:444-467): legs are the right bonds of ket and bra. -/
def headSite (t : Ten σ K) (op : Op σ K) : Mat K := fun b b' =>
  ∑ a ∈ range t.l, ∑ s', (∑ s, t.v s a b * op s s') * star (t.v s' a b')

/-- `CtrctMidTen` (finite_mps_measu_memory.h:525-549): with `op == id_op` the operator is skipped. -/
def midSite [DecidableEq σ] [DecidableEq K] (t : Ten σ K) (op idop : Op σ K) (E : Mat K) : Mat K :=
  if op = idop then
    fun b b' => ∑ s, ∑ a' ∈ range t.l, (∑ a ∈ range t.l, t.v s a b * E a a') * star (t.v s a' b')
  else
    fun b b' => ∑ a' ∈ range t.l, ∑ s',
      (∑ s, (∑ a ∈ range t.l, t.v s a b * E a a') * op s s') * star (t.v s' a' b')

/-- `ContractTailSite` (finite_mps_measu_memory.h:480-499). -/
def tailSite (t : Ten σ K) (op : Op σ K) (E : Mat K) : K :=
  ∑ b ∈ range t.r, ∑ a' ∈ range t.l, ∑ s',
    (∑ s, (∑ a ∈ range t.l, t.v s a b * E a a') * op s s') * star (t.v s' a' b)

/-- The identity operator that `SiteVec` stores as `id_ops[i]` (site_vec.h:36-45): ones on the diagonal. -/
def siteId [DecidableEq σ] : Op σ K := fun s s' => if s = s' then 1 else 0

variable [DecidableEq σ] [DecidableEq K]

/-- The middle loop and the tail of `OpsVecAvg` (finite_mps_measu_memory.h:513-521), from site `i` on with the
remaining operators; `d` is the dimension of the legs of the running tensor, which `Contract` requires to
equal that of the next tensor. -/
def midTail (m : FMps σ K) : Nat → List (Op σ K) → Nat → Mat K → Except Err K
  | _, [], _, _ => .error .ub
  | i, [op], d, E => do
    let t ← m.read i
    if t.l = d then pure (tailSite t op E) else .error .ub
  | i, op :: op' :: ops, d, E => do
    let t ← m.read i
    if t.l = d then midTail m (i + 1) (op' :: ops) t.r (midSite t op siteId E) else .error .ub

/-- `OpsVecAvg` (finite_mps_measu_memory.h:501-523) with `tail_site = head_site + ops.size() - 1`. With a single
operator the head site is contracted a second time as the tail. -/
def opsVecAvg (m : FMps σ K) (ops : List (Op σ K)) (head : Nat) : Except Err K :=
  match ops with
  | [] => .error .ub
  | [op] => do
    let t ← m.read head
    if t.l = t.r then pure (tailSite t op (headSite t op)) else .error .ub
  | op :: op' :: rest => do
    let t ← m.read head
    midTail m (head + 1) (op' :: rest) t.r (headSite t op)

/-- The flattening loop of `MultiSiteOpAvg` (finite_mps_measu_memory.h:389-402). -/
def flatOps : List (Op σ K) → List (List (Op σ K)) → List (Op σ K)
  | [], _ => []
  | [p], [] => [p]
  | [p], is :: _ => p :: is
  | p :: _ :: _, [] => [p]
  | p :: p' :: ps, is :: iss => p :: is ++ flatOps (p' :: ps) iss

/-- `MultiSiteOpAvg` with explicit insertion strings (finite_mps_measu_memory.h:377-408). -/
def multiSiteAvg (m : FMps σ K) (phys : List (Op σ K)) (inst : List (List (Op σ K))) (sites : List Nat) :
    Except Err (List Nat × K) :=
  if phys.length = inst.length + 1 ∨ phys.length = inst.length then
    match sites with
    | [] => .error .ub
    | h :: _ =>
      match opsVecAvg m (flatOps phys inst) h with
      | .error e => .error e
      | .ok v => .ok (sites, v)
  else .error .assertFail

/-- The strings of equal insertion operators (finite_mps_measu_memory.h:421-428): `sites[i+1] - sites[i] - 1`
copies; a difference of zero or less wraps around and the vector cannot be allocated. -/
def instStrings : List (Op σ K) → List Nat → Except Err (List (List (Op σ K)))
  | [], _ => .ok []
  | o :: os, x :: y :: rest =>
    if x < y then
      match instStrings os (y :: rest) with
      | .error e => .error e
      | .ok l => .ok (List.replicate (y - x - 1) o :: l)
    else .error .ub
  | _ :: _, _ => .error .ub

/-- `MultiSiteOpAvg` with one insertion operator per gap (finite_mps_measu_memory.h:410-431). -/
def multiSiteAvg1 (m : FMps σ K) (phys : List (Op σ K)) (inst : List (Op σ K)) (sites : List Nat) :
    Except Err (List Nat × K) :=
  if phys.length = inst.length + 1 then
    match instStrings inst sites with
    | .error e => .error e
    | .ok iss => multiSiteAvg m phys iss sites
  else .error .assertFail

/-- `IsOrderKept` (finite_mps_measu_memory.h:100-105). -/
def isOrderKept : List Nat → Bool
  | x :: y :: rest => if y < x then false else isOrderKept (y :: rest)
  | _ => true

variable (qr svd : Ten σ K → Ten σ K × Mat K)

/-- One measurement of a multi-site loop: asserts, `Centralize(sites[0])`, then the average
(finite_mps_measu_memory.h:304-307, 344-347). `f` is the overload of `MultiSiteOpAvg`. -/
def measureEvent (m : FMps σ K) (sites : List Nat) (f : FMps σ K → Except Err (List Nat × K)) :
    Except Err (FMps σ K × (List Nat × K)) :=
  if 1 < sites.length ∧ isOrderKept sites = true then
    match m.centralize qr svd (sites.headD 0 : Nat) with
    | .error e => .error e
    | .ok m' =>
      match f m' with
      | .error e => .error e
      | .ok r => .ok (m', r)
  else .error .assertFail

/-- `MeasureMultiSiteOp` with explicit strings (finite_mps_measu_memory.h:290-311): one entry per event. -/
def measureMulti (m : FMps σ K) :
    List (List (Op σ K) × List (List (Op σ K)) × List Nat) → Except Err (FMps σ K × List (List Nat × K))
  | [] => .ok (m, [])
  | (phys, inst, sites) :: evs =>
    match measureEvent qr svd m sites (fun m' => multiSiteAvg m' phys inst sites) with
    | .error e => .error e
    | .ok (m1, r) =>
      match measureMulti m1 evs with
      | .error e => .error e
      | .ok (m2, rs) => .ok (m2, r :: rs)

/-- `MeasureMultiSiteOp` with one insertion operator per gap (finite_mps_measu_memory.h:330-351). -/
def measureMulti1 (m : FMps σ K) :
    List (List (Op σ K) × List (Op σ K) × List Nat) → Except Err (FMps σ K × List (List Nat × K))
  | [] => .ok (m, [])
  | (phys, inst, sites) :: evs =>
    match measureEvent qr svd m sites (fun m' => multiSiteAvg1 m' phys inst sites) with
    | .error e => .error e
    | .ok (m1, r) =>
      match measureMulti1 m1 evs with
      | .error e => .error e
      | .ok (m2, rs) => .ok (m2, r :: rs)

/-- `MeasureTwoSiteOp` with a string of operators per event (finite_mps_measu_memory.h:207-236). The unsigned difference
`sites[1] - sites[0] - 1` wraps around unless the sites ascend, and is then no length of a string. -/
def measureTwo (m : FMps σ K) (p q : Op σ K) (strings : List (List (Op σ K))) (sitesSet : List (List Nat)) :
    Except Err (FMps σ K × List (List Nat × K)) :=
  if strings.length ≠ sitesSet.length then .error .assertFail
  else if (strings.zip sitesSet).all (fun x => x.2.length = 2 ∧ x.2.getD 0 0 < x.2.getD 1 0 ∧
      x.2.getD 1 0 - x.2.getD 0 0 - 1 = x.1.length) then
    measureMulti qr svd m ((strings.zip sitesSet).map fun x => ([p, q], [x.1], x.2))
  else .error .assertFail

/-- `MeasureTwoSiteOp` with one insertion operator (finite_mps_measu_memory.h:250-269). -/
def measureTwo1 (m : FMps σ K) (p q inst : Op σ K) (sitesSet : List (List Nat)) :
    Except Err (FMps σ K × List (List Nat × K)) :=
  measureMulti1 qr svd m (sitesSet.map fun s => ([p, q], [inst], s))

/-- The body of the loop of `MeasureOneSiteOp` for a list of operators (finite_mps_measu_memory.h:180-185). With
no operator the tensor is not accessed. -/
def oneSiteStep (m : FMps σ K) (ops : List (Op σ K)) (i : Nat) : Except Err (FMps σ K × List K) :=
  match m.centralize qr svd (i : Nat) with
  | .error e => .error e
  | .ok m1 =>
    if ops.isEmpty then .ok (m1, [])
    else
      match m1.touch i with
      | .error e => .error e
      | .ok m2 =>
        match m2.read i with
        | .error e => .error e
        | .ok t => .ok (m2, ops.map (oneSiteAvg t))

/-- The loop, sites `i`, `i+1`, … (`n` of them); the result is one row per site. -/
def oneSiteLoop (ops : List (Op σ K)) : Nat → Nat → FMps σ K → Except Err (FMps σ K × List (List K))
  | 0, _, m => .ok (m, [])
  | n + 1, i, m =>
    match oneSiteStep qr svd m ops i with
    | .error e => .error e
    | .ok (m1, r) =>
      match oneSiteLoop ops n (i + 1) m1 with
      | .error e => .error e
      | .ok (m2, rs) => .ok (m2, r :: rs)

/-- `MeasureOneSiteOp` in memory, for one operator (`ops = [op]`, finite_mps_measu_memory.h:141-155) or several
(168-190). `result[i][j]` is the average of `ops[j]` on site `i` (the code stores it as `[j][i]`). -/
def measureOneSite (m : FMps σ K) (ops : List (Op σ K)) : Except Err (FMps σ K × List (List K)) :=
  oneSiteLoop qr svd ops m.size 0 m

end

section ops
variable {σ K : Type} [CommRing K]

/-- One step of the loop of `FiniteMPSInnerProd` (finite_mps_ops.h:70-76). -/
def innerStep [StarRing K] [Fintype σ] (t u : Ten σ K) (E : Mat K) : Mat K := fun b b' =>
  ∑ a' ∈ range u.l, ∑ s, (∑ a ∈ range t.l, E a a' * t.v s a b) * star (u.v s a' b')

/-- The loop of `FiniteMPSInnerProd`, with the dimensions of the running tensor. Surplus tensors of the second
MPS are never read. -/
def innerLoop [StarRing K] [Fintype σ] (a b : FMps σ K) : Nat → Nat → Nat × Nat → Mat K → Except Err K
  | 0, _, d, E => if 0 < d.1 ∧ 0 < d.2 then .ok (E 0 0) else .error .ub
  | n + 1, i, d, E => do
    let t ← a.read i
    let u ← b.read i
    if t.l = d.1 ∧ u.l = d.2 then innerLoop a b n (i + 1) (t.r, u.r) (innerStep t u E) else .error .ub

/-- `FiniteMPSInnerProd` (finite_mps_ops.h:60-78). The first running tensor has both legs of the left
dimension of the first MPS and a single entry 1. -/
def innerProd [StarRing K] [Fintype σ] (a b : FMps σ K) : Except Err K := do
  let t ← a.read 0
  if 0 < t.l then innerLoop a b a.size 0 (t.l, t.l) (fun x y => if x = 0 ∧ y = 0 then 1 else 0) else .error .ub

/-- `Expand(a, b, axes, c)` of the tensor library on legs 0 and/or 2: the direct sum on those legs. The order in
which the library lays out the sectors of the enlarged leg is not modelled. Legs that are not enlarged must
agree. -/
def expand (left right : Bool) (t u : Ten σ K) : Except Err (Ten σ K) :=
  if (left = true ∨ t.l = u.l) ∧ (right = true ∨ t.r = u.r) then
    .ok ⟨if left then t.l + u.l else t.l, if right then t.r + u.r else t.r, fun s x y =>
      let inA := (!left || x < t.l) && (!right || y < t.r)
      let inB := (!left || t.l ≤ x) && (!right || t.r ≤ y)
      if inA then t.v s x y
      else if inB then u.v s (if left then x - t.l else x) (if right then y - t.r else y)
      else 0⟩
  else .error .ub

/-- One step of `FiniteMPSAdd` (finite_mps_ops.h:41-50): `alloc`, read both tensors, `Expand`, store through
the non-const `mps_c(i)`. -/
def addStep (N : Nat) (a b : FMps σ K) (c : FMps σ K) (i : Nat) : Except Err (FMps σ K) := do
  let c1 ← c.alloc i
  let t ← a.read i
  let u ← b.read i
  let w ← (if i = 0 then expand false true t u
    else if i + 1 = N then expand true false t u
    else expand true true t u)
  c1.write i w

/-- `FiniteMPSAdd` (finite_mps_ops.h:31-51) with the result in a third MPS. -/
def mpsAdd (a b c : FMps σ K) : Except Err (FMps σ K) :=
  if a.size = b.size ∧ b.size = c.size then (List.range a.size).foldlM (addStep a.size a b) c
  else .error .assertFail

end ops
end Verif.Mps
