import Verif.Mps.Measure
/-
The `FiniteMPO` class (one_dim_tn/mpo/finite_mpo/finite_mpo.h) and the functions on it in
finite_mpo_utility.h: slots, canonical flags and centre as for a finite MPS.

A local MPO tensor has four legs (left bond, in, out, right bond), the picture at finite_mpo_utility.h:158-168. It
is stored as an MPS tensor whose physical index is the pair (out, in). Block-sparse storage, quantum numbers and
fermionic signs are not modelled.
-/
namespace Verif.Mps
open Finset

/-- A `FiniteMPO` (finite_mpo.h:77-300): `center_` and `tens_cano_type_` (lines 301-302) and the slots of the base
class. The physical index is the pair (leg 2, leg 1) of the C++ tensor. -/
abbrev FMpo (σ K : Type) := FMps (σ × σ) K

section
variable {σ K : Type} [CommRing K]

/-- `FiniteMPO(size)` (finite_mpo.h:82-84). -/
def FMpo.fresh (n : Nat) : FMpo σ K := FMps.fresh n

/-- `FiniteMPO(const MPO &)` (finite_mpo.h:86-87): the tensors are copied, no flag is set. -/
def FMpo.ofMpo (sl : List (Option (Ten (σ × σ) K))) : FMpo σ K := ⟨sl, List.replicate sl.length .none, -1⟩

variable (qr svd : Ten (σ × σ) K → Ten (σ × σ) K × Mat K)

/-- `RightCanonicalizeTen` (finite_mpo.h:390-415): always by SVD. -/
def FMpo.rightTen (m : FMpo σ K) (i : Nat) : Except Err (FMpo σ K) := FMps.rightTen qr svd true m i

/-- `RightCanonicalize(stop_idx)` (finite_mpo.h:378-388). With `stop_idx` past the tail the start index is read
uninitialised. -/
def FMpo.rightCanon (m : FMpo σ K) (stop : Nat) : Except Err (FMpo σ K) :=
  if stop < m.size then
    match scanR m.flags (m.size - 1 - stop) (m.size - 1) with
    | .error e => .error e
    | .ok Option.none => .ok m
    | .ok (some i) => (List.range' stop (i + 1 - stop)).reverse.foldlM (FMpo.rightTen qr svd) m
  else .error .ub

/-- The second half of `Centralize` (finite_mpo.h:341-343). -/
def FMpo.centR (m : FMpo σ K) (t : Nat) : Except Err (FMpo σ K) :=
  if t + 1 ≠ m.size then FMpo.rightCanon qr svd m (t + 1) else .ok m

/-- `Centralize(target_center)` (finite_mpo.h:336-345). `LeftCanonicalize` (lines 347-376) is the same code as that
of `FiniteMPS`. -/
def FMpo.centralize (m : FMpo σ K) (t : Int) : Except Err (FMpo σ K) :=
  if t < 0 then .error .assertFail
  else match m.centL qr t.toNat with
    | .error e => .error e
    | .ok m1 =>
      match FMpo.centR qr svd m1 t.toNat with
      | .error e => .error e
      | .ok m2 => .ok { m2 with center := t }

/-- A tensor multiplied by a number (`operator*=`, `MultiplyByScalar` of the tensor library). -/
def scaleTen {τ : Type} (c : K) (t : Ten τ K) : Ten τ K := ⟨t.l, t.r, fun s a b => c * t.v s a b⟩

/-- `Scale` (finite_mpo.h:257-265), also `operator*=` (lines 140-143): the tensor at the centre, or tensor 0 without
a centre, is multiplied through the non-const `operator[]`; the centre is put back. -/
def FMpo.scale (m : FMpo σ K) (c : K) : Except Err (FMpo σ K) :=
  if m.center ≠ -1 then
    if m.center < 0 then .error .ub
    else do
      let t ← m.read m.center.toNat
      let m1 ← m.write m.center.toNat (scaleTen c t)
      pure { m1 with center := m.center }
  else do
    let t ← m.read 0
    m.write 0 (scaleTen c t)

/-- `Normalize` (finite_mpo.h:267-277): the same tensor is normalised; `nrm` is `QLTensor::Normalize`, the pair of the
returned norm and the tensor left behind. -/
def FMpo.normalize (nrm : Ten (σ × σ) K → K × Ten (σ × σ) K) (m : FMpo σ K) : Except Err (FMpo σ K × K) :=
  if m.center ≠ -1 then
    if m.center < 0 then .error .ub
    else do
      let t ← m.read m.center.toNat
      let m1 ← m.write m.center.toNat (nrm t).2
      pure ({ m1 with center := m.center }, (nrm t).1)
  else do
    let t ← m.read 0
    let m1 ← m.write 0 (nrm t).2
    pure (m1, (nrm t).1)

/-- One step of `operator+=` (finite_mpo.h:149-161). -/
def FMpo.addStep (N : Nat) (b : FMpo σ K) (a : FMpo σ K) (i : Nat) : Except Err (FMpo σ K) :=
  match a.slots[i]? with
  | Option.none => .error .ub
  | some Option.none => .error .assertFail
  | some (some t) => do
    let u ← b.read i
    let w ← (if i = 0 then expand false true t u
      else if i + 1 = N then expand true false t u
      else expand true true t u)
    a.write i w

/-- `operator+=` (finite_mpo.h:145-164) with another object on the right. -/
def FMpo.addAssign (a b : FMpo σ K) : Except Err (FMpo σ K) :=
  if b.size = a.size then (List.range a.size).foldlM (FMpo.addStep a.size b) a else .error .assertFail

/-- `a += a` (finite_mpo.h:145-164 with `&rhs == this`): at every site both operands are read from the object that is
being changed. -/
def FMpo.addSelf (a : FMpo σ K) : Except Err (FMpo σ K) :=
  (List.range a.size).foldlM (fun m i => FMpo.addStep a.size m m i) a

/-- `MpoAllScale` (finite_mpo_utility.h:79-88): every tensor is scaled through the iterators of the base class, which
do not touch flags and centre. -/
def FMpo.allScale (m : FMpo σ K) (c : K) : Except Err (FMpo σ K) :=
  if m.slots.all Option.isSome then .ok { m with slots := m.slots.map (Option.map (scaleTen c)) } else .error .ub

/-- One pass of the loop of `Trace` (finite_mpo.h:454-463): the site tensor is read through the non-const access, the
running row vector (dimension `d`) is contracted with leg 0 and the two physical legs with the identity. -/
def FMpo.traceStep [Fintype σ] [DecidableEq σ] (s : FMpo σ K × Nat × (Nat → K)) (i : Nat) :
    Except Err (FMpo σ K × Nat × (Nat → K)) := do
  let t ← s.1.read i
  let m1 ← s.1.touch i
  if t.l = s.2.1 then
    pure (m1, t.r, fun b => ∑ q, ∑ p, (∑ a ∈ range t.l, s.2.2 a * t.v (p, q) a b) * siteId p q)
  else .error .ub

/-- `Trace` (finite_mpo.h:443-465). -/
def FMpo.trace [Fintype σ] [DecidableEq σ] (m : FMpo σ K) : Except Err (FMpo σ K × K) := do
  let t ← m.read 0
  let m0 ← m.touch 0
  if 0 < t.l then
    let s ← (List.range m.size).foldlM FMpo.traceStep (m0, t.l, fun a => if a = 0 then 1 else 0)
    if 0 < s.2.1 then pure (s.1, s.2.2 0) else .error .ub
  else .error .ub

/-- One pass of the loop of `GenerateIdentityMPO` (finite_mpo_utility.h:99-112), `d` the dimension of the outer left
bond of the sample. The fermionic branch is not modelled. -/
def FMpo.identityStep [DecidableEq σ] (sample : FMpo σ K) (d : Nat) (m : FMpo σ K) (i : Nat) : Except Err (FMpo σ K) := do
  let _ ← sample.read i
  if 0 < d then
    m.write i ⟨d, d, fun s a b => if a = 0 ∧ b = 0 ∧ s.1 = s.2 then 1 else 0⟩
  else .error .ub

/-- `GenerateIdentityMPO` (finite_mpo_utility.h:90-115). -/
def FMpo.identity [DecidableEq σ] (sample : FMpo σ K) : Except Err (FMpo σ K) := do
  let t ← sample.read 0
  (List.range sample.size).foldlM (FMpo.identityStep sample t.l) (FMpo.fresh sample.size)

/-- The tensor of a product at one site (finite_mpo_utility.h:139-143): leg 1 of the first tensor contracted with leg 2 of
the second, then the two left and the two right bonds fused. The fused index is enumerated with the second
bond running fastest. -/
def prodTen [Fintype σ] (t u : Ten (σ × σ) K) : Ten (σ × σ) K :=
  ⟨t.l * u.l, t.r * u.r, fun s x y =>
    ∑ q, t.v (s.1, q) (x / u.l) (y / u.r) * u.v (q, s.2) (x % u.l) (y % u.r)⟩

/-- The first loop of `MpoProduct` (finite_mpo_utility.h:131-136): every slot of the output gets a default tensor. -/
def FMpo.clearOut (N : Nat) (m : FMpo σ K) : Except Err (FMpo σ K) :=
  (List.range N).foldlM (fun m i => m.write i ⟨0, 0, fun _ _ _ => 0⟩) m

/-- One pass of the second loop of `MpoProduct` (finite_mpo_utility.h:138-152). A default tensor has no legs (modelled
with dimension 0), contracting it is undefined. The debug check on the charges is not modelled. -/
def FMpo.prodStep [Fintype σ] (a b : FMpo σ K) (m : FMpo σ K) (i : Nat) : Except Err (FMpo σ K) := do
  let t ← a.read i
  let u ← b.read i
  if 0 < t.l ∧ 0 < u.l then m.write i (prodTen t u) else .error .ub

/-- `MpoProduct(mpo1, mpo2, output)` without compression (finite_mpo_utility.h:123-154), three different objects (the two
inputs may be the same). -/
def FMpo.product [Fintype σ] (a b out : FMpo σ K) : Except Err (FMpo σ K) := do
  let o ← FMpo.clearOut a.size out
  (List.range a.size).foldlM (FMpo.prodStep a b) o

/-- `MpoProduct(a, b, a)`: the output is the first operand, which is read from the object that has been cleared. -/
def FMpo.productInPlace [Fintype σ] (a b : FMpo σ K) : Except Err (FMpo σ K) := do
  let o ← FMpo.clearOut a.size a
  (List.range a.size).foldlM (fun m i => FMpo.prodStep m b m i) o

/-- `Truncate` (finite_mpo.h:417-436): `tsvd t` is the pair (`vt`, `u·s`) of the truncated SVD with the given limits and
`terr t` the truncation error it reports; the result carries the printed errors. -/
def FMpo.truncate (tsvd : Ten (σ × σ) K → Ten (σ × σ) K × Mat K) (terr : Ten (σ × σ) K → K) (m : FMpo σ K) :
    Except Err (FMpo σ K × List K) :=
  if 2 ≤ m.size then do
    let m1 ← FMpo.centralize qr svd m ((m.size - 1 : Nat) : Int)
    (List.range' 1 (m.size - 1)).reverse.foldlM (fun s i => do
      let t ← s.1.read i
      let m2 ← FMps.rightTen qr tsvd true s.1 i
      pure (m2, s.2 ++ [terr t])) (m1, [])
  else .error .assertFail

/-- `SetCenter_` (finite_mpo.h:309-319). -/
def FMpo.setCenter (m : FMpo σ K) : Except Err (FMpo σ K) :=
  if m.center ≠ -1 then
    if m.center < 0 ∨ m.flags.length ≤ m.center.toNat then .error .ub
    else .ok { m with
      flags := (List.range m.size).map (fun j =>
        if j < m.center.toNat then .left else if j = m.center.toNat then .none else .right) }
  else .ok m

/-- The directory written by `Dump` (finite_mpo.h:224-236): the tensor files and the file `center`. -/
structure MpoDir (σ K : Type) where
  tens : Nat → Option (Ten (σ × σ) K)
  center : Option Int

/-- `Dump` (finite_mpo.h:224-236); an empty slot is dereferenced. -/
def FMpo.dump (m : FMpo σ K) (d : MpoDir σ K) : Except Err (MpoDir σ K) :=
  if m.slots.all Option.isSome then
    .ok ⟨fun i => match m.slots[i]? with
      | some (some t) => some t
      | _ => d.tens i, some m.center⟩
  else .error .ub

/-- One tensor of `Load` (finite_mpo.h:244-247): `LoadTen` throws when the file cannot be opened. -/
def FMpo.loadStep (d : MpoDir σ K) (m : FMpo σ K) (i : Nat) : Except Err (FMpo σ K) :=
  match d.tens i with
  | some t => m.load i t
  | Option.none => .error .noFile

/-- `Load` (finite_mpo.h:238-255) of an existing directory. Without the file `center` the stream is bad and the old
centre is kept. -/
def FMpo.loadDir (m : FMpo σ K) (d : MpoDir σ K) : Except Err (FMpo σ K) := do
  let m1 ← (List.range m.size).foldlM (FMpo.loadStep d) m
  FMpo.setCenter { m1 with center := d.center.getD m1.center }

/-- The calls on one `FiniteMPO`; `write` is any assignment through a non-const reference or pointer. -/
inductive MpoCall (σ K : Type) where
  | write (i : Nat) (t : Ten (σ × σ) K)
  | touch (i : Nat)
  | leftTen (i : Nat)
  | rightTen (i : Nat)
  | left (stop : Nat)
  | right (stop : Nat)
  | centralize (t : Int)
  | scale (c : K)
  | normalize
  | add (rhs : FMpo σ K)
  | addSelf
  | trace
  | truncate
  | allScale (c : K)
  | loadDir (d : MpoDir σ K)

/-- One call. -/
def FMpo.call [Fintype σ] [DecidableEq σ] (nrm : Ten (σ × σ) K → K × Ten (σ × σ) K)
    (tsvd : Ten (σ × σ) K → Ten (σ × σ) K × Mat K) (terr : Ten (σ × σ) K → K) (m : FMpo σ K) :
    MpoCall σ K → Except Err (FMpo σ K)
  | .write i t => m.write i t
  | .touch i => m.touch i
  | .leftTen i => m.leftTen qr i
  | .rightTen i => FMpo.rightTen qr svd m i
  | .left s => m.leftCanon qr s
  | .right s => FMpo.rightCanon qr svd m s
  | .centralize t => FMpo.centralize qr svd m t
  | .scale c => FMpo.scale m c
  | .normalize => (FMpo.normalize nrm m).map Prod.fst
  | .add b => FMpo.addAssign m b
  | .addSelf => FMpo.addSelf m
  | .trace => (FMpo.trace m).map Prod.fst
  | .truncate => (FMpo.truncate qr svd tsvd terr m).map Prod.fst
  | .allScale c => FMpo.allScale m c
  | .loadDir d => FMpo.loadDir m d

/-- A history of calls on a new object. -/
def FMpo.history [Fintype σ] [DecidableEq σ] (nrm : Ten (σ × σ) K → K × Ten (σ × σ) K)
    (tsvd : Ten (σ × σ) K → Ten (σ × σ) K × Mat K) (terr : Ten (σ × σ) K → K) (n : Nat) (cs : List (MpoCall σ K)) :
    Except Err (FMpo σ K) :=
  cs.foldlM (FMpo.call qr svd nrm tsvd terr) (FMpo.fresh n)

end
end Verif.Mps
