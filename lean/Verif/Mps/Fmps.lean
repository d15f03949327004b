import Verif.Mps.Tensor
/-
The `FiniteMPS` class (one_dim_tn/mps/finite_mps/finite_mps.h): slots, canonical flags, centre.

The decompositions of the tensor library enter as parameters `qr`, `svd` (see `QRSpec`, `SVDSpec`).
A failed `assert` and any undefined behaviour are distinct error outcomes; the asserts are taken as
enabled (in a Release build the same situations are out-of-range accesses).
-/
namespace Verif.Mps

/-- Outcomes that are not a normal return. -/
inductive Err where
  | assertFail
  | ub
  /-- `LoadTen` throws: the file does not exist (ten_vec.h:64-66). -/
  | noFile
  deriving DecidableEq, Repr

/-- `enum MPSTenCanoType` (finite_mps.h:33-37). -/
inductive Cano where
  | none
  | left
  | right
  deriving DecidableEq, Repr

/-- The state of a `FiniteMPS`: the pointers of the `DuoVector` (duovector.h:238), `center_` and
`tens_cano_type_` (finite_mps.h:162-163). `-1` is `kUncentralizedCenterIdx` (line 30). -/
structure FMps (σ K : Type) where
  slots : List (Option (Ten σ K))
  flags : List Cano
  center : Int

section
variable {σ K : Type} [CommRing K]

/-- `size()` (duovector.h:223). -/
def FMps.size (m : FMps σ K) : Nat := m.slots.length

/-- The constructor from a `SiteVec` of `n` sites (finite_mps.h:62-65). -/
def FMps.fresh (n : Nat) : FMps σ K := ⟨List.replicate n Option.none, List.replicate n .none, -1⟩

/-- Writing through `operator[]`/`operator()` (finite_mps.h:73-77, 94-98): the flag of the site becomes
NONE and the MPS uncentralised, then the new tensor is stored. -/
def FMps.write (m : FMps σ K) (i : Nat) (t : Ten σ K) : Except Err (FMps σ K) :=
  if i < m.size then .ok ⟨m.slots.set i (some t), m.flags.set i .none, -1⟩ else .error .ub

/-- Reading through the non-const `operator[]` (finite_mps.h:73-77, duovector.h:138-143): same effect on
the metadata; an empty slot gets a default tensor (no legs, modelled with both dimensions 0). -/
def FMps.touch (m : FMps σ K) (i : Nat) : Except Err (FMps σ K) :=
  match m.slots[i]? with
  | Option.none => .error .ub
  | some Option.none => .ok ⟨m.slots.set i (some ⟨0, 0, fun _ _ _ => 0⟩), m.flags.set i .none, -1⟩
  | some (some _) => .ok ⟨m.slots, m.flags.set i .none, -1⟩

/-- `LoadTen` of the base class (ten_vec.h:61-75, finite_mps.h:111-113) with `t` the contents of the
file: the slot is replaced, flags and centre are not touched. -/
def FMps.load (m : FMps σ K) (i : Nat) (t : Ten σ K) : Except Err (FMps σ K) :=
  if i < m.size then .ok { m with slots := m.slots.set i (some t) } else .error .ub

/-- `alloc` (duovector.h:193-198). -/
def FMps.alloc (m : FMps σ K) (i : Nat) : Except Err (FMps σ K) :=
  if i < m.size then .ok { m with slots := m.slots.set i (some ⟨0, 0, fun _ _ _ => 0⟩) } else .error .ub

/-- `dealloc` (duovector.h:205-210). -/
def FMps.dealloc (m : FMps σ K) (i : Nat) : Except Err (FMps σ K) :=
  if i < m.size then .ok { m with slots := m.slots.set i Option.none } else .error .ub

variable (qr svd : Ten σ K → Ten σ K × Mat K)

/-- `LeftCanonicalizeTen` (finite_mps.h:194-225), QR branch (`use_qr` is the constant `true`). An empty
slot, or bonds of different dimension (rejected by `Contract`), is undefined behaviour. -/
def FMps.leftTen (m : FMps σ K) (i : Nat) : Except Err (FMps σ K) :=
  if i + 1 < m.size then
    match m.slots[i]?, m.slots[i + 1]? with
    | some (some t), some (some u) =>
      if t.r = u.l then
        .ok ⟨(m.slots.set i (some (qr t).1)).set (i + 1) (some (mulL (qr t).2 (qr t).1.r u)),
          (m.flags.set i .left).set (i + 1) .none, -1⟩
      else .error .ub
    | _, _ => .error .ub
  else .error .assertFail

/-- `RightCanonicalizeTen(i, use_svd)` (finite_mps.h:240-274). -/
def FMps.rightTen (useSvd : Bool) (m : FMps σ K) (i : Nat) : Except Err (FMps σ K) :=
  match i with
  | 0 => .error .assertFail
  | i + 1 =>
    match m.slots[i]?, m.slots[i + 1]? with
    | some (some t), some (some u) =>
      if t.r = u.l then
        if useSvd then
          .ok ⟨(m.slots.set i (some (mulR t (svd u).2 (svd u).1.l))).set (i + 1) (some (svd u).1),
            (m.flags.set i .none).set (i + 1) .right, -1⟩
        else
          .ok ⟨(m.slots.set i (some (mulRT t (qr u.tr).2 (qr u.tr).1.r))).set (i + 1) (some (qr u.tr).1.tr),
            (m.flags.set i .none).set (i + 1) .right, -1⟩
      else .error .ub
    | _, _ => .error .ub

/-- The search loop of `LeftCanonicalize` (finite_mps.h:184-189): from `i`, with `n` further sites up to
the stop site. `none` is the early return. -/
def scanL (flags : List Cano) : Nat → Nat → Except Err (Option Nat)
  | n, i =>
    match flags[i]? with
    | Option.none => .error .ub
    | some .left =>
      match n with
      | 0 => .ok Option.none
      | n + 1 => scanL flags n (i + 1)
    | some _ => .ok (some i)

/-- `LeftCanonicalize(stop_idx)` (finite_mps.h:183-191). -/
def FMps.leftCanon (m : FMps σ K) (stop : Nat) : Except Err (FMps σ K) :=
  match scanL m.flags stop 0 with
  | .error e => .error e
  | .ok Option.none => .ok m
  | .ok (some i) => (List.range' i (stop + 1 - i)).foldlM (FMps.leftTen qr) m

/-- The search loop of `RightCanonicalize` (finite_mps.h:231-235): from `i` downwards, `n` further sites. -/
def scanR (flags : List Cano) : Nat → Nat → Except Err (Option Nat)
  | n, i =>
    match flags[i]? with
    | Option.none => .error .ub
    | some .right =>
      match n with
      | 0 => .ok Option.none
      | n + 1 => scanR flags n (i - 1)
    | some _ => .ok (some i)

/-- `RightCanonicalize(stop_idx)` (finite_mps.h:228-237). With `stop_idx` past the tail the start index is
read uninitialised. -/
def FMps.rightCanon (m : FMps σ K) (stop : Nat) : Except Err (FMps σ K) :=
  if stop < m.size then
    match scanR m.flags (m.size - 1 - stop) (m.size - 1) with
    | .error e => .error e
    | .ok Option.none => .ok m
    | .ok (some i) => (List.range' stop (i + 1 - stop)).reverse.foldlM (FMps.rightTen qr svd false) m
  else .error .ub

/-- The first half of `Centralize` (finite_mps.h:175). -/
def FMps.centL (m : FMps σ K) (t : Nat) : Except Err (FMps σ K) :=
  if t ≠ 0 then m.leftCanon qr (t - 1) else .ok m

/-- The second half of `Centralize` (finite_mps.h:174-178). `size() - 1` wraps around for an empty MPS, so the
comparison is written as `t + 1 ≠ size()`. -/
def FMps.centR (m : FMps σ K) (t : Nat) : Except Err (FMps σ K) :=
  if t + 1 ≠ m.size then m.rightCanon qr svd (t + 1) else .ok m

/-- `Centralize(target_center)` (finite_mps.h:172-180). -/
def FMps.centralize (m : FMps σ K) (t : Int) : Except Err (FMps σ K) :=
  if t < 0 then .error .assertFail
  else match m.centL qr t.toNat with
    | .error e => .error e
    | .ok m1 =>
      match m1.centR qr svd t.toNat with
      | .error e => .error e
      | .ok m2 => .ok { m2 with center := t }

/-- One `std::swap((*this)(i), (*this)(N - 1 - i))` (finite_mps.h:316, 320). -/
def FMps.swapStep (m : FMps σ K) (i : Nat) : Except Err (FMps σ K) :=
  match m.slots[i]?, m.slots[m.size - 1 - i]? with
  | some p, some q =>
    .ok ⟨(m.slots.set i q).set (m.size - 1 - i) p, (m.flags.set i .none).set (m.size - 1 - i) .none, -1⟩
  | _, _ => .error .ub

/-- One `(*this)(i)->Transpose({2, 1, 0})` (finite_mps.h:323-325). -/
def FMps.trStep (m : FMps σ K) (i : Nat) : Except Err (FMps σ K) :=
  match m.slots[i]? with
  | some (some t) => .ok ⟨m.slots.set i (some t.tr), m.flags.set i .none, -1⟩
  | _ => .error .ub

/-- The relabelling at the end of `Reverse` (finite_mps.h:326-335). -/
def FMps.mirror (m : FMps σ K) : FMps σ K :=
  if m.center ≠ -1 then
    { m with
      center := m.size - 1 - m.center
      flags := m.flags.map (fun f => match f with | .right => .left | .left => .right | .none => .none) }
  else m

/-- `Reverse()` (finite_mps.h:312-337). -/
def FMps.reverse (m : FMps σ K) : Except Err (FMps σ K) :=
  match (List.range (if m.size % 2 = 0 then m.size / 2 else (m.size - 1) / 2)).foldlM FMps.swapStep m with
  | .error e => .error e
  | .ok m1 =>
    match (List.range m1.size).foldlM FMps.trStep m1 with
    | .error e => .error e
    | .ok m2 => .ok m2.mirror

/-- The calls a user can make on one `FiniteMPS`. `write` stands for any assignment through a non-const
reference or pointer (`mps[i] = t`, `mps(i) = p`, `mps[i].Normalize()`), `touch` for a plain read. -/
inductive Call (σ K : Type) where
  | write (i : Nat) (t : Ten σ K)
  | touch (i : Nat)
  | leftTen (i : Nat)
  | rightTen (i : Nat) (useSvd : Bool)
  | left (stop : Nat)
  | right (stop : Nat)
  | centralize (t : Int)
  | reverse
  | load (i : Nat) (t : Ten σ K)
  | alloc (i : Nat)
  | dealloc (i : Nat)

/-- One call. -/
def FMps.call (m : FMps σ K) : Call σ K → Except Err (FMps σ K)
  | .write i t => m.write i t
  | .touch i => m.touch i
  | .leftTen i => m.leftTen qr i
  | .rightTen i b => m.rightTen qr svd b i
  | .left s => m.leftCanon qr s
  | .right s => m.rightCanon qr svd s
  | .centralize t => m.centralize qr svd t
  | .reverse => m.reverse
  | .load i t => m.load i t
  | .alloc i => m.alloc i
  | .dealloc i => m.dealloc i

/-- A history of calls on a freshly constructed MPS of `n` sites. -/
def FMps.history (n : Nat) (cs : List (Call σ K)) : Except Err (FMps σ K) :=
  cs.foldlM (FMps.call qr svd) (FMps.fresh n)

end
end Verif.Mps
