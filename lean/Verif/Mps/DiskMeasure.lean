import Verif.Mps.Measure
/-
Measurements that keep the MPS on disk (one_dim_tn/mps/finite_mps/finite_mps_measu_disk.h).

The directory is the list of the tensors in the files `mps_ten0`, `mps_ten1`, …. None of the functions writes a
tensor file, so the directory is a read-only argument.
-/
namespace Verif.Mps
open Finset

section
variable {σ K : Type} [CommRing K]

/-- `empty()` (duovector.h:228-235): no slot holds a tensor. -/
def FMps.isEmpty (m : FMps σ K) : Bool := m.slots.all Option.isNone

/-- `LoadTen` from the directory (ten_vec.h:61-75, finite_mps.h:111-113). -/
def loadTen (disk : List (Ten σ K)) (m : FMps σ K) (i : Nat) : Except Err (FMps σ K) :=
  match disk[i]? with
  | some t => m.load i t
  | Option.none => .error .noFile

/-- Reading through the non-const `operator[]` for a contraction (finite_mps.h:73-77): flag NONE, no centre. An empty
slot would get a tensor without legs, which no contraction accepts. -/
def FMps.fetch (m : FMps σ K) (i : Nat) : Except Err (FMps σ K × Ten σ K) :=
  match m.slots[i]? with
  | some (some t) => .ok (⟨m.slots, m.flags.set i .none, -1⟩, t)
  | _ => .error .ub

variable (qr : Ten σ K → Ten σ K × Mat K)

/-- Moving the centre from `j` to `j+1`: load, `LeftCanonicalizeTen`, release
(finite_mps_measu_disk.h:76-79, 124-127, 184-187, 345-348). -/
def moveCenter (disk : List (Ten σ K)) (m : FMps σ K) (j : Nat) : Except Err (FMps σ K) := do
  let m1 ← loadTen disk m (j + 1)
  let m2 ← m1.leftTen qr j
  m2.dealloc j

end

section
variable {σ K : Type} [CommRing K] [StarRing K] [Fintype σ] [DecidableEq σ] [DecidableEq K]
variable (qr : Ten σ K → Ten σ K × Mat K)

/-- The loop of the one-operator `MeasureOneSiteOp` (finite_mps_measu_disk.h:71-80): `n` sites from `i` on. -/
def diskOneLoop (disk : List (Ten σ K)) (op : Op σ K) : Nat → Nat → FMps σ K → Except Err (FMps σ K × List K)
  | 0, _, m => .ok (m, [])
  | n + 1, i, m => do
    let (m1, t) ← m.fetch i
    let m2 ← (if n = 0 then m1.dealloc i else moveCenter qr disk m1 i)
    let (m3, vs) ← diskOneLoop disk op n (i + 1) m2
    pure (m3, oneSiteAvg t op :: vs)

/-- `MeasureOneSiteOp(mps, mps_path, op, …)` (finite_mps_measu_disk.h:57-83). -/
def diskOneSite (disk : List (Ten σ K)) (m : FMps σ K) (op : Op σ K) : Except Err (FMps σ K × List K) :=
  if m.isEmpty then do
    let m1 ← loadTen disk m 0
    diskOneLoop qr disk op m.size 0 m1
  else .error .assertFail

/-- The averages of all operators at one site (finite_mps_measu_disk.h:128-130). -/
def siteAvgs (m : FMps σ K) (ops : List (Op σ K)) (i : Nat) : Except Err (FMps σ K × List K) :=
  if ops.isEmpty then .ok (m, [])
  else do
    let (m1, t) ← m.fetch i
    pure (m1, ops.map (oneSiteAvg t))

/-- The loop over the selected sites (finite_mps_measu_disk.h:121-132); `prev` is the present centre. -/
def selectLoop (disk : List (Ten σ K)) (ops : List (Op σ K)) :
    List Nat → Nat → FMps σ K → Except Err (FMps σ K × List (List K))
  | [], _, m => .ok (m, [])
  | x :: xs, prev, m => do
    let m1 ← (List.range' prev (x - prev)).foldlM (moveCenter qr disk) m
    let (m2, v) ← siteAvgs m1 ops x
    let (m3, vs) ← selectLoop disk ops xs x m2
    pure (m3, v :: vs)

/-- `MeasureOneSiteOp(mps, mps_path, ops, sites, …)` (finite_mps_measu_disk.h:101-137). The result has one row per
selected site. `sites.back()` on an empty list is undefined behaviour. -/
def diskSelect (disk : List (Ten σ K)) (m : FMps σ K) (ops : List (Op σ K)) (sites : List Nat) :
    Except Err (FMps σ K × List (List K)) := do
  let m1 ← loadTen disk m 0
  let (m2, vs) ← selectLoop qr disk ops sites 0 m1
  match sites.getLast? with
  | Option.none => .error .ub
  | some x => do
    let m3 ← m2.dealloc x
    pure (m3, vs)

/-- `CtrctMidTen` with load and release (finite_mps_measu_disk.h:27-38): one more site is absorbed into the running
block `(d, E)`. -/
def eatSite (disk : List (Ten σ K)) (op : Op σ K) (st : FMps σ K × Nat × Mat K) (i : Nat) :
    Except Err (FMps σ K × Nat × Mat K) := do
  let m1 ← loadTen disk st.1 i
  let t ← m1.read i
  if t.l = st.2.1 then do
    let m2 ← m1.dealloc i
    pure (m2, t.r, midSite t op siteId st.2.2)
  else .error .ub

/-- The measurement loop of `MeasureTwoSiteOpGroup` (finite_mps_measu_disk.h:197-217). `inst = none` is the
default-constructed insertion operator. `site2 - 1` wraps around for site 0. -/
def twoLoop (disk : List (Ten σ K)) (p2 : Op σ K) (inst : Option (Op σ K)) (site1 : Nat) :
    List Nat → Nat → FMps σ K × Nat × Mat K → Except Err (FMps σ K × List (List Nat × K))
  | [], _, st => .ok (st.1, [])
  | y :: ys, eaten, st =>
    if y = 0 then .error .ub
    else do
      let st1 ← (List.range' (eaten + 1) (y - 1 - eaten)).foldlM (eatSite disk (inst.getD siteId)) st
      let m1 ← loadTen disk st1.1 y
      let (m2, t) ← m1.fetch y
      if t.l = st1.2.1 then do
        let m3 ← m2.dealloc y
        let (m4, vs) ← twoLoop disk p2 inst site1 ys (max eaten (y - 1)) (m3, st1.2)
        pure (m4, ([site1, y], tailSite t p2 st1.2.2) :: vs)
      else .error .ub

/-- Load site 0 and move the centre to `s` (finite_mps_measu_disk.h:182-187, 344-348). -/
def centerTo (disk : List (Ten σ K)) (m : FMps σ K) (s : Nat) : Except Err (FMps σ K) := do
  let m1 ← loadTen disk m 0
  (List.range s).foldlM (moveCenter qr disk) m1

/-- `MeasureTwoSiteOpGroup` (finite_mps_measu_disk.h:172-220). -/
def diskTwo (disk : List (Ten σ K)) (m : FMps σ K) (p1 p2 : Op σ K) (site1 : Nat) (site2s : List Nat)
    (inst : Option (Op σ K)) : Except Err (FMps σ K × List (List Nat × K)) := do
  let m1 ← centerTo qr disk m site1
  let (m2, t) ← m1.fetch site1
  let m3 ← m2.dealloc site1
  twoLoop disk p2 inst site1 site2s site1 (m3, t.r, headSite t p1)

/-- The overload that takes all later sites as targets (finite_mps_measu_disk.h:229-244). -/
def diskTwoAll (disk : List (Ten σ K)) (m : FMps σ K) (p1 p2 : Op σ K) (site1 : Nat) (inst : Option (Op σ K)) :
    Except Err (FMps σ K × List (List Nat × K)) :=
  diskTwo qr disk m p1 p2 site1 (List.range' (site1 + 1) (m.size - (site1 + 1))) inst

/-- One step of `LeftTempTen::MoveTo` (finite_mps_measu_disk.h:285-291): the tensor is loaded only if its slot is
empty; the check itself goes through the non-const `operator()`. -/
def moveToStep (disk : List (Ten σ K)) (st : FMps σ K × Nat × Mat K) (i : Nat) :
    Except Err (FMps σ K × Nat × Mat K) := do
  let m0 : FMps σ K := ⟨st.1.slots, st.1.flags.set i .none, -1⟩
  let m1 ← (match m0.slots[i]? with
    | some Option.none => loadTen disk m0 i
    | some (some _) => .ok m0
    | Option.none => .error .ub)
  let t ← m1.read i
  if t.l = st.2.1 then do
    let m2 ← m1.dealloc i
    pure (m2, t.r, midSite t siteId siteId st.2.2)
  else .error .ub

/-- Loading and contracting without release (finite_mps_measu_disk.h:365-372). -/
def keepStep (disk : List (Ten σ K)) (op : Op σ K) (st : FMps σ K × Nat × Mat K) (i : Nat) :
    Except Err (FMps σ K × Nat × Mat K) := do
  let m1 ← loadTen disk st.1 i
  let t ← m1.read i
  if t.l = st.2.1 then pure (m1, t.r, midSite t op siteId st.2.2) else .error .ub

/-- The measurement loop of `MeasureFourSiteOpGroup` (finite_mps_measu_disk.h:359-378). `st` is the `LeftTempTen`
together with the MPS, `idx` the last site contracted into it. -/
def fourLoop (disk : List (Ten σ K)) (p3 p4 inst : Op σ K) (refs : List Nat) :
    List (Nat × Nat) → Nat → FMps σ K × Nat × Mat K → Except Err (FMps σ K × List (List Nat × K))
  | [], _, st => .ok (st.1, [])
  | (x, y) :: ts, idx, st =>
    if x = 0 then .error .ub
    else if x - 1 < idx then .error .assertFail
    else do
      let st1 ← (List.range' (idx + 1) (x - 1 - idx)).foldlM (moveToStep disk) st
      let s2 ← keepStep disk p3 st1 x
      let s3 ← (List.range' (x + 1) (y - (x + 1))).foldlM (keepStep disk inst) s2
      let m4 ← loadTen disk s3.1 y
      let (m5, t) ← m4.fetch y
      if t.l = s3.2.1 then do
        let (m6, vs) ← fourLoop disk p3 p4 inst refs ts (x - 1) (m5, st1.2)
        pure (m6, (refs ++ [x, y], tailSite t p4 s3.2.2) :: vs)
      else .error .ub

/-- `MeasureFourSiteOpGroup` (finite_mps_measu_disk.h:317-384) up to the clean-up; `targets` is the target list after
`std::sort` by first component (the order among equal first components is up to the library). The result also
reports the MPS before the final assertion. -/
def diskFourRun (disk : List (Ten σ K)) (m : FMps σ K) (p1 p2 p3 p4 : Op σ K) (r0 r1 : Nat)
    (targets : List (Nat × Nat)) (inst : Option (Op σ K)) : Except Err (FMps σ K × List (List Nat × K)) :=
  if m.isEmpty then do
    let io := inst.getD siteId
    let m1 ← centerTo qr disk m r0
    let (m2, t) ← m1.fetch r0
    let m3 ← m2.dealloc r0
    let s1 ← (List.range' (r0 + 1) (r1 - (r0 + 1))).foldlM (eatSite disk io) (m3, t.r, headSite t p1)
    let s2 ← eatSite disk p2 s1 r1
    if s2.1.isEmpty then do
      let (m4, vs) ← fourLoop disk p3 p4 io [r0, r1] targets r1 s2
      match targets.getLast? with
      | Option.none => .error .ub
      | some (x, y) => do
        let m5 ← (List.range' x (y + 1 - x)).foldlM FMps.dealloc m4
        pure (m5, vs)
    else .error .assertFail
  else .error .assertFail

/-- `MeasureFourSiteOpGroup` with the final `assert(mps.empty())` (finite_mps_measu_disk.h:382). -/
def diskFour (disk : List (Ten σ K)) (m : FMps σ K) (p1 p2 p3 p4 : Op σ K) (r0 r1 : Nat)
    (targets : List (Nat × Nat)) (inst : Option (Op σ K)) : Except Err (FMps σ K × List (List Nat × K)) := do
  let r ← diskFourRun qr disk m p1 p2 p3 p4 r0 r1 targets inst
  if r.1.isEmpty then pure r else .error .assertFail

end
end Verif.Mps
