import Verif.Mps.Fmps
import Verif.Disk.Core
/-
`MPS::Dump` and `MPS::Load` (one_dim_tn/mps/mps.h:63-107): a directory with one file `mps_ten<i>` per site.

Creating the directory (mps.h:70, 87) and an output file that cannot be opened (`DumpTen` checks nothing,
ten_vec.h:82-105) are not modelled: the directory is taken as writable. That the file names of different sites differ
is C87.
-/
namespace Verif.Mps
open Verif.Disk (File)

variable {σ K : Type} [CommRing K]

/-- A directory of MPS tensors: the file of each site, `GenMPSTenName(mps_path, i)` (mps.h:72, 89, 103). -/
abbrev MpsDir (σ K : Type) := Nat → File (Ten σ K)

/-- The default tensor allocated by the non-const `operator[]` for an empty slot (duovector.h:138-143). -/
def noTen : Ten σ K := ⟨0, 0, fun _ _ _ => 0⟩

/-- The non-const `DumpTen` (ten_vec.h:94-105). Inside `TenVec` the name `operator[]` is that of `DuoVector` (not
virtual), so the canonical flags and the centre of the MPS are not touched; an empty slot gets a default tensor, which
is written as a file that is no tensor, and released again if asked for. -/
def FMps.dumpTen (rel : Bool) (st : FMps σ K × MpsDir σ K) (i : Nat) : Except Disk.Err (FMps σ K × MpsDir σ K) :=
  match st.1.slots[i]? with
  | Option.none => .error .ub
  | some Option.none => .ok ({ st.1 with slots := st.1.slots.set i (if rel then Option.none else some noTen) }, Function.update st.2 i .junk)
  | some (some t) => .ok ({ st.1 with slots := st.1.slots.set i (if rel then Option.none else some t) }, Function.update st.2 i (.whole t))

/-- The non-const `Dump(mps_path, release_mem)` (mps.h:83-93). It is also what `Dump(mps_path)` and `Dump()` mean on an
object that is not const: both overloads fit and the non-const one needs no conversion of `*this`. -/
def FMps.dump (rel : Bool) (m : FMps σ K) (dir : MpsDir σ K) : Except Disk.Err (FMps σ K × MpsDir σ K) :=
  (List.range m.size).foldlM (FMps.dumpTen rel) (m, dir)

/-- The const `DumpTen` (ten_vec.h:82-86): the const `operator[]` (duovector.h:130) dereferences a null pointer on an
empty slot. -/
def FMps.dumpTenConst (m : FMps σ K) (dir : MpsDir σ K) (i : Nat) : Except Disk.Err (MpsDir σ K) :=
  match m.slots[i]? with
  | some (some t) => .ok (Function.update dir i (.whole t))
  | _ => .error .ub

/-- The const `Dump(mps_path)` (mps.h:69-76). -/
def FMps.dumpConst (m : FMps σ K) (dir : MpsDir σ K) : Except Disk.Err (MpsDir σ K) :=
  (List.range m.size).foldlM m.dumpTenConst dir

/-- The state of memory and directory if the process is killed during `Dump` after `k` files, in the middle of writing
the next one (`torn`) or before opening it (mps.h:88-91). -/
def FMps.dumpCrash (m : FMps σ K) (dir : MpsDir σ K) (k : Nat) (torn : Bool) : Except Disk.Err (MpsDir σ K) := do
  let st ← (List.range k).foldlM (FMps.dumpTen false) (m, dir)
  .ok (if torn then Function.update st.2 k .junk else st.2)

/-- `LoadTen` (ten_vec.h:61-75): throws if the file cannot be opened (line 64) or read (line 68); otherwise
the slot is replaced and flags and centre are kept. -/
def FMps.loadFile (dir : MpsDir σ K) (m : FMps σ K) (i : Nat) : Except Disk.Err (FMps σ K) :=
  match dir i with
  | .gone => .error .noFile
  | .junk => .error .badFile
  | .whole t => if i < m.size then .ok { m with slots := m.slots.set i (some t) } else .error .ub

/-- `Load(mps_path)` (mps.h:100-106). -/
def FMps.loadDir (m : FMps σ K) (dir : MpsDir σ K) : Except Disk.Err (FMps σ K) :=
  (List.range m.size).foldlM (FMps.loadFile dir) m

end Verif.Mps
