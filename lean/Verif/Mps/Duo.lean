import Mathlib.Logic.Function.Basic
import Mathlib.Data.List.Nodup
/-
Model of the owning tensor container `DuoVector` (include/qlmps/one_dim_tn/framework/duovector.h) and of the
part of `TenVec` that allocates (include/qlmps/one_dim_tn/framework/ten_vec.h), with an explicit heap:
deleting or reading an address that is not live is undefined behaviour.
-/
namespace Verif.Duo

/-- Undefined behaviour: double delete, read through a dangling or null pointer, index out of range, or use of
a container whose lifetime has not begun or has ended. -/
inductive Err | ub
  deriving DecidableEq, Repr

/-- The C++ heap restricted to `ElemT` objects: the next fresh address, the contents of the live objects, and the
log of executed deletes. -/
structure Heap (V : Type) where
  next : Nat
  live : Nat → Option V
  freed : List Nat

/-- All live containers, by identity: `raw_data_` (duovector.h:238), `none` for `nullptr`. -/
structure St (V : Type) where
  heap : Heap V
  vecs : Nat → Option (List (Option Nat))

variable {V : Type}

/-- `new ElemT(v)` (duovector.h:56, 78, 140, 197). -/
def Heap.new (h : Heap V) (v : V) : Heap V × Nat :=
  (⟨h.next + 1, Function.update h.live h.next (some v), h.freed⟩, h.next)

/-- `delete p` for a non-null `p` (duovector.h:71, 105, 119, 195, 207). -/
def Heap.delete (h : Heap V) (a : Nat) : Except Err (Heap V) :=
  match h.live a with
  | none => .error .ub
  | some _ => .ok ⟨h.next, Function.update h.live a none, a :: h.freed⟩

/-- `*p` read (duovector.h:130). -/
def Heap.read (h : Heap V) (a : Nat) : Except Err V :=
  match h.live a with
  | none => .error .ub
  | some v => .ok v

/-- `for (auto &rpelem : raw_data_) if (rpelem != nullptr) delete rpelem;`
(duovector.h:69-73, 103-107, 117-121). -/
def Heap.deleteAll (h : Heap V) : List (Option Nat) → Except Err (Heap V)
  | [] => .ok h
  | none :: ps => h.deleteAll ps
  | some a :: ps => do (← h.delete a).deleteAll ps

/-- `raw_data_` of a live container. -/
def St.vec (s : St V) (c : Nat) : Except Err (List (Option Nat)) :=
  match s.vecs c with
  | none => .error .ub
  | some l => .ok l

/-- Overwrite `raw_data_`. -/
def St.setVec (s : St V) (c : Nat) (l : Option (List (Option Nat))) : St V :=
  ⟨s.heap, Function.update s.vecs c l⟩

/-- `raw_data_[i]` (out of range: undefined). -/
def St.slot (s : St V) (c i : Nat) : Except Err (Option Nat) := do
  match (← s.vec c)[i]? with
  | none => .error .ub
  | some p => .ok p

/-- The constructor from a size (duovector.h:46). The identity must be unused. -/
def St.construct (s : St V) (c n : Nat) : Except Err (St V) :=
  match s.vecs c with
  | some _ => .error .ub
  | none => .ok (s.setVec c (some (List.replicate n none)))

/-- One turn of the copy loop (duovector.h:55-57, 77-79): `if (src(i) != nullptr) raw_data_[i] = new ElemT(src[i])`. -/
def St.copySlot (dst src : Nat) (s : St V) (i : Nat) : Except Err (St V) := do
  match ← s.slot src i with
  | none => .ok s
  | some a =>
    let v ← s.heap.read a
    let l ← s.vec dst
    let (h, b) := s.heap.new v
    .ok ⟨h, Function.update s.vecs dst (some (l.set i (some b)))⟩

/-- Copy constructor (duovector.h:53-59). -/
def St.copyCtor (s : St V) (dst src : Nat) : Except Err (St V) := do
  let l ← s.vec src
  let s1 ← s.construct dst l.length
  (List.range l.length).foldlM (St.copySlot dst src) s1

/-- Copy assignment (duovector.h:66-82), self-assignment included: the slots of the target are deleted before
anything is read from the source. -/
def St.copyAssign (s : St V) (dst src : Nat) : Except Err (St V) := do
  let l ← s.vec dst
  let h ← s.heap.deleteAll l
  let s1 : St V := ⟨h, s.vecs⟩
  let n := (← s1.vec src).length
  let s2 := s1.setVec dst (some (List.replicate n none))
  (List.range n).foldlM (St.copySlot dst src) s2

/-- Move constructor (duovector.h:89-93): the moved-from `std::vector` is empty, so its new size is 0. -/
def St.moveCtor (s : St V) (dst src : Nat) : Except Err (St V) := do
  let l ← s.vec src
  match s.vecs dst with
  | some _ => .error .ub
  | none => .ok ((s.setVec dst (some l)).setVec src (some []))

/-- Move assignment (duovector.h:100-111). For `dst = src` the second assignment leaves a vector of null
pointers of the size `std::vector`'s self-move leaves, taken to be 0 as in libstdc++. -/
def St.moveAssign (s : St V) (dst src : Nat) : Except Err (St V) := do
  let l ← s.vec dst
  let h ← s.heap.deleteAll l
  let s1 : St V := ⟨h, s.vecs⟩
  let m ← s1.vec src
  .ok ((s1.setVec dst (some m)).setVec src (some []))

/-- Destructor (duovector.h:116-122). -/
def St.destroy (s : St V) (c : Nat) : Except Err (St V) := do
  let l ← s.vec c
  let h ← s.heap.deleteAll l
  .ok ⟨h, Function.update s.vecs c none⟩

/-- Non-const `operator[](i)` (duovector.h:138-143): allocates a default element when the slot is null.
Returns the address the reference denotes. -/
def St.access [Inhabited V] (s : St V) (c i : Nat) : Except Err (St V × Nat) := do
  match ← s.slot c i with
  | some a => .ok (s, a)
  | none =>
    let l ← s.vec c
    let (h, b) := s.heap.new default
    .ok (⟨h, Function.update s.vecs c (some (l.set i (some b)))⟩, b)

/-- `vec[i] = v` through the non-const reference (duovector.h:138-143). -/
def St.write [Inhabited V] (s : St V) (c i : Nat) (v : V) : Except Err (St V) := do
  let (s1, a) ← s.access c i
  match s1.heap.live a with
  | none => .error .ub
  | some _ => .ok ⟨{ s1.heap with live := Function.update s1.heap.live a (some v) }, s1.vecs⟩

/-- A read `vec[i]` on a non-const container (duovector.h:138-143). -/
def St.get [Inhabited V] (s : St V) (c i : Nat) : Except Err (St V × V) := do
  let (s1, a) ← s.access c i
  let v ← s1.heap.read a
  .ok (s1, v)

/-- `delete vec(i); vec(i) = new ElemT(v)` on the pointer reference (duovector.h:157; the replacement of a tensor in
include/qlmps/one_dim_tn/mps/finite_mps/finite_mps.h:203-222, 250-269, 381-389); deleting null does nothing. -/
def St.replace (s : St V) (c i : Nat) (v : V) : Except Err (St V) := do
  let h ← match ← s.slot c i with
    | some a => s.heap.delete a
    | none => .ok s.heap
  let l ← s.vec c
  let (h', b) := h.new v
  .ok ⟨h', Function.update s.vecs c (some (l.set i (some b)))⟩

/-- `alloc(i)` (duovector.h:193-198); also the effect of `TenVec::LoadTen` (ten_vec.h:61-66) when the file cannot
be opened. -/
def St.alloc [Inhabited V] (s : St V) (c i : Nat) : Except Err (St V) := s.replace c i default

/-- `dealloc(i)` (duovector.h:205-210). -/
def St.dealloc (s : St V) (c i : Nat) : Except Err (St V) := do
  match ← s.slot c i with
  | some a =>
    let h ← s.heap.delete a
    let l ← s.vec c
    .ok ⟨h, Function.update s.vecs c (some (l.set i none))⟩
  | none => .ok s

/-- `clear()` (duovector.h:215-217). -/
def St.clear (s : St V) (c : Nat) : Except Err (St V) := do
  let l ← s.vec c
  (List.range l.length).foldlM (fun s i => s.dealloc c i) s

/-- `std::swap(v(i), w(j))` on the pointer references (duovector.h:157; used in
include/qlmps/one_dim_tn/mps/finite_mps/finite_mps.h, `Reverse`). -/
def St.swap (s : St V) (c i d j : Nat) : Except Err (St V) := do
  let p ← s.slot c i
  let q ← s.slot d j
  let l ← s.vec c
  let s1 := s.setVec c (some (l.set i q))
  let m ← s1.vec d
  .ok (s1.setVec d (some (m.set j p)))

/-- The client-visible operations. -/
inductive Op (V : Type)
  | construct (c n : Nat)
  | copyCtor (dst src : Nat)
  | copyAssign (dst src : Nat)
  | moveCtor (dst src : Nat)
  | moveAssign (dst src : Nat)
  | destroy (c : Nat)
  | write (c i : Nat) (v : V)
  | get (c i : Nat)
  | alloc (c i : Nat)
  | replace (c i : Nat) (v : V)
  | dealloc (c i : Nat)
  | clear (c : Nat)
  | swap (c i d j : Nat)

/-- Run one operation of the code. -/
def St.exec [Inhabited V] (s : St V) : Op V → Except Err (St V)
  | .construct c n => s.construct c n
  | .copyCtor d c => s.copyCtor d c
  | .copyAssign d c => s.copyAssign d c
  | .moveCtor d c => s.moveCtor d c
  | .moveAssign d c => s.moveAssign d c
  | .destroy c => s.destroy c
  | .write c i v => s.write c i v
  | .get c i => do let (s', _) ← s.get c i; .ok s'
  | .alloc c i => s.alloc c i
  | .replace c i v => s.replace c i v
  | .dealloc c i => s.dealloc c i
  | .clear c => s.clear c
  | .swap c i d j => s.swap c i d j

/-- Program start: no containers, empty heap. -/
def St.init : St V := ⟨⟨0, fun _ => none, []⟩, fun _ => none⟩

/-- Run a history. -/
def run [Inhabited V] (ops : List (Op V)) : Except Err (St V) := ops.foldlM St.exec St.init

/-! ### Value-level specification: a container is a list of optional values, without pointers -/

/-- Values of the live containers. -/
abbrev Vals (V : Type) := Nat → Option (List (Option V))

/-- What one operation does to the values; `none` when the call is illegal (dead container, index out of range).
`selfKeeps` selects the documented behaviour of self copy-assignment (`true`) or the code's (`false`). -/
def specStep [Inhabited V] (selfKeeps : Bool) (f : Vals V) : Op V → Option (Vals V)
  | .construct c n => match f c with
    | some _ => none
    | none => some (Function.update f c (some (List.replicate n none)))
  | .copyCtor d c => match f c, f d with
    | some l, none => some (Function.update f d (some l))
    | _, _ => none
  | .copyAssign d c => match f c, f d with
    | some l, some _ =>
      some (Function.update f d (some (if c = d ∧ selfKeeps = false then l.map (fun _ => none) else l)))
    | _, _ => none
  | .moveCtor d c => match f c, f d with
    | some l, none => some (Function.update (Function.update f d (some l)) c (some []))
    | _, _ => none
  | .moveAssign d c => match f c, f d with
    | some l, some _ => some (Function.update (Function.update f d (some l)) c (some []))
    | _, _ => none
  | .destroy c => match f c with
    | some _ => some (Function.update f c none)
    | none => none
  | .write c i v | .replace c i v => match f c with
    | some l => if i < l.length then some (Function.update f c (some (l.set i (some v)))) else none
    | none => none
  | .get c i => match f c with
    | some l => match l[i]? with
      | some x => some (Function.update f c (some (l.set i (some (x.getD default)))))
      | none => none
    | none => none
  | .alloc c i => match f c with
    | some l => if i < l.length then some (Function.update f c (some (l.set i (some default)))) else none
    | none => none
  | .dealloc c i => match f c with
    | some l => if i < l.length then some (Function.update f c (some (l.set i none))) else none
    | none => none
  | .clear c => match f c with
    | some l => some (Function.update f c (some (l.map (fun _ => none))))
    | none => none
  | .swap c i d j => match f c, f d with
    | some l, some m => match l[i]?, m[j]? with
      | some x, some y =>
        some (Function.update (Function.update f c (some (l.set i y))) d
          (some ((if c = d then l.set i y else m).set j x)))
      | _, _ => none
    | _, _ => none

/-- The values after a history, `none` when some call was illegal. -/
def specRun [Inhabited V] (selfKeeps : Bool) (ops : List (Op V)) : Option (Vals V) :=
  ops.foldlM (specStep selfKeeps) (fun _ => none)

/-- The values a state holds: each pointer replaced by the object it points to. -/
def St.vals (s : St V) : Vals V := fun c => (s.vecs c).map (List.map (fun p => p.bind s.heap.live))

/-- Slot `i` of container `c` holds the pointer `a`. -/
def St.Owns (s : St V) (c i a : Nat) : Prop := ∃ l, s.vecs c = some l ∧ l[i]? = some (some a)

/-- Ownership discipline: every owned address is live, no address is owned twice, every live object is owned,
and the deletes executed so far are exactly the dead addresses, each once. -/
structure Inv (s : St V) : Prop where
  live : ∀ c i a, s.Owns c i a → (s.heap.live a).isSome
  uniq : ∀ c i d j a, s.Owns c i a → s.Owns d j a → c = d ∧ i = j
  owned : ∀ a, (s.heap.live a).isSome → ∃ c i, s.Owns c i a
  fresh : ∀ a, (s.heap.live a).isSome → a < s.heap.next
  nodup : s.heap.freed.Nodup
  freed : ∀ a, a ∈ s.heap.freed ↔ a < s.heap.next ∧ s.heap.live a = none

end Verif.Duo
