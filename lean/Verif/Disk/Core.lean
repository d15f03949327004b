import Mathlib.Logic.Function.Basic
/-
Memory, disk and the primitive operations of the disk-based sweep algorithms (algorithm/vmps, algorithm/tdvp,
one_dim_tn/mpo/finite_mpo/finite_mpo_utility.h).

A sweep keeps a few MPS tensors and environment tensors in memory; all others are files `mps_ten<i>`, `lenv<k>`,
`renv<k>` (utilities.h, two_site_update_finite_vmps_impl.h:51-57). The types `T` of MPS tensors and `E` of
environment tensors and all numerical work are arbitrary parameters.

A program is a list of primitive operations, so that a crash is a prefix of it.
-/
namespace Verif.Disk

/-- The ways a run can go wrong. `noFile`, `badFile`: `LoadTen` throws (ten_vec.h:64-75). -/
inductive Err
  | ub | assertFail | noFile | badFile
  deriving DecidableEq, Repr

/-- A file: missing, present but not a complete tensor (torn by a crash, or written from a default-constructed
tensor), or holding a value. -/
inductive File (α : Type)
  | gone
  | junk
  | whole (a : α)
  deriving DecidableEq, Repr

/-- Memory: the slots of the MPS and of the two environment vectors (null pointers are `none`), the local variable
in which environments are grown, and the number of local updates done so far. -/
structure Mem (T E : Type) where
  m : Nat → Option T
  l : Nat → Option E
  r : Nat → Option E
  reg : Option E
  clk : Nat

/-- The MPS directory and the directory of the temporary environments. -/
structure Dsk (T E : Type) where
  m : Nat → File T
  l : Nat → File E
  r : Nat → File E

/-- The whole system. -/
structure Sys (T E : Type) where
  mem : Mem T E
  dsk : Dsk T E

/-- Memory without any tensor. -/
def Mem.blank {T E : Type} (clk : Nat) : Mem T E := ⟨fun _ => none, fun _ => none, fun _ => none, none, clk⟩

/-- The primitive operations. -/
inductive Op (T E : Type)
  /-- `mps.LoadTen(i, …)` -/
  | ldM (i : Nat)
  /-- `lenvs.LoadTen(k, …)` -/
  | ldL (k : Nat)
  /-- `renvs.LoadTen(k, …)` -/
  | ldR (k : Nat)
  /-- `mps.DumpTen(i, …, rel)` -/
  | dpM (i : Nat) (rel : Bool)
  /-- `lenvs.DumpTen(k, …)` -/
  | dpL (k : Nat)
  /-- `renvs.DumpTen(k, …)` -/
  | dpR (k : Nat)
  /-- `WriteQLTensorTOFile(lenv, …)` -/
  | wrL (k : Nat)
  /-- `WriteQLTensorTOFile(renv, …)` -/
  | wrR (k : Nat)
  /-- `RemoveFile` of a left environment -/
  | rmL (k : Nat)
  /-- `RemoveFile` of a right environment -/
  | rmR (k : Nat)
  /-- `mps.dealloc(i)` -/
  | frM (i : Nat)
  /-- `lenvs.dealloc(k)` -/
  | frL (k : Nat)
  /-- `renvs.dealloc(k)` -/
  | frR (k : Nat)
  /-- work on memory only -/
  | calc (f : Mem T E → Except Err (Mem T E))

section
variable {T E : Type}

/-- What reading a file gives. -/
def File.get {α : Type} : File α → Except Err α
  | .gone => .error .noFile
  | .junk => .error .badFile
  | .whole a => .ok a

/-- What dumping a slot leaves in the file: the non-const `operator[]` used by `DumpTen` puts a default-constructed
tensor into an empty slot (duovector.h:132-143, ten_vec.h:83-101). -/
def dumped {α : Type} : Option α → File α
  | some a => .whole a
  | none => .junk

/-- One primitive operation; `N` is the size of the MPS and `n` that of the environment vectors. Indexing beyond
the size is undefined behaviour. `RemoveFile` only prints a message if the file is missing
(two_site_update_finite_vmps_impl.h:59-64). The `LoadTen` of a missing file leaves a default tensor behind in the
slot; as it throws, the model does not keep the memory. -/
def exec (N n : Nat) : Op T E → Sys T E → Except Err (Sys T E)
  | .ldM i, s =>
    if i < N then do
      let t ← (s.dsk.m i).get
      pure ⟨{ s.mem with m := Function.update s.mem.m i (some t) }, s.dsk⟩
    else .error .ub
  | .ldL k, s =>
    if k < n then do
      let e ← (s.dsk.l k).get
      pure ⟨{ s.mem with l := Function.update s.mem.l k (some e) }, s.dsk⟩
    else .error .ub
  | .ldR k, s =>
    if k < n then do
      let e ← (s.dsk.r k).get
      pure ⟨{ s.mem with r := Function.update s.mem.r k (some e) }, s.dsk⟩
    else .error .ub
  | .dpM i rel, s =>
    if i < N then .ok ⟨{ s.mem with m := if rel then Function.update s.mem.m i none else s.mem.m },
      { s.dsk with m := Function.update s.dsk.m i (dumped (s.mem.m i)) }⟩
    else .error .ub
  | .dpL k, s =>
    if k < n then .ok ⟨s.mem, { s.dsk with l := Function.update s.dsk.l k (dumped (s.mem.l k)) }⟩ else .error .ub
  | .dpR k, s =>
    if k < n then .ok ⟨s.mem, { s.dsk with r := Function.update s.dsk.r k (dumped (s.mem.r k)) }⟩ else .error .ub
  | .wrL k, s => .ok ⟨s.mem, { s.dsk with l := Function.update s.dsk.l k (dumped s.mem.reg) }⟩
  | .wrR k, s => .ok ⟨s.mem, { s.dsk with r := Function.update s.dsk.r k (dumped s.mem.reg) }⟩
  | .rmL k, s => .ok ⟨s.mem, { s.dsk with l := Function.update s.dsk.l k .gone }⟩
  | .rmR k, s => .ok ⟨s.mem, { s.dsk with r := Function.update s.dsk.r k .gone }⟩
  | .frM i, s =>
    if i < N then .ok ⟨{ s.mem with m := Function.update s.mem.m i none }, s.dsk⟩ else .error .ub
  | .frL k, s =>
    if k < n then .ok ⟨{ s.mem with l := Function.update s.mem.l k none }, s.dsk⟩ else .error .ub
  | .frR k, s =>
    if k < n then .ok ⟨{ s.mem with r := Function.update s.mem.r k none }, s.dsk⟩ else .error .ub
  | .calc f, s => do
    let m ← f s.mem
    pure ⟨m, s.dsk⟩

/-- A program. -/
def run (N n : Nat) : List (Op T E) → Sys T E → Except Err (Sys T E)
  | [], s => .ok s
  | o :: os, s => do
    let s1 ← exec N n o s
    run N n os s1

/-- A memory slot that is about to be used: a null pointer is undefined behaviour. -/
def use {α : Type} : Option α → Except Err α
  | some a => .ok a
  | none => .error .ub

/-- The file that an operation writes, torn. -/
def tear (d : Dsk T E) : Op T E → Dsk T E
  | .dpM i _ => { d with m := Function.update d.m i .junk }
  | .dpL k => { d with l := Function.update d.l k .junk }
  | .dpR k => { d with r := Function.update d.r k .junk }
  | .wrL k => { d with l := Function.update d.l k .junk }
  | .wrR k => { d with r := Function.update d.r k .junk }
  | _ => d

/-- `Crash N n ops s d`: running `ops` from `s` and being killed at some moment can leave the files `d`: some
prefix was carried out, and the next operation not at all, or its file was left incomplete. -/
def Crash (N n : Nat) (ops : List (Op T E)) (s : Sys T E) (d : Dsk T E) : Prop :=
  ∃ done rest s1, ops = done ++ rest ∧ run N n done s = .ok s1 ∧
    (d = s1.dsk ∨ ∃ o os, rest = o :: os ∧ d = tear s1.dsk o)

end

/-- A sweep direction. -/
inductive Dir
  | r | l
  deriving DecidableEq, Repr

/-- The numerical parts of a two-site algorithm, all arbitrary: the trivial environments at the two ends
(two_site_update_finite_vmps_impl.h:157-166, 178-186), growing an environment by site `i` (vmps_init.h:343-373, the
MPO tensor of the site is part of the function) and the local optimisation (`LanczosSolver` and `SVD`,
two_site_update_finite_vmps_impl.h:270-334), which may also depend on how many updates were done before. -/
structure Alg (T E : Type) where
  trivL : T → E
  trivR : T → E
  growL : Nat → E → T → E
  growR : Nat → E → T → E
  opt : Nat → Dir → Nat → E → E → T → T → T × T

/-- An optimisation keeps the outer legs of the pair, on which alone the trivial environments depend. -/
structure Alg.Legs {T E : Type} (A : Alg T E) : Prop where
  left : ∀ c d i e f t u, A.trivL (A.opt c d i e f t u).1 = A.trivL t
  right : ∀ c d i e f t u, A.trivR (A.opt c d i e f t u).2 = A.trivR u

variable {T E : Type}

/-- **Specification**: the left environment of the sites `0 … k-1` of the MPS `ψ`. -/
def Alg.lenv (A : Alg T E) (ψ : Nat → T) : Nat → E
  | 0 => A.trivL (ψ 0)
  | k + 1 => A.growL k (A.lenv ψ k) (ψ k)

/-- **Specification**: the right environment of the last `k` sites. -/
def Alg.renv (A : Alg T E) (N : Nat) (ψ : Nat → T) : Nat → E
  | 0 => A.trivR (ψ (N - 1))
  | k + 1 => A.growR (N - 1 - k) (A.renv N ψ k) (ψ (N - 1 - k))

theorem lenv_congr (A : Alg T E) {ψ ψ' : Nat → T} (h0 : A.trivL (ψ 0) = A.trivL (ψ' 0)) :
    ∀ k, (∀ j, j < k → ψ j = ψ' j) → A.lenv ψ k = A.lenv ψ' k
  | 0, _ => h0
  | k + 1, h => by
    rw [Alg.lenv, Alg.lenv, lenv_congr A h0 k (fun j hj => h j (by omega)), h k (by omega)]

theorem renv_congr (A : Alg T E) {N : Nat} {ψ ψ' : Nat → T} (h0 : A.trivR (ψ (N - 1)) = A.trivR (ψ' (N - 1))) :
    ∀ k, (∀ j, N ≤ j + k → j < N → ψ j = ψ' j) → k ≤ N → A.renv N ψ k = A.renv N ψ' k
  | 0, _, _ => h0
  | k + 1, h, hk => by
    rw [Alg.renv, Alg.renv, renv_congr A h0 k (fun j hj hj' => h j (by omega) hj') (by omega),
      h (N - 1 - k) (by omega) (by omega)]

end Verif.Disk
