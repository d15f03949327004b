import Verif.Mps.Fmps
import Verif.Mps.VmpsRunSpec
import Verif.Mps.SsSpec
/-
The flags of the MPS object that is handed to the two-site VMPS programs. The model of the programs (Verif/Disk) keeps the tensors of the object but not its flags; here are its flags alone. `LoadTen`,
`DumpTen`, `dealloc`, `back` and `front` leave them as they are (ten_vec.h:61-88, duovector.h:162-173, 204-211). An access to the tensor of a site that follows an access to the same site has no effect
on the flags, so of several accesses in a row to a site only the first is kept.
-/
namespace Verif.Mps

/-- What the programs do to the flags: an access through the non-const `operator[]` or `operator()`, `LeftCanonicalizeTen`, `RightCanonicalizeTen`. -/
inductive FlagOp where
  | acc (i : Nat)
  | left (i : Nat)
  | right (i : Nat)

/-- finite_mps.h:73-77 and 94-98; 223-224; 271-272. -/
def FlagOp.run (f : List Cano) : FlagOp → List Cano
  | .acc i => f.set i .none
  | .left i => (f.set i .left).set (i + 1) .none
  | .right i => (f.set i .right).set (i - 1) .none

/-- `TwoSiteFiniteVMPSUpdate`, all of whose accesses are to the two sites (two_site_update_finite_vmps_impl.h:279-351, two_site_update_finite_vmps_mpi_impl_master.h:218-311). -/
def updFlags (u : Disk.Dir × Nat) : List FlagOp := [.acc u.2, .acc (u.2 + 1)]

/-- `InitEnvs` (two_site_update_finite_vmps_impl.h:169-175; vmps_mpi_init_master.h:160-170): the tensors at `N-1, …, usn`. -/
def initFlags (N usn : Nat) : List FlagOp := (List.range' 1 (N - usn)).map fun i => .acc (N - i)

/-- The serial `TwoSiteFiniteVMPS` (two_site_update_finite_vmps_impl.h:96-125). -/
def vmpsFlags (N : Nat) (temp : Bool) (k : Nat) : List FlagOp :=
  (if temp then [] else initFlags N 2) ++ (upds 0 (N - 1) k).flatMap updFlags

/-- `CheckAndUpdateBoundaryMPSTensors` with the result `lb`, `rb` (vmps_init.h:167-200 and 210-238). The accesses to the neighbour in the branches follow a canonicalisation, which has set its flag to
NONE already. -/
def boundaryFlags (N lb rb : Nat) : List FlagOp :=
  (List.range (lb + 1)).flatMap (fun i => [.left i, .acc i]) ++ (List.range' rb (N - rb)).reverse.flatMap fun i => [.right i, .acc i]

/-- `UpdateBoundaryEnvs` (vmps_init.h:307-318 and 333-337). -/
def boundaryEnvFlags (N lb rb : Nat) : List FlagOp := (List.range' 1 (N - rb)).map (fun i => .acc (N - i)) ++ (List.range lb).map .acc

/-- The master of the parallel `TwoSiteFiniteVMPS` (two_site_update_finite_vmps_mpi_impl_master.h:85-124, vmps_mpi_init_master.h:74-130); `need` tells whether environments are missing. -/
def vmpsFlagsMpi (N lb rb : Nat) (need : Bool) (k : Nat) : List FlagOp :=
  boundaryFlags N lb rb ++ (if need then initFlags N (lb + 2) else []) ++ boundaryEnvFlags N lb rb ++ (upds lb rb k).flatMap updFlags

/-- An update of `SingleSiteFiniteVMPS` (single_site_update_finite_vmps_impl.h:238-351, 394-470, 592-619): all accesses are to the target site and its neighbour in the direction of the sweep. -/
def ssUpdFlags : Disk.Dir × Nat → List FlagOp
  | (.r, i) => [.acc i, .acc (i + 1)]
  | (.l, i) => [.acc i, .acc (i - 1)]

/-- `SingleSiteFiniteVMPS` (single_site_update_finite_vmps_impl.h:83-111). -/
def ssFlags (N : Nat) (temp : Bool) (k : Nat) : List FlagOp :=
  (if temp then [] else initFlags N 1) ++ (ssUpds N k).flatMap ssUpdFlags

/-- An update of `TwoSiteFiniteVMPSWithNoise` (two_site_update_noise_finite_vmps_impl.h:263-407, 496-551, 709): the two sites and, if the block is expanded, the site after them. -/
def tnUpdFlags (expand : Bool) (u : Disk.Dir × Nat) : List FlagOp :=
  [.acc u.2, .acc (u.2 + 1)] ++ if expand then [.acc (match u.1 with | .r => u.2 + 2 | .l => u.2 - 1)] else []

/-- The serial `TwoSiteFiniteVMPSWithNoise` (two_site_update_noise_finite_vmps_impl.h:95-123, vmps_init.h:74-116): it ends with `LeftCanonicalizeTen(left_boundary)`, so one flag says LEFT.
`expand n` tells whether update `n` expands its block. -/
def tnFlags (N lb rb : Nat) (need : Bool) (expand : Nat → Bool) (k : Nat) : List FlagOp :=
  boundaryFlags N lb rb ++ (if need then initFlags N (lb + 2) else []) ++ boundaryEnvFlags N lb rb ++ (upds lb rb k).zipIdx.flatMap (fun p => tnUpdFlags (expand p.2) p.1) ++ [.left lb]

/-- The object after a program that has emptied it (two_site_update_finite_vmps_impl.h:123) and done `ops`, among them an access, to its flags. -/
def FMps.after {σ K : Type} (ops : List FlagOp) (m : FMps σ K) : FMps σ K := ⟨m.slots.map fun _ => Option.none, ops.foldl FlagOp.run m.flags, -1⟩

end Verif.Mps
