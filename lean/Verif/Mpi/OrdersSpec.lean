import Verif.Mpi.Orders

/-!
# The same programs in one process

Specification for the parallel two-site programs: the sequence of jobs carried out by one process that computes every product and every environment as a whole.
-/
namespace Verif.Mpi
open Finset

/-- The contractions as a whole. -/
structure Full (T O D U : Type) where
  /-- effective Hamiltonian times state -/
  mul : T → T → T → T → T → T
  /-- overlap of the result with the state -/
  ov : T → T → T → T → T → O
  growL : T → T → T → T
  growR : T → T → T → T
  expR : T → T → T → T → O → T
  expL : T → T → T → T → O → T
  svd : D → Nat → T → U

section
variable {T O D L P U SL VL : Type} [AddCommMonoid T] [AddCommMonoid O]

/-- What is assumed of the numerical part and of the libraries: the contributions of the sectors add up to the whole, the parallel decomposition works and gives what
the local one gives, the sorting functions sort, and new tensors of the state leave the environments alone. -/
structure Eng.Laws (E : Eng T O D L P U SL) (A : Full T O D U) (lact : Nat → SL → Act SL VL) (W : Nat) : Prop where
  mul : ∀ e0 e1 e2 e3 st, ∑ t ∈ range (E.sect0 e0), E.mulPart e0 e1 e2 e3 st t = A.mul e0 e1 e2 e3 st
  ov : ∀ e0 e1 e2 e3 st, ∑ t ∈ range (E.sect0 e0), E.ovPart e0 e1 e2 e3 st t = A.ov e0 e1 e2 e3 st
  growL : ∀ e m x, ∑ t ∈ range (E.sect2 x), E.growLPart e m x t = A.growL e m x
  growR : ∀ e m x, ∑ t ∈ range (E.sect0 x), E.growRPart e m x t = A.growR e m x
  expR : ∀ e0 e1 e2 gs nz, ∑ t ∈ range (E.sect0 e0), E.expRPart e0 e1 e2 gs nz t = A.expR e0 e1 e2 gs nz
  expL : ∀ e1 e2 e3 gs nz, ∑ t ∈ range (E.sect0 e3), E.expLPart e1 e2 e3 gs nz t = A.expL e1 e2 e3 gs nz
  svd : ∀ d l gs, LibOk lact W (E.svdIn d l gs) E.svdWk fun s => E.svdRes s = A.svd d l gs
  sortMul : ∀ deg n, MulOrder deg n W (E.sortMul deg n W)
  sortGrow : ∀ deg n, GrowOrder deg n W (E.sortGrow deg n W)
  lenv_svd : ∀ d b l gs u k, E.lenv (E.setSvd d b l gs u) k = E.lenv d k
  renv_svd : ∀ d b l gs u k, E.renv (E.setSvd d b l gs u) k = E.renv d k
  lenv_exp : ∀ d b i gs x k, E.lenv (E.expMps d b i gs x) k = E.lenv d k
  renv_exp : ∀ d b i gs x k, E.renv (E.expMps d b i gs x) k = E.renv d k

namespace Full
variable (A : Full T O D U) (E : Eng T O D L P U SL)

/-- The iterations of Lanczos: at most `left` more products. -/
def loop (e0 e1 e2 e3 : T) : Nat → L → T
  | 0, s => E.lzRes s
  | left + 1, s =>
    if E.lzZero s then E.lzRes s
    else
      let s' := E.lzTake s (A.mul e0 e1 e2 e3 (E.lzVec s)) (A.ov e0 e1 e2 e3 (E.lzVec s))
      if E.lzStop s' then E.lzRes s' else loop e0 e1 e2 e3 left s'

def lanczos (p : P) (e0 e1 e2 e3 st : T) : T :=
  let s := E.lzStart p st
  A.loop E e0 e1 e2 e3 (E.maxIter p - 1) (E.lzTake s (A.mul e0 e1 e2 e3 (E.lzVec s)) (A.ov e0 e1 e2 e3 (E.lzVec s)))

/-- The end of an update of the sites `l`, `l + 1`: moving right the left environment of `l + 1` sites is computed, moving left the right environment of
all sites from `l + 1` on. -/
def finish (right : Bool) (l : Nat) (gs : T) (d : D) : D :=
  let d := E.setSvd d right l gs (A.svd d l gs)
  if right then E.putL d (l + 1) (A.growL (E.lenv d l) (E.mpo l) (E.mps d l))
  else E.putR d (E.N - (l + 1)) (A.growR (E.renv d (E.N - (l + 2))) (E.mpo (l + 1)) (E.mps d (l + 1)))

/-- An update of the sites `l`, `l + 1`. -/
def update (right : Bool) (l : Nat) (p : P) (noise : Option O) (d : D) : D :=
  let e0 := E.lenv d l
  let e1 := E.mpo l
  let e2 := E.mpo (l + 1)
  let e3 := E.renv d (E.N - (l + 2))
  let i := if right then l else l + 1
  let gs := A.lanczos E p e0 e1 e2 e3 (E.pair d l)
  match noise with
  | none => A.finish E right l gs d
  | some nz =>
    if E.needExp d right i nz then
      let x := if right then A.expR e0 e1 e2 gs nz else A.expL e1 e2 e3 gs nz
      A.finish E right l (E.expVec d right i gs x) (E.expMps d right i gs x)
    else A.finish E right l gs d

/-- The right environments of the last `i`, …, `i + n - 1` sites. -/
def envs : Nat → Nat → D → D
  | 0, _, d => d
  | n + 1, i, d =>
    let d := E.loadE d i
    envs n (i + 1) (E.putE d i (A.growR (E.envE d (i - 1)) (E.mpo (E.N - i)) (E.mps d (E.N - i))))

/-- One job, all jobs. -/
def job : Eng.Job D P O → D → D
  | .loc f, d => f d
  | .upd u, d => A.update E u.right (if u.right then u.site else u.site - 1) u.par u.noise d
  | .envs n, d => A.envs E n 1 d

def jobs (js : List (Eng.Job D P O)) (d : D) : D := js.foldl (fun d j => A.job E j d) d

end Full

/-- The sites of an update exist, and Lanczos may iterate at least twice. -/
def Eng.Job.ok (E : Eng T O D L P U SL) (kind : Kind) : Eng.Job D P O → Prop
  | .loc _ => True
  | .upd u => (if u.right then u.site + 1 < E.N else 1 ≤ u.site ∧ u.site < E.N) ∧ 2 ≤ E.maxIter u.par ∧ (kind = .tdvp → u.noise = none)
  | .envs n => kind = .vmps ∧ n ≤ E.N

/-- No temporary tensor is left. -/
def Heap.clean (hp : Heap T) : Prop := (∀ x, hp.e0 ≠ .live x) ∧ ∀ x, hp.e3 ≠ .live x

end
end Verif.Mpi
