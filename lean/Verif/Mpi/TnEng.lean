import Verif.Mpi.TdvpEng
import Verif.Mps.TnNum
import Verif.Disk.NoisedMpi
/-
The numbers of the parallel two-site variational optimisation with noise: an instance of `Eng` (Verif/Mpi/Orders.lean), and the jobs of the master
(algo_mpi/vmps/two_site_update_noised_finite_vmps_mpi_impl.h).
-/
namespace Verif.Mpi
open Finset Verif.Mps Verif.Algo Verif.Disk

section
variable {σ 𝕜 : Type} [RCLike 𝕜] [Fintype σ] [DecidableEq σ]

/-- The libraries, and with them the function that says which components of the fused leg `ExpandQNBlocks` appends to a block, given the two tensors of the Hamiltonian. -/
structure NoiseLib (σ 𝕜 SL : Type) extends MpiLib σ 𝕜 SL where
  pick : Dir → Ten (σ × σ) 𝕜 → Ten (σ × σ) 𝕜 → Blk2 σ 𝕜 → List Nat

/-- **Specification**: what is assumed of the libraries, and that the program in one process, to which the parallel one is compared, uses the same: it appends the same components, and does not
decompose the tensor of the Hamiltonian on the right site (the workers never do, two_site_update_noised_finite_vmps_mpi_impl.h:655-657). -/
structure NoiseLib.OKN {SL VL : Type} (L : NoiseLib σ 𝕜 SL) (P : TnPar σ 𝕜) (lact : Nat → SL → Act SL VL) (W : Nat) : Prop where
  lib : L.toMpiLib.OK P.toVmpsPar lact W
  pick : ∀ dir i T, P.pick dir i T = L.pick dir (P.w i) (P.w (i + 1)) T
  wr : ∀ i, P.wr i = P.w (i + 1)

/-- What a worker sends for one sector of the expansion to the right (two_site_update_noised_finite_vmps_mpi_impl.h:642-662, 674-688): zero in the components that the state has, and the appended components of the fused tensor, times the noise. The
first leg of the left environment is restricted to the sector. -/
def expPartR (pick : List Nat) (w0 w1 : Ten (σ × σ) 𝕜) (B : Blk2 σ 𝕜) (nz : ℝ) (e : Env3 𝕜) : Blk2 σ 𝕜 :=
  ⟨B.l, B.r + pick.length, fun s s' a b => if b < B.r then 0 else (nz : 𝕜) * fusedR e w0 w1 B s s' a (pick.getD (b - B.r) 0)⟩

/-- The same to the left (two_site_update_noised_finite_vmps_mpi_impl.h:869-891, 903-918), with the right environment restricted to the sector. -/
def expPartL (pick : List Nat) (w0 w1 : Ten (σ × σ) 𝕜) (B : Blk2 σ 𝕜) (nz : ℝ) (f : Env3 𝕜) : Blk2 σ 𝕜 :=
  ⟨B.l + pick.length, B.r, fun s s' a b => if a < B.l then 0 else (nz : 𝕜) * fusedL f w0 w1 B s s' (pick.getD (a - B.l) 0) b⟩

/-- What the master makes of the state and the sum of the contributions (two_site_update_noised_finite_vmps_mpi_impl.h:574-578, 806-808): the components the state has
stay, the others are those of the sum. -/
def joinR (B C : Blk2 σ 𝕜) : Blk2 σ 𝕜 := ⟨B.l, C.r, fun s s' a b => if b < B.r then B.v s s' a b else C.v s s' a b⟩
def joinL (B C : Blk2 σ 𝕜) : Blk2 σ 𝕜 := ⟨C.l, B.r, fun s s' a b => if a < B.l then B.v s s' a b else C.v s s' a b⟩

/-- The two-site state in a tensor. -/
def twoB : TX σ 𝕜 → Blk2 σ 𝕜
  | .val (.two B) => B
  | _ => ⟨0, 0, fun _ _ _ _ => 0⟩

/-- The tensor behind the block, filled with zeros to the dimension `n` (two_site_update_noised_finite_vmps_mpi_impl.h:584-594, 815-824). -/
def fillL (m n : Nat) (x : Ten σ 𝕜) : Ten σ 𝕜 := ⟨n, x.r, fun y k b => if k < m then x.v y k b else 0⟩
def fillR (m n : Nat) (x : Ten σ 𝕜) : Ten σ 𝕜 := ⟨x.l, n, fun y a k => if k < m then x.v y a k else 0⟩

/-- The site behind the block of the sites `l`, `l + 1`. -/
def behind (right : Bool) (l : Nat) : Nat := if right then l + 2 else l - 1

/-- The numerical work of master and workers on a chain of `N` sites, with noise. Products, environments and Lanczos are those of the program without noise (`vmpsEng`); entries of the
functions beyond the legs of a tensor are counted to the last sector. -/
noncomputable def tnEng {SL : Type} (N : Nat) (P : TnPar σ 𝕜) (L : NoiseLib σ 𝕜 SL) :
    Eng (TX σ 𝕜) ℝ (MD σ 𝕜) (LzX σ 𝕜) Unit (Dir → Ten σ 𝕜 × Ten σ 𝕜) SL where
  N := N
  mpo i := .val (.op (P.w i))
  sect0 x := (L.sec 0 x).length
  sect2 x := (L.sec 2 x).length
  deg0 x t := (L.sec 0 x).getD t 0
  deg2 x t := (L.sec 2 x).getD t 0
  mulPart e0 e1 e2 e3 st j :=
    match e0, e1, e2, e3, st with
    | .val (.env e), .val (.op w1), .val (.op w2), .val (.env f), .val (.two B) =>
      .val (.two (ofV (effHam (selET (L.sec 0 e0) j e) f w1 w2 B.l B.r (toV B))))
    | _, _, _, _, _ => .bad
  ovPart e0 e1 e2 e3 st j :=
    match e0, e1, e2, e3, st with
    | .val (.env e), .val (.op w1), .val (.op w2), .val (.env f), .val (.two B) =>
      RCLike.re (inner 𝕜 (toV B) (effHam (selET (L.sec 0 e0) j e) f w1 w2 B.l B.r (toV B)))
    | _, _, _, _, _ => 0
  growLPart e m x j :=
    match e, m, x with
    | .val (.env e), .val (.op w), .val (.site t) => .val (.env (partL w e t (selRT (L.sec 2 x) j t)))
    | _, _, _ => .bad
  growRPart e m x j :=
    match e, m, x with
    | .val (.env e), .val (.op w), .val (.site t) => .val (.env (partR w e (selLT (L.sec 0 x) j t) t))
    | _, _, _ => .bad
  -- two_site_update_noised_finite_vmps_mpi_impl.h:602-706
  expRPart e0 e1 e2 gs nz j :=
    match e0, e1, e2, gs with
    | .val (.env e), .val (.op w0), .val (.op w1), .val (.gs B _) => .val (.two (expPartR (L.pick .r w0 w1 B) w0 w1 B nz (selET (L.sec 0 e0) j e)))
    | _, _, _, _ => .bad
  -- two_site_update_noised_finite_vmps_mpi_impl.h:829-935
  expLPart e1 e2 e3 gs nz j :=
    match e1, e2, e3, gs with
    | .val (.op w0), .val (.op w1), .val (.env f), .val (.gs B _) => .val (.two (expPartL (L.pick .l w0 w1 B) w0 w1 B nz (selET (L.sec 0 e3) j f)))
    | _, _, _, _ => .bad
  lenv d k := d.see fun m => slotE (m.l k)
  renv d k := d.see fun m => slotE (m.r k)
  mps d i := d.see fun m => slotM (m.m i)
  putL d k x := d.upd fun m => { m with l := Function.update m.l k (some (toEnv x)) }
  putR d k x := d.upd fun m => { m with r := Function.update m.r k (some (toEnv x)) }
  loadE d i := d.run N (if 1 < i then [.ldM (N - i)] else [])
  envE d _ := d.see fun m => slotE m.reg
  putE d i x := (d.upd fun m => { m with reg := some (toEnv x) }).run N [.wrR i, .frM (N - i)]
  pair d l := d.see fun m =>
    match m.m l, m.m (l + 1) with
    | some t, some u => .val (.two (mergeTen t.ten u.ten))
    | _, _ => .bad
  lzStart _ := lzStartX
  lzVec := LzX.vec
  lzTake := LzX.take P.toVmpsPar
  lzZero := LzX.over
  lzStop := LzX.over
  lzRes := LzX.result
  maxIter _ := P.maxIter
  -- two_site_update_noised_finite_vmps_mpi_impl.h:321-366: the old tensors of the two sites are compared
  needExp d right i nz :=
    match d with
    | .ok s =>
      let l := if right then i else i - 1
      match s.mem.m l, s.mem.m (l + 1) with
      | some t, some u => tnNeed P nz (dirOf right) l t.ten u.ten
      | _, _ => false
    | .error _ => false
  expVec _ right _ gs x := .val (.gs (if right then joinR (gsB gs) (twoB x) else joinL (gsB gs) (twoB x)) (gsE gs))
  expMps d right i gs x := d.upd fun m =>
    let k := if right then i + 2 else i - 2
    { m with m := Function.update m.m k ((m.m k).map fun t =>
        ⟨if right then fillL (gsB gs).r (twoB x).r t.ten else fillR (gsB gs).l (twoB x).l t.ten, t.e0⟩) }
  svdIn _ _ gs := L.svd.inp (gsB gs)
  svdWk := L.svd.wk
  svdRes s dir := L.svd.out dir s
  -- two_site_update_noised_finite_vmps_mpi_impl.h:403-435; the energy is noted on all three tensors, as in `tnUpd`
  setSvd d right l gs u := d.upd fun m => { m with
    m := Function.update (Function.update (Function.update m.m (behind right l) ((m.m (behind right l)).map fun t => ⟨t.ten, gsE gs⟩))
      l (some ⟨(u (dirOf right)).1, gsE gs⟩)) (l + 1) (some ⟨(u (dirOf right)).2, gsE gs⟩)
    clk := m.clk + 1 }
  sortMul := L.sortMul
  sortGrow := L.sortGrow

/-- The same as a whole: the sums of the contributions of all sectors. -/
noncomputable def tnFull {SL : Type} (N : Nat) (P : TnPar σ 𝕜) (L : NoiseLib σ 𝕜 SL) : Full (TX σ 𝕜) ℝ (MD σ 𝕜) (Dir → Ten σ 𝕜 × Ten σ 𝕜) where
  mul e0 e1 e2 e3 st := ∑ t ∈ range (L.sec 0 e0).length, (tnEng N P L).mulPart e0 e1 e2 e3 st t
  ov e0 e1 e2 e3 st := ∑ t ∈ range (L.sec 0 e0).length, (tnEng N P L).ovPart e0 e1 e2 e3 st t
  growL e m x := ∑ t ∈ range (L.sec 2 x).length, (tnEng N P L).growLPart e m x t
  growR e m x := ∑ t ∈ range (L.sec 0 x).length, (tnEng N P L).growRPart e m x t
  expR e0 e1 e2 gs nz := ∑ t ∈ range (L.sec 0 e0).length, (tnEng N P L).expRPart e0 e1 e2 gs nz t
  expL e1 e2 e3 gs nz := ∑ t ∈ range (L.sec 0 e3).length, (tnEng N P L).expLPart e1 e2 e3 gs nz t
  svd _ _ gs := fun dir => splitV P.toVmpsPar dir (gsB gs)

/-! ### The master's program -/

/-- The noise of sweep `s`, counted from 0: `noises[s]`, and the last of them when there are no more (two_site_update_noised_finite_vmps_mpi_impl.h:119-122). -/
def sweepNoise (noises : List ℝ) (s : Nat) : ℝ := noises.getD (min s (noises.length - 1)) 0

/-- The bodies of the two loops of `TwoSiteFiniteVMPSSweep` (two_site_update_noised_finite_vmps_mpi_impl.h:157-248) with the noise `ν`; what the load and dump threads do is done in order
(that the order does not matter is C40). -/
def jobsR3 (N lb : Nat) (ν : ℝ) (i : Nat) : List (Eng.Job (MD σ 𝕜) Unit ℝ) := [opsJob N (loadR3 N lb i), .upd ⟨true, i, (), some ν⟩, opsJob N (dumpR3 N i)]
def jobsL3 (N rb : Nat) (ν : ℝ) (i : Nat) : List (Eng.Job (MD σ 𝕜) Unit ℝ) := [opsJob N (loadL3 N rb i), .upd ⟨false, i, (), some ν⟩, opsJob N (dumpL3 N i)]

/-- One sweep (two_site_update_noised_finite_vmps_mpi_impl.h:157-248). -/
def sweepJ3 (N lb rb : Nat) (ν : ℝ) : List (Eng.Job (MD σ 𝕜) Unit ℝ) :=
  opsJob N [.calc freshEnvs] :: ((List.range' lb (rb - 1 - lb)).flatMap (jobsR3 N lb ν) ++
    ((List.range' (lb + 2) (rb - 1 - lb)).reverse.flatMap (jobsL3 N rb ν) ++ [opsJob N [.calc freshEnvs]]))

/-- `MasterTwoSiteFiniteVMPSWithNoise` (two_site_update_noised_finite_vmps_mpi_impl.h:82-138): initialisation as without noise (`masterJ`), `k` sweeps, `LeftCanonicalizeTen`, post-processing. -/
def masterJ3 (A : Alg (LTen σ 𝕜) (Env3 𝕜)) (C : Disk.Canon (LTen σ 𝕜)) (G Q : Gauge (LTen σ 𝕜)) (bl br : Nat → Bool) (N : Nat) (d : Dsk (LTen σ 𝕜) (Env3 𝕜)) (noises : List ℝ) (k : Nat) :
    List (Eng.Job (MD σ 𝕜) Unit ℝ) :=
  (opsJob N (checkBoundary G bl br N) :: ((if needEnvs N (lbOf bl N) (rbOf br N) d then initJ A N (lbOf bl N + 2) else []) ++
    [opsJob N (updateBoundary A N (lbOf bl N) (rbOf br N))])) ++
  (opsJob N [.ldM (lbOf bl N), .ldM (lbOf bl N + 1)] ::
    ((List.range k).flatMap (fun s => sweepJ3 N (lbOf bl N) (rbOf br N) (sweepNoise noises s)) ++
      [opsJob N [.calc (canonC C (lbOf bl N)), .dpM (lbOf bl N) true, .dpM (lbOf bl N + 1) true],
       opsJob N (.calc (assertEmpty N) :: noisedPost Q (lbOf bl N))]))

/-- `RightCanonicalizeTen(i)` in `NoisedVMPSPostProcess` (two_site_update_noised_finite_vmps_mpi_impl.h:142-155); the left half is not used. -/
def tnPost (P : TnPar σ 𝕜) : Gauge (LTen σ 𝕜) where
  gl _ t u := (t, u)
  gr _ t u := (⟨(rightQR P.qr t.ten u.ten).1, t.e0⟩, ⟨(rightQR P.qr t.ten u.ten).2, u.e0⟩)

/-- The run in which the updates are given the noises of their sweeps; `clk` is the count of updates at the beginning, `U` the number of updates of a sweep. -/
noncomputable def tnPreset (P : TnPar σ 𝕜) (noises : List ℝ) (U clk : Nat) : TnPar σ 𝕜 := { P with noise := fun n => sweepNoise noises ((n - clk) / U) }

end
end Verif.Mpi
