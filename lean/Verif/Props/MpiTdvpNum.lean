import Verif.Mpi.TdvpEngRun
import Verif.Props.MpiVmpsNum
import Verif.Props.TdvpMaster
/-
C83: the parallel `TwoSiteFiniteTDVP` with its workers computes what the master's program would compute alone.
-/
namespace Verif.Props
open Finset Verif.Mps Verif.Disk Verif.Algo Verif.Mpi

section
variable {σ : Type} [Fintype σ] [DecidableEq σ] {N : Nat} {P : TdvpPar σ} {SL VL : Type} {L : MpiLib σ ℂ SL} {lact : Nat → SL → Act SL VL} {W : Nat}
  {qr svd : Ten σ ℂ → Ten σ ℂ × Mat ℂ}

/-- The call of `TwoSiteFiniteTDVP` with `W` workers, from the directories and the MPS object `x.sys`; the other components of `x` are variables
that the master sets before it reads them. -/
noncomputable def tdvpStart (N : Nat) (P : TdvpPar σ) (L : MpiLib σ ℂ SL) (lact : Nat → SL → Act SL VL) (W : Nat) (qr svd : Ten σ ℂ → Ten σ ℂ × Mat ℂ) (o : TdvpObs σ) (x : TdvpD σ) :
    St (Pg (TX σ ℂ) ℝ (MT σ) SL VL) (PV (TX σ ℂ) ℝ VL) :=
  ordersStart (tdvpEng N P L) lact W (masterJT qr svd N P o) (.ok x)

/-- **C83** (same result as one process). With at least one worker, two iterations of the solver allowed and an eigensolver that reads only the matrix it is given: whenever the program of the
master, carried out by one process (`tdvpMaster`), succeeds, every execution of the parallel program ends, without crash, deadlock or left-over message, with exactly the files, the MPS object and
the table of that program. -/
theorem C83_same (hW : 1 ≤ W) (hL : L.OKT P lact W) (hK : 2 ≤ P.maxIter) (hE : EigLocal P.eig) (hm : P.mpi = true) {o : TdvpObs σ} {x : TdvpD σ} (hN : x.sys.m.size = N)
    {s' : TdvpSys σ} {res : List (Option (Mps.Cell ℂ))} (h : tdvpMaster qr svd P o x.sys = .ok (s', res)) :
    ∃ d, Accepted (tdvpEng N P L) lact W .tdvp (tdvpStart N P L lact W qr svd o x) (.ok d) ∧ d.sys = s' ∧ d.res = res := by
  obtain ⟨m, nrm, hj⟩ := doesT_master hL hK hE hm qr svd o hN h
  have ha := C38_jobs (tdvp_laws (N := N) hL) hW .tdvp _ (tdvp_jobs_ok (N := N) (L := L) hK qr svd o) (.ok x)
  rw [hj] at ha
  exact ⟨_, ha, rfl, rfl⟩

/-- **C83** (what the parallel program returns). From the situation of C82, every execution ends like this: the table has `N * (step + 1)` cells, cell `k * N + i` holds
`exp(i e0 k tau) ⟨φ|O1_i|Φ_k⟩` with `Φ_0 = O0 ψ`; no `Φ_k` is zero or larger than `Φ_0`, and if nothing is discarded norm and energy are those of `Φ_0` at all times. The MPS on disk is the
evolved one. -/
theorem C83_tdvp_parallel (hW : 1 ≤ W) (hL : L.OKT P lact W) (hE : EigLocal P.eig) (hm : P.mpi = true) (hQ : QRSpec qr) (hP : TdvpOK N P) (hN : 3 ≤ N) {o : TdvpObs σ} (h0 : o.site0 < N)
    {x : TdvpD σ} (hs : Slots x.sys.m N (fun _ => Option.none)) {ψ φ : Nat → Ten σ ℂ} (hd : OnDisk N ψ x.sys.dsk) (hψ : Closed N ψ)
    (hr : ∀ j, o.site0 < j → j < N → RightIso (ψ j)) (hφ : Closed N φ) (hi : (x.sys.init = Option.none ∧ φ = ψ) ∨ x.sys.init = some ((List.range N).map φ))
    (hz : applyAt N o.op0 o.inst0 o.site0 (stateV N ψ) ≠ 0) :
    ∃ d t, Accepted (tdvpEng N P L) lact W .tdvp (tdvpStart N P L lact W qr svd o x) (.ok d) ∧ d.res.length = N * (o.step + 1) ∧ Mps.Canon N 0 t ∧
      (∀ Φ : Nat → ChainV σ ℂ N, Φ = (fun k => (‖applyAt N o.op0 o.inst0 o.site0 (stateV N ψ)‖ : ℂ) • stateV N (evolveP N t (tdvpPlan N P o.tau k))) →
        (∀ k i, k ≤ o.step → i < N → d.res[k * N + i]? = some (some ⟨(o.site0, i), (0, k * o.tau),
          Complex.exp (Complex.I * o.e0 * ((k * o.tau : Rat) : ℂ)) * inner ℂ (stateV N φ) (applyAt N o.op1 o.inst1 i (Φ k))⟩)) ∧
        Φ 0 = applyAt N o.op0 o.inst0 o.site0 (stateV N ψ) ∧
        (∀ k, Φ k ≠ 0 ∧ ‖Φ k‖ ≤ ‖Φ 0‖ ∧ (P.NoCut → ‖Φ k‖ = ‖Φ 0‖ ∧
          inner ℂ (Φ k) (Matrix.toEuclideanLin (opM N P.w) (Φ k)) = inner ℂ (Φ 0) (Matrix.toEuclideanLin (opM N P.w) (Φ 0))))) ∧
      OnDisk N (evolveP N t (tdvpPlan N P o.tau o.step)) d.sys.dsk ∧ d.sys.init = some ((List.range N).map φ) ∧ Slots d.sys.m N (fun _ => Option.none) := by
  obtain ⟨s', res, t, h1, h2, h3, h4, h5, -, h6, h7, -⟩ := C82_tdvp_master (svd := svd) hQ hP hN h0 hs hd hψ hr hφ hi hz
  obtain ⟨d, ha, rfl, rfl⟩ := C83_same (W := W) (L := L) hW hL hP.iter hE hm hs.len h1
  exact ⟨d, t, ha, h2, h3, h4, h5, h6, h7⟩

end

/-! ### The hypotheses can be met -/

/-- A local eigensolver exists. -/
theorem local_eig_exists : ∃ eig : EigSolver, Diagonalises eig ∧ EigLocal eig := by
  obtain ⟨eig, he⟩ := eig_exists
  refine ⟨fun a b n => eig (fun i => if i < n then a i else 0) (fun i => if i + 1 < n then b i else 0) n, fun a b n hn => ?_, fun a a' b b' n ha hb => ?_⟩
  · obtain ⟨h1, h2, h3⟩ := he (fun i => if i < n then a i else 0) (fun i => if i + 1 < n then b i else 0) n hn
    refine ⟨fun i j hi hj => ?_, h2, h3⟩
    have := h1 i j hi hj
    rw [if_pos hi] at this
    rw [← this]
    congr 1
    · congr 1
      by_cases h0 : i = 0
      · rw [if_pos h0, if_pos h0]
      · rw [if_neg h0, if_neg h0, if_pos (by omega)]
    · by_cases hl : i + 1 < n
      · rw [if_pos hl, if_pos hl, if_pos hl]
      · rw [if_neg hl, if_neg hl]
  · simp only
    congr 1
    · funext i
      by_cases h : i < n
      · rw [if_pos h, if_pos h, ha i h]
      · rw [if_neg h, if_neg h]
    · funext i
      by_cases h : i + 1 < n
      · rw [if_pos h, if_pos h, hb i h]
      · rw [if_neg h, if_neg h]

/-- The decompositions of `P` in the parameters of `svdDemoAct`, which reads nothing else. -/
noncomputable def demoPar {σ : Type} [Fintype σ] (P : TdvpPar σ) (t : Ten σ ℂ) : DmrgPar σ ℂ where
  m _ := ⟨0, 0, fun _ _ => none⟩
  splitR := P.splitR
  splitL := P.splitL
  qr _ := (t, fun _ _ => 0)
  fuse l := Fintype.equivFinOfCardEq (by simp)
  dmax := 0
  tri _ _ _ := (0, fun _ => 0)
  maxIter := 0
  tol := 0

theorem libDemo_okT {σ : Type} [Fintype σ] [DecidableEq σ] (P : TdvpPar σ) (e : Ten σ ℂ) {W : Nat} (hW : 1 ≤ W) : (libDemo e).OKT P (svdDemoAct (demoPar P e)) W where
  some k x := (libDemo_ok (demoPar P e) e hW).some k x
  env e' := (libDemo_ok (demoPar P e) e hW).env e'
  left t := (libDemo_ok (demoPar P e) e hW).left t
  right t := (libDemo_ok (demoPar P e) e hW).right t
  sortMul := (libDemo_ok (demoPar P e) e hW).sortMul
  sortGrow := (libDemo_ok (demoPar P e) e hW).sortGrow
  svd T := by
    obtain ⟨⟨M, h1, h2⟩, h3, h4⟩ := svdDemo_ok (demoPar P e) e hW T
    exact ⟨⟨M, h1, fun n s a b => ⟨(h2 n s a b).1, fun dir => ((h2 n s a b).2 dir).trans (by cases dir <;> rfl)⟩⟩, h3, h4⟩

/-- The chain, MPS and operators of C81 with any number of workers and steps. -/
example (N n W : Nat) (hN : 3 ≤ N) (hW : 1 ≤ W) (tau : Rat) : ∃ eig d, EigLocal eig ∧ TdvpOK N (exTdvpFull N eig true) ∧
    Accepted (tdvpEng N (exTdvpFull N eig true) (libDemo (exUpC 0))) (svdDemoAct (demoPar (exTdvpFull N eig true) (exUpC 0))) W .tdvp
      (tdvpStart N (exTdvpFull N eig true) (libDemo (exUpC 0)) (svdDemoAct (demoPar (exTdvpFull N eig true) (exUpC 0))) W (qrE (K := ℂ) upEnum) (fun t => (t, fun _ _ => 0)) (exObs n tau)
        ⟨⟨⟨fun j => .whole (exUpC j), fun _ => .gone, fun _ => .gone⟩, Option.none, fun _ => Option.none, FMps.fresh N⟩, Mem.blank 0, 0, []⟩) (.ok d) ∧
    d.res.length = N * (n + 1) := by
  obtain ⟨eig, he, hl⟩ := local_eig_exists
  obtain ⟨d, t, h1, h2, -⟩ := C83_tdvp_parallel (svd := fun t => (t, fun _ _ => 0)) (o := exObs n tau) (P := exTdvpFull N eig true) (ψ := exUpC) (φ := exUpC)
    (x := ⟨⟨⟨fun j => .whole (exUpC j), fun _ => .gone, fun _ => .gone⟩, Option.none, fun _ => Option.none, FMps.fresh N⟩, Mem.blank 0, 0, []⟩) hW (libDemo_okT (exTdvpFull N eig true) (exUpC 0) hW) hl rfl
    (qrE_spec (K := ℂ) upEnum) (exTdvpFull_ok (by omega) he true) hN (show 1 < N by omega) (by
      have := slots_of_empty (m := (FMps.fresh N : FMps Bool ℂ)) (by simp [FMps.isEmpty, FMps.fresh])
      rwa [show (FMps.fresh N : FMps Bool ℂ).size = N by simp [FMps.size, FMps.fresh]] at this) (fun _ _ => rfl) (exUpC_canon N).1
    (fun j hj hj' => (exUpC_canon N).2.2 j (by omega) hj') (exUpC_canon N).1 (Or.inl ⟨rfl, rfl⟩) (exObs_ne hN n tau)
  exact ⟨eig, d, hl, exTdvpFull_ok (by omega) he true, h1, h2⟩

end Verif.Props
