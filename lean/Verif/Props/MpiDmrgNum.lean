import Verif.Mpi.DmrgEngRun
import Verif.Props.DmrgNum
import Verif.Props.MpiDmrg

/-!
# C76: the parallel DMRG executor is variational

The programs of master and workers are those of C76, and the numerical work of each process is that of `dmrgEng`: block-site and site-block operators, their products with
the state, the overlaps and the grown block operators are dense tensors over `ℝ` or `ℂ` in exact arithmetic; the Lanczos vectors are those of the master.
`H = opM N P.dense.w` is the operator of the matrices of operators, `stateV N t` the state of the tensors `t` (as in C75).
-/
namespace Verif.Props
open Finset Verif.Mps Verif.Disk Verif.Algo Verif.Mpi

section
variable {σ 𝕜 SL VL : Type} [RCLike 𝕜] [Fintype σ] [DecidableEq σ] {N : Nat} {P : DmrgPar σ 𝕜} {S : SvdLib σ 𝕜 SL} {lact : Nat → SL → Act SL VL} {W : Nat}

/-- The changes of gauge do not see who computed the block operators. -/
theorem eng_gauge (hqr : QRSpec P.qr) : (boundaryG P).Laws (dmrgEng N P S).alg where
  ll := (boundaryG_laws hqr).ll
  lr := (boundaryG_laws hqr).lr
  rl := (boundaryG_laws hqr).rl
  rr := (boundaryG_laws hqr).rr
  env i e t u := by rw [eng_growR, eng_growR, eng_growR, eng_growR]; exact (boundaryG_laws hqr).env i e t u

/-- **C76** (the product). The workers multiply their shares of block-site and site-block operators onto a two-site state. The sum of the partial results is defined, and it is the Hamiltonian of
the whole chain between the states that differ from the MPS only in the block of the two sites (`embed`). -/
theorem C76_product (hN : 1 ≤ N) (hM : OpMatsOK N P.m) {ψ : Nat → LTen σ 𝕜} (ht : Closed N (tens ψ)) {i : Nat} (hi : i + 1 < N)
    {did : Nat → List Nat} (hdid : ∑ r ∈ Icc 1 W, (did r : Multiset Nat) = (List.range (P.m (i + 1)).rows : List Nat)) :
    ∃ h : TwoV σ 𝕜 (tens ψ i).l (tens ψ (i + 1)).r →ₗ[𝕜] TwoV σ 𝕜 (tens ψ i).l (tens ψ (i + 1)).r,
      (∀ x, ∑ r ∈ Icc 1 W, wSub (dmrgEng N P S) ((did r).map fun j => (j, (dmrgEng N P S).mkB ((dmrgEng N P S).bgrp i ((dmrgAlg P).lenv ψ i) j),
          (dmrgEng N P S).mkS ((dmrgEng N P S).sgrp (i + 1) ((dmrgAlg P).renv N ψ (N - (i + 2))) j))) ((asV (tens ψ i).l (tens ψ (i + 1)).r x : AllV σ 𝕜) : WithTop (AllV σ 𝕜)) =
        ((asV (tens ψ i).l (tens ψ (i + 1)).r (h x) : AllV σ 𝕜) : WithTop (AllV σ 𝕜))) ∧
      ∀ x y, inner 𝕜 (embed N i (tens ψ) (ofV x)) (Matrix.toEuclideanLin (opM N P.dense.w) (embed N i (tens ψ) (ofV y))) = inner 𝕜 x (h y) := by
  obtain ⟨a, b, c, d⟩ := lenv_grp hM ht i (by omega)
  obtain ⟨a', b', c', d'⟩ := renv_grp hM ht (N - (i + 2)) (by omega)
  rw [show N - 1 - (N - (i + 2)) = i + 1 by omega] at b' c' d'
  refine ⟨effHam ((vmpsAlg N P.dense).lenv ψ i) ((vmpsAlg N P.dense).renv N ψ (N - (i + 2))) (P.m i).ten (P.m (i + 1)).ten _ _, fun x => ?_, fun x y => ?_⟩
  · rw [wSub_sum (E := dmrgEng N P S) hdid (fun j => ((dmrgEng N P S).mkB ((dmrgEng N P S).bgrp i ((dmrgAlg P).lenv ψ i) j),
      (dmrgEng N P S).mkS ((dmrgEng N P S).sgrp (i + 1) ((dmrgAlg P).renv N ψ (N - (i + 2))) j))), a, a']
    exact eng_prod b b' d d' (hM.fit i) (hM.col i (by omega)) (fun r hr => hM.row (i + 1) hi r hr) x
  · have hw := dense_closed hN hM
    have hL := blkL_chain hw ht ((vmpsAlg N P.dense).lenv ψ) rfl i (by omega) fun _ _ => rfl
    have hR := blkR_chain hw ht ((vmpsAlg N P.dense).renv N ψ) rfl (N - (i + 2)) (by omega) fun _ _ => rfl
    rw [show N - (N - (i + 2)) = i + 2 by omega, show N - 1 - (N - (i + 2)) = i + 1 by omega] at hR
    exact embed_elem hw hi hL hR x y

/-- **C76** (the run). The executor runs with `W ≥ 1` workers and `k ≥ 1` sweeps on at least three sites, from an MPS on disk that is not zero and whose canonical centre is not behind the left
boundary. Every execution ends, and with the same files. The MPS in them has its canonical centre at site 0, and the energy `e` of the last update is variational:
it is not below any lower bound of the Hamiltonian, and without truncation it is the energy of the normalised MPS on disk and not above that of the initial MPS. -/
theorem C76_variational (hW : 1 ≤ W) (hP : DmrgOK N P) (hT : TriLocal P.tri) (hS : S.OK P lact W) (hN : 3 ≤ N) (bl br : Nat → Bool) (clk : Nat) {ψ : Nat → LTen σ 𝕜}
    {d : CDsk (LTen σ 𝕜) (Option (BOp 𝕜))} (hm : COnDisk N ψ d) (hr : OpsReusable (dmrgAlg P) (bondsOf P) N (lbOf bl N) (rbOf br N) ψ d) {c : Nat} (hc : c ≤ lbOf bl N + 1)
    (h : Canon N c (tens ψ)) (hz : stateV N (tens ψ) ≠ 0) {k : Nat} (hk : 1 ≤ k) :
    ∃ s' ψ' e, DmrgEnds (dmrgEng N P S) lact W (dmrgStart (dmrgEng N P S) lact W (boundaryG P) (postG P) bl br k ⟨Mem.blank clk, d⟩) s' ∧ COnDisk N ψ' s'.dsk ∧
      Canon N 0 (tens ψ') ∧ (ψ' (lbOf bl N + 1)).e0 = some e ∧ (ψ' (lbOf bl N + 2)).e0 = some e ∧
      Variational N P.dense (stateV N (tens ψ)) (stateV N (tens ψ')) e := by
  obtain ⟨s', r, o, -⟩ := C76_files (E := dmrgEng N P S) (P := postG P) hW (eng_ok hP.iter hS) (eng_legs hP.spR hP.spL) (eng_gauge hP.qr) bl br (eng_dims hP.mats) hN clk hm
    (fun hn j h1 h2 => (eng_renv (N := N) (P := P) (S := S) ψ j).symm ▸ hr hn j h1 h2) k
  obtain ⟨b1, b2⟩ := bounds_ok bl br hN
  obtain ⟨g1, g2⟩ := gauged_canon hP.qr b1 b2 hc h
  have gz := g2 ▸ hz
  have hD := hP.par (by omega)
  obtain ⟨us, hus⟩ := upds_last b1 (k := k) (by omega)
  have hp := (path_sweeps b1 b2 k (c := lbOf bl N + 1) (Or.inr rfl)).1
  have hf : optSweeps (dmrgEng N P S).alg N (lbOf bl N) (rbOf br N) k (gauged (boundaryG P) N (lbOf bl N) (rbOf br N) ψ, clk) =
      (us ++ [((.l, lbOf bl N + 1) : Dir × Nat)]).foldl (opt1 (vmpsAlg N P.dense) N) (gauged (boundaryG P) N (lbOf bl N) (rbOf br N) ψ, clk) := by
    rw [optSweeps_fold, eng_fold hD hT hP.mats _ hp g1 gz, hus]
  rw [hus] at hp
  obtain ⟨e, e1, e2, e3, e4⟩ := path_var hD us (.l, lbOf bl N + 1) (ψ := (gauged (boundaryG P) N (lbOf bl N) (rbOf br N) ψ, clk)) hp g1 gz
  obtain ⟨q1, q2⟩ := centred_canon hP.qr (lb := lbOf bl N) (by omega) e3
  refine ⟨s', _, e, r, o, ?_, ?_, ?_, ?_⟩
  · show Canon N 0 (tens (centred (postG P) (lbOf bl N) (optSweeps (dmrgEng N P S).alg N (lbOf bl N) (rbOf br N) k (gauged (boundaryG P) N (lbOf bl N) (rbOf br N) ψ, clk)).1))
    rw [hf]; exact q1
  · show (centred (postG P) (lbOf bl N) (optSweeps (dmrgEng N P S).alg N (lbOf bl N) (rbOf br N) k (gauged (boundaryG P) N (lbOf bl N) (rbOf br N) ψ, clk)).1 _).e0 = _
    rw [hf, centred_e0]; exact e1
  · show (centred (postG P) (lbOf bl N) (optSweeps (dmrgEng N P S).alg N (lbOf bl N) (rbOf br N) k (gauged (boundaryG P) N (lbOf bl N) (rbOf br N) ψ, clk)).1 _).e0 = _
    rw [hf, centred_e0]; exact e2
  · show Variational N P.dense _ (stateV N (tens (centred (postG P) (lbOf bl N) (optSweeps (dmrgEng N P S).alg N (lbOf bl N) (rbOf br N) k (gauged (boundaryG P) N (lbOf bl N) (rbOf br N) ψ, clk)).1))) _
    rw [hf, q2]
    rw [g2] at e4
    exact e4

end

/-! ### The hypotheses can be met -/

/-- There is a tridiagonal solver that looks only at the entries of the matrix. -/
theorem local_solver_exists : ∃ tri : TriSolver, Solves tri ∧ TriLocal tri := by
  obtain ⟨tri, ht⟩ := solver_exists
  refine ⟨fun a b n => tri (fun i => if i < n then a i else 0) (fun i => if i + 1 < n then b i else 0) n, fun a b n hn => ?_, fun a a' b b' n ha hb => ?_⟩
  · obtain ⟨h1, h2, h3⟩ := ht (fun i => if i < n then a i else 0) (fun i => if i + 1 < n then b i else 0) n hn
    refine ⟨fun i hi => ?_, h2, fun y => ?_⟩
    · have := h1 i hi
      rw [if_pos hi] at this
      rw [← this]
      congr 1
      · congr 1
        by_cases h0 : i = 0
        · rw [if_pos h0, if_pos h0]
        · rw [if_neg h0, if_neg h0, if_pos (by omega)]
      · by_cases hl : i + 1 < n
        · rw [if_pos hl, if_pos hl, if_pos hl]
        · rw [if_neg hl, if_neg hl]
    · refine le_of_le_of_eq (h3 y) ?_
      congr 1
      · exact sum_congr rfl fun i hi => by rw [if_pos (mem_range.1 hi)]
      · congr 1
        exact sum_congr rfl fun i hi => by rw [if_pos (by have := mem_range.1 hi; omega)]
  · dsimp only
    rw [show (fun i => if i < n then a i else 0) = fun i => if i < n then a' i else 0 from funext fun i => by
      by_cases h : i < n
      · rw [if_pos h, if_pos h, ha i h]
      · rw [if_neg h, if_neg h]]
    rw [show (fun i => if i + 1 < n then b i else 0) = fun i => if i + 1 < n then b' i else 0 from funext fun i => by
      by_cases h : i + 1 < n
      · rw [if_pos h, if_pos h, hb i h]
      · rw [if_neg h, if_neg h]]

/-- A parallel decomposition: the master sends the block to rank 1, which decomposes it and sends the result back. -/
inductive SvdDemo (σ 𝕜 : Type) where
  | master (T : Blk2 σ 𝕜)
  | asked
  | got (u : Dir → Ten σ 𝕜 × Ten σ 𝕜)
  | worker
  | answer (u : Dir → Ten σ 𝕜 × Ten σ 𝕜)
  | idle

def svdDemoAct {σ 𝕜 : Type} [RCLike 𝕜] [Fintype σ] (P : DmrgPar σ 𝕜) (r : Nat) : SvdDemo σ 𝕜 → Act (SvdDemo σ 𝕜) (Blk2 σ 𝕜 ⊕ (Dir → Ten σ 𝕜 × Ten σ 𝕜))
  | .master T => .send 1 3 (.inl T) .asked
  | .asked => .recv (some 1) (some 4) fun _ _ m => match m with
    | .inr u => .got u
    | .inl _ => .idle
  | .got _ => .stop
  | .worker => if r = 1 then .recv (some 0) (some 3) fun _ _ m => match m with
    | .inl T => .answer fun dir => splitD P dir T
    | .inr _ => .idle
    else .stop
  | .answer u => .send 0 4 (.inr u) .idle
  | .idle => .stop

def svdDemo {σ 𝕜 : Type} [RCLike 𝕜] [Fintype σ] (e : Ten σ 𝕜) : SvdLib σ 𝕜 (SvdDemo σ 𝕜) where
  inp := .master
  wk := .worker
  out dir s := match s with
    | .got u => u dir
    | _ => (e, e)

theorem svdDemo_ok {σ 𝕜 : Type} [RCLike 𝕜] [Fintype σ] (P : DmrgPar σ 𝕜) (e : Ten σ 𝕜) {W : Nat} (hW : 1 ≤ W) : (svdDemo e).OK P (svdDemoAct P) W := by
  intro T
  have hrun : SyncRun (svdDemoAct P) 2 (fun r => if r = 0 then SvdDemo.master T else .worker)
      (fun r => if r = 0 then .got (fun dir => splitD P dir T) else if r = 1 then .idle else .worker) := by
    refine SyncRun.comm (q := 0) (r := 1) (by omega) rfl rfl (SyncRun.comm (q := 1) (r := 0) (by omega) rfl rfl ?_)
    refine sync_nil_of fun r => ?_
    by_cases h0 : r = 0
    · subst h0; rfl
    · by_cases h1 : r = 1
      · subst h1; rfl
      · simp [Function.update, h0, h1]
  have hσ : ∀ r, svdDemoAct P r (if r = 0 then .got (fun dir => splitD P dir T) else if r = 1 then .idle else .worker) = .stop := fun r => by
    by_cases h0 : r = 0
    · subst h0; rfl
    · by_cases h1 : r = 1
      · subst h1; rfl
      · simp [svdDemoAct, h0, h1]
  refine ⟨⟨4, fun n s h => (sync_determines hrun hσ h).1, fun n s h hs => ?_⟩, fun n s h r src tag k hr => .inl (sync_named hrun hσ h hr), fun r hr => ?_⟩
  · obtain ⟨hf, hp⟩ := (sync_determines hrun hσ h).2 hs
    exact ⟨hf, fun dir => by rw [hp]; rfl⟩
  · simp [svdDemoAct, svdDemo, show r ≠ 1 by omega]

/-- The transverse Ising chain of any length from three, any number of workers and of sweeps from one, the product state and a directory without block operators; with truncation to two
directions. -/
example (N W k : Nat) (hN : 3 ≤ N) (hW : 1 ≤ W) (hk : 1 ≤ k) (bl br : Nat → Bool) : ∃ tri fuse s' ψ' e,
    DmrgEnds (dmrgEng N (exDmrg N 2 tri fuse) (svdDemo exUp)) (svdDemoAct (exDmrg N 2 tri fuse)) W
      (dmrgStart (dmrgEng N (exDmrg N 2 tri fuse) (svdDemo exUp)) (svdDemoAct (exDmrg N 2 tri fuse)) W (boundaryG (exDmrg N 2 tri fuse)) (postG (exDmrg N 2 tri fuse)) bl br k
        ⟨Mem.blank 0, ⟨fun _ => .whole ⟨exUp, none⟩, fun _ _ => .gone, fun _ _ => .gone⟩⟩) s' ∧ COnDisk N ψ' s'.dsk ∧ (ψ' (lbOf bl N + 1)).e0 = some e ∧
      Variational N (exDmrg N 2 tri fuse).dense (stateV N fun _ => exUp) (stateV N (tens ψ')) e := by
  obtain ⟨tri, ht, hl⟩ := local_solver_exists
  have hf : ∀ l, Nonempty (Fin l × Bool ≃ Fin (l * Fintype.card Bool)) := fun l => ⟨Fintype.equivFinOfCardEq (by simp)⟩
  have hw : ∀ i, 0 < bondsOf (exDmrg N 2 tri fun l => (hf l).some) i := fun i => by
    show 0 < (if i = 0 ∨ N ≤ i then 1 else 3); split <;> omega
  obtain ⟨s', ψ', e, h1, h2, h3, h4, h5, h6⟩ := C76_variational (P := exDmrg N 2 tri fun l => (hf l).some) (S := svdDemo exUp) (lact := svdDemoAct (exDmrg N 2 tri fun l => (hf l).some))
    (ψ := fun _ => ⟨exUp, none⟩) (d := ⟨fun _ => .whole ⟨exUp, none⟩, fun _ _ => .gone, fun _ _ => .gone⟩) (c := 0) hW
    ⟨exIsingOp_ok (by omega), herm_of_sym (exIsingOp_sym N), cutR_spec upEnum 2, cutL_spec upEnum 2, qrE_spec upEnum, ht, by show 2 ≤ 10; omega⟩ hl (svdDemo_ok _ _ hW) hN bl br 0
    (fun _ _ => rfl) (fun h => by
      obtain ⟨b1, b2⟩ := bounds_ok bl br hN
      exfalso
      unfold needOps at h
      rw [List.any_eq_false] at h
      have h2 := h (N - 1 - rbOf br N) (by rw [List.mem_range'_1]; omega)
      rw [Bool.not_eq_true, List.any_eq_false] at h2
      exact h2 0 (by rw [List.mem_range]; exact hw _) rfl) (Nat.zero_le _) (exUp_canon N 0) (exUp_nz N) hk
  exact ⟨tri, _, s', ψ', e, h1, h2, h4, h6⟩

end Verif.Props
