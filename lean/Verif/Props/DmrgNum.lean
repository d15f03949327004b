import Verif.Mps.DmrgGauge
import Verif.Props.Dmrg
import Verif.Props.Vmps
import Verif.Mps.InstE
/-
C75: the DMRG executor is variational.

`H = opM N P.dense.w` is the operator of the matrices of operators, every null entry read as zero (`OpMat.ten`), `stateV N t` the state of the tensors `t`.
The order of file accesses, the reuse of block operators and the signals are those of C26 to C28; block operators, super-block Hamiltonian and changes of gauge
are those of Verif/Mps/DmrgNum.lean.
-/
namespace Verif.Props
open Finset Verif.Mps Verif.Disk Verif.Algo

variable {σ 𝕜 : Type} [RCLike 𝕜] [Fintype σ] [DecidableEq σ] {N : Nat} {P : DmrgPar σ 𝕜}

/-- **Specification**: what is assumed of the run: the matrices of operators form a chain without empty rows or columns, their operator is Hermitian, the
decompositions and the tridiagonal solver do what they promise, and at least two Lanczos iterations are allowed. -/
structure DmrgOK (N : Nat) (P : DmrgPar σ 𝕜) : Prop where
  mats : OpMatsOK N P.m
  herm : (opM N P.dense.w).IsHermitian
  spR : BlkSplitR P.splitR
  spL : BlkSplitL P.splitL
  qr : QRSpec P.qr
  tri : Solves P.tri
  iter : 2 ≤ P.maxIter

theorem DmrgOK.par (h : DmrgOK N P) (hN : 1 ≤ N) : ParOK N P.dense := ⟨dense_closed hN h.mats, h.herm, h.spR, h.spL, h.tri, h.iter⟩

/-- **Specification**: a list of updates has been applied to an MPS with the state `Ψ`, and `e` is the energy of the last of them: it is not below any lower bound of the
Hamiltonian, and if nothing was discarded the new MPS is normalised, has the energy `e`, and `e` is not above the energy of `Ψ`. -/
structure Variational (N : Nat) (P : VmpsPar σ 𝕜) (Ψ Ψ' : ChainV σ 𝕜 N) (e : ℝ) : Prop where
  nz : Ψ' ≠ 0
  above : ∀ E0, (∀ Φ : ChainV σ 𝕜 N, E0 * ‖Φ‖ ^ 2 ≤ expect (opM N P.w) Φ) → E0 ≤ e
  exact : NoCut P → ‖Ψ'‖ = 1 ∧ expect (opM N P.w) Ψ' = e ∧ e * ‖Ψ‖ ^ 2 ≤ expect (opM N P.w) Ψ

/-- The updates of any path. -/
theorem path_var {P : VmpsPar σ 𝕜} (hP : ParOK N P) (us : List (Dir × Nat)) (u : Dir × Nat) {ψ : (Nat → LTen σ 𝕜) × Nat} {c : Nat} (hp : Path N c (us ++ [u]))
    (h : Canon N c (tens ψ.1)) (hz : stateV N (tens ψ.1) ≠ 0) :
    ∃ e, (((us ++ [u]).foldl (opt1 (vmpsAlg N P) N) ψ).1 u.2).e0 = some e ∧ (((us ++ [u]).foldl (opt1 (vmpsAlg N P) N) ψ).1 (u.2 + 1)).e0 = some e ∧
      Canon N (after u) (tens ((us ++ [u]).foldl (opt1 (vmpsAlg N P) N) ψ).1) ∧
      Variational N P (stateV N (tens ψ.1)) (stateV N (tens ((us ++ [u]).foldl (opt1 (vmpsAlg N P) N) ψ).1)) e := by
  induction us generalizing ψ c with
  | nil =>
    obtain ⟨a, b, e, e1, e2, vs⟩ := opt1_ok hP hp.1 hp.2.1 h hz
    obtain ⟨Φ, x, y, z, w⟩ := vs.unit
    refine ⟨e, e1, e2, a, b, fun E0 hE => ?_, fun hc => ?_⟩
    · have := hE Φ
      rw [x, expect_of y] at this
      simpa using this
    · rw [show stateV N (tens (([] ++ [u] : List (Dir × Nat)).foldl (opt1 (vmpsAlg N P) N) ψ).1) = Φ from w hc]
      exact ⟨x, expect_of y, vs.better⟩
  | cons u0 us ih =>
    obtain ⟨a, b, e, e1, e2, vs⟩ := opt1_ok hP hp.1 hp.2.1 h hz
    obtain ⟨e', f1, f2, f3, f4⟩ := ih hp.2.2 a b
    refine ⟨e', f1, f2, f3, f4.nz, f4.above, fun hc => ?_⟩
    obtain ⟨g1, g2, g3⟩ := f4.exact hc
    refine ⟨g1, g2, ?_⟩
    obtain ⟨Φ, x, y, z, w⟩ := vs.unit
    rw [w hc, x, expect_of y] at g3
    refine le_trans (mul_le_mul_of_nonneg_right (?_ : e' ≤ e) (by positivity)) vs.better
    simpa using g3

/-- **C75** (the super-block Hamiltonian). The terms collected by the executor are multiplied one after the other onto a two-site state, with block operators grown site by site
along the MPS. The result is defined, and it is the Hamiltonian of the whole chain between the states that differ from the MPS only in the block of the two sites (`embed`). -/
theorem C75_super_block (hN : 1 ≤ N) (hM : OpMatsOK N P.m) {ψ : Nat → LTen σ 𝕜} (ht : Closed N (tens ψ)) {i : Nat} (hi : i + 1 < N) :
    ∃ h, superHam (P.m i) (P.m (i + 1)) ((dmrgAlg P).lenv ψ i) ((dmrgAlg P).renv N ψ (N - (i + 2))) (tens ψ i).l (tens ψ (i + 1)).r = some h ∧
      ∀ x y : TwoV σ 𝕜 (tens ψ i).l (tens ψ (i + 1)).r,
        inner 𝕜 (embed N i (tens ψ) (ofV x)) (Matrix.toEuclideanLin (opM N P.dense.w) (embed N i (tens ψ) (ofV y))) = inner 𝕜 x (h y) := by
  obtain ⟨a, b, c, d⟩ := lenv_grp hM ht i (by omega)
  obtain ⟨a', b', c', d'⟩ := renv_grp hM ht (N - (i + 2)) (by omega)
  rw [show N - 1 - (N - (i + 2)) = i + 1 by omega] at b' c' d'
  refine ⟨effHam ((vmpsAlg N P.dense).lenv ψ i) ((vmpsAlg N P.dense).renv N ψ (N - (i + 2))) (P.m i).ten (P.m (i + 1)).ten _ _, ?_, fun x y => ?_⟩
  · rw [a, a', superHam_grp b b' d d' (hM.pos i (by omega)) (hM.col i (by omega)) (fun r hr => hM.row (i + 1) hi r (by rw [← hM.fit]; exact hr))]
  · have hw := dense_closed hN hM
    have hL := blkL_chain hw ht ((vmpsAlg N P.dense).lenv ψ) rfl i (by omega) fun _ _ => rfl
    have hR := blkR_chain hw ht ((vmpsAlg N P.dense).renv N ψ) rfl (N - (i + 2)) (by omega) fun _ _ => rfl
    rw [show N - (N - (i + 2)) = i + 2 by omega, show N - 1 - (N - (i + 2)) = i + 1 by omega] at hR
    exact embed_elem hw hi hL hR x y

/-- **C75** (the call). `DMRGExecutor::Execute` on at least three sites, from an MPS on disk that is not zero and whose canonical centre is not behind the left boundary, ends after `n ≥ 1`
sweeps, because all are done or because a stop was requested. Then the MPS on disk has its canonical centre at site 0, and the energy `e` of the last update is variational:
it is not below any lower bound of the Hamiltonian, and without truncation it is the energy of the normalised MPS on disk and not above that of the initial MPS. -/
theorem C75_run (hP : DmrgOK N P) (hN : 3 ≤ N) (bl br : Nat → Bool) (clk : Nat) {ψ : Nat → LTen σ 𝕜} {d : CDsk (LTen σ 𝕜) (Option (BOp 𝕜))} (hm : COnDisk N ψ d)
    (hr : OpsReusable (dmrgAlg P) (bondsOf P) N (lbOf bl N) (rbOf br N) ψ d) {c : Nat} (hc : c ≤ lbOf bl N + 1) (h : Canon N c (tens ψ)) (hz : stateV N (tens ψ) ≠ 0)
    (n k : Nat) {sg : Sig} (hs : sg.OK) (h0 : 0 < n) (hn : n ≤ k) (hem : sg.fin.em = false)
    (hno : ∀ q, q + 1 < n → (sg.look q (2 * (rbOf br N - 1 - lbOf bl N))).stop = false)
    (hend : n = k ∨ 0 < n ∧ (sg.look (n - 1) (2 * (rbOf br N - 1 - lbOf bl N))).stop = true) :
    ∃ s' ψ' e, dmrg (dmrgAlg P) (bondsOf P) N (boundaryG P) (postG P) bl br k sg ⟨Mem.blank clk, d⟩ = .ok s' ∧ COnDisk N ψ' s'.dsk ∧
      Canon N 0 (tens ψ') ∧ (ψ' (lbOf bl N + 1)).e0 = some e ∧ (ψ' (lbOf bl N + 2)).e0 = some e ∧
      Variational N P.dense (stateV N (tens ψ)) (stateV N (tens ψ')) e := by
  obtain ⟨s', r, o, -⟩ := C28_soft_stop (P := postG P) (dmrg_legs hP.spR hP.spL) (boundaryG_laws hP.qr) bl br (dmrg_dims hP.mats) hN clk hm hr n k hs hn hem hno hend
  obtain ⟨b1, b2⟩ := bounds_ok bl br hN
  obtain ⟨g1, g2⟩ := gauged_canon hP.qr b1 b2 hc h
  have gz := g2 ▸ hz
  have hD := hP.par (by omega)
  obtain ⟨us, hus⟩ := upds_last b1 (k := n) (by omega)
  have hp := (path_sweeps b1 b2 n (c := lbOf bl N + 1) (Or.inr rfl)).1
  have hf : optSweeps (dmrgAlg P) N (lbOf bl N) (rbOf br N) n (gauged (boundaryG P) N (lbOf bl N) (rbOf br N) ψ, clk) =
      (us ++ [((.l, lbOf bl N + 1) : Dir × Nat)]).foldl (opt1 (vmpsAlg N P.dense) N) (gauged (boundaryG P) N (lbOf bl N) (rbOf br N) ψ, clk) := by
    rw [optSweeps_fold, fold_eq hD hP.mats _ hp g1 gz, hus]
  rw [hus] at hp
  obtain ⟨e, e1, e2, e3, e4⟩ := path_var hD us (.l, lbOf bl N + 1) (ψ := (gauged (boundaryG P) N (lbOf bl N) (rbOf br N) ψ, clk)) hp g1 gz
  obtain ⟨q1, q2⟩ := centred_canon hP.qr (lb := lbOf bl N) (by omega) e3
  refine ⟨s', _, e, r, o, ?_, ?_, ?_, ?_⟩
  · rw [hf]; exact q1
  · rw [hf, centred_e0]; exact e1
  · rw [hf, centred_e0]; exact e2
  · rw [hf, q2]
    rw [g2] at e4
    exact e4

theorem optFirst_fold {T O : Type} (A : Alg T (List O)) (N lb rb p : Nat) (ψ : (Nat → T) × Nat) :
    optFirst A N lb rb p ψ = ((sweepUpds lb rb).take p).foldl (opt1 A N) ψ := by
  have e : updates lb rb = (sweepUpds lb rb).map fun u => match u.1 with | .r => u | .l => (u.1, u.2 + 1) := by
    unfold updates sweepUpds
    rw [List.map_append, List.map_map, List.map_map]
    congr 1
    have : (List.range' (lb + 2) (rb - 1 - lb)).reverse = ((List.range' (lb + 1) (rb - 1 - lb)).reverse).map (· + 1) := by
      rw [List.map_reverse, show ((· + 1) : Nat → Nat) = (1 + ·) from funext fun _ => Nat.add_comm _ _, List.map_add_range', show 1 + (lb + 1) = lb + 2 by omega]
    rw [this, List.map_map]
    rfl
  unfold optFirst
  rw [e, ← List.map_take, List.foldl_map]
  congr 1
  funext ψ u
  obtain ⟨d, i⟩ := u
  cases d <;> rfl

/-- **C75** (emergency stop). If the emergency flag is first seen after update `p0` of sweep `q0`, the MPS left on disk is canonical, and the energy of that update, the last one printed, is
variational for it. -/
theorem C75_emergency (hP : DmrgOK N P) (hN : 3 ≤ N) (bl br : Nat → Bool) (clk : Nat) {ψ : Nat → LTen σ 𝕜} {d : CDsk (LTen σ 𝕜) (Option (BOp 𝕜))} (hm : COnDisk N ψ d)
    (hr : OpsReusable (dmrgAlg P) (bondsOf P) N (lbOf bl N) (rbOf br N) ψ d) {c : Nat} (hc : c ≤ lbOf bl N + 1) (h : Canon N c (tens ψ)) (hz : stateV N (tens ψ) ≠ 0)
    (k : Nat) {sg : Sig} (hs : sg.OK) {q0 p0 : Nat} (hq : q0 < k) (hp : p0 < 2 * (rbOf br N - 1 - lbOf bl N))
    (hst : ∀ q, q < q0 → (sg.look q (2 * (rbOf br N - 1 - lbOf bl N))).stop = false)
    (hno : ∀ q p, (q < q0 ∨ q = q0 ∧ p < p0) → (sg.look q p).em = false) (hem : (sg.look q0 p0).em = true) :
    ∃ s' ψ' i c' e, dmrg (dmrgAlg P) (bondsOf P) N (boundaryG P) (postG P) bl br k sg ⟨Mem.blank clk, d⟩ = .ok s' ∧ COnDisk N ψ' s'.dsk ∧
      (c' = i ∨ c' = i + 1) ∧ Canon N c' (tens ψ') ∧ (ψ' i).e0 = some e ∧ (ψ' (i + 1)).e0 = some e ∧
      Variational N P.dense (stateV N (tens ψ)) (stateV N (tens ψ')) e := by
  obtain ⟨s', r, o, -⟩ := C27_emergency (P := postG P) (dmrg_legs hP.spR hP.spL) (boundaryG_laws hP.qr) bl br (dmrg_dims hP.mats) hN clk hm hr k hs hq hp hst hno hem
  obtain ⟨b1, b2⟩ := bounds_ok bl br hN
  obtain ⟨g1, g2⟩ := gauged_canon hP.qr b1 b2 hc h
  have gz := g2 ▸ hz
  have hD := hP.par (by omega)
  have hlen : (sweepUpds (lbOf bl N) (rbOf br N)).length = 2 * (rbOf br N - 1 - lbOf bl N) := by
    unfold sweepUpds; simp; omega
  have hp1 : p0 < (sweepUpds (lbOf bl N) (rbOf br N)).length := by omega
  have hpath := (path_sweeps b1 b2 (q0 + 1) (c := lbOf bl N + 1) (Or.inr rfl)).1
  have hsplit : upds (lbOf bl N) (rbOf br N) (q0 + 1) = (upds (lbOf bl N) (rbOf br N) q0 ++ (sweepUpds (lbOf bl N) (rbOf br N)).take p0 ++ [(sweepUpds (lbOf bl N) (rbOf br N))[p0]]) ++
      (sweepUpds (lbOf bl N) (rbOf br N)).drop (p0 + 1) := by
    unfold upds
    rw [List.replicate_succ', List.flatten_append, List.append_assoc, List.append_assoc]
    congr 1
    rw [List.flatten_singleton, ← List.append_assoc, List.take_append_getElem, List.take_append_drop]
  rw [hsplit, path_append] at hpath
  have hpath := hpath.1
  obtain ⟨e, e1, e2, e3, e4⟩ := path_var hD _ _ (ψ := (gauged (boundaryG P) N (lbOf bl N) (rbOf br N) ψ, clk)) hpath g1 gz
  have hf : optFirst (dmrgAlg P) N (lbOf bl N) (rbOf br N) (p0 + 1) (optSweeps (dmrgAlg P) N (lbOf bl N) (rbOf br N) q0 (gauged (boundaryG P) N (lbOf bl N) (rbOf br N) ψ, clk)) =
      (upds (lbOf bl N) (rbOf br N) q0 ++ (sweepUpds (lbOf bl N) (rbOf br N)).take p0 ++ [(sweepUpds (lbOf bl N) (rbOf br N))[p0]]).foldl
        (opt1 (vmpsAlg N P.dense) N) (gauged (boundaryG P) N (lbOf bl N) (rbOf br N) ψ, clk) := by
    rw [optFirst_fold, optSweeps_fold, ← List.foldl_append, ← List.take_append_getElem hp1, ← List.append_assoc, fold_eq hD hP.mats _ hpath g1 gz]
  rw [hf] at o
  rw [g2] at e4
  refine ⟨s', _, _, _, e, r, o, ?_, e3, e1, e2, e4⟩
  generalize (sweepUpds (lbOf bl N) (rbOf br N))[p0] = u
  obtain ⟨d, i⟩ := u
  cases d
  · exact Or.inr rfl
  · exact Or.inl rfl

/-! ### The hypotheses can be met: the transverse Ising chain -/

/-- The matrices of operators of the transverse Ising chain: `[[1, -, -], [Z, -, -], [X, Z, 1]]`, of which the ends have the last row and the first column. -/
noncomputable def exIsingOp (N i : Nat) : OpMat Bool ℝ :=
  ⟨if i = 0 ∨ N ≤ i then 1 else 3, if N ≤ i + 1 then 1 else 3, fun a b =>
    match (if i = 0 then 2 else a), b with
    | 0, 0 => some fun x y => if x = y then 1 else 0
    | 1, 0 => some fun x y => if x = y then (if x then 1 else -1) else 0
    | 2, 0 => some fun x y => if x = y then 0 else 1
    | 2, 1 => some fun x y => if x = y then (if x then 1 else -1) else 0
    | 2, 2 => some fun x y => if x = y then 1 else 0
    | _, _ => none⟩

theorem exIsingOp_ok {N : Nat} (hN : 2 ≤ N) : OpMatsOK N (exIsingOp N) where
  first := by simp [exIsingOp]
  last := by simp [exIsingOp]
  fit := fun i => by
    show (if N ≤ i + 1 then 1 else 3) = (if i + 1 = 0 ∨ N ≤ i + 1 then 1 else 3)
    simp
  pos := fun i _ => by show 0 < (if N ≤ i + 1 then 1 else 3); split <;> omega
  row := fun i hi a ha => by
    have h0 : 0 < (exIsingOp N i).cols := by show 0 < (if N ≤ i + 1 then 1 else 3); split <;> omega
    refine ⟨0, h0, ?_⟩
    have ha' : a < 3 := by
      have : a < (if i = 0 ∨ N ≤ i then 1 else 3) := ha
      split at this <;> omega
    unfold exIsingOp
    dsimp only
    by_cases h : i = 0
    · rw [if_pos h]; rfl
    · rw [if_neg h]
      match a, ha' with
      | 0, _ => rfl
      | 1, _ => rfl
      | 2, _ => rfl
  col := fun i hi b hb => by
    have hb' : b < 3 := by
      have : b < (if N ≤ i + 1 then 1 else 3) := hb
      split at this <;> omega
    by_cases h : i = 0
    · refine ⟨0, by show 0 < (if i = 0 ∨ N ≤ i then 1 else 3); rw [if_pos (Or.inl h)]; omega, ?_⟩
      unfold exIsingOp
      dsimp only
      rw [if_pos h]
      match b, hb' with
      | 0, _ => rfl
      | 1, _ => rfl
      | 2, _ => rfl
    · refine ⟨2, by show 2 < (if i = 0 ∨ N ≤ i then 1 else 3); rw [if_neg (by omega)]; omega, ?_⟩
      unfold exIsingOp
      dsimp only
      rw [if_neg h]
      match b, hb' with
      | 0, _ => rfl
      | 1, _ => rfl
      | 2, _ => rfl

theorem exIsingOp_sym (N i : Nat) (x y : Bool) (a b : Nat) : star ((exIsingOp N i).ten.v (x, y) a b) = (exIsingOp N i).ten.v (y, x) a b := by
  rw [star_trivial]
  unfold exIsingOp OpMat.ten
  dsimp only
  split <;> cases x <;> cases y <;> rfl

/-- The run with at most `D` directions kept. -/
noncomputable def exDmrg (N D : Nat) (tri : TriSolver) (fuse : (l : Nat) → Fin l × Bool ≃ Fin (l * Fintype.card Bool)) : DmrgPar Bool ℝ :=
  ⟨exIsingOp N, fun T => cutNZ D T (fullR upEnum T), fun T => cutNZ D T (fullL upEnum T), qrE upEnum, fuse, D, tri, 10, 1⟩

/-- The run without truncation. -/
noncomputable def exDmrgFull (N : Nat) (tri : TriSolver) (fuse : (l : Nat) → Fin l × Bool ≃ Fin (l * Fintype.card Bool)) : DmrgPar Bool ℝ :=
  ⟨exIsingOp N, fullR upEnum, fullL upEnum, qrE upEnum, fuse, 100, tri, 10, 1⟩

/-- Both with truncation to two directions and without, on chains of any length from three, the hypotheses of `C75_run` hold for the Ising chain, the product state and a directory without
block operators. -/
example (N : Nat) (hN : 3 ≤ N) (bl br : Nat → Bool) : ∃ tri fuse, DmrgOK N (exDmrg N 2 tri fuse) ∧ DmrgOK N (exDmrgFull N tri fuse) ∧ NoCut (exDmrgFull N tri fuse).dense ∧
    Canon N 0 (tens fun _ => (⟨exUp, none⟩ : LTen Bool ℝ)) ∧ stateV N (tens fun _ => (⟨exUp, none⟩ : LTen Bool ℝ)) ≠ 0 ∧
    COnDisk N (fun _ => ⟨exUp, none⟩) (⟨fun _ => .whole ⟨exUp, none⟩, fun _ _ => .gone, fun _ _ => .gone⟩ : CDsk (LTen Bool ℝ) (Option (BOp ℝ))) ∧
    OpsReusable (dmrgAlg (exDmrg N 2 tri fuse)) (bondsOf (exDmrg N 2 tri fuse)) N (lbOf bl N) (rbOf br N) (fun _ => ⟨exUp, none⟩)
      ⟨fun _ => .whole ⟨exUp, none⟩, fun _ _ => .gone, fun _ _ => .gone⟩ := by
  obtain ⟨tri, ht⟩ := solver_exists
  have hf : ∀ l, Nonempty (Fin l × Bool ≃ Fin (l * Fintype.card Bool)) := fun l => ⟨Fintype.equivFinOfCardEq (by simp)⟩
  refine ⟨tri, fun l => (hf l).some, ⟨exIsingOp_ok (by omega), herm_of_sym (exIsingOp_sym N), cutR_spec upEnum 2, cutL_spec upEnum 2, qrE_spec upEnum, ht, by show 2 ≤ 10; omega⟩,
    ⟨exIsingOp_ok (by omega), herm_of_sym (exIsingOp_sym N), fullR_spec upEnum, fullL_spec upEnum, qrE_spec upEnum, ht, by show 2 ≤ 10; omega⟩,
    ⟨fullR_is upEnum, fullL_is upEnum⟩, exUp_canon N 0, exUp_nz N, fun _ _ => rfl, fun h => ?_⟩
  obtain ⟨b1, b2⟩ := bounds_ok bl br hN
  exfalso
  have hw : ∀ i, 0 < bondsOf (exDmrg N 2 tri fun l => (hf l).some) i := fun i => by
    show 0 < (if i = 0 ∨ N ≤ i then 1 else 3); split <;> omega
  unfold needOps at h
  rw [List.any_eq_false] at h
  have h2 := h (N - 1 - rbOf br N) (by rw [List.mem_range'_1]; omega)
  rw [Bool.not_eq_true, List.any_eq_false] at h2
  exact h2 0 (by rw [List.mem_range]; exact hw _) rfl

end Verif.Props
