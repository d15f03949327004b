import Verif.Props.TnNum
import Verif.Props.SsNumEx
/-
C78: the hypotheses can be met, and what noise together with truncation can do.
-/
namespace Verif.Props
open Finset Verif.Mps Verif.Disk Verif.Algo

/-- The run on the Ising chain with at most `D` directions kept and no noise. -/
noncomputable def exTnCut (N D : Nat) (tri : TriSolver) : TnPar Bool ℝ := ⟨exPar N D tri, exIsing N, fun _ _ _ _ => false, fun _ _ T => List.range T.r, fun _ => 0, qrE upEnum⟩

/-- The run with noise and without truncation; the expansion is left out at every third site. -/
noncomputable def exTnNoise (N : Nat) (tri : TriSolver) : TnPar Bool ℝ :=
  ⟨exParFull N tri, exIsing N, fun _ i _ _ => i % 3 == 2, fun _ _ T => List.range (3 * T.r), fun n => 1 / (n + 1), qrE upEnum⟩

theorem exTnCut_ok {N D : Nat} (hN : 2 ≤ N) {tri : TriSolver} (ht : Solves tri) : TnOK N (exTnCut N D tri) := ⟨exPar_ok hN ht, qrE_spec upEnum⟩

theorem exTnNoise_ok {N : Nat} (hN : 2 ≤ N) {tri : TriSolver} (ht : Solves tri) : TnOK N (exTnNoise N tri) := ⟨exParFull_ok hN ht, qrE_spec upEnum⟩

/-- On Ising chains of any length from three, for any boundaries and numbers of sweeps, the hypotheses of `C78_run_alive` hold for the product state and an empty temporary directory, for a run with
truncation to two directions and no noise and for a run with noise and without truncation. -/
example (N : Nat) (hN : 3 ≤ N) (lb rb : Nat) : ∃ tri, TnOK N (exTnCut N 2 tri) ∧ TnOK N (exTnNoise N tri) ∧ (exTnCut N 2 tri).Silent ∧ (exTnNoise N tri).NoCut ∧
    Mps.Canon N 0 (tens fun _ => (⟨exUp, none⟩ : LTen Bool ℝ)) ∧ stateV N (tens fun _ => (⟨exUp, none⟩ : LTen Bool ℝ)) ≠ 0 ∧
    Reusable (tnAlg N (exTnCut N 2 tri).toVmpsPar) N lb rb (fun _ => ⟨exUp, none⟩) ⟨fun _ => .whole ⟨exUp, none⟩, fun _ => .gone, fun _ => .gone⟩ := by
  obtain ⟨tri, ht⟩ := solver_exists
  exact ⟨tri, exTnCut_ok (by omega) ht, exTnNoise_ok (by omega) ht, fun n => by show |(0 : ℝ)| < _; rw [abs_zero]; norm_num, ⟨fullR_is upEnum, fullL_is upEnum⟩,
    exUp_canon N 0, exUp_nz N, fun _ _ _ _ h => by cases h⟩

/-! ### Noise and truncation -/

/-- `c·X` on the first and `X` on the last of three sites. -/
noncomputable def exX1X (c : ℝ) (i : Nat) : Ten (Bool × Bool) ℝ :=
  ⟨1, 1, fun s _ _ => if i = 1 then (if s.1 = s.2 then 1 else 0) else if s.1 = s.2 then 0 else if i = 0 then c else 1⟩

/-- The product of two rows of a block. -/
noncomputable def rowDot (T : Blk2 Bool ℝ) (x x' : Bool) : ℝ := ∑ y, ∑ b ∈ range T.r, T.v x y 0 b * T.v x' y 0 b

/-- **Specification**: of the directions of the left site, the decomposition keeps those of the largest singular value: when something is discarded, no unit vector `z` has
a larger weight in the block than all that is kept. -/
def KeepsLargest2 (T : Blk2 Bool ℝ) (p : Ten Bool ℝ × Ten Bool ℝ) : Prop :=
  ∀ z : Bool → Nat → ℝ, ∑ x, ∑ a ∈ range T.l, z x a ^ 2 = 1 →
    ∑ y, ∑ b ∈ range T.r, (∑ x, ∑ a ∈ range T.l, z x a * T.v x y a b) ^ 2 ≤ ∑ j ∈ range p.1.r, ∑ y, ∑ b ∈ range T.r, p.2.v y j b ^ 2

/-- Spin down is the direction of the larger singular value. -/
def DownHeavy2 (T : Blk2 Bool ℝ) : Prop := T.l = 1 ∧ rowDot T true false = 0 ∧ rowDot T true true < rowDot T false false

open Classical in
/-- A truncated decomposition: one direction where the singular values are as above, else all. -/
noncomputable def splitOne (T : Blk2 Bool ℝ) : Ten Bool ℝ × Ten Bool ℝ :=
  if DownHeavy2 T then (⟨T.l, 1, fun s _ _ => if s then 0 else 1⟩, ⟨1, T.r, fun y _ b => T.v false y 0 b⟩) else fullR upEnum T

theorem splitOne_spec : BlkSplitR splitOne := by
  have F := fullR_spec (K := ℝ) upEnum
  refine ⟨fun T => ?_, fun T => ?_, fun T => ?_, fun T => ?_, fun T y j b hj hb => ?_, fun T hT => ?_⟩
  · unfold splitOne; split <;> rfl
  · unfold splitOne; split <;> rfl
  · unfold splitOne; split <;> rfl
  · unfold splitOne; split
    · rename_i h
      intro x hx y hy
      obtain rfl : x = 0 := by simpa using hx
      obtain rfl : y = 0 := by simpa using hy
      simp [h.1]
    · exact F.iso T
  · unfold splitOne at hj ⊢; split at hj
    · rename_i h
      rw [if_pos h]
      simp [h.1]
    · rename_i h
      rw [if_neg h]
      exact F.proj T y j b hj hb
  · unfold splitOne; split
    · rename_i h
      have : ∃ y b, b < T.r ∧ T.v false y 0 b ≠ 0 := by
        by_contra hc
        push Not at hc
        have h0 : rowDot T false false = 0 := by
          unfold rowDot
          exact sum_eq_zero fun y _ => sum_eq_zero fun b hb => by rw [hc y b (mem_range.1 hb)]; ring
        have h1 : 0 ≤ rowDot T true true := sum_nonneg fun y _ => sum_nonneg fun b _ => mul_self_nonneg _
        have := h.2.2
        linarith
      obtain ⟨y, b, hb, hv⟩ := this
      exact ⟨false, y, 0, b, by rw [h.1]; omega, hb, by simpa using hv⟩
    · exact F.nz T hT

theorem splitOne_best (T : Blk2 Bool ℝ) (h : ¬ T.Is (splitOne T)) : KeepsLargest2 T (splitOne T) := by
  unfold splitOne at h ⊢
  split at h
  · rename_i hd
    rw [if_pos hd]
    obtain ⟨h1, h3, h4⟩ := hd
    intro z hz
    rw [h1] at hz ⊢
    simp only [range_one, sum_singleton] at hz ⊢
    rw [Fintype.sum_bool] at hz
    have e : ∀ y b, (∑ x, z x 0 * T.v x y 0 b) ^ 2 = z true 0 ^ 2 * (T.v true y 0 b * T.v true y 0 b) + z false 0 ^ 2 * (T.v false y 0 b * T.v false y 0 b) +
        2 * z true 0 * z false 0 * (T.v true y 0 b * T.v false y 0 b) := fun y b => by rw [Fintype.sum_bool]; ring
    have e' : ∑ y, ∑ b ∈ range T.r, (∑ x, z x 0 * T.v x y 0 b) ^ 2 =
        z true 0 ^ 2 * rowDot T true true + z false 0 ^ 2 * rowDot T false false + 2 * z true 0 * z false 0 * rowDot T true false := by
      unfold rowDot
      simp only [e, sum_add_distrib, Finset.mul_sum]
    have e2 : ∑ y, ∑ b ∈ range T.r, T.v false y 0 b ^ 2 = rowDot T false false := by
      unfold rowDot
      exact sum_congr rfl fun y _ => sum_congr rfl fun b _ => by ring
    rw [e', e2, h3, mul_zero, add_zero]
    have hb : z false 0 ^ 2 = 1 - z true 0 ^ 2 := by linarith
    rw [hb]
    nlinarith [sq_nonneg (z true 0)]
  · exact absurd (fullR_is upEnum T) h

/-- The run with noise `ν` at every update. -/
noncomputable def exKill2 (ν : ℝ) (tri : TriSolver) : TnPar Bool ℝ :=
  ⟨⟨exX1X (2 / ν), splitOne, fullL upEnum, tri, 10, 1⟩, exX1X (2 / ν) ∘ (· + 1), fun _ _ _ _ => false, fun _ _ _ => [0], fun _ => ν, qrE upEnum⟩

theorem exKill2_ok (ν : ℝ) {tri : TriSolver} (ht : Solves tri) : TnOK 3 (exKill2 ν tri) := by
  refine ⟨⟨⟨rfl, rfl, fun _ _ => rfl⟩, herm_of_sym fun i x y a b => ?_, splitOne_spec, fullL_spec upEnum, ht, by show 2 ≤ 10; omega⟩, qrE_spec upEnum⟩
  show star (if i = 1 then (if x = y then (1 : ℝ) else 0) else if x = y then (0 : ℝ) else _) = if i = 1 then (if y = x then (1 : ℝ) else 0) else if y = x then (0 : ℝ) else _
  rw [star_trivial]
  simp only [eq_comm]

theorem kill2_ham (ν : ℝ) (tri : TriSolver) : effHam ((tnAlg 3 (exKill2 ν tri).toVmpsPar).lenv exUps 0) ((tnAlg 3 (exKill2 ν tri).toVmpsPar).renv 3 exUps 1)
    (exX1X (2 / ν) 0) (exX1X (2 / ν) 1) 1 1 = 0 := by
  have hf : ∀ a c b, ((tnAlg 3 (exKill2 ν tri).toVmpsPar).renv 3 exUps 1).v a c b = 0 := by
    intro a c b
    show ∑ s, ∑ s', ∑ a' ∈ range 1, ∑ c' ∈ range 1, ∑ b' ∈ range 1, star (exUp.v s a a') * (exX1X (2 / ν) 2).v (s, s') c c' * exUp.v s' b b' * (unitEnv 1 1 1).v a' c' b' = (0 : ℝ)
    simp [exUp, exX1X]
  have hm : (Matrix.of fun i j : Fin 1 × Bool × Bool × Fin 1 => effCoef ((tnAlg 3 (exKill2 ν tri).toVmpsPar).lenv exUps 0) ((tnAlg 3 (exKill2 ν tri).toVmpsPar).renv 3 exUps 1)
      (exX1X (2 / ν) 0) (exX1X (2 / ν) 1) i.1 i.2.1 i.2.2.1 i.2.2.2 j.1 j.2.1 j.2.2.1 j.2.2.2) = 0 := by
    ext i j
    simp [effCoef, hf]
  unfold effHam
  rw [hm, map_zero]

theorem expand2R_hi {ν : ℝ} {e : Env3 ℝ} {w0 w1 : Ten (Bool × Bool) ℝ} {pick : List Nat} {T : Blk2 Bool ℝ} {x : Ten Bool ℝ} {s s' : Bool} {a b : Nat} (h : ¬ b < T.r) :
    (expand2R ν e w0 w1 pick T x).1.v s s' a b = ν * fusedR e w0 w1 T s s' a (pick.getD (b - T.r) 0) := by
  simp only [expand2R]
  rw [if_neg h]

theorem tnUpd_r {i : Nat} {P : TnPar Bool ℝ} {ν : ℝ} {e f : Env3 ℝ} {t u v : Ten Bool ℝ} {g : GsRes (TwoV Bool ℝ (mergeTen t u).l (mergeTen t u).r)}
    (h : lanczosAt P.toVmpsPar i e f t u = some g) : tnUpd P ν .r i e f t u v =
      (⟨(P.splitR (tnExpR P ν i e t u (ofV g.vec) v).1).1, some g.energy⟩, ⟨(P.splitR (tnExpR P ν i e t u (ofV g.vec) v).1).2, some g.energy⟩,
        ⟨(tnExpR P ν i e t u (ofV g.vec) v).2, some g.energy⟩) := by
  unfold tnUpd
  simp only [h]

/-- **C78** (noise and truncation, the code). For every noise above the threshold there are a Hermitian MPO on three sites, exact decompositions that keep the direction of the largest singular
value, and a normalised product state in canonical form, such that the first update leaves the zero state: the expanded block contains the noise, the tensor behind it zeros for it, and when
only a direction of the noise is kept nothing of the state is. -/
theorem C78_noise_violation {ν : ℝ} (hν : 1e-10 ≤ |ν|) : ∃ P : TnPar Bool ℝ, TnOK 3 P ∧ (∀ n, P.noise n = ν) ∧ (∀ T, ¬ T.Is (P.splitR T) → KeepsLargest2 T (P.splitR T)) ∧
    Mps.Canon 3 0 (tens exUps) ∧ stateV 3 (tens exUps) ≠ 0 ∧ tnState 3 P (upds 0 2 1) (exUps, 0) 1 = 0 := by
  obtain ⟨tri, ht⟩ := solver_exists
  refine ⟨exKill2 ν tri, exKill2_ok ν ht, fun _ => rfl, splitOne_best, exUp_canon 3 0, exUp_nz 3, ?_⟩
  have hν0 : ν ≠ 0 := by
    rintro rfl
    rw [abs_zero] at hν
    norm_num at hν
  set A := tnAlg 3 (exKill2 ν tri).toVmpsPar with hA
  obtain ⟨v, hvd⟩ : ∃ v : TwoV Bool ℝ 1 1, v = toV (mergeTen exUp exUp) := ⟨_, rfl⟩
  have hvv : ∀ x y, v (0, x, y, 0) = if x && y then 1 else 0 := fun x y => by
    rw [hvd]
    show ∑ k ∈ range 1, (if x then (1 : ℝ) else 0) * (if y then 1 else 0) = _
    cases x <;> cases y <;> simp
  have hv : v ≠ 0 := by
    rintro rfl
    have := hvv true true
    exact zero_ne_one this
  obtain ⟨g, hg, -, -, hn, hk, -⟩ := C57_lanczos (H := effHam (A.lenv exUps 0) (A.renv 3 exUps 1) (exX1X (2 / ν) 0) (exX1X (2 / ν) 1) 1 1)
    (by rw [hA, kill2_ham]; exact LinearMap.IsSymmetric.zero) hv ht (show 2 ≤ 10 by omega) (1 * (Fintype.card Bool * Fintype.card Bool) * 1) 1
  have hs : g.vec ∈ Submodule.span ℝ {v} := by
    refine Submodule.span_le.mpr ?_ hk
    rintro _ ⟨i, -, rfl⟩
    rw [hA, kill2_ham]
    cases i with
    | zero => exact Submodule.subset_span rfl
    | succ i => simp
  obtain ⟨c, hc⟩ := Submodule.mem_span_singleton.mp hs
  have hc0 : c ≠ 0 := by
    rintro rfl
    rw [zero_smul] at hc
    rw [← hc, norm_zero] at hn
    exact zero_ne_one hn
  have vv : ∀ x y, (ofV g.vec).v x y 0 0 = if x && y then c else 0 := fun x y => by
    rw [← hc]
    show (if h : 0 < 1 ∧ 0 < 1 then (c • v) (⟨0, h.1⟩, x, y, ⟨0, h.2⟩) else 0) = _
    rw [dif_pos ⟨by omega, by omega⟩]
    show c * v (0, x, y, 0) = _
    rw [hvv]
    split <;> simp
  have hx : tnNeed (exKill2 ν tri) ν .r 0 exUp exUp = true := by
    have : ¬ |ν| < 1e-10 := not_lt.2 hν
    unfold tnNeed
    rw [decide_eq_false this]
    rfl
  have hl : lanczosAt (exKill2 ν tri).toVmpsPar 0 (A.lenv exUps 0) (A.renv 3 exUps 1) exUp exUp = some g := by
    subst hvd; exact hg
  have hE : tnExpR (exKill2 ν tri) ν 0 (A.lenv exUps 0) exUp exUp (ofV g.vec) exUp =
      expand2R ν (A.lenv exUps 0) (exX1X (2 / ν) 0) (exX1X (2 / ν) 1) [0] (ofV g.vec) exUp := by
    unfold tnExpR
    exact if_pos hx
  generalize hq : expand2R ν (A.lenv exUps 0) (exX1X (2 / ν) 0) (exX1X (2 / ν) 1) [0] (ofV g.vec) exUp = q at hE
  have ql : q.1.l = 1 := by rw [← hq]; rfl
  have qr : q.1.r = 2 := by rw [← hq]; rfl
  have q00 : ∀ x y, q.1.v x y 0 0 = if x && y then c else 0 := fun x y => by rw [← vv, ← hq]; rfl
  have q01 : ∀ x y, q.1.v x y 0 1 = if !x && y then 2 * c else 0 := fun x y => by
    rw [← hq]
    have hp : ([0] : List Nat).getD (1 - (ofV g.vec).r) 0 = 0 := by cases (1 - (ofV g.vec).r) <;> rfl
    rw [expand2R_hi (show ¬ 1 < 1 by omega), hp]
    unfold fusedR
    rw [Nat.zero_div, Nat.zero_mod]
    show ν * ∑ r, ∑ r', ∑ c ∈ range 1, ∑ c' ∈ range 1, ∑ a' ∈ range 1, (unitEnv 1 1 1).v 0 c a' * (ofV g.vec).v r r' a' 0 * (exX1X (2 / ν) 0).v (x, r) c c' *
      (exX1X (2 / ν) 1).v (y, r') c' 0 = _
    simp only [range_one, sum_singleton, Fintype.sum_bool, vv, unitEnv, exX1X]
    cases x <;> cases y <;> simp
    field_simp
  have hd : DownHeavy2 q.1 := by
    refine ⟨ql, ?_, ?_⟩
    · unfold rowDot
      rw [qr]
      simp [sum_range_succ, q00, q01]
    · unfold rowDot
      rw [qr]
      simp only [sum_range_succ, range_zero, sum_empty, Fintype.sum_bool, q00, q01]
      have : 0 < c ^ 2 := by positivity
      simp
      nlinarith
  have hsp : splitOne q.1 = (⟨q.1.l, 1, fun s _ _ => if s then 0 else 1⟩, ⟨1, q.1.r, fun y _ b => q.1.v false y 0 b⟩) := if_pos hd
  have hU : ∀ i, (tens (tnAt 3 (exKill2 ν tri) (upds 0 2 1) (exUps, 0) 1).1 i) =
      if i = 2 then q.2 else if i = 1 then (splitOne q.1).2 else if i = 0 then (splitOne q.1).1 else exUp := by
    intro i
    have : tnUpd (exKill2 ν tri) ν .r 0 (A.lenv exUps 0) (A.renv 3 exUps 1) exUp exUp exUp =
        (⟨(splitOne q.1).1, some g.energy⟩, ⟨(splitOne q.1).2, some g.energy⟩, ⟨q.2, some g.energy⟩) := by
      exact (tnUpd_r hl).trans (congrArg (fun q : Blk2 Bool ℝ × Ten Bool ℝ => ((⟨(splitOne q.1).1, some g.energy⟩ : LTen Bool ℝ), (⟨(splitOne q.1).2, some g.energy⟩ : LTen Bool ℝ), (⟨q.2, some g.energy⟩ : LTen Bool ℝ))) hE)
    show (Function.update (Function.update (Function.update exUps 0 (tnUpd (exKill2 ν tri) ν .r 0 (A.lenv exUps 0) (A.renv 3 exUps 1) exUp exUp exUp).1) 1
      (tnUpd (exKill2 ν tri) ν .r 0 (A.lenv exUps 0) (A.renv 3 exUps 1) exUp exUp exUp).2.1) 2 (tnUpd (exKill2 ν tri) ν .r 0 (A.lenv exUps 0) (A.renv 3 exUps 1) exUp exUp exUp).2.2 i).ten = _
    rw [this]
    by_cases h2 : i = 2
    · subst h2; simp
    · by_cases h1 : i = 1
      · subst h1; simp
      · by_cases h0 : i = 0
        · subst h0; simp
        · simp [h1, h0, h2, exUps]
  unfold tnState
  generalize (tnAt 3 (exKill2 ν tri) (upds 0 2 1) (exUps, 0) 1).1 = φ at hU
  ext s
  show amp ((List.range 3).map (tens φ)) (List.ofFn s) 0 0 = 0
  have hr : (List.range 3).map (tens φ) = [tens φ 0, tens φ 1, tens φ 2] := rfl
  have u1 : ∀ y b, q.2.v y 1 b = 0 := fun y b => by rw [← hq]; rfl
  rw [hr, List.ofFn_succ, List.ofFn_succ, List.ofFn_succ, amp_cons, hU 0, hU 1, hU 2, if_neg (by omega), if_neg (by omega), if_pos rfl, if_neg (by omega), if_pos rfl, if_pos rfl, hsp]
  simp [amp_cons, qr, sum_range_succ, q00, q01, u1]

end Verif.Props
