import Verif.Mps.DmrgNumFacts
/-
The sweeps of the DMRG executor are those of the two-site optimisation with the dense MPO (helper facts, not property statements).
-/
namespace Verif.Mps
open Finset Verif.Disk Verif.Algo Verif.Props

/-- **Specification**: the matrices of operators form a chain of `N` sites, and no row or column of operators is empty. The matrices beyond the chain are
never used; they are assumed to fit, as 1×1 matrices do. -/
structure OpMatsOK {σ K : Type} (N : Nat) (m : Nat → OpMat σ K) : Prop where
  first : (m 0).rows = 1
  last : (m N).rows = 1
  fit : ∀ i, (m i).cols = (m (i + 1)).rows
  pos : ∀ i, i < N → 0 < (m i).cols
  row : ∀ i, i < N → ∀ a, a < (m i).rows → ∃ b, b < (m i).cols ∧ ((m i).e a b).isSome
  col : ∀ i, i < N → ∀ b, b < (m i).cols → ∃ a, a < (m i).rows ∧ ((m i).e a b).isSome

section
variable {σ 𝕜 : Type} [RCLike 𝕜] [Fintype σ] [DecidableEq σ]

/-- The same run with dense MPO tensors. -/
def DmrgPar.dense (P : DmrgPar σ 𝕜) : VmpsPar σ 𝕜 := ⟨fun i => (P.m i).ten, P.splitR, P.splitL, P.tri, P.maxIter, P.tol⟩

variable {N : Nat} {P : DmrgPar σ 𝕜}

omit [DecidableEq σ] in
theorem dense_closed (hN : 1 ≤ N) (hM : OpMatsOK N P.m) : Closed N P.dense.w := by
  refine ⟨hM.first, ?_, fun j _ => hM.fit j⟩
  have := hM.fit (N - 1)
  rw [show N - 1 + 1 = N by omega, hM.last] at this
  exact this

omit [Fintype σ] [DecidableEq σ] in
theorem triv_grp (d : Nat) : trivOps (K := 𝕜) d = grp (unitEnv d 1 d) := by
  show _ = [_]
  unfold trivOps
  congr 3
  funext a b
  show _ = if b = 0 ∧ 0 = 0 ∧ a = 0 then (1 : 𝕜) else 0
  simp [and_comm]

/-- The left block operators. -/
theorem lenv_grp (hM : OpMatsOK N P.m) {ψ : Nat → LTen σ 𝕜} (ht : Closed N (tens ψ)) : ∀ i, i < N →
    (dmrgAlg P).lenv ψ i = grp ((vmpsAlg N P.dense).lenv ψ i) ∧ ((vmpsAlg N P.dense).lenv ψ i).d0 = (tens ψ i).l ∧
      ((vmpsAlg N P.dense).lenv ψ i).d2 = (tens ψ i).l ∧ ((vmpsAlg N P.dense).lenv ψ i).d1 = (P.m i).rows := by
  intro i
  induction i with
  | zero =>
    intro _
    have e : (vmpsAlg N P.dense).lenv ψ 0 = unitEnv (tens ψ 0).l 1 (tens ψ 0).l := by
      show unitEnv (tens ψ 0).l (P.m 0).rows (tens ψ 0).l = _
      rw [hM.first]
    rw [e]
    exact ⟨triv_grp _, rfl, rfl, hM.first.symm⟩
  | succ i ih =>
    intro hi
    obtain ⟨a, b, c, d⟩ := ih (by omega)
    refine ⟨?_, ht.2.2 i hi, ht.2.2 i hi, hM.fit i⟩
    show updLeftOps (P.m i) ((dmrgAlg P).lenv ψ i) (tens ψ i) = grp (siteLenv (P.m i).ten ((vmpsAlg N P.dense).lenv ψ i) (tens ψ i))
    rw [a]
    exact updLeft_grp b c d (hM.col i (by omega))

/-- The right block operators. -/
theorem renv_grp (hM : OpMatsOK N P.m) {ψ : Nat → LTen σ 𝕜} (ht : Closed N (tens ψ)) : ∀ k, k < N →
    (dmrgAlg P).renv N ψ k = grp ((vmpsAlg N P.dense).renv N ψ k) ∧ ((vmpsAlg N P.dense).renv N ψ k).d0 = (tens ψ (N - 1 - k)).r ∧
      ((vmpsAlg N P.dense).renv N ψ k).d2 = (tens ψ (N - 1 - k)).r ∧ ((vmpsAlg N P.dense).renv N ψ k).d1 = (P.m (N - 1 - k)).cols := by
  intro k
  induction k with
  | zero =>
    intro hk
    have hl : (P.m (N - 1)).cols = 1 := by rw [hM.fit, show N - 1 + 1 = N by omega, hM.last]
    have e : (vmpsAlg N P.dense).renv N ψ 0 = unitEnv (tens ψ (N - 1)).r 1 (tens ψ (N - 1)).r := by
      show unitEnv (tens ψ (N - 1)).r (P.m (N - 1)).cols (tens ψ (N - 1)).r = _
      rw [hl]
    rw [e]
    exact ⟨triv_grp _, rfl, rfl, hl.symm⟩
  | succ k ih =>
    intro hk
    obtain ⟨a, b, c, d⟩ := ih (by omega)
    have e : N - 1 - k = N - 1 - (k + 1) + 1 := by omega
    refine ⟨?_, ?_, ?_, ?_⟩
    · show updRightOps (P.m (N - 1 - k)) ((dmrgAlg P).renv N ψ k) (tens ψ (N - 1 - k)) =
        grp (siteRenv (P.m (N - 1 - k)).ten ((vmpsAlg N P.dense).renv N ψ k) (tens ψ (N - 1 - k)))
      rw [a]
      exact updRight_grp b c d (hM.row _ (by omega))
    · show (tens ψ (N - 1 - k)).l = _
      rw [e]
      exact (ht.2.2 _ (by omega)).symm
    · show (tens ψ (N - 1 - k)).l = _
      rw [e]
      exact (ht.2.2 _ (by omega)).symm
    · show (P.m (N - 1 - k)).rows = _
      rw [e, hM.fit]

/-- One local update. -/
theorem updTwoD_eq (hM : OpMatsOK N P.m) {ψ : Nat → LTen σ 𝕜} (ht : Closed N (tens ψ)) (dir : Dir) {i : Nat} (hi : i + 1 < N) :
    updTwoD P dir i ((dmrgAlg P).lenv ψ i) ((dmrgAlg P).renv N ψ (N - (i + 2))) (tens ψ i) (tens ψ (i + 1)) =
      updTwo P.dense dir i ((vmpsAlg N P.dense).lenv ψ i) ((vmpsAlg N P.dense).renv N ψ (N - (i + 2))) (tens ψ i) (tens ψ (i + 1)) := by
  obtain ⟨a, b, c, d⟩ := lenv_grp hM ht i (by omega)
  obtain ⟨a', b', c', d'⟩ := renv_grp hM ht (N - (i + 2)) (by omega)
  rw [show N - 1 - (N - (i + 2)) = i + 1 by omega] at b' c' d'
  have : lanczosD P i ((dmrgAlg P).lenv ψ i) ((dmrgAlg P).renv N ψ (N - (i + 2))) (tens ψ i) (tens ψ (i + 1)) =
      lanczosAt P.dense i ((vmpsAlg N P.dense).lenv ψ i) ((vmpsAlg N P.dense).renv N ψ (N - (i + 2))) (tens ψ i) (tens ψ (i + 1)) := by
    unfold lanczosD lanczosAt
    rw [a, a', superHam_grp (l := (mergeTen (tens ψ i) (tens ψ (i + 1))).l) (r := (mergeTen (tens ψ i) (tens ψ (i + 1))).r) b b' d d' (hM.pos i (by omega))
      (hM.col i (by omega)) (fun r hr => hM.row (i + 1) hi r (by rw [← hM.fit]; exact hr))]
    rfl
  unfold updTwoD updTwo
  rw [this]
  rfl

/-- One step of the sweeps. -/
theorem opt1_eq (hM : OpMatsOK N P.m) {ψ : (Nat → LTen σ 𝕜) × Nat} (ht : Closed N (tens ψ.1)) {u : Dir × Nat} (hu : u.2 + 1 < N) :
    opt1 (dmrgAlg P) N ψ u = opt1 (vmpsAlg N P.dense) N ψ u := by
  obtain ⟨d, i⟩ := u
  cases d with
  | r =>
    have := updTwoD_eq hM ht .r hu
    have e : ∀ p, p = (dmrgAlg P).opt ψ.2 .r i ((dmrgAlg P).lenv ψ.1 i) ((dmrgAlg P).renv N ψ.1 (N - (i + 2))) (ψ.1 i) (ψ.1 (i + 1)) →
        p = (vmpsAlg N P.dense).opt ψ.2 .r i ((vmpsAlg N P.dense).lenv ψ.1 i) ((vmpsAlg N P.dense).renv N ψ.1 (N - (i + 2))) (ψ.1 i) (ψ.1 (i + 1)) :=
      fun p hp => hp.trans this
    unfold opt1 optR
    simp only []
    rw [← e _ rfl]
  | l =>
    have := updTwoD_eq hM ht .l hu
    have e : ∀ p, p = (dmrgAlg P).opt ψ.2 .l (i + 1) ((dmrgAlg P).lenv ψ.1 (i + 1 - 1)) ((dmrgAlg P).renv N ψ.1 (N - (i + 1 + 1))) (ψ.1 (i + 1 - 1)) (ψ.1 (i + 1)) →
        p = (vmpsAlg N P.dense).opt ψ.2 .l (i + 1) ((vmpsAlg N P.dense).lenv ψ.1 (i + 1 - 1)) ((vmpsAlg N P.dense).renv N ψ.1 (N - (i + 1 + 1))) (ψ.1 (i + 1 - 1)) (ψ.1 (i + 1)) :=
      fun p hp => hp.trans this
    unfold opt1 optL
    simp only []
    rw [← e _ rfl]

/-- The sweeps. -/
theorem fold_eq (hP : ParOK N P.dense) (hM : OpMatsOK N P.m) (us : List (Dir × Nat)) {ψ : (Nat → LTen σ 𝕜) × Nat} {c : Nat} (hp : Path N c us)
    (h : Canon N c (tens ψ.1)) (hz : stateV N (tens ψ.1) ≠ 0) : us.foldl (opt1 (dmrgAlg P) N) ψ = us.foldl (opt1 (vmpsAlg N P.dense) N) ψ := by
  induction us generalizing ψ c with
  | nil => rfl
  | cons u us ih =>
    obtain ⟨a, b, -⟩ := opt1_ok hP hp.1 hp.2.1 h hz
    rw [List.foldl_cons, List.foldl_cons, opt1_eq hM h.1 hp.2.1]
    exact ih hp.2.2 a b

omit [DecidableEq σ] in
theorem dmrg_legs (hR : BlkSplitR P.splitR) (hL : BlkSplitL P.splitL) : (dmrgAlg P).Legs where
  left := fun c d i e f t u => by
    show trivOps (updTwoD P d _ e f t.ten u.ten).1.ten.l = trivOps t.ten.l
    have : ∀ j, (updTwoD P d j e f t.ten u.ten).1.ten.l = t.ten.l := by
      intro j
      unfold updTwoD
      split
      · rfl
      · cases d
        · exact hR.dimL _
        · exact hL.dimL _
    rw [this]
  right := fun c d i e f t u => by
    show trivOps (updTwoD P d _ e f t.ten u.ten).2.ten.r = trivOps u.ten.r
    have : ∀ j, (updTwoD P d j e f t.ten u.ten).2.ten.r = u.ten.r := by
      intro j
      unfold updTwoD
      split
      · rfl
      · cases d
        · exact hR.dimR _
        · exact hL.dimR _
    rw [this]

omit [DecidableEq σ] in
theorem dmrg_dims (hM : OpMatsOK N P.m) : (dmrgAlg P).Dims (bondsOf P) N where
  tl := fun _ => hM.first.symm
  tr := fun _ => hM.last.symm
  gl := fun i e t _ => by
    show (updLeftOps (P.m i) e t.ten).length = (P.m (i + 1)).rows
    unfold updLeftOps
    rw [List.length_map, List.length_range, hM.fit]
  gr := fun i e t _ => by
    show (updRightOps (P.m i) e t.ten).length = (P.m i).rows
    unfold updRightOps
    rw [List.length_map, List.length_range]

end
end Verif.Mps
