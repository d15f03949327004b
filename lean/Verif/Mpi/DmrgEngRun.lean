import Verif.Mpi.DmrgEng
/-
The sweeps of the parallel DMRG executor are those of the two-site optimisation with the dense MPO (helper facts, not property statements).
-/
namespace Verif.Mpi
open Finset Verif.Mps Verif.Algo Verif.Disk

theorem gsLoop_some {𝕜 V : Type} [RCLike 𝕜] [NormedAddCommGroup V] [InnerProductSpace 𝕜 V] (H : V →ₗ[𝕜] V) (v : V) (tri : TriSolver) (K dim : Nat) (err : ℝ) :
    ∀ fuel m e, m + 1 ≤ K - 1 → K ≤ m + fuel → ∃ r, gsLoop H v tri K dim err fuel m e = some r := by
  intro fuel
  induction fuel with
  | zero => intro m e h1 h2; omega
  | succ fuel ih =>
    intro m e h1 h2
    unfold gsLoop
    simp only []
    split
    · split <;> exact ⟨_, rfl⟩
    · split
      · exact ⟨_, rfl⟩
      · rename_i hh
        push Not at hh
        exact ih _ _ (by omega) (by omega)

theorem alg_opt {M B Hs St Cb Cs O L SL : Type} [AddCommMonoid O] [AddCommMonoid St] {E : DEng M B Hs St Cb Cs O L SL} {clk : Nat} {dir : Dir} {j i : Nat} (hj : leftSite dir j = i) {e f : List B} {t u : M} {res : L}
    (h : E.lzRun (E.prod i e f) E.iters (E.lz0 t u (E.prod i e f (E.start t u)) (E.ovl (E.start t u) (E.prod i e f (E.start t u)))) = some res) :
    E.alg.opt clk dir j e f t u = E.svdVal clk dir j t u res := by
  subst hj
  simp only [DEng.alg, h]

section
variable {σ 𝕜 : Type} [RCLike 𝕜] [Fintype σ] [DecidableEq σ] {N : Nat} {P : DmrgPar σ 𝕜} {SL : Type} {S : SvdLib σ 𝕜 SL}

/-- The Lanczos run of the master. -/
theorem eng_lanczos (hK : 2 ≤ P.maxIter) (hT : TriLocal P.tri) {H : WithTop (AllV σ 𝕜) → WithTop (AllV σ 𝕜)} {t u : LTen σ 𝕜} (h : TwoV σ 𝕜 t.ten.l u.ten.r →ₗ[𝕜] TwoV σ 𝕜 t.ten.l u.ten.r)
    (hH : ∀ x, H ((asV t.ten.l u.ten.r x : AllV σ 𝕜) : WithTop (AllV σ 𝕜)) = ((asV t.ten.l u.ten.r (h x) : AllV σ 𝕜) : WithTop (AllV σ 𝕜))) :
    ∃ r s, gsSolve h (toV (mergeTen t.ten u.ten)) P.tri P.maxIter (t.ten.l * (Fintype.card σ * Fintype.card σ) * u.ten.r) P.tol = some r ∧
      (dmrgEng N P S).lzRun H P.maxIter ((dmrgEng N P S).lz0 t u (H (startV t u : AllV σ 𝕜)) ((dmrgEng N P S).ovl (startV t u : AllV σ 𝕜) (H (startV t u : AllV σ 𝕜)))) =
        some (some s) ∧ s.res = some (r.map (asV t.ten.l u.ten.r)) := by
  obtain ⟨r, hr⟩ := gsLoop_some h (toV (mergeTen t.ten u.ten)) P.tri P.maxIter (t.ten.l * (Fintype.card σ * Fintype.card σ) * u.ten.r) P.tol P.maxIter 0
    (kDiag h (krylov h (toV (mergeTen t.ten u.ten)) 0)) (by omega) (by omega)
  rw [show (startV t u : AllV σ 𝕜) = asV t.ten.l u.ten.r (normalize 𝕜 (toV (mergeTen t.ten u.ten))) from rfl, hH, eng_lzRun]
  have ov : (dmrgEng N P S).ovl ((asV t.ten.l u.ten.r (normalize 𝕜 (toV (mergeTen t.ten u.ten))) : AllV σ 𝕜) : WithTop (AllV σ 𝕜))
      ((asV t.ten.l u.ten.r (h (normalize 𝕜 (toV (mergeTen t.ten u.ten)))) : AllV σ 𝕜) : WithTop (AllV σ 𝕜)) =
      ((kDiag h (krylov h (toV (mergeTen t.ten u.ten)) 0) : ℝ) : WithTop ℝ) := by
    show ((RCLike.re (inner 𝕜 _ _) : ℝ) : WithTop ℝ) = _
    rw [LinearIsometry.inner_map_map]
    rfl
  rw [ov]
  obtain ⟨s, s1, s2⟩ := lzLoopO_ok (V := AllV σ 𝕜) (ι := asV t.ten.l u.ten.r) (h := h) (u0 := toV (mergeTen t.ten u.ten)) (H := H) hT hH P.maxIter P.maxIter 0 _
    ⟨0, fun _ => startV t u, fun i => if i = 0 then kDiag h (krylov h (toV (mergeTen t.ten u.ten)) 0) else 0, fun _ => 0,
      kDiag h (krylov h (toV (mergeTen t.ten u.ten)) 0), t.ten.l * (Fintype.card σ * Fintype.card σ) * u.ten.r, none⟩
    (asV t.ten.l u.ten.r (kResid h true (krylov h (toV (mergeTen t.ten u.ten)) 0))) r (Nat.le_refl _) hr
    ⟨rfl, rfl, rfl, rfl, fun i hi => by obtain rfl : i = 0 := by omega
                                        rfl, fun i hi => absurd hi (by omega), fun i hi => absurd hi (by omega)⟩ rfl rfl
  refine ⟨r, s, hr, ?_, s2⟩
  rw [← s1]
  congr 2
  have hg : (asV t.ten.l u.ten.r (kResid h true (krylov h (toV (mergeTen t.ten u.ten)) 0)) : AllV σ 𝕜) =
      asV t.ten.l u.ten.r (h (normalize 𝕜 (toV (mergeTen t.ten u.ten)))) - (kDiag h (krylov h (toV (mergeTen t.ten u.ten)) 0) : 𝕜) • startV t u := by
    show asV t.ten.l u.ten.r (h _ - _) = _
    rw [map_sub, map_smul]
    rfl
  rw [hg]
  rfl

/-- One local update. -/
theorem eng_opt (hK : 2 ≤ P.maxIter) (hT : TriLocal P.tri) (hM : OpMatsOK N P.m) {ψ : Nat → LTen σ 𝕜} (ht : Closed N (tens ψ)) (clk : Nat) (dir : Dir) (j : Nat) {i : Nat}
    (hj : leftSite dir j = i) (hi : i + 1 < N) :
    (dmrgEng N P S).alg.opt clk dir j ((dmrgEng N P S).alg.lenv ψ i) ((dmrgEng N P S).alg.renv N ψ (N - (i + 2))) (ψ i) (ψ (i + 1)) =
      updTwo P.dense dir i ((vmpsAlg N P.dense).lenv ψ i) ((vmpsAlg N P.dense).renv N ψ (N - (i + 2))) (tens ψ i) (tens ψ (i + 1)) := by
  obtain ⟨a, b, c, d⟩ := lenv_grp hM ht i (by omega)
  obtain ⟨a', b', c', d'⟩ := renv_grp hM ht (N - (i + 2)) (by omega)
  rw [show N - 1 - (N - (i + 2)) = i + 1 by omega] at b' c' d'
  rw [eng_lenv hM ht i (by omega), eng_renv, a, a']
  obtain ⟨r, s, h1, h2, h3⟩ := eng_lanczos (N := N) (S := S) (t := ψ i) (u := ψ (i + 1)) hK hT
    (H := (dmrgEng N P S).prod i (grp ((vmpsAlg N P.dense).lenv ψ i)) (grp ((vmpsAlg N P.dense).renv N ψ (N - (i + 2)))))
    (effHam ((vmpsAlg N P.dense).lenv ψ i) ((vmpsAlg N P.dense).renv N ψ (N - (i + 2))) (P.m i).ten (P.m (i + 1)).ten (ψ i).ten.l (ψ (i + 1)).ten.r)
    (fun x => eng_prod b b' d d' (hM.fit i) (hM.col i (by omega)) (fun r hr => hM.row (i + 1) hi r hr) x)
  rw [alg_opt (E := dmrgEng N P S) hj h2]
  unfold updTwo
  rw [show lanczosAt P.dense i ((vmpsAlg N P.dense).lenv ψ i) ((vmpsAlg N P.dense).renv N ψ (N - (i + 2))) (tens ψ i) (tens ψ (i + 1)) = some r from h1]
  show newTens (ψ i) (ψ (i + 1)) (some s) (splitD P dir (gsBlk (ψ i) (ψ (i + 1)) (some s))) = _
  unfold newTens gsBlk
  rw [show (some s).bind (·.res) = some (r.map (asV (ψ i).ten.l (ψ (i + 1)).ten.r)) from h3]
  simp only [GsRes.map, asV_apply]
  cases dir <;> rfl

/-- One step of the sweeps. -/
theorem eng_opt1 (hK : 2 ≤ P.maxIter) (hT : TriLocal P.tri) (hM : OpMatsOK N P.m) {ψ : (Nat → LTen σ 𝕜) × Nat} (ht : Closed N (tens ψ.1)) {u : Dir × Nat} (hu : u.2 + 1 < N) :
    opt1 (dmrgEng N P S).alg N ψ u = opt1 (vmpsAlg N P.dense) N ψ u := by
  obtain ⟨d, i⟩ := u
  cases d with
  | r =>
    have := eng_opt (S := S) hK hT hM ht ψ.2 .r i rfl hu
    have e : ∀ p, p = (dmrgEng N P S).alg.opt ψ.2 .r i ((dmrgEng N P S).alg.lenv ψ.1 i) ((dmrgEng N P S).alg.renv N ψ.1 (N - (i + 2))) (ψ.1 i) (ψ.1 (i + 1)) →
        p = (vmpsAlg N P.dense).opt ψ.2 .r i ((vmpsAlg N P.dense).lenv ψ.1 i) ((vmpsAlg N P.dense).renv N ψ.1 (N - (i + 2))) (ψ.1 i) (ψ.1 (i + 1)) :=
      fun p hp => hp.trans this
    unfold opt1 optR
    simp only []
    rw [← e _ rfl]
  | l =>
    have := eng_opt (S := S) hK hT hM ht ψ.2 .l (i + 1) (i := i) rfl hu
    have e : ∀ p, p = (dmrgEng N P S).alg.opt ψ.2 .l (i + 1) ((dmrgEng N P S).alg.lenv ψ.1 (i + 1 - 1)) ((dmrgEng N P S).alg.renv N ψ.1 (N - (i + 1 + 1))) (ψ.1 (i + 1 - 1)) (ψ.1 (i + 1)) →
        p = (vmpsAlg N P.dense).opt ψ.2 .l (i + 1) ((vmpsAlg N P.dense).lenv ψ.1 (i + 1 - 1)) ((vmpsAlg N P.dense).renv N ψ.1 (N - (i + 1 + 1))) (ψ.1 (i + 1 - 1)) (ψ.1 (i + 1)) :=
      fun p hp => hp.trans this
    unfold opt1 optL
    simp only []
    rw [← e _ rfl]

/-- The sweeps. -/
theorem eng_fold (hP : ParOK N P.dense) (hT : TriLocal P.tri) (hM : OpMatsOK N P.m) (us : List (Dir × Nat)) {ψ : (Nat → LTen σ 𝕜) × Nat} {c : Nat} (hp : Path N c us)
    (h : Canon N c (tens ψ.1)) (hz : stateV N (tens ψ.1) ≠ 0) : us.foldl (opt1 (dmrgEng N P S).alg N) ψ = us.foldl (opt1 (vmpsAlg N P.dense) N) ψ := by
  induction us generalizing ψ c with
  | nil => rfl
  | cons u us ih =>
    obtain ⟨a, b, -⟩ := opt1_ok hP hp.1 hp.2.1 h hz
    rw [List.foldl_cons, List.foldl_cons, eng_opt1 hP.iter hT hM h.1 hp.2.1]
    exact ih hp.2.2 a b

omit [DecidableEq σ] in
theorem newTens_dims (hR : BlkSplitR P.splitR) (hL : BlkSplitL P.splitL) (dir : Dir) (t u : LTen σ 𝕜) (l : Option (LzM (AllV σ 𝕜))) :
    (newTens t u l (splitD P dir (gsBlk t u l))).1.ten.l = t.ten.l ∧ (newTens t u l (splitD P dir (gsBlk t u l))).2.ten.r = u.ten.r := by
  unfold newTens gsBlk
  cases l.bind (·.res) with
  | none => exact ⟨rfl, rfl⟩
  | some r =>
    cases dir
    · exact ⟨hR.dimL _, hR.dimR _⟩
    · exact ⟨hL.dimL _, hL.dimR _⟩

omit [DecidableEq σ] in
theorem eng_legs (hR : BlkSplitR P.splitR) (hL : BlkSplitL P.splitL) : (dmrgEng N P S).alg.Legs where
  left := fun c d i e f t u => by
    show trivOps ((dmrgEng N P S).alg.opt c d i e f t u).1.ten.l = trivOps t.ten.l
    unfold DEng.alg
    simp only []
    split
    · exact congrArg trivOps (newTens_dims (P := P) hR hL d t u _).1
    · rfl
  right := fun c d i e f t u => by
    show trivOps ((dmrgEng N P S).alg.opt c d i e f t u).2.ten.r = trivOps u.ten.r
    unfold DEng.alg
    simp only []
    split
    · exact congrArg trivOps (newTens_dims (P := P) hR hL d t u _).2
    · rfl

omit [DecidableEq σ] in
theorem eng_dims (hM : OpMatsOK N P.m) : (dmrgEng N P S).alg.Dims (bondsOf P) N where
  tl := fun _ => hM.first.symm
  tr := fun _ => hM.last.symm
  gl := fun i e t _ => by
    show (List.map _ (List.range (P.m (i + 1)).rows)).length = _
    rw [List.length_map, List.length_range]
    rfl
  gr := fun i e t _ => by
    show (List.map _ (List.range (P.m i).rows)).length = _
    rw [List.length_map, List.length_range]
    rfl

end
end Verif.Mpi
