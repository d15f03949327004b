import Verif.Mpi.TnEng
import Verif.Mpi.TdvpEngRun
import Verif.Mpi.VmpsJobs
/-
What the parallel two-site optimisation with noise computes as a whole, and that its jobs carried out by one process are the program of Verif/Disk/NoisedMpi.lean (helper facts, not property
statements).
-/
namespace Verif.Mpi
open Finset Verif.Mps Verif.Algo Verif.Disk

section
variable {σ 𝕜 : Type} [RCLike 𝕜] [Fintype σ] [DecidableEq σ] {N : Nat} {P : TnPar σ 𝕜} {SL VL : Type} {L : NoiseLib σ 𝕜 SL} {lact : Nat → SL → Act SL VL} {W : Nat}

/-! ### Sums over the sectors -/

theorem fullN_mul (hL : L.OKN P lact W) (e f : Env3 𝕜) (w1 w2 : Ten (σ × σ) 𝕜) (B : Blk2 σ 𝕜) :
    (tnFull N P L).mul (.val (.env e)) (.val (.op w1)) (.val (.op w2)) (.val (.env f)) (.val (.two B)) =
      .val (.two (ofV (effHam e f w1 w2 B.l B.r (toV B)))) := by
  show ∑ j ∈ range (L.sec 0 (.val (.env e))).length, TX.val (.two (ofV (effHam (selET (L.sec 0 (.val (.env e))) j e) f w1 w2 B.l B.r (toV B)))) = _
  rw [← effHamT_sum (hL.lib.some 0 (.val (.env e))) e f]
  refine (TX.sum_two B.l B.r (fun j => (ofV (effHam (selET (L.sec 0 (.val (.env e))) j e) f w1 w2 B.l B.r (toV B))).v) _ ?_).trans ?_
  · intro h0
    exact hL.lib.some 0 _ (List.length_eq_zero_iff.1 h0)
  · rw [ofV_sum]
    rfl

theorem fullN_ov (hL : L.OKN P lact W) (e f : Env3 𝕜) (w1 w2 : Ten (σ × σ) 𝕜) (B : Blk2 σ 𝕜) :
    (tnFull N P L).ov (.val (.env e)) (.val (.op w1)) (.val (.op w2)) (.val (.env f)) (.val (.two B)) =
      RCLike.re (inner 𝕜 (toV B) (effHam e f w1 w2 B.l B.r (toV B))) := by
  show ∑ j ∈ range (L.sec 0 (.val (.env e))).length, RCLike.re (inner 𝕜 (toV B) (effHam (selET (L.sec 0 (.val (.env e))) j e) f w1 w2 B.l B.r (toV B))) = _
  rw [← effHamT_sum (hL.lib.some 0 (.val (.env e))) e f, _root_.inner_sum, map_sum]

theorem fullN_growL (hL : L.OKN P lact W) (e : Env3 𝕜) (w : Ten (σ × σ) 𝕜) (t : Ten σ 𝕜) :
    (tnFull N P L).growL (.val (.env e)) (.val (.op w)) (.val (.site t)) = .val (.env (siteLenv w e t)) := by
  show ∑ j ∈ range (L.sec 2 (.val (.site t))).length, TX.val (.env (partL w e t (selRT (L.sec 2 (.val (.site t))) j t))) = _
  refine (TX.sum_env t.r w.r t.r (fun j => (partL w e t (selRT (L.sec 2 (.val (.site t))) j t)).v) _ ?_).trans ?_
  · intro h0
    exact hL.lib.some 2 _ (List.length_eq_zero_iff.1 h0)
  · congr 2
    unfold siteLenv
    congr 1
    funext a' c' b'
    have hs := inSecT_sum (K := 𝕜) (hL.lib.some 2 (.val (.site t))) b' (∑ s, ∑ s', ∑ a ∈ range e.d0, ∑ c ∈ range e.d1, ∑ b ∈ range e.d2, star (t.v s a a') * w.v (s, s') c c' * t.v s' b b' * e.v a c b)
    rw [← hs]
    refine sum_congr rfl fun j _ => ?_
    unfold partL selRT
    simp only []
    split
    · rfl
    · simp

theorem fullN_growR (hL : L.OKN P lact W) (e : Env3 𝕜) (w : Ten (σ × σ) 𝕜) (t : Ten σ 𝕜) :
    (tnFull N P L).growR (.val (.env e)) (.val (.op w)) (.val (.site t)) = .val (.env (siteRenv w ⟨t.r, e.d1, t.r, e.v⟩ t)) := by
  show ∑ j ∈ range (L.sec 0 (.val (.site t))).length, TX.val (.env (partR w e (selLT (L.sec 0 (.val (.site t))) j t) t)) = _
  refine (TX.sum_env t.l w.l t.l (fun j => (partR w e (selLT (L.sec 0 (.val (.site t))) j t) t).v) _ ?_).trans ?_
  · intro h0
    exact hL.lib.some 0 _ (List.length_eq_zero_iff.1 h0)
  · congr 2
    unfold siteRenv
    simp only []
    congr 1
    funext a c b
    have hs := inSecT_sum (K := 𝕜) (hL.lib.some 0 (.val (.site t))) a (∑ s, ∑ s', ∑ a' ∈ range t.r, ∑ c' ∈ range e.d1, ∑ b' ∈ range t.r, star (t.v s a a') * w.v (s, s') c c' * t.v s' b b' * e.v a' c' b')
    rw [← hs]
    refine sum_congr rfl fun j _ => ?_
    unfold partR selLT
    simp only []
    split
    · rfl
    · simp

omit [DecidableEq σ] in
theorem fusedR_sel (ds : List Nat) (j : Nat) (e : Env3 𝕜) (w0 w1 : Ten (σ × σ) 𝕜) (B : Blk2 σ 𝕜) (s s' : σ) (a k : Nat) :
    fusedR (selET ds j e) w0 w1 B s s' a k = if inSecT ds j a then fusedR e w0 w1 B s s' a k else 0 := by
  unfold fusedR selET
  simp only []
  split
  · rfl
  · simp

omit [DecidableEq σ] in
theorem fusedL_sel (ds : List Nat) (j : Nat) (f : Env3 𝕜) (w0 w1 : Ten (σ × σ) 𝕜) (B : Blk2 σ 𝕜) (s s' : σ) (k b : Nat) :
    fusedL (selET ds j f) w0 w1 B s s' k b = if inSecT ds j b then fusedL f w0 w1 B s s' k b else 0 := by
  unfold fusedL selET
  simp only []
  split
  · rfl
  · simp

theorem fullN_expR (hL : L.OKN P lact W) (e : Env3 𝕜) (w0 w1 : Ten (σ × σ) 𝕜) (B : Blk2 σ 𝕜) (g : Option ℝ) (nz : ℝ) :
    (tnFull N P L).expR (.val (.env e)) (.val (.op w0)) (.val (.op w1)) (.val (.gs B g)) nz = .val (.two (expPartR (L.pick .r w0 w1 B) w0 w1 B nz e)) := by
  show ∑ j ∈ range (L.sec 0 (.val (.env e))).length, TX.val (.two (expPartR (L.pick .r w0 w1 B) w0 w1 B nz (selET (L.sec 0 (.val (.env e))) j e))) = _
  refine (TX.sum_two B.l (B.r + (L.pick .r w0 w1 B).length) (fun j => (expPartR (L.pick .r w0 w1 B) w0 w1 B nz (selET (L.sec 0 (.val (.env e))) j e)).v) _ ?_).trans ?_
  · intro h0
    exact hL.lib.some 0 _ (List.length_eq_zero_iff.1 h0)
  · unfold expPartR
    simp only []
    congr 3
    funext s s' a b
    split
    · simp
    · rw [← Finset.mul_sum]
      simp only [fusedR_sel]
      rw [inSecT_sum (hL.lib.some 0 _)]

theorem fullN_expL (hL : L.OKN P lact W) (f : Env3 𝕜) (w0 w1 : Ten (σ × σ) 𝕜) (B : Blk2 σ 𝕜) (g : Option ℝ) (nz : ℝ) :
    (tnFull N P L).expL (.val (.op w0)) (.val (.op w1)) (.val (.env f)) (.val (.gs B g)) nz = .val (.two (expPartL (L.pick .l w0 w1 B) w0 w1 B nz f)) := by
  show ∑ j ∈ range (L.sec 0 (.val (.env f))).length, TX.val (.two (expPartL (L.pick .l w0 w1 B) w0 w1 B nz (selET (L.sec 0 (.val (.env f))) j f))) = _
  refine (TX.sum_two (B.l + (L.pick .l w0 w1 B).length) B.r (fun j => (expPartL (L.pick .l w0 w1 B) w0 w1 B nz (selET (L.sec 0 (.val (.env f))) j f)).v) _ ?_).trans ?_
  · intro h0
    exact hL.lib.some 0 _ (List.length_eq_zero_iff.1 h0)
  · unfold expPartL
    simp only []
    congr 3
    funext s s' a b
    split
    · simp
    · rw [← Finset.mul_sum]
      simp only [fusedL_sel]
      rw [inSecT_sum (hL.lib.some 0 _)]

omit [DecidableEq σ] in
/-- The expanded state and the tensor behind it are those of the serial program. -/
theorem join_expR (pick : List Nat) (w0 w1 : Ten (σ × σ) 𝕜) (B : Blk2 σ 𝕜) (nz : ℝ) (e : Env3 𝕜) (x : Ten σ 𝕜) :
    joinR B (expPartR pick w0 w1 B nz e) = (expand2R (nz : 𝕜) e w0 w1 pick B x).1 ∧ fillL B.r (expPartR pick w0 w1 B nz e).r x = (expand2R (nz : 𝕜) e w0 w1 pick B x).2 := by
  refine ⟨?_, rfl⟩
  unfold joinR expPartR expand2R
  simp only []
  congr 1
  funext s s' a b
  split <;> rfl

omit [DecidableEq σ] in
theorem join_expL (pick : List Nat) (w0 w1 : Ten (σ × σ) 𝕜) (B : Blk2 σ 𝕜) (nz : ℝ) (f : Env3 𝕜) (x : Ten σ 𝕜) :
    joinL B (expPartL pick w0 w1 B nz f) = (expand2L (nz : 𝕜) f w0 w1 pick x B).2 ∧ fillR B.l (expPartL pick w0 w1 B nz f).l x = (expand2L (nz : 𝕜) f w0 w1 pick x B).1 := by
  refine ⟨?_, rfl⟩
  unfold joinL expPartL expand2L
  simp only []
  congr 1
  funext s s' a b
  split <;> rfl

/-! ### Lanczos -/

/-- The loop of the master is that of `LzM`. -/
theorem fullN_loop (hL : L.OKN P lact W) (e f : Env3 𝕜) (w1 w2 : Ten (σ × σ) 𝕜) {l r : Nat} : ∀ (n : Nat) (m m' : LzM (TwoV σ 𝕜 l r)),
    lzLoopO (𝕜 := 𝕜) P.tri P.maxIter P.tol (WithTop.map (effHam e f w1 w2 l r)) n (some m) = some (some m') →
    (tnFull N P L).loop (tnEng N P L) (.val (.env e)) (.val (.op w1)) (.val (.op w2)) (.val (.env f)) n ⟨l, r, .run m⟩ = LzX.result ⟨l, r, .run m'⟩ := by
  intro n
  have over : ∀ (n : Nat) (m : LzM (TwoV σ 𝕜 l r)), m.res.isSome = true →
      (tnFull N P L).loop (tnEng N P L) (.val (.env e)) (.val (.op w1)) (.val (.op w2)) (.val (.env f)) n ⟨l, r, .run m⟩ = LzX.result ⟨l, r, .run m⟩ := by
    intro n m hm
    cases n with
    | zero => rfl
    | succ n =>
      unfold Full.loop
      rw [if_pos (show (tnEng N P L).lzZero ⟨l, r, .run m⟩ = true from hm)]
      rfl
  induction n with
  | zero =>
    intro m m' h
    by_cases hm : m.res.isSome = true
    · have hv : lzVecO (some m) = none := if_pos hm
      simp only [lzLoopO, hv] at h
      obtain rfl := Option.some.inj (Option.some.inj h)
      rfl
    · have hv : lzVecO (some m) = some ((m.bs m.m : TwoV σ 𝕜 l r) : WithTop (TwoV σ 𝕜 l r)) := if_neg hm
      simp only [lzLoopO, hv] at h
      cases h
  | succ n ih =>
    intro m m' h
    by_cases hm : m.res.isSome = true
    · have hv : lzVecO (some m) = none := if_pos hm
      simp only [lzLoopO, hv] at h
      obtain rfl := Option.some.inj (Option.some.inj h)
      exact over _ _ hm
    · have hv : lzVecO (some m) = some ((m.bs m.m : TwoV σ 𝕜 l r) : WithTop (TwoV σ 𝕜 l r)) := if_neg hm
      simp only [lzLoopO, hv] at h
      have hx := ih _ m' h
      unfold Full.loop
      rw [if_neg (show ¬ (tnEng N P L).lzZero ⟨l, r, .run m⟩ = true from hm)]
      have hmul : (tnFull N P L).mul (.val (.env e)) (.val (.op w1)) (.val (.op w2)) (.val (.env f)) ((tnEng N P L).lzVec ⟨l, r, .run m⟩) =
          .val (.two (ofV (effHam e f w1 w2 l r (m.bs m.m)))) := by
        refine (fullN_mul hL e f w1 w2 (ofV (m.bs m.m))).trans ?_
        show TX.val (.two (ofV (effHam e f w1 w2 l r (toV (ofV (m.bs m.m)))))) = _
        rw [toV_ofV']
      have hov : (tnFull N P L).ov (.val (.env e)) (.val (.op w1)) (.val (.op w2)) (.val (.env f)) ((tnEng N P L).lzVec ⟨l, r, .run m⟩) =
          RCLike.re (inner 𝕜 (m.bs m.m) (effHam e f w1 w2 l r (m.bs m.m))) := by
        refine (fullN_ov hL e f w1 w2 (ofV (m.bs m.m))).trans ?_
        show RCLike.re (inner 𝕜 (toV (ofV (m.bs m.m))) (effHam e f w1 w2 l r (toV (ofV (m.bs m.m))))) = _
        rw [toV_ofV']
        rfl
      rw [hmul, hov]
      have ht : (tnEng N P L).lzTake ⟨l, r, .run m⟩ (.val (.two (ofV (effHam e f w1 w2 l r (m.bs m.m)))))
          (RCLike.re (inner 𝕜 (m.bs m.m) (effHam e f w1 w2 l r (m.bs m.m)))) = _ := take_run (P := P.toVmpsPar) m _ _
      rw [ht]
      have hx' : (tnFull N P L).loop (tnEng N P L) (.val (.env e)) (.val (.op w1)) (.val (.op w2)) (.val (.env f)) n
          ⟨l, r, .run (lzNext 𝕜 P.tri P.maxIter P.tol m (effHam e f w1 w2 l r (m.bs m.m)) (RCLike.re (inner 𝕜 (m.bs m.m) (effHam e f w1 w2 l r (m.bs m.m)))))⟩ =
          LzX.result ⟨l, r, .run m'⟩ := hx
      simp only []
      split
      · rename_i hs
        rw [← hx']
        exact (over n _ hs).symm
      · exact hx'

/-- The Lanczos solver of the master finds what the serial one finds. -/
theorem fullN_lanczos (hL : L.OKN P lact W) (hK : 2 ≤ P.maxIter) (hT : TriLocal P.tri) (e f : Env3 𝕜) (w1 w2 : Ten (σ × σ) 𝕜) (B : Blk2 σ 𝕜) :
    ∃ g, gsSolve (effHam e f w1 w2 B.l B.r) (toV B) P.tri P.maxIter (B.l * (Fintype.card σ * Fintype.card σ) * B.r) P.tol = some g ∧
      (tnFull N P L).lanczos (tnEng N P L) () (.val (.env e)) (.val (.op w1)) (.val (.op w2)) (.val (.env f)) (.val (.two B)) = gsTX g := by
  set h := effHam e f w1 w2 B.l B.r with hh
  obtain ⟨g, g1, g2⟩ := gsLoop_some' h (toV B) P.tri P.maxIter (B.l * (Fintype.card σ * Fintype.card σ) * B.r) P.tol (P.maxIter - 1) 0
    (kDiag h (krylov h (toV B) 0)) (by omega) (by omega)
  rw [show P.maxIter - 1 + 1 = P.maxIter by omega] at g2
  refine ⟨g, g2, ?_⟩
  obtain ⟨s, s1, s2⟩ := lzLoopO_ok (V := TwoV σ 𝕜 B.l B.r) (ι := LinearIsometry.id) (h := h) (u0 := toV B) (H := WithTop.map h) hT (fun x => rfl) (P.maxIter - 1) (P.maxIter - 1) 0 _
    ⟨0, fun _ => normalize 𝕜 (toV B), fun i => if i = 0 then kDiag h (krylov h (toV B) 0) else 0, fun _ => 0,
      kDiag h (krylov h (toV B) 0), B.l * (Fintype.card σ * Fintype.card σ) * B.r, none⟩
    (kResid h true (krylov h (toV B) 0)) g (Nat.le_refl _) g1
    ⟨rfl, rfl, rfl, rfl, fun i hi => by obtain rfl : i = 0 := by omega
                                        rfl, fun i hi => absurd hi (by omega), fun i hi => absurd hi (by omega)⟩ rfl rfl
  have hmul : (tnFull N P L).mul (.val (.env e)) (.val (.op w1)) (.val (.op w2)) (.val (.env f)) ((tnEng N P L).lzVec ((tnEng N P L).lzStart () (.val (.two B)))) =
      .val (.two (ofV (h (normalize 𝕜 (toV B))))) := by
    refine (fullN_mul hL e f w1 w2 (ofV (normalize 𝕜 (toV B)))).trans ?_
    show TX.val (.two (ofV (h (toV (ofV (normalize 𝕜 (toV B))))))) = _
    rw [toV_ofV']
  have hov : (tnFull N P L).ov (.val (.env e)) (.val (.op w1)) (.val (.op w2)) (.val (.env f)) ((tnEng N P L).lzVec ((tnEng N P L).lzStart () (.val (.two B)))) =
      kDiag h (krylov h (toV B) 0) := by
    refine (fullN_ov hL e f w1 w2 (ofV (normalize 𝕜 (toV B)))).trans ?_
    show RCLike.re (inner 𝕜 (toV (ofV (normalize 𝕜 (toV B)))) (h (toV (ofV (normalize 𝕜 (toV B)))))) = _
    rw [toV_ofV']
    rfl
  unfold Full.lanczos
  simp only []
  rw [hmul, hov]
  have ht : (tnEng N P L).lzTake ((tnEng N P L).lzStart () (.val (.two B))) (.val (.two (ofV (h (normalize 𝕜 (toV B)))))) (kDiag h (krylov h (toV B) 0)) = _ :=
    take_start (P := P.toVmpsPar) (normalize 𝕜 (toV B)) (h (normalize 𝕜 (toV B))) (kDiag h (krylov h (toV B) 0))
  rw [ht]
  refine (fullN_loop hL e f w1 w2 (P.maxIter - 1) _ s s1).trans ?_
  unfold LzX.result
  simp only [s2]
  rfl


/-! ### Jobs -/

theorem tn_laws (hL : L.OKN P lact W) : (tnEng N P L).Laws (tnFull N P L) lact W where
  mul _ _ _ _ _ := rfl
  ov _ _ _ _ _ := rfl
  growL _ _ _ := rfl
  growR _ _ _ := rfl
  expR _ _ _ _ _ := rfl
  expL _ _ _ _ _ := rfl
  svd d l gs := by
    obtain ⟨⟨M, h1, h2⟩, h3, h4⟩ := hL.lib.svd (gsB gs)
    exact ⟨⟨M, h1, fun n s a b => ⟨(h2 n s a b).1, funext fun dir => (h2 n s a b).2 dir⟩⟩, h3, h4⟩
  sortMul := hL.lib.sortMul
  sortGrow := hL.lib.sortGrow
  lenv_svd d b l gs u k := by cases d <;> rfl
  renv_svd d b l gs u k := by cases d <;> rfl
  lenv_exp d b i gs x k := by cases d <;> rfl
  renv_exp d b i gs x k := by cases d <;> rfl

/-- The jobs in a row. -/
theorem jobsN_append (js js' : List (Eng.Job (MD σ 𝕜) Unit ℝ)) (d : MD σ 𝕜) :
    (tnFull N P L).jobs (tnEng N P L) (js ++ js') d = (tnFull N P L).jobs (tnEng N P L) js' ((tnFull N P L).jobs (tnEng N P L) js d) := by
  unfold Full.jobs
  rw [List.foldl_append]

/-- The jobs `js` do what the operations `ops` do, provided these succeed. -/
def DoesN (N : Nat) (P : TnPar σ 𝕜) (L : NoiseLib σ 𝕜 SL) (js : List (Eng.Job (MD σ 𝕜) Unit ℝ)) (ops : List (Disk.Op (LTen σ 𝕜) (Env3 𝕜))) : Prop :=
  ∀ s s', run N (N - 1) ops s = .ok s' → (tnFull N P L).jobs (tnEng N P L) js (.ok s) = .ok s'

theorem DoesN.append {js js' : List (Eng.Job (MD σ 𝕜) Unit ℝ)} {ops ops' : List (Disk.Op (LTen σ 𝕜) (Env3 𝕜))} (h : DoesN N P L js ops) (h' : DoesN N P L js' ops') :
    DoesN N P L (js ++ js') (ops ++ ops') := by
  intro s s' hs
  rw [run_append] at hs
  cases h1 : run N (N - 1) ops s with
  | error e => rw [h1] at hs; cases hs
  | ok s1 =>
    rw [h1] at hs
    rw [jobsN_append, h s s1 h1]
    exact h' s1 s' hs

theorem DoesN.nil : DoesN N P L [] [] := by
  intro s s' hs
  exact hs

theorem DoesN.ops (ops : List (Disk.Op (LTen σ 𝕜) (Env3 𝕜))) : DoesN N P L [opsJob N ops] ops := fun _ _ hs => hs

/-- The loop over the right environments. -/
theorem doesN_envs (hL : L.OKN P lact W) : ∀ (n i : Nat) (s s' : Sys (LTen σ 𝕜) (Env3 𝕜)), run N (N - 1) ((List.range' i n).flatMap (initStep (tnAlg N P.toVmpsPar) N)) s = .ok s' →
    (tnFull N P L).envs (tnEng N P L) n i (.ok s) = .ok s' := by
  intro n
  induction n with
  | zero => intro i s s' h; exact h
  | succ n ih =>
    intro i s s' h
    rw [List.range'_succ, List.flatMap_cons, run_append] at h
    obtain ⟨s2, h1, h2⟩ := bind_ok h
    unfold initStep at h1
    rw [run_append] at h1
    obtain ⟨s1, h0, h1⟩ := bind_ok h1
    rw [show ([.calc (pushR (tnAlg N P.toVmpsPar) (N - i)), .wrR i, .frM (N - i)] : List (Disk.Op (LTen σ 𝕜) (Env3 𝕜))) = [.calc (pushR (tnAlg N P.toVmpsPar) (N - i))] ++ [.wrR i, .frM (N - i)] from rfl,
      run_append] at h1
    obtain ⟨s3, h3, h1⟩ := bind_ok h1
    obtain ⟨m, h4, rfl⟩ := exec_calc (run_one h3)
    unfold pushR at h4
    obtain ⟨e, he, h4⟩ := bind_ok h4
    obtain ⟨t, ht, h4⟩ := bind_ok h4
    have he := use_ok he
    have ht := use_ok ht
    cases h4
    unfold Full.envs
    simp only []
    have hl : (tnEng N P L).loadE (.ok s) i = .ok s1 := h0
    rw [hl]
    have ee : (tnEng N P L).envE (.ok s1) (i - 1) = .val (.env e) := by
      show slotE s1.mem.reg = _
      rw [he]; rfl
    have em : (tnEng N P L).mps (.ok s1) ((tnEng N P L).N - i) = .val (.site t.ten) := by
      show slotM (s1.mem.m (N - i)) = _
      rw [ht]; rfl
    rw [ee, em]
    have hp : (tnEng N P L).putE (.ok s1) i ((tnFull N P L).growR (.val (.env e)) ((tnEng N P L).mpo ((tnEng N P L).N - i)) (.val (.site t.ten))) = .ok s2 := by
      rw [show (tnEng N P L).mpo ((tnEng N P L).N - i) = .val (.op (P.w (N - i))) from rfl, fullN_growR hL]
      exact h1
    rw [hp]
    exact ih (i + 1) s2 s' h2


/-- The initialisation. -/
theorem doesN_init (hL : L.OKN P lact W) (G : Gauge (LTen σ 𝕜)) (bl br : Nat → Bool) (d : Dsk (LTen σ 𝕜) (Env3 𝕜)) :
    DoesN N P L (opsJob N (checkBoundary G bl br N) :: ((if needEnvs N (lbOf bl N) (rbOf br N) d then initJ (tnAlg N P.toVmpsPar) N (lbOf bl N + 2) else []) ++
      [opsJob N (updateBoundary (tnAlg N P.toVmpsPar) N (lbOf bl N) (rbOf br N))])) (vmpsInit (tnAlg N P.toVmpsPar) G bl br N d) := by
  have hI : ∀ usn, DoesN N P L (initJ (tnAlg N P.toVmpsPar) N usn) (initEnvs (tnAlg N P.toVmpsPar) N usn) := fun usn =>
    (DoesN.ops [.ldM (N - 1), .calc (startR (tnAlg N P.toVmpsPar) N), .wrR 0]).append
      (DoesN.append (js := [.envs (N - usn)]) (fun s s' h => doesN_envs hL _ _ _ _ h) (DoesN.ops [.ldM 0, .calc (startL (tnAlg N P.toVmpsPar)), .wrL 0, .frM 0, .calc (assertEmpty N)]))
  unfold vmpsInit
  refine (DoesN.ops _).append (DoesN.append ?_ (DoesN.ops _))
  split
  · exact hI _
  · exact DoesN.nil

/-! ### The sweeps, with the count of updates -/

/-- From a state with count `c`, the jobs `js` do what the operations `ops` do, provided these succeed, and the count is then `c'`. -/
def Counts (N : Nat) (P : TnPar σ 𝕜) (L : NoiseLib σ 𝕜 SL) (c c' : Nat) (js : List (Eng.Job (MD σ 𝕜) Unit ℝ)) (ops : List (Disk.Op (LTen σ 𝕜) (Env3 𝕜))) : Prop :=
  ∀ s s', s.mem.clk = c → run N (N - 1) ops s = .ok s' → (tnFull N P L).jobs (tnEng N P L) js (.ok s) = .ok s' ∧ s'.mem.clk = c'

theorem Counts.append {c c1 c2 : Nat} {js js' : List (Eng.Job (MD σ 𝕜) Unit ℝ)} {ops ops' : List (Disk.Op (LTen σ 𝕜) (Env3 𝕜))} (h : Counts N P L c c1 js ops)
    (h' : Counts N P L c1 c2 js' ops') : Counts N P L c c2 (js ++ js') (ops ++ ops') := by
  intro s s' hc hs
  rw [run_append] at hs
  cases h1 : run N (N - 1) ops s with
  | error e => rw [h1] at hs; cases hs
  | ok s1 =>
    rw [h1] at hs
    obtain ⟨a, b⟩ := h s s1 hc h1
    rw [jobsN_append, a]
    exact h' s1 s' b hs

theorem Counts.nil (c : Nat) : Counts N P L c c [] [] := by
  intro s s' hc hs
  cases hs
  exact ⟨rfl, hc⟩

/-- Local work that leaves the count alone. -/
theorem Counts.ops {c : Nat} {ops : List (Disk.Op (LTen σ 𝕜) (Env3 𝕜))} (h : ∀ o ∈ ops, ∀ s s', exec N (N - 1) o s = .ok s' → s'.mem.clk = s.mem.clk) :
    Counts N P L c c [opsJob N ops] ops := by
  intro s s' hc hs
  refine ⟨hs, ?_⟩
  have : ∀ (ops : List (Disk.Op (LTen σ 𝕜) (Env3 𝕜))), (∀ o ∈ ops, ∀ s s', exec N (N - 1) o s = .ok s' → s'.mem.clk = s.mem.clk) → ∀ s s', run N (N - 1) ops s = .ok s' → s'.mem.clk = s.mem.clk := by
    intro ops
    induction ops with
    | nil => intro _ s s' h; cases h; rfl
    | cons o ops ih =>
      intro h s s' hs
      unfold run at hs
      obtain ⟨s1, h1, h2⟩ := bind_ok hs
      exact (ih (fun o ho => h o (List.mem_cons_of_mem _ ho)) _ _ h2).trans (h o List.mem_cons_self _ _ h1)
  exact (this ops h s s' hs).trans hc

theorem exec_clk {o : Disk.Op (LTen σ 𝕜) (Env3 𝕜)} (ho : ∀ f, o ≠ .calc f) (s s' : Sys (LTen σ 𝕜) (Env3 𝕜)) (h : exec N (N - 1) o s = .ok s') : s'.mem.clk = s.mem.clk := by
  have := (FP.ops N (N - 1) o ho).frame s s' h .clk (by cases o <;> simp_all [Disk.Op.wr])
  exact this.symm

theorem fresh_clk (s s' : Sys (LTen σ 𝕜) (Env3 𝕜)) (h : exec N (N - 1) (.calc freshEnvs) s = .ok s') : s'.mem.clk = s.mem.clk := by
  obtain ⟨m, h1, rfl⟩ := exec_calc h
  cases h1
  rfl

/-- The update of the sites `l`, `l + 1` in terms of the serial solver. -/
theorem lanczosN (hL : L.OKN P lact W) (hK : 2 ≤ P.maxIter) (hT : TriLocal P.tri) (l : Nat) (e f : Env3 𝕜) (t u : Ten σ 𝕜) :
    ∃ g, lanczosAt P.toVmpsPar l e f t u = some g ∧
      (tnFull N P L).lanczos (tnEng N P L) () (.val (.env e)) (.val (.op (P.w l))) (.val (.op (P.w (l + 1)))) (.val (.env f)) (.val (.two (mergeTen t u))) = gsTX g := by
  obtain ⟨g, g1, g2⟩ := fullN_lanczos (N := N) hL hK hT e f (P.w l) (P.w (l + 1)) (mergeTen t u)
  exact ⟨g, g1, g2⟩

/-- An update to the right. -/
theorem countsR (hL : L.OKN P lact W) (hK : 2 ≤ P.maxIter) (hT : TriLocal P.tri) {c : Nat} {ν : ℝ} (hν : P.noise c = ν) (i : Nat) :
    Counts N P L c (c + 1) [.upd ⟨true, i, (), some ν⟩] [.calc (upd3R (tnAlg N P.toVmpsPar) (tnOpt P) N (N - 1) i)] := by
  intro s s' hc hs
  obtain ⟨m, h, rfl⟩ := exec_calc (run_one hs)
  unfold upd3R at h
  split at h
  · rename_i hb
    obtain ⟨e, he, h⟩ := bind_ok h
    obtain ⟨f, hf, h⟩ := bind_ok h
    obtain ⟨t, ht, h⟩ := bind_ok h
    obtain ⟨u, hu, h⟩ := bind_ok h
    obtain ⟨v, hv, h⟩ := bind_ok h
    have he := use_ok he
    have hf := use_ok hf
    have ht := use_ok ht
    have hu := use_ok hu
    have hv := use_ok hv
    obtain ⟨g, g1, g2⟩ := lanczosN (N := N) hL hK hT i e f t.ten u.ten
    have hop : tnOpt P s.mem.clk .r i e f t u v = ((⟨(P.splitR (tnExpR P ν i e t.ten u.ten (ofV g.vec) v.ten).1).1, some g.energy⟩, ⟨(P.splitR (tnExpR P ν i e t.ten u.ten (ofV g.vec) v.ten).1).2, some g.energy⟩,
        ⟨(tnExpR P ν i e t.ten u.ten (ofV g.vec) v.ten).2, some g.energy⟩), c + 1) := by
      unfold tnOpt tnUpd
      rw [hc, hν]
      simp only [g1]
    simp only [hop] at h
    cases h
    refine ⟨?_, rfl⟩
    show (tnFull N P L).update (tnEng N P L) true i () (some ν) (.ok s) = _
    unfold Full.update
    have l1 : (tnEng N P L).lenv (.ok s) i = .val (.env e) := by
      show slotE (s.mem.l i) = _
      rw [he]; rfl
    have r1 : (tnEng N P L).renv (.ok s) ((tnEng N P L).N - (i + 2)) = .val (.env f) := by
      show slotE (s.mem.r (N - (i + 2))) = _
      rw [hf]; rfl
    have p1 : (tnEng N P L).pair (.ok s) i = .val (.two (mergeTen t.ten u.ten)) := by
      show (match s.mem.m i, s.mem.m (i + 1) with
        | some t, some u => TX.val (.two (mergeTen t.ten u.ten))
        | _, _ => .bad) = _
      rw [ht, hu]
    have n1 : (tnEng N P L).needExp (.ok s) true i ν = tnNeed P ν .r i t.ten u.ten := by
      show (match s.mem.m i, s.mem.m (i + 1) with
        | some t, some u => tnNeed P ν .r i t.ten u.ten
        | _, _ => false) = _
      rw [ht, hu]
    simp only [if_true]
    rw [l1, r1, p1, show (tnEng N P L).mpo i = .val (.op (P.w i)) from rfl, show (tnEng N P L).mpo (i + 1) = .val (.op (P.w (i + 1))) from rfl, g2, n1]
    -- the end of the update, with the block `B` and the tensor `x` behind it
    have fin : ∀ (s1 : Sys (LTen σ 𝕜) (Env3 𝕜)) (B : Blk2 σ 𝕜) (x : Ten σ 𝕜), s1.dsk = s.dsk → s1.mem.l = s.mem.l → s1.mem.r = s.mem.r → s1.mem.reg = s.mem.reg → s1.mem.clk = s.mem.clk →
        (∀ k, k ≠ i + 2 → s1.mem.m k = s.mem.m k) → (∃ w, s1.mem.m (i + 2) = some w ∧ w.ten = x) →
        (tnFull N P L).finish (tnEng N P L) true i (.val (.gs B (some g.energy))) (.ok s1) = .ok ⟨{ s.mem with
          m := Function.update (Function.update (Function.update s.mem.m i (some ⟨(P.splitR B).1, some g.energy⟩)) (i + 1) (some ⟨(P.splitR B).2, some g.energy⟩)) (i + 2) (some ⟨x, some g.energy⟩)
          l := Function.update s.mem.l (i + 1) (some ((tnAlg N P.toVmpsPar).growL i e ⟨(P.splitR B).1, some g.energy⟩))
          clk := c + 1 }, s.dsk⟩ := by
      intro s1 B x q1 q2 q3 q4 q5 q6 ⟨w, q7, q8⟩
      unfold Full.finish
      simp only [if_true]
      have l2 : ∀ u', (tnEng N P L).lenv ((tnEng N P L).setSvd (.ok s1) true i (.val (.gs B (some g.energy))) u') i = .val (.env e) := fun u' => by
        show slotE (s1.mem.l i) = _
        rw [q2, he]; rfl
      have m2 : (tnEng N P L).mps ((tnEng N P L).setSvd (.ok s1) true i (.val (.gs B (some g.energy))) ((tnFull N P L).svd (.ok s1) i (.val (.gs B (some g.energy))))) i =
          .val (.site (P.splitR B).1) := by
        show slotM (Function.update (β := fun _ => Option (LTen σ 𝕜)) (Function.update _ i _) (i + 1) _ i) = _
        rw [Function.update_of_ne (by omega), Function.update_self]
        rfl
      rw [l2, m2, show (tnEng N P L).mpo i = .val (.op (P.w i)) from rfl, fullN_growL hL]
      show Except.ok (⟨{ s1.mem with
          m := Function.update (Function.update (Function.update s1.mem.m (i + 2) ((s1.mem.m (i + 2)).map fun t => ⟨t.ten, some g.energy⟩)) i (some ⟨(P.splitR B).1, some g.energy⟩)) (i + 1) (some ⟨(P.splitR B).2, some g.energy⟩)
          l := Function.update s1.mem.l (i + 1) (some (siteLenv (P.w i) e (P.splitR B).1))
          clk := s1.mem.clk + 1 }, s1.dsk⟩ : Sys (LTen σ 𝕜) (Env3 𝕜)) = _
      simp only [q1, q2, q3, q4, q5, hc]
      congr 3
      funext k
      by_cases k2 : k = i + 2
      · subst k2
        rw [Function.update_of_ne (by omega), Function.update_of_ne (by omega), Function.update_self, Function.update_self, q7, ← q8]
        rfl
      · by_cases k1 : k = i + 1
        · subst k1
          rw [Function.update_self, Function.update_of_ne k2, Function.update_self]
        · by_cases k0 : k = i
          · subst k0
            rw [Function.update_of_ne k1, Function.update_self, Function.update_of_ne k2, Function.update_of_ne k1, Function.update_self]
          · rw [Function.update_of_ne k1, Function.update_of_ne k0, Function.update_of_ne k2, Function.update_of_ne k2, Function.update_of_ne k1, Function.update_of_ne k0, q6 k k2]
    unfold tnExpR
    by_cases hn : tnNeed P ν .r i t.ten u.ten = true
    · rw [if_pos hn, if_pos hn, hL.pick, hL.wr]
      unfold gsTX
      rw [fullN_expR hL]
      obtain ⟨j1, j2⟩ := join_expR (L.pick .r (P.w i) (P.w (i + 1)) (ofV g.vec)) (P.w i) (P.w (i + 1)) (ofV g.vec) ν e v.ten
      have := fin ⟨{ s.mem with m := Function.update s.mem.m (i + 2) ((s.mem.m (i + 2)).map fun t => ⟨fillL (ofV g.vec).r (expPartR (L.pick .r (P.w i) (P.w (i + 1)) (ofV g.vec)) (P.w i) (P.w (i + 1)) (ofV g.vec) ν e).r t.ten, t.e0⟩) }, s.dsk⟩
        (joinR (ofV g.vec) (expPartR (L.pick .r (P.w i) (P.w (i + 1)) (ofV g.vec)) (P.w i) (P.w (i + 1)) (ofV g.vec) ν e))
        (fillL (ofV g.vec).r (expPartR (L.pick .r (P.w i) (P.w (i + 1)) (ofV g.vec)) (P.w i) (P.w (i + 1)) (ofV g.vec) ν e).r v.ten) rfl rfl rfl rfl rfl
        (fun k hk => Function.update_of_ne hk _ _) ⟨_, by
          show Function.update _ _ _ _ = _
          rw [Function.update_self, hv]; rfl, rfl⟩
      rw [j1, j2] at this
      rw [← this]
      simp only [← j1, ← j2]
      rfl
    · rw [if_neg hn, if_neg hn]
      exact fin s (ofV g.vec) v.ten rfl rfl rfl rfl rfl (fun _ _ => rfl) ⟨v, hv, rfl⟩
  · cases h

/-- An update to the left. -/
theorem countsL (hL : L.OKN P lact W) (hK : 2 ≤ P.maxIter) (hT : TriLocal P.tri) {c : Nat} {ν : ℝ} (hν : P.noise c = ν) (i : Nat) :
    Counts N P L c (c + 1) [.upd ⟨false, i, (), some ν⟩] [.calc (upd3L (tnAlg N P.toVmpsPar) (tnOpt P) N (N - 1) i)] := by
  intro s s' hc hs
  obtain ⟨m, h, rfl⟩ := exec_calc (run_one hs)
  unfold upd3L at h
  split at h
  · rename_i hb
    obtain ⟨e, he, h⟩ := bind_ok h
    obtain ⟨f, hf, h⟩ := bind_ok h
    obtain ⟨t, ht, h⟩ := bind_ok h
    obtain ⟨u, hu, h⟩ := bind_ok h
    obtain ⟨v, hv, h⟩ := bind_ok h
    have he := use_ok he
    have hf := use_ok hf
    have ht := use_ok ht
    have hu := use_ok hu
    have hv := use_ok hv
    obtain ⟨q, rfl⟩ : ∃ q, i = q + 2 := ⟨i - 2, by omega⟩
    rw [show q + 2 - 1 = q + 1 by omega] at he hu
    rw [show q + 2 - 2 = q by omega] at ht
    obtain ⟨g, g1, g2⟩ := lanczosN (N := N) hL hK hT (q + 1) e f u.ten v.ten
    have hop : tnOpt P s.mem.clk .l (q + 2) e f t u v = ((⟨(tnExpL P ν (q + 1) f u.ten v.ten t.ten (ofV g.vec)).1, some g.energy⟩, ⟨(P.splitL (tnExpL P ν (q + 1) f u.ten v.ten t.ten (ofV g.vec)).2).1, some g.energy⟩,
        ⟨(P.splitL (tnExpL P ν (q + 1) f u.ten v.ten t.ten (ofV g.vec)).2).2, some g.energy⟩), c + 1) := by
      unfold tnOpt tnUpd
      rw [hc, hν]
      simp only [show q + 2 - 1 = q + 1 by omega]
      rw [g1]
    simp only [hop] at h
    cases h
    refine ⟨?_, rfl⟩
    show (tnFull N P L).update (tnEng N P L) false (q + 1) () (some ν) (.ok s) = _
    unfold Full.update
    have l1 : (tnEng N P L).lenv (.ok s) (q + 1) = .val (.env e) := by
      show slotE (s.mem.l (q + 1)) = _
      rw [he]; rfl
    have r1 : (tnEng N P L).renv (.ok s) ((tnEng N P L).N - (q + 1 + 2)) = .val (.env f) := by
      show slotE (s.mem.r (N - (q + 1 + 2))) = _
      rw [show N - (q + 1 + 2) = N - (q + 2) - 1 by omega, hf]; rfl
    have p1 : (tnEng N P L).pair (.ok s) (q + 1) = .val (.two (mergeTen u.ten v.ten)) := by
      show (match s.mem.m (q + 1), s.mem.m (q + 1 + 1) with
        | some t, some u => TX.val (.two (mergeTen t.ten u.ten))
        | _, _ => .bad) = _
      rw [hu, hv]
    have n1 : (tnEng N P L).needExp (.ok s) false (q + 1 + 1) ν = tnNeed P ν .l (q + 1) u.ten v.ten := by
      show (match s.mem.m (q + 1), s.mem.m (q + 1 + 1) with
        | some t, some u => tnNeed P ν .l (q + 1) t.ten u.ten
        | _, _ => false) = _
      rw [hu, hv]
    simp only [Bool.false_eq_true, if_false]
    rw [l1, r1, p1, show (tnEng N P L).mpo (q + 1) = .val (.op (P.w (q + 1))) from rfl, show (tnEng N P L).mpo (q + 1 + 1) = .val (.op (P.w (q + 1 + 1))) from rfl, g2, n1]
    -- the end of the update, with the block `B` and the tensor `x` behind it
    have fin : ∀ (s1 : Sys (LTen σ 𝕜) (Env3 𝕜)) (B : Blk2 σ 𝕜) (x : Ten σ 𝕜), s1.dsk = s.dsk → s1.mem.l = s.mem.l → s1.mem.r = s.mem.r → s1.mem.reg = s.mem.reg → s1.mem.clk = s.mem.clk →
        (∀ k, k ≠ q → s1.mem.m k = s.mem.m k) → (∃ w, s1.mem.m q = some w ∧ w.ten = x) →
        (tnFull N P L).finish (tnEng N P L) false (q + 1) (.val (.gs B (some g.energy))) (.ok s1) = .ok ⟨{ s.mem with
          m := Function.update (Function.update (Function.update s.mem.m (q + 2 - 2) (some ⟨x, some g.energy⟩)) (q + 2 - 1) (some ⟨(P.splitL B).1, some g.energy⟩)) (q + 2) (some ⟨(P.splitL B).2, some g.energy⟩)
          r := Function.update s.mem.r (N - (q + 2)) (some ((tnAlg N P.toVmpsPar).growR (q + 2) f ⟨(P.splitL B).2, some g.energy⟩))
          clk := c + 1 }, s.dsk⟩ := by
      intro s1 B x q1 q2 q3 q4 q5 q6 ⟨w, q7, q8⟩
      unfold Full.finish
      simp only [Bool.false_eq_true, if_false]
      have l2 : ∀ u', (tnEng N P L).renv ((tnEng N P L).setSvd (.ok s1) false (q + 1) (.val (.gs B (some g.energy))) u') ((tnEng N P L).N - (q + 1 + 2)) = .val (.env f) := fun u' => by
        show slotE (s1.mem.r (N - (q + 1 + 2))) = _
        rw [q3, show N - (q + 1 + 2) = N - (q + 2) - 1 by omega, hf]; rfl
      have m2 : (tnEng N P L).mps ((tnEng N P L).setSvd (.ok s1) false (q + 1) (.val (.gs B (some g.energy))) ((tnFull N P L).svd (.ok s1) (q + 1) (.val (.gs B (some g.energy))))) (q + 1 + 1) =
          .val (.site (P.splitL B).2) := by
        show slotM (Function.update (β := fun _ => Option (LTen σ 𝕜)) (Function.update _ (q + 1) _) (q + 1 + 1) _ (q + 1 + 1)) = _
        rw [Function.update_self]
        rfl
      rw [l2, m2, show (tnEng N P L).mpo (q + 1 + 1) = .val (.op (P.w (q + 2))) from rfl, fullN_growR hL]
      show Except.ok (⟨{ s1.mem with
          m := Function.update (Function.update (Function.update s1.mem.m q ((s1.mem.m q).map fun t => ⟨t.ten, some g.energy⟩)) (q + 1) (some ⟨(P.splitL B).1, some g.energy⟩)) (q + 2) (some ⟨(P.splitL B).2, some g.energy⟩)
          r := Function.update s1.mem.r (N - (q + 2)) (some (siteRenv (P.w (q + 2)) ⟨(P.splitL B).2.r, f.d1, (P.splitL B).2.r, f.v⟩ (P.splitL B).2))
          clk := s1.mem.clk + 1 }, s1.dsk⟩ : Sys (LTen σ 𝕜) (Env3 𝕜)) = _
      simp only [q1, q2, q3, q4, q5, hc]
      congr 3
      rw [show q + 2 - 2 = q by omega, show q + 2 - 1 = q + 1 by omega]
      funext k
      by_cases k2 : k = q + 2
      · subst k2
        rw [Function.update_self, Function.update_self]
      · rw [Function.update_of_ne k2, Function.update_of_ne k2]
        by_cases k1 : k = q + 1
        · subst k1
          rw [Function.update_self, Function.update_self]
        · rw [Function.update_of_ne k1, Function.update_of_ne k1]
          by_cases k0 : k = q
          · subst k0
            rw [Function.update_self, Function.update_self, q7, ← q8]
            rfl
          · rw [Function.update_of_ne k0, Function.update_of_ne k0, q6 k k0]
    unfold tnExpL
    by_cases hn : tnNeed P ν .l (q + 1) u.ten v.ten = true
    · rw [if_pos hn, if_pos hn, hL.pick]
      unfold gsTX
      rw [fullN_expL hL]
      obtain ⟨j1, j2⟩ := join_expL (L.pick .l (P.w (q + 1)) (P.w (q + 1 + 1)) (ofV g.vec)) (P.w (q + 1)) (P.w (q + 1 + 1)) (ofV g.vec) ν f t.ten
      have := fin ⟨{ s.mem with m := Function.update s.mem.m q ((s.mem.m q).map fun t => ⟨fillR (ofV g.vec).l (expPartL (L.pick .l (P.w (q + 1)) (P.w (q + 1 + 1)) (ofV g.vec)) (P.w (q + 1)) (P.w (q + 1 + 1)) (ofV g.vec) ν f).l t.ten, t.e0⟩) }, s.dsk⟩
        (joinL (ofV g.vec) (expPartL (L.pick .l (P.w (q + 1)) (P.w (q + 1 + 1)) (ofV g.vec)) (P.w (q + 1)) (P.w (q + 1 + 1)) (ofV g.vec) ν f))
        (fillR (ofV g.vec).l (expPartL (L.pick .l (P.w (q + 1)) (P.w (q + 1 + 1)) (ofV g.vec)) (P.w (q + 1)) (P.w (q + 1 + 1)) (ofV g.vec) ν f).l t.ten) rfl rfl rfl rfl rfl
        (fun k hk => Function.update_of_ne hk _ _) ⟨_, by
          show Function.update _ _ _ _ = _
          rw [Function.update_self, ht]; rfl, rfl⟩
      rw [j1, j2] at this
      rw [← this]
      simp only [← j1, ← j2]
      rfl
    · rw [if_neg hn, if_neg hn]
      exact fin s (ofV g.vec) t.ten rfl rfl rfl rfl rfl (fun _ _ => rfl) ⟨t, ht, rfl⟩
  · cases h

/-- The loops over the sites. -/
theorem Counts.loop {ν : ℝ} {f : Nat → List (Eng.Job (MD σ 𝕜) Unit ℝ)} {g : Nat → List (Disk.Op (LTen σ 𝕜) (Env3 𝕜))} (h : ∀ c i, P.noise c = ν → Counts N P L c (c + 1) (f i) (g i)) :
    ∀ (l : List Nat) (c : Nat), (∀ j < l.length, P.noise (c + j) = ν) → Counts N P L c (c + l.length) (l.flatMap f) (l.flatMap g) := by
  intro l
  induction l with
  | nil => intro c _; exact Counts.nil c
  | cons a l ih =>
    intro c hc
    rw [List.flatMap_cons, List.flatMap_cons, List.length_cons, show c + (l.length + 1) = c + 1 + l.length by omega]
    exact (h c a (hc 0 (by simp))).append (ih (c + 1) fun j hj => by rw [show c + 1 + j = c + (j + 1) by omega]; exact hc (j + 1) (by simp; omega))

theorem counts_jobsR (hL : L.OKN P lact W) (hK : 2 ≤ P.maxIter) (hT : TriLocal P.tri) (lb : Nat) {ν : ℝ} (c i : Nat) (hν : P.noise c = ν) :
    Counts N P L c (c + 1) (jobsR3 N lb ν i) (stepR3' (tnAlg N P.toVmpsPar) (tnOpt P) N lb i) := by
  unfold jobsR3 stepR3'
  refine (Counts.ops fun o ho => exec_clk fun f e => ?_).append ((countsR hL hK hT hν i).append (Counts.ops fun o ho => exec_clk fun f e => ?_))
  · subst e
    unfold loadR3 at ho
    split at ho <;> simp at ho
  · subst e
    simp [dumpR3] at ho

theorem counts_jobsL (hL : L.OKN P lact W) (hK : 2 ≤ P.maxIter) (hT : TriLocal P.tri) (rb : Nat) {ν : ℝ} (c i : Nat) (hν : P.noise c = ν) :
    Counts N P L c (c + 1) (jobsL3 N rb ν i) (stepL3' (tnAlg N P.toVmpsPar) (tnOpt P) N rb i) := by
  unfold jobsL3 stepL3'
  refine (Counts.ops fun o ho => exec_clk fun f e => ?_).append ((countsL hL hK hT hν i).append (Counts.ops fun o ho => exec_clk fun f e => ?_))
  · subst e
    unfold loadL3 at ho
    split at ho <;> simp at ho
  · subst e
    simp [dumpL3] at ho

/-- One sweep. -/
theorem counts_sweep (hL : L.OKN P lact W) (hK : 2 ≤ P.maxIter) (hT : TriLocal P.tri) {lb rb : Nat} {ν : ℝ} {c : Nat} (hν : ∀ j < 2 * (rb - 1 - lb), P.noise (c + j) = ν) :
    Counts N P L c (c + 2 * (rb - 1 - lb)) (sweepJ3 N lb rb ν) (sweep3' (tnAlg N P.toVmpsPar) (tnOpt P) N lb rb) := by
  have hf : ∀ c, Counts N P L c c [opsJob N [.calc freshEnvs]] [.calc freshEnvs] := fun c => Counts.ops fun o ho => by
    simp only [List.mem_singleton] at ho
    subst ho
    exact fresh_clk
  have h1 := Counts.loop (counts_jobsR (N := N) hL hK hT lb) (List.range' lb (rb - 1 - lb)) c (fun j hj => hν j (by rw [List.length_range'] at hj; omega))
  have h2 := Counts.loop (counts_jobsL (N := N) hL hK hT rb) (List.range' (lb + 2) (rb - 1 - lb)).reverse (c + (rb - 1 - lb)) (fun j hj => by
    rw [List.length_reverse, List.length_range'] at hj
    rw [Nat.add_assoc]
    exact hν _ (by omega))
  rw [List.length_range'] at h1
  rw [List.length_reverse, List.length_range', show c + (rb - 1 - lb) + (rb - 1 - lb) = c + 2 * (rb - 1 - lb) by omega] at h2
  exact (hf c).append (h1.append (h2.append (hf _)))

/-- All sweeps. -/
theorem counts_sweeps (hL : L.OKN P lact W) (hK : 2 ≤ P.maxIter) (hT : TriLocal P.tri) {lb rb : Nat} {ν : Nat → ℝ} {c : Nat}
    (hν : ∀ s j, j < 2 * (rb - 1 - lb) → P.noise (c + s * (2 * (rb - 1 - lb)) + j) = ν s) (k : Nat) :
    Counts N P L c (c + k * (2 * (rb - 1 - lb))) ((List.range k).flatMap fun s => sweepJ3 N lb rb (ν s)) (List.replicate k (sweep3' (tnAlg N P.toVmpsPar) (tnOpt P) N lb rb)).flatten := by
  induction k with
  | zero => rw [Nat.zero_mul]; exact Counts.nil c
  | succ k ih =>
    rw [List.range_succ, List.flatMap_append, List.replicate_succ', List.flatten_append, Nat.succ_mul, ← Nat.add_assoc]
    refine ih.append ?_
    simp only [List.flatMap_cons, List.flatMap_nil, List.append_nil, List.flatten_cons, List.flatten_nil]
    exact counts_sweep hL hK hT (hν k)

/-- Everything after the initialisation. -/
theorem counts_program (hL : L.OKN P lact W) (hK : 2 ≤ P.maxIter) (hT : TriLocal P.tri) {lb rb : Nat} {ν : Nat → ℝ} {c : Nat}
    (hν : ∀ s j, j < 2 * (rb - 1 - lb) → P.noise (c + s * (2 * (rb - 1 - lb)) + j) = ν s) (k : Nat) (C : Disk.Canon (LTen σ 𝕜)) (Q : Gauge (LTen σ 𝕜)) {s s' : Sys (LTen σ 𝕜) (Env3 𝕜)}
    (hc : s.mem.clk = c) (hs : run N (N - 1) (sweeps3' (tnAlg N P.toVmpsPar) (tnOpt P) N C lb rb k ++ (.calc (assertEmpty N) :: noisedPost Q lb)) s = .ok s') :
    (tnFull N P L).jobs (tnEng N P L) (opsJob N [.ldM lb, .ldM (lb + 1)] :: ((List.range k).flatMap (fun s => sweepJ3 N lb rb (ν s)) ++
      [opsJob N [.calc (canonC C lb), .dpM lb true, .dpM (lb + 1) true], opsJob N (.calc (assertEmpty N) :: noisedPost Q lb)])) (.ok s) = .ok s' := by
  have h1 : Counts N P L c c [opsJob N [.ldM lb, .ldM (lb + 1)]] [.ldM lb, .ldM (lb + 1)] := Counts.ops fun o ho => exec_clk fun f e => by
    subst e
    simp at ho
  have h2 := h1.append (counts_sweeps hL hK hT hν k)
  have e : sweeps3' (tnAlg N P.toVmpsPar) (tnOpt P) N C lb rb k ++ (.calc (assertEmpty N) :: noisedPost Q lb) =
      ([.ldM lb, .ldM (lb + 1)] ++ (List.replicate k (sweep3' (tnAlg N P.toVmpsPar) (tnOpt P) N lb rb)).flatten) ++
        ([.calc (canonC C lb), .dpM lb true, .dpM (lb + 1) true] ++ (.calc (assertEmpty N) :: noisedPost Q lb)) := by
    unfold sweeps3'
    simp
  rw [e, run_append] at hs
  obtain ⟨s1, r1, r2⟩ := bind_ok hs
  obtain ⟨j1, -⟩ := h2 s s1 hc r1
  have e2 : opsJob N [.ldM lb, .ldM (lb + 1)] :: ((List.range k).flatMap (fun s => sweepJ3 N lb rb (ν s)) ++
      [opsJob N [.calc (canonC C lb), .dpM lb true, .dpM (lb + 1) true], opsJob N (.calc (assertEmpty N) :: noisedPost Q lb)]) =
      ([opsJob N [.ldM lb, .ldM (lb + 1)]] ++ (List.range k).flatMap (fun s => sweepJ3 N lb rb (ν s))) ++
        ([opsJob N [.calc (canonC C lb), .dpM lb true, .dpM (lb + 1) true]] ++ [opsJob (σ := σ) (𝕜 := 𝕜) N (.calc (assertEmpty N) :: noisedPost Q lb)]) := by
    simp
  rw [e2, jobsN_append, j1]
  exact ((DoesN.ops _).append (DoesN.ops _)) s1 s' r2

/-- The sites of all updates exist. -/
theorem tn_jobs_ok {C : Disk.Canon (LTen σ 𝕜)} {G Q : Gauge (LTen σ 𝕜)} {bl br : Nat → Bool} (hN : 3 ≤ N) (hK : 2 ≤ P.maxIter) (A : Alg (LTen σ 𝕜) (Env3 𝕜)) (d : Dsk (LTen σ 𝕜) (Env3 𝕜))
    (noises : List ℝ) (k : Nat) : ∀ j ∈ masterJ3 A C G Q bl br N d noises k, j.ok (tnEng N P L) .vmps := by
  obtain ⟨b1, b2⟩ := bounds_ok bl br hN
  intro j hj
  simp only [masterJ3, List.mem_cons, List.mem_append, List.not_mem_nil, or_false] at hj
  rcases hj with (rfl | hj | rfl) | rfl | hj | rfl | rfl
  · trivial
  · split at hj
    · simp only [initJ, List.mem_cons, List.not_mem_nil, or_false] at hj
      rcases hj with rfl | rfl | rfl
      · trivial
      · exact ⟨rfl, by show N - _ ≤ N; omega⟩
      · trivial
    · cases hj
  · trivial
  · trivial
  · rw [List.mem_flatMap] at hj
    obtain ⟨l, -, hj⟩ := hj
    simp only [sweepJ3, List.mem_cons, List.mem_append, List.mem_flatMap, jobsR3, jobsL3, List.mem_reverse, List.mem_range'_1, List.not_mem_nil, or_false] at hj
    rcases hj with rfl | ⟨i, hi, rfl | rfl | rfl⟩ | ⟨i, hi, rfl | rfl | rfl⟩ | rfl
    · trivial
    · trivial
    · exact ⟨by show i + 1 < N; omega, hK, fun h => by cases h⟩
    · trivial
    · trivial
    · exact ⟨by show 1 ≤ i ∧ i < N; omega, hK, fun h => by cases h⟩
    · trivial
    · trivial
  · trivial
  · trivial

end
end Verif.Mpi
