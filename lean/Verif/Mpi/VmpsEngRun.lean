import Verif.Mpi.VmpsEng
import Verif.Mpi.DmrgEngRun
import Verif.Mps.VmpsGauge
import Verif.Props.Vmps
/-
What the parallel two-site optimisation computes as a whole (helper facts, not property statements): the sums over the sectors are the contractions of the serial program, the Lanczos
run of the master is that of the serial program, and the updates on a closed chain are those of `vmpsAlg`.
-/
namespace Verif.Mpi
open Finset Verif.Mps Verif.Algo Verif.Disk

section
variable {σ 𝕜 : Type} [RCLike 𝕜] [Fintype σ] [DecidableEq σ] {N : Nat} {P : VmpsPar σ 𝕜} {SL : Type} {L : MpiLib σ 𝕜 SL}

/-- The environment with nothing beyond its first leg. -/
def maskE (e : Env3 𝕜) : Env3 𝕜 := ⟨e.d0, e.d1, e.d2, fun a c b => if a < e.d0 then e.v a c b else 0⟩

/-- The same for its last leg. -/
def maskE2 (e : Env3 𝕜) : Env3 𝕜 := ⟨e.d0, e.d1, e.d2, fun a c b => if b < e.d2 then e.v a c b else 0⟩

theorem sec_sum {K : Type} [AddCommMonoid K] {ds : List Nat} {d : Nat} (h : ds.sum = d) (a : Nat) (x : K) :
    ∑ j ∈ range ds.length, (if inSec ds j a then x else 0) = if a < d then x else 0 := by
  rw [inSec_sum ds a x ds.length (Nat.le_refl _), List.take_length, h]

theorem effHam_sum (ds : List Nat) (e f : Env3 𝕜) (h : ds.sum = e.d0) (w1 w2 : Ten (σ × σ) 𝕜) (l r : Nat) (v : TwoV σ 𝕜 l r) :
    ∑ j ∈ range ds.length, effHam (selE ds j e) f w1 w2 l r v = effHam (maskE e) f w1 w2 l r v := by
  have key : ∀ i k : Fin l × σ × σ × Fin r, ∑ j ∈ range ds.length, effCoef (selE ds j e) f w1 w2 i.1 i.2.1 i.2.2.1 i.2.2.2 k.1 k.2.1 k.2.2.1 k.2.2.2 =
      effCoef (maskE e) f w1 w2 i.1 i.2.1 i.2.2.1 i.2.2.2 k.1 k.2.1 k.2.2.1 k.2.2.2 := by
    intro i k
    unfold effCoef
    simp only [selE, maskE]
    refine Eq.trans Finset.sum_comm (sum_congr rfl fun c1 _ => ?_)
    refine Eq.trans Finset.sum_comm (sum_congr rfl fun c2 _ => ?_)
    refine Eq.trans Finset.sum_comm (sum_congr rfl fun c3 _ => ?_)
    rw [← Finset.sum_mul, ← Finset.sum_mul, ← Finset.sum_mul]
    congr 3
    exact sec_sum h _ _
  ext i
  have hap : ∀ E : Env3 𝕜, (effHam E f w1 w2 l r v) i = ∑ k, effCoef E f w1 w2 i.1 i.2.1 i.2.2.1 i.2.2.2 k.1 k.2.1 k.2.2.1 k.2.2.2 * v k := fun E => by
    simp [effHam, Matrix.toLpLin_apply, Matrix.mulVec, dotProduct]
  rw [hap]
  have hs : (∑ j ∈ range ds.length, effHam (selE ds j e) f w1 w2 l r v) i = ∑ j ∈ range ds.length, (effHam (selE ds j e) f w1 w2 l r v) i := by
    simp
  rw [hs, sum_congr rfl fun j _ => hap _, Finset.sum_comm]
  refine sum_congr rfl fun k _ => ?_
  rw [← Finset.sum_mul, key]

omit [DecidableEq σ] in
theorem ofV_sum {l r : Nat} (n : Nat) (g : Nat → TwoV σ 𝕜 l r) : (fun x y a b => ∑ j ∈ range n, (ofV (g j)).v x y a b) = (ofV (∑ j ∈ range n, g j)).v := by
  funext x y a b
  simp only [ofV]
  by_cases h : a < l ∧ b < r
  · simp only [dif_pos h]
    simp
  · simp only [dif_neg h]
    simp

/-- The product of the effective Hamiltonian with a state. -/
theorem full_mul {lact : Nat → SL → Act SL VL} {W : Nat} (hL : L.OK P lact W) (e f : Env3 𝕜) (w1 w2 : Ten (σ × σ) 𝕜) (B : Blk2 σ 𝕜) :
    (vmpsFull N P L).mul (.val (.env e)) (.val (.op w1)) (.val (.op w2)) (.val (.env f)) (.val (.two B)) =
      .val (.two (ofV (effHam (maskE e) f w1 w2 B.l B.r (toV B)))) := by
  show ∑ j ∈ range (L.sec 0 (.val (.env e))).length, TX.val (.two (ofV (effHam (selE (L.sec 0 (.val (.env e))) j e) f w1 w2 B.l B.r (toV B)))) = _
  rw [← effHam_sum _ e f (hL.env e)]
  refine (TX.sum_two B.l B.r (fun j => (ofV (effHam (selE (L.sec 0 (.val (.env e))) j e) f w1 w2 B.l B.r (toV B))).v) _ ?_).trans ?_
  · intro h0
    exact hL.some 0 _ (List.length_eq_zero_iff.1 h0)
  · rw [ofV_sum]
    rfl

theorem full_ov {lact : Nat → SL → Act SL VL} {W : Nat} (hL : L.OK P lact W) (e f : Env3 𝕜) (w1 w2 : Ten (σ × σ) 𝕜) (B : Blk2 σ 𝕜) :
    (vmpsFull N P L).ov (.val (.env e)) (.val (.op w1)) (.val (.op w2)) (.val (.env f)) (.val (.two B)) =
      RCLike.re (inner 𝕜 (toV B) (effHam (maskE e) f w1 w2 B.l B.r (toV B))) := by
  show ∑ j ∈ range (L.sec 0 (.val (.env e))).length, RCLike.re (inner 𝕜 (toV B) (effHam (selE (L.sec 0 (.val (.env e))) j e) f w1 w2 B.l B.r (toV B))) = _
  rw [← effHam_sum _ e f (hL.env e), _root_.inner_sum, map_sum]

theorem full_growL {lact : Nat → SL → Act SL VL} {W : Nat} (hL : L.OK P lact W) (e : Env3 𝕜) (w : Ten (σ × σ) 𝕜) (t : Ten σ 𝕜) :
    (vmpsFull N P L).growL (.val (.env e)) (.val (.op w)) (.val (.site t)) = .val (.env (maskE2 (siteLenv w e t))) := by
  show ∑ j ∈ range (L.sec 2 (.val (.site t))).length, TX.val (.env (partL w e t (selR (L.sec 2 (.val (.site t))) j t))) = _
  refine (TX.sum_env t.r w.r t.r (fun j => (partL w e t (selR (L.sec 2 (.val (.site t))) j t)).v) _ ?_).trans ?_
  · intro h0
    exact hL.some 2 _ (List.length_eq_zero_iff.1 h0)
  · congr 2
    unfold maskE2 siteLenv
    simp only []
    congr 1
    funext a' c' b'
    have hs := sec_sum (K := 𝕜) (hL.right t) b' (∑ s, ∑ s', ∑ a ∈ range e.d0, ∑ c ∈ range e.d1, ∑ b ∈ range e.d2, star (t.v s a a') * w.v (s, s') c c' * t.v s' b b' * e.v a c b)
    rw [← hs]
    refine sum_congr rfl fun j _ => ?_
    unfold partL selR
    simp only []
    split
    · rfl
    · simp

theorem full_growR {lact : Nat → SL → Act SL VL} {W : Nat} (hL : L.OK P lact W) (e : Env3 𝕜) (w : Ten (σ × σ) 𝕜) (t : Ten σ 𝕜) :
    (vmpsFull N P L).growR (.val (.env e)) (.val (.op w)) (.val (.site t)) = .val (.env (maskE (siteRenv w ⟨t.r, e.d1, t.r, e.v⟩ t))) := by
  show ∑ j ∈ range (L.sec 0 (.val (.site t))).length, TX.val (.env (partR w e (selL (L.sec 0 (.val (.site t))) j t) t)) = _
  refine (TX.sum_env t.l w.l t.l (fun j => (partR w e (selL (L.sec 0 (.val (.site t))) j t) t).v) _ ?_).trans ?_
  · intro h0
    exact hL.some 0 _ (List.length_eq_zero_iff.1 h0)
  · congr 2
    unfold maskE siteRenv
    simp only []
    congr 1
    funext a c b
    have hs := sec_sum (K := 𝕜) (hL.left t) a (∑ s, ∑ s', ∑ a' ∈ range t.r, ∑ c' ∈ range e.d1, ∑ b' ∈ range t.r, star (t.v s a a') * w.v (s, s') c c' * t.v s' b b' * e.v a' c' b')
    rw [← hs]
    refine sum_congr rfl fun j _ => ?_
    unfold partR selL
    simp only []
    split
    · rfl
    · simp

/-! ### Lanczos -/

/-- The result of the serial solver as that of the parallel one. -/
noncomputable def gsTX {l r : Nat} (g : GsRes (TwoV σ 𝕜 l r)) : TX σ 𝕜 := .val (.gs (ofV g.vec) (some g.energy))

omit [DecidableEq σ] in
theorem vecOf_ofV {l r : Nat} (v : TwoV σ 𝕜 l r) : vecOf l r (ofV v) = v := by
  ext i
  simp [vecOf, ofV]

omit [DecidableEq σ] in
theorem toV_ofV' {l r : Nat} (v : TwoV σ 𝕜 l r) : toV (ofV v) = v := vecOf_ofV v

omit [DecidableEq σ] in
theorem take_run {l r : Nat} (m : LzM (TwoV σ 𝕜 l r)) (x : TwoV σ 𝕜 l r) (ov : ℝ) :
    LzX.take P ⟨l, r, .run m⟩ (.val (.two (ofV x))) ov = ⟨l, r, .run (lzNext 𝕜 P.tri P.maxIter P.tol m x ov)⟩ := by
  unfold LzX.take
  simp only []
  rw [if_pos ⟨rfl, rfl⟩, vecOf_ofV]

omit [DecidableEq σ] in
theorem take_start {l r : Nat} (v x : TwoV σ 𝕜 l r) (ov : ℝ) :
    LzX.take P ⟨l, r, .start v⟩ (.val (.two (ofV x))) ov = ⟨l, r, .run (lzBegin 𝕜 P.tri (l * (Fintype.card σ * Fintype.card σ) * r) v x ov)⟩ := by
  unfold LzX.take
  simp only []
  rw [if_pos ⟨rfl, rfl⟩, vecOf_ofV]

/-- The loop of the master is that of `LzM`. -/
theorem full_loop {VL : Type} {lact : Nat → SL → Act SL VL} {W : Nat} (hL : L.OK P lact W) (e f : Env3 𝕜) (w1 w2 : Ten (σ × σ) 𝕜) {l r : Nat} : ∀ (n : Nat) (m m' : LzM (TwoV σ 𝕜 l r)),
    lzLoopO (𝕜 := 𝕜) P.tri P.maxIter P.tol (WithTop.map (effHam (maskE e) f w1 w2 l r)) n (some m) = some (some m') →
    (vmpsFull N P L).loop (vmpsEng N P L) (.val (.env e)) (.val (.op w1)) (.val (.op w2)) (.val (.env f)) n ⟨l, r, .run m⟩ = LzX.result ⟨l, r, .run m'⟩ := by
  intro n
  have over : ∀ (n : Nat) (m : LzM (TwoV σ 𝕜 l r)), m.res.isSome = true →
      (vmpsFull N P L).loop (vmpsEng N P L) (.val (.env e)) (.val (.op w1)) (.val (.op w2)) (.val (.env f)) n ⟨l, r, .run m⟩ = LzX.result ⟨l, r, .run m⟩ := by
    intro n m hm
    cases n with
    | zero => rfl
    | succ n =>
      unfold Full.loop
      rw [if_pos (show (vmpsEng N P L).lzZero ⟨l, r, .run m⟩ = true from hm)]
      rfl
  induction n with
  | zero =>
    intro m m' h
    by_cases hm : m.res.isSome = true
    · have hv : lzVecO (some m) = none := if_pos hm
      simp only [lzLoopO, hv] at h
      obtain rfl := Option.some.inj (Option.some.inj h)
      rfl
    · have hv : lzVecO (some m) = some ((m.bs m.m : TwoV σ 𝕜 l r) : WithTop (TwoV σ 𝕜 l r)) := if_neg hm
      simp only [lzLoopO, hv] at h
      cases h
  | succ n ih =>
    intro m m' h
    by_cases hm : m.res.isSome = true
    · have hv : lzVecO (some m) = none := if_pos hm
      simp only [lzLoopO, hv] at h
      obtain rfl := Option.some.inj (Option.some.inj h)
      exact over _ _ hm
    · have hv : lzVecO (some m) = some ((m.bs m.m : TwoV σ 𝕜 l r) : WithTop (TwoV σ 𝕜 l r)) := if_neg hm
      simp only [lzLoopO, hv] at h
      have hx := ih _ m' h
      unfold Full.loop
      rw [if_neg (show ¬ (vmpsEng N P L).lzZero ⟨l, r, .run m⟩ = true from hm)]
      have hmul : (vmpsFull N P L).mul (.val (.env e)) (.val (.op w1)) (.val (.op w2)) (.val (.env f)) ((vmpsEng N P L).lzVec ⟨l, r, .run m⟩) =
          .val (.two (ofV (effHam (maskE e) f w1 w2 l r (m.bs m.m)))) := by
        refine (full_mul hL e f w1 w2 (ofV (m.bs m.m))).trans ?_
        show TX.val (.two (ofV (effHam (maskE e) f w1 w2 l r (toV (ofV (m.bs m.m)))))) = _
        rw [toV_ofV']
      have hov : (vmpsFull N P L).ov (.val (.env e)) (.val (.op w1)) (.val (.op w2)) (.val (.env f)) ((vmpsEng N P L).lzVec ⟨l, r, .run m⟩) =
          RCLike.re (inner 𝕜 (m.bs m.m) (effHam (maskE e) f w1 w2 l r (m.bs m.m))) := by
        refine (full_ov hL e f w1 w2 (ofV (m.bs m.m))).trans ?_
        show RCLike.re (inner 𝕜 (toV (ofV (m.bs m.m))) (effHam (maskE e) f w1 w2 l r (toV (ofV (m.bs m.m))))) = _
        rw [toV_ofV']
        rfl
      rw [hmul, hov]
      have ht : (vmpsEng N P L).lzTake ⟨l, r, .run m⟩ (.val (.two (ofV (effHam (maskE e) f w1 w2 l r (m.bs m.m)))))
          (RCLike.re (inner 𝕜 (m.bs m.m) (effHam (maskE e) f w1 w2 l r (m.bs m.m)))) = _ := take_run (P := P) m _ _
      rw [ht]
      have hx' : (vmpsFull N P L).loop (vmpsEng N P L) (.val (.env e)) (.val (.op w1)) (.val (.op w2)) (.val (.env f)) n
          ⟨l, r, .run (lzNext 𝕜 P.tri P.maxIter P.tol m (effHam (maskE e) f w1 w2 l r (m.bs m.m)) (RCLike.re (inner 𝕜 (m.bs m.m) (effHam (maskE e) f w1 w2 l r (m.bs m.m)))))⟩ =
          LzX.result ⟨l, r, .run m'⟩ := hx
      simp only []
      split
      · rename_i hs
        rw [← hx']
        exact (over n _ hs).symm
      · exact hx'

theorem gsLoop_some' {V : Type} [NormedAddCommGroup V] [InnerProductSpace 𝕜 V] (H : V →ₗ[𝕜] V) (v : V) (tri : TriSolver) (K dim : Nat) (err : ℝ) :
    ∀ fuel m e, m + 1 ≤ K - 1 → K - 1 ≤ m + fuel → ∃ r, gsLoop H v tri K dim err fuel m e = some r ∧ gsLoop H v tri K dim err (fuel + 1) m e = some r := by
  intro fuel
  induction fuel with
  | zero => intro m e h1 h2; omega
  | succ fuel ih =>
    intro m e h1 h2
    rw [gsLoop, gsLoop]
    simp only []
    split
    · split <;> exact ⟨_, rfl, rfl⟩
    · split
      · exact ⟨_, rfl, rfl⟩
      · rename_i hh
        push Not at hh
        exact ih _ _ (by omega) (by omega)

/-- The Lanczos solver of the master finds what the serial one finds. -/
theorem full_lanczos {VL : Type} {lact : Nat → SL → Act SL VL} {W : Nat} (hL : L.OK P lact W) (hK : 2 ≤ P.maxIter) (hT : TriLocal P.tri) (e f : Env3 𝕜) (w1 w2 : Ten (σ × σ) 𝕜) (B : Blk2 σ 𝕜) :
    ∃ g, gsSolve (effHam (maskE e) f w1 w2 B.l B.r) (toV B) P.tri P.maxIter (B.l * (Fintype.card σ * Fintype.card σ) * B.r) P.tol = some g ∧
      (vmpsFull N P L).lanczos (vmpsEng N P L) () (.val (.env e)) (.val (.op w1)) (.val (.op w2)) (.val (.env f)) (.val (.two B)) = gsTX g := by
  set h := effHam (maskE e) f w1 w2 B.l B.r with hh
  obtain ⟨g, g1, g2⟩ := gsLoop_some' h (toV B) P.tri P.maxIter (B.l * (Fintype.card σ * Fintype.card σ) * B.r) P.tol (P.maxIter - 1) 0
    (kDiag h (krylov h (toV B) 0)) (by omega) (by omega)
  rw [show P.maxIter - 1 + 1 = P.maxIter by omega] at g2
  refine ⟨g, g2, ?_⟩
  obtain ⟨s, s1, s2⟩ := lzLoopO_ok (V := TwoV σ 𝕜 B.l B.r) (ι := LinearIsometry.id) (h := h) (u0 := toV B) (H := WithTop.map h) hT (fun x => rfl) (P.maxIter - 1) (P.maxIter - 1) 0 _
    ⟨0, fun _ => normalize 𝕜 (toV B), fun i => if i = 0 then kDiag h (krylov h (toV B) 0) else 0, fun _ => 0,
      kDiag h (krylov h (toV B) 0), B.l * (Fintype.card σ * Fintype.card σ) * B.r, none⟩
    (kResid h true (krylov h (toV B) 0)) g (Nat.le_refl _) g1
    ⟨rfl, rfl, rfl, rfl, fun i hi => by obtain rfl : i = 0 := by omega
                                        rfl, fun i hi => absurd hi (by omega), fun i hi => absurd hi (by omega)⟩ rfl rfl
  have hmul : (vmpsFull N P L).mul (.val (.env e)) (.val (.op w1)) (.val (.op w2)) (.val (.env f)) ((vmpsEng N P L).lzVec ((vmpsEng N P L).lzStart () (.val (.two B)))) =
      .val (.two (ofV (h (normalize 𝕜 (toV B))))) := by
    refine (full_mul hL e f w1 w2 (ofV (normalize 𝕜 (toV B)))).trans ?_
    show TX.val (.two (ofV (h (toV (ofV (normalize 𝕜 (toV B))))))) = _
    rw [toV_ofV']
  have hov : (vmpsFull N P L).ov (.val (.env e)) (.val (.op w1)) (.val (.op w2)) (.val (.env f)) ((vmpsEng N P L).lzVec ((vmpsEng N P L).lzStart () (.val (.two B)))) =
      kDiag h (krylov h (toV B) 0) := by
    refine (full_ov hL e f w1 w2 (ofV (normalize 𝕜 (toV B)))).trans ?_
    show RCLike.re (inner 𝕜 (toV (ofV (normalize 𝕜 (toV B)))) (h (toV (ofV (normalize 𝕜 (toV B)))))) = _
    rw [toV_ofV']
    rfl
  unfold Full.lanczos
  simp only []
  rw [hmul, hov]
  have ht : (vmpsEng N P L).lzTake ((vmpsEng N P L).lzStart () (.val (.two B))) (.val (.two (ofV (h (normalize 𝕜 (toV B)))))) (kDiag h (krylov h (toV B) 0)) = _ :=
    take_start (P := P) (normalize 𝕜 (toV B)) (h (normalize 𝕜 (toV B))) (kDiag h (krylov h (toV B) 0))
  rw [ht]
  refine (full_loop hL e f w1 w2 (P.maxIter - 1) _ s s1).trans ?_
  unfold LzX.result
  simp only [s2]
  rfl

/-! ### The updates -/

/-- The operations of the parallel program as a whole, in the form of the disk programs: the contractions and the update as computed by master and workers together. The trivial environments
are the master's; the boundary environments, which the master computes alone, are the same contractions. -/
noncomputable def engAlg (N : Nat) (P : VmpsPar σ 𝕜) (L : MpiLib σ 𝕜 SL) : Alg (LTen σ 𝕜) (Env3 𝕜) where
  trivL := (vmpsAlg N P).trivL
  trivR := (vmpsAlg N P).trivR
  growL i e t := toEnv ((vmpsFull N P L).growL (.val (.env e)) (.val (.op (P.w i))) (.val (.site t.ten)))
  growR i e t := toEnv ((vmpsFull N P L).growR (.val (.env e)) (.val (.op (P.w i))) (.val (.site t.ten)))
  opt _ dir i e f t u :=
    let j := leftSite dir i
    let g := (vmpsFull N P L).lanczos (vmpsEng N P L) () (.val (.env e)) (.val (.op (P.w j))) (.val (.op (P.w (j + 1)))) (.val (.env f)) (.val (.two (mergeTen t.ten u.ten)))
    (⟨(splitV P dir (gsB g)).1, gsE g⟩, ⟨(splitV P dir (gsB g)).2, gsE g⟩)

variable {VL : Type} {lact : Nat → SL → Act SL VL} {W : Nat}

theorem engV_growL (hL : L.OK P lact W) (i : Nat) (e : Env3 𝕜) (t : LTen σ 𝕜) : (engAlg N P L).growL i e t = maskE2 (siteLenv (P.w i) e t.ten) := by
  show toEnv ((vmpsFull N P L).growL (.val (.env e)) (.val (.op (P.w i))) (.val (.site t.ten))) = _
  rw [full_growL hL]
  rfl

theorem engV_growR (hL : L.OK P lact W) (i : Nat) (e : Env3 𝕜) (t : LTen σ 𝕜) : (engAlg N P L).growR i e t = maskE (siteRenv (P.w i) ⟨t.ten.r, e.d1, t.ten.r, e.v⟩ t.ten) := by
  show toEnv ((vmpsFull N P L).growR (.val (.env e)) (.val (.op (P.w i))) (.val (.site t.ten))) = _
  rw [full_growR hL]
  rfl

/-- The update, with the result of the serial solver. -/
theorem engV_opt_gs (hL : L.OK P lact W) (hK : 2 ≤ P.maxIter) (hT : TriLocal P.tri) (c : Nat) (dir : Dir) (i : Nat) (e f : Env3 𝕜) (t u : LTen σ 𝕜) :
    (engAlg N P L).opt c dir i e f t u = updTwo P dir (leftSite dir i) (maskE e) f t.ten u.ten := by
  obtain ⟨g, g1, g2⟩ := full_lanczos (N := N) hL hK hT e f (P.w (leftSite dir i)) (P.w (leftSite dir i + 1)) (mergeTen t.ten u.ten)
  unfold engAlg
  simp only []
  rw [g2]
  unfold updTwo lanczosAt
  rw [g1]
  cases dir <;> rfl

theorem engAlg_legs (hL : L.OK P lact W) (hK : 2 ≤ P.maxIter) (hT : TriLocal P.tri) (hR : BlkSplitR P.splitR) (hSL : BlkSplitL P.splitL) : (engAlg N P L).Legs where
  left := fun c d i e f t u => by
    rw [engV_opt_gs hL hK hT]
    have := (Props.vmps_legs (N := N) hR hSL).left c d (match d with | .r => leftSite d i | .l => leftSite d i + 1) (maskE e) f t u
    cases d <;> exact this
  right := fun c d i e f t u => by
    rw [engV_opt_gs hL hK hT]
    have := (Props.vmps_legs (N := N) hR hSL).right c d (match d with | .r => leftSite d i | .l => leftSite d i + 1) (maskE e) f t u
    cases d <;> exact this

omit [DecidableEq σ] in
/-- Entries beyond the legs of an environment are not read. -/
theorem siteRenv_mask (w : Ten (σ × σ) 𝕜) (t : Ten σ 𝕜) (e : Env3 𝕜) (h : e.d0 = t.r) :
    siteRenv w ⟨t.r, e.d1, t.r, (maskE e).v⟩ t = siteRenv w ⟨t.r, e.d1, t.r, e.v⟩ t := by
  unfold siteRenv
  simp only [Env3.mk.injEq, true_and]
  funext a c b
  refine sum_congr rfl fun s _ => sum_congr rfl fun s' _ => sum_congr rfl fun a' ha' => sum_congr rfl fun c' _ => sum_congr rfl fun b' _ => ?_
  show _ * (if a' < e.d0 then e.v a' c' b' else 0) = _
  rw [if_pos (by rw [h]; exact mem_range.1 ha')]

theorem engG_laws (hL : L.OK P lact W) {qr : Ten σ 𝕜 → Ten σ 𝕜 × Mat 𝕜} (H : QRSpec qr) (fuse : (l : Nat) → Fin l × σ ≃ Fin (l * Fintype.card σ)) (dmax : Nat) :
    (vmpsG qr fuse dmax).Laws (engAlg N P L) where
  ll := (vmpsG_laws (N := N) (P := P) H fuse dmax).ll
  lr := (vmpsG_laws (N := N) (P := P) H fuse dmax).lr
  rl := (vmpsG_laws (N := N) (P := P) H fuse dmax).rl
  rr := (vmpsG_laws (N := N) (P := P) H fuse dmax).rr
  env := fun i e t u => by
    by_cases h : t.ten.r = u.ten.l
    · obtain ⟨M, g, -⟩ := boundaryR_rg H fuse dmax h
      have e0 := (vmpsG_laws (N := N) (P := P) H fuse dmax).env i e t u
      rw [tn_growR, tn_growR, tn_growR, tn_growR] at e0
      rw [engV_growR hL, engV_growR hL, engV_growR hL, engV_growR hL]
      congr 1
      have m1 := siteRenv_mask (P.w (i - 1)) ((vmpsG qr fuse dmax).gr i t u).1.ten
        (siteRenv (P.w i) ⟨((vmpsG qr fuse dmax).gr i t u).2.ten.r, e.d1, ((vmpsG qr fuse dmax).gr i t u).2.ten.r, e.v⟩ ((vmpsG qr fuse dmax).gr i t u).2.ten) g.pq.symm
      have m2 := siteRenv_mask (P.w (i - 1)) t.ten (siteRenv (P.w i) ⟨u.ten.r, e.d1, u.ten.r, e.v⟩ u.ten) h.symm
      exact m1.trans (e0.trans m2.symm)
    · have hb : (vmpsG qr fuse dmax).gr i t u = (t, u) := by
        unfold vmpsG boundaryR
        simp only []
        rw [if_neg h]
      rw [hb]

/-! ### Closed chains -/

/-- Equal environments: the legs, and the entries within them. -/
structure EnvEq (e e' : Env3 𝕜) : Prop where
  d0 : e.d0 = e'.d0
  d1 : e.d1 = e'.d1
  d2 : e.d2 = e'.d2
  v : ∀ a c b, a < e.d0 → c < e.d1 → b < e.d2 → e.v a c b = e'.v a c b

omit [DecidableEq σ] in
theorem siteLenv_eq {e e' : Env3 𝕜} (h : EnvEq e e') (w : Ten (σ × σ) 𝕜) (t : Ten σ 𝕜) : siteLenv w e t = siteLenv w e' t := by
  unfold siteLenv
  simp only [Env3.mk.injEq, true_and]
  funext a' c' b'
  rw [← h.d0, ← h.d1, ← h.d2]
  refine sum_congr rfl fun s _ => sum_congr rfl fun s' _ => sum_congr rfl fun a ha => sum_congr rfl fun c hc => sum_congr rfl fun b hb => ?_
  rw [h.v a c b (mem_range.1 ha) (mem_range.1 hc) (mem_range.1 hb)]

omit [DecidableEq σ] in
theorem siteRenv_eq {e e' : Env3 𝕜} (h : EnvEq e e') (w : Ten (σ × σ) 𝕜) (t : Ten σ 𝕜) (h0 : e.d0 = t.r) (h2 : e.d2 = t.r) :
    siteRenv w ⟨t.r, e.d1, t.r, e.v⟩ t = siteRenv w ⟨t.r, e'.d1, t.r, e'.v⟩ t := by
  unfold siteRenv
  simp only [Env3.mk.injEq, true_and]
  funext a c b
  rw [← h.d1]
  refine sum_congr rfl fun s _ => sum_congr rfl fun s' _ => sum_congr rfl fun a' ha => sum_congr rfl fun c' hc => sum_congr rfl fun b' hb => ?_
  rw [h.v a' c' b' (by rw [h0]; exact mem_range.1 ha) (mem_range.1 hc) (by rw [h2]; exact mem_range.1 hb)]

theorem mask_eq (e : Env3 𝕜) : EnvEq (maskE e) e := ⟨rfl, rfl, rfl, fun _ _ _ h _ _ => if_pos h⟩

theorem mask2_eq (e : Env3 𝕜) : EnvEq (maskE2 e) e := ⟨rfl, rfl, rfl, fun _ _ _ _ _ h => if_pos h⟩

theorem EnvEq.trans {e f g : Env3 𝕜} (h : EnvEq e f) (h' : EnvEq f g) : EnvEq e g :=
  ⟨h.d0.trans h'.d0, h.d1.trans h'.d1, h.d2.trans h'.d2, fun a c b ha hc hb => (h.v a c b ha hc hb).trans (h'.v a c b (h.d0 ▸ ha) (h.d1 ▸ hc) (h.d2 ▸ hb))⟩

theorem EnvEq.refl (e : Env3 𝕜) : EnvEq e e := ⟨rfl, rfl, rfl, fun _ _ _ _ _ _ => rfl⟩

theorem lenv_eng (hL : L.OK P lact W) (ψ : Nat → LTen σ 𝕜) (k : Nat) : EnvEq ((engAlg N P L).lenv ψ k) ((tnAlg N P).lenv ψ k) := by
  induction k with
  | zero => rw [lenv_base, lenv_base]; exact EnvEq.refl _
  | succ k ih =>
    rw [lenv_step, lenv_step, engV_growL hL, siteLenv_eq ih]
    exact mask2_eq _

/-- Legs of the right environments. -/
theorem renv_legs {ψ : Nat → LTen σ 𝕜} (h : Closed N (tens ψ)) (k : Nat) (hk : k < N) :
    ((tnAlg N P).renv N ψ k).d0 = (ψ (N - 1 - k)).ten.r ∧ ((tnAlg N P).renv N ψ k).d2 = (ψ (N - 1 - k)).ten.r := by
  cases k with
  | zero => rw [renv_base]; exact ⟨rfl, rfl⟩
  | succ k =>
    have := h.2.2 (N - 1 - (k + 1)) (by omega)
    rw [show N - 1 - (k + 1) + 1 = N - 1 - k by omega] at this
    rw [renv_step, tn_growR]
    exact ⟨this.symm, this.symm⟩

theorem renv_eng (hL : L.OK P lact W) {ψ : Nat → LTen σ 𝕜} (h : Closed N (tens ψ)) (k : Nat) (hk : k < N) : EnvEq ((engAlg N P L).renv N ψ k) ((tnAlg N P).renv N ψ k) := by
  induction k with
  | zero => rw [renv_base, renv_base]; exact EnvEq.refl _
  | succ k ih =>
    have ih := ih (by omega)
    have hd := renv_legs (P := P) h k (by omega)
    rw [renv_step, renv_step, engV_growR hL, tn_growR, siteRenv_eq ih _ _ (ih.d0.trans hd.1) (ih.d2.trans hd.2)]
    exact mask_eq _

theorem effHam_eq {e e' f f' : Env3 𝕜} (he : EnvEq e e') (hf : EnvEq f f') (w1 w2 : Ten (σ × σ) 𝕜) {l r : Nat} (h0 : e.d0 = l) (h2 : e.d2 = l) (k0 : f.d0 = r) (k2 : f.d2 = r) :
    effHam e f w1 w2 l r = effHam e' f' w1 w2 l r := by
  unfold effHam
  congr 2
  funext i j
  unfold effCoef
  rw [← he.d1, ← hf.d1]
  refine sum_congr rfl fun c1 h1 => sum_congr rfl fun c2 _ => sum_congr rfl fun c3 h3 => ?_
  rw [he.v _ _ _ (by rw [h0]; exact i.1.2) (mem_range.1 h1) (by rw [h2]; exact j.1.2), hf.v _ _ _ (by rw [k0]; exact i.2.2.2.2) (mem_range.1 h3) (by rw [k2]; exact j.2.2.2.2)]

/-- Legs of the left environments. -/
theorem lenv_legs {ψ : Nat → LTen σ 𝕜} (h : Closed N (tens ψ)) (k : Nat) (hk : k < N) :
    ((tnAlg N P).lenv ψ k).d0 = (ψ k).ten.l ∧ ((tnAlg N P).lenv ψ k).d2 = (ψ k).ten.l := by
  cases k with
  | zero => rw [lenv_base]; exact ⟨rfl, rfl⟩
  | succ k =>
    have := h.2.2 k (by omega)
    rw [lenv_step, tn_growL]
    exact ⟨this, this⟩

/-- One local update. -/
theorem eng_optV (hL : L.OK P lact W) (hK : 2 ≤ P.maxIter) (hT : TriLocal P.tri) {ψ : Nat → LTen σ 𝕜} (ht : Closed N (tens ψ)) (clk : Nat) (dir : Dir) (j : Nat) {i : Nat}
    (hj : leftSite dir j = i) (hi : i + 1 < N) :
    (engAlg N P L).opt clk dir j ((engAlg N P L).lenv ψ i) ((engAlg N P L).renv N ψ (N - (i + 2))) (ψ i) (ψ (i + 1)) =
      updTwo P dir i ((vmpsAlg N P).lenv ψ i) ((vmpsAlg N P).renv N ψ (N - (i + 2))) (tens ψ i) (tens ψ (i + 1)) := by
  rw [engV_opt_gs hL hK hT, hj, ← lenv_tn, ← renv_tn ht _ (by omega)]
  have a := lenv_eng (N := N) (P := P) hL ψ i
  have b := renv_eng (P := P) hL ht (N - (i + 2)) (by omega)
  obtain ⟨a0, a2⟩ := lenv_legs (P := P) ht i (by omega)
  obtain ⟨b0, b2⟩ := renv_legs (P := P) ht (N - (i + 2)) (by omega)
  rw [show N - 1 - (N - (i + 2)) = i + 1 by omega] at b0 b2
  generalize (engAlg N P L).lenv ψ i = e at a ⊢
  generalize (engAlg N P L).renv N ψ (N - (i + 2)) = f at b ⊢
  have key : lanczosAt P i (maskE e) f (ψ i).ten (ψ (i + 1)).ten = lanczosAt P i ((tnAlg N P).lenv ψ i) ((tnAlg N P).renv N ψ (N - (i + 2))) (tens ψ i) (tens ψ (i + 1)) := by
    unfold lanczosAt
    have := effHam_eq ((mask_eq e).trans a) b (P.w i) (P.w (i + 1)) (l := (mergeTen (ψ i).ten (ψ (i + 1)).ten).l) (r := (mergeTen (ψ i).ten (ψ (i + 1)).ten).r)
      (a.d0.trans a0) (a.d2.trans a2) (b.d0.trans b0) (b.d2.trans b2)
    rw [this]
    rfl
  unfold updTwo
  rw [key]
  rfl

/-- One step of the sweeps. -/
theorem engV_opt1 (hL : L.OK P lact W) (hK : 2 ≤ P.maxIter) (hT : TriLocal P.tri) {ψ : (Nat → LTen σ 𝕜) × Nat} (ht : Closed N (tens ψ.1)) {u : Dir × Nat} (hu : u.2 + 1 < N) :
    opt1 (engAlg N P L) N ψ u = opt1 (vmpsAlg N P) N ψ u := by
  obtain ⟨d, i⟩ := u
  cases d with
  | r =>
    have := eng_optV hL hK hT ht ψ.2 .r i rfl hu
    have e : ∀ p, p = (engAlg N P L).opt ψ.2 .r i ((engAlg N P L).lenv ψ.1 i) ((engAlg N P L).renv N ψ.1 (N - (i + 2))) (ψ.1 i) (ψ.1 (i + 1)) →
        p = (vmpsAlg N P).opt ψ.2 .r i ((vmpsAlg N P).lenv ψ.1 i) ((vmpsAlg N P).renv N ψ.1 (N - (i + 2))) (ψ.1 i) (ψ.1 (i + 1)) :=
      fun p hp => hp.trans this
    unfold opt1 optR
    simp only []
    rw [← e _ rfl]
  | l =>
    have := eng_optV hL hK hT ht ψ.2 .l (i + 1) (i := i) rfl hu
    have e : ∀ p, p = (engAlg N P L).opt ψ.2 .l (i + 1) ((engAlg N P L).lenv ψ.1 (i + 1 - 1)) ((engAlg N P L).renv N ψ.1 (N - (i + 1 + 1))) (ψ.1 (i + 1 - 1)) (ψ.1 (i + 1)) →
        p = (vmpsAlg N P).opt ψ.2 .l (i + 1) ((vmpsAlg N P).lenv ψ.1 (i + 1 - 1)) ((vmpsAlg N P).renv N ψ.1 (N - (i + 1 + 1))) (ψ.1 (i + 1 - 1)) (ψ.1 (i + 1)) :=
      fun p hp => hp.trans this
    unfold opt1 optL
    simp only []
    rw [← e _ rfl]

/-- The sweeps. -/
theorem engV_fold (hP : ParOK N P) (hL : L.OK P lact W) (hT : TriLocal P.tri) (us : List (Dir × Nat)) {ψ : (Nat → LTen σ 𝕜) × Nat} {c : Nat} (hp : Path N c us)
    (h : Mps.Canon N c (tens ψ.1)) (hz : stateV N (tens ψ.1) ≠ 0) : us.foldl (opt1 (engAlg N P L) N) ψ = us.foldl (opt1 (vmpsAlg N P) N) ψ := by
  induction us generalizing ψ c with
  | nil => rw [List.foldl_nil, List.foldl_nil]
  | cons u us ih =>
    obtain ⟨a, b, -⟩ := opt1_ok hP hp.1 hp.2.1 h hz
    rw [List.foldl_cons, List.foldl_cons, engV_opt1 hL hP.iter hT h.1 hp.2.1]
    exact ih hp.2.2 a b

end
end Verif.Mpi
