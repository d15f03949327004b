import Verif.Mpi.TdvpEng
import Verif.Mpi.VmpsJobs
/-
What the parallel TDVP program computes as a whole (helper facts, not property statements): the sums over the sectors are the contractions of the serial program, the solver at the
master is `expSolveMpi`, and the jobs of a sweep do what the file program `sweepTM` does.
-/
namespace Verif.Mpi
open Finset Verif.Mps Verif.Algo Verif.Disk

theorem inSecT_sum {K : Type} [AddCommMonoid K] {ds : List Nat} (h : ds ≠ []) (a : Nat) (x : K) :
    ∑ j ∈ range ds.length, (if inSecT ds j a then x else 0) = x := by
  obtain ⟨n, hn⟩ : ∃ n, ds.length = n + 1 := ⟨ds.length - 1, by have := List.length_pos_iff.2 h; omega⟩
  rw [hn, sum_range_succ]
  have h1 : ∑ j ∈ range n, (if inSecT ds j a then x else 0) = ∑ j ∈ range n, (if inSec ds j a then x else 0) := by
    refine sum_congr rfl fun j hj => ?_
    have hj := mem_range.1 hj
    have : inSecT ds j a = inSec ds j a := by
      unfold inSecT inSec
      rw [show (j + 1 == ds.length) = false by simp; omega, Bool.or_false]
    rw [this]
  rw [h1, inSec_sum ds a x n (by omega)]
  by_cases h2 : a < (ds.take n).sum
  · have h3 : inSecT ds n a = false := by simp [inSecT]; omega
    rw [if_pos h2, h3]
    simp
  · have h3 : inSecT ds n a = true := by simp [inSecT, hn]; omega
    rw [if_neg h2, if_pos h3, zero_add]

section
variable {σ : Type} [Fintype σ] [DecidableEq σ] {N : Nat} {P : TdvpPar σ} {SL VL : Type} {L : MpiLib σ ℂ SL} {lact : Nat → SL → Act SL VL} {W : Nat}

theorem effHamT_sum {𝕜 : Type} [RCLike 𝕜] {ds : List Nat} (h : ds ≠ []) (e f : Env3 𝕜) (w1 w2 : Ten (σ × σ) 𝕜) (l r : Nat) (v : TwoV σ 𝕜 l r) :
    ∑ j ∈ range ds.length, effHam (selET ds j e) f w1 w2 l r v = effHam e f w1 w2 l r v := by
  have key : ∀ i k : Fin l × σ × σ × Fin r, ∑ j ∈ range ds.length, effCoef (selET ds j e) f w1 w2 i.1 i.2.1 i.2.2.1 i.2.2.2 k.1 k.2.1 k.2.2.1 k.2.2.2 =
      effCoef e f w1 w2 i.1 i.2.1 i.2.2.1 i.2.2.2 k.1 k.2.1 k.2.2.1 k.2.2.2 := by
    intro i k
    unfold effCoef
    simp only [selET]
    refine Eq.trans Finset.sum_comm (sum_congr rfl fun c1 _ => ?_)
    refine Eq.trans Finset.sum_comm (sum_congr rfl fun c2 _ => ?_)
    refine Eq.trans Finset.sum_comm (sum_congr rfl fun c3 _ => ?_)
    rw [← Finset.sum_mul, ← Finset.sum_mul, ← Finset.sum_mul]
    congr 3
    exact inSecT_sum h _ _
  unfold effHam
  rw [← LinearMap.sum_apply, ← map_sum]
  congr 2
  ext i k
  rw [Matrix.sum_apply]
  exact key i k

theorem fullT_mul (hL : L.OKT P lact W) (e f : Env3 ℂ) (w1 w2 : Ten (σ × σ) ℂ) (B : Blk2 σ ℂ) :
    (tdvpFull N P L).mul (.val (.env e)) (.val (.op w1)) (.val (.op w2)) (.val (.env f)) (.val (.two B)) =
      .val (.two (ofV (effHam e f w1 w2 B.l B.r (toV B)))) := by
  show ∑ j ∈ range (L.sec 0 (.val (.env e))).length, TX.val (.two (ofV (effHam (selET (L.sec 0 (.val (.env e))) j e) f w1 w2 B.l B.r (toV B)))) = _
  rw [← effHamT_sum (hL.some 0 (.val (.env e))) e f]
  refine (TX.sum_two B.l B.r (fun j => (ofV (effHam (selET (L.sec 0 (.val (.env e))) j e) f w1 w2 B.l B.r (toV B))).v) _ ?_).trans ?_
  · intro h0
    exact hL.some 0 _ (List.length_eq_zero_iff.1 h0)
  · rw [ofV_sum]
    rfl

theorem fullT_ov (hL : L.OKT P lact W) (e f : Env3 ℂ) (w1 w2 : Ten (σ × σ) ℂ) (B : Blk2 σ ℂ) :
    (tdvpFull N P L).ov (.val (.env e)) (.val (.op w1)) (.val (.op w2)) (.val (.env f)) (.val (.two B)) =
      RCLike.re (inner ℂ (toV B) (effHam e f w1 w2 B.l B.r (toV B))) := by
  show ∑ j ∈ range (L.sec 0 (.val (.env e))).length, RCLike.re (inner ℂ (toV B) (effHam (selET (L.sec 0 (.val (.env e))) j e) f w1 w2 B.l B.r (toV B))) = _
  rw [← effHamT_sum (hL.some 0 (.val (.env e))) e f, _root_.inner_sum, map_sum]

theorem fullT_growL (hL : L.OKT P lact W) (e : Env3 ℂ) (w : Ten (σ × σ) ℂ) (t : Ten σ ℂ) :
    (tdvpFull N P L).growL (.val (.env e)) (.val (.op w)) (.val (.site t)) = .val (.env (siteLenv w e t)) := by
  show ∑ j ∈ range (L.sec 2 (.val (.site t))).length, TX.val (.env (partL w e t (selRT (L.sec 2 (.val (.site t))) j t))) = _
  refine (TX.sum_env t.r w.r t.r (fun j => (partL w e t (selRT (L.sec 2 (.val (.site t))) j t)).v) _ ?_).trans ?_
  · intro h0
    exact hL.some 2 _ (List.length_eq_zero_iff.1 h0)
  · congr 2
    unfold siteLenv
    congr 1
    funext a' c' b'
    have hs := inSecT_sum (K := ℂ) (hL.some 2 (.val (.site t))) b' (∑ s, ∑ s', ∑ a ∈ range e.d0, ∑ c ∈ range e.d1, ∑ b ∈ range e.d2, star (t.v s a a') * w.v (s, s') c c' * t.v s' b b' * e.v a c b)
    rw [← hs]
    refine sum_congr rfl fun j _ => ?_
    unfold partL selRT
    simp only []
    split
    · rfl
    · simp

theorem fullT_growR (hL : L.OKT P lact W) (e : Env3 ℂ) (w : Ten (σ × σ) ℂ) (t : Ten σ ℂ) :
    (tdvpFull N P L).growR (.val (.env e)) (.val (.op w)) (.val (.site t)) = .val (.env (siteRenv w e t)) := by
  show ∑ j ∈ range (L.sec 0 (.val (.site t))).length, TX.val (.env (partRT w e (selLT (L.sec 0 (.val (.site t))) j t) t)) = _
  refine (TX.sum_env t.l w.l t.l (fun j => (partRT w e (selLT (L.sec 0 (.val (.site t))) j t) t).v) _ ?_).trans ?_
  · intro h0
    exact hL.some 0 _ (List.length_eq_zero_iff.1 h0)
  · congr 2
    unfold siteRenv
    congr 1
    funext a c b
    have hs := inSecT_sum (K := ℂ) (hL.some 0 (.val (.site t))) a (∑ s, ∑ s', ∑ a' ∈ range e.d0, ∑ c' ∈ range e.d1, ∑ b' ∈ range e.d2, star (t.v s a a') * w.v (s, s') c c' * t.v s' b b' * e.v a' c' b')
    rw [← hs]
    refine sum_congr rfl fun j _ => ?_
    unfold partRT selLT
    simp only []
    split
    · rfl
    · simp

/-! ### The solver -/

omit [DecidableEq σ] in
theorem takeT_run {l r : Nat} (δ : ℝ) (m : ExM (TwoV σ ℂ l r)) (x : TwoV σ ℂ l r) (ov : ℝ) :
    ExX.take P ⟨l, r, δ, .run m⟩ (.val (.two (ofV x))) ov = ⟨l, r, δ, .run (exNext P.eig δ P.maxIter P.err m x ov)⟩ := by
  unfold ExX.take
  simp only []
  rw [if_pos ⟨rfl, rfl⟩, vecOf_ofV]

omit [DecidableEq σ] in
theorem takeT_start {l r : Nat} (δ : ℝ) (v x : TwoV σ ℂ l r) (ov : ℝ) :
    ExX.take P ⟨l, r, δ, .start v⟩ (.val (.two (ofV x))) ov = ⟨l, r, δ, .run (exBegin P.eig δ (l * (Fintype.card σ * Fintype.card σ) * r) v x ov)⟩ := by
  unfold ExX.take
  simp only []
  rw [if_pos ⟨rfl, rfl⟩, vecOf_ofV]

/-- The product of a state of the run and its overlap. -/
theorem fullT_prod (hL : L.OKT P lact W) (e f : Env3 ℂ) (w1 w2 : Ten (σ × σ) ℂ) {l r : Nat} (v : TwoV σ ℂ l r) :
    (tdvpFull N P L).mul (.val (.env e)) (.val (.op w1)) (.val (.op w2)) (.val (.env f)) (.val (.two (ofV v))) = .val (.two (ofV (effHam e f w1 w2 l r v))) ∧
    (tdvpFull N P L).ov (.val (.env e)) (.val (.op w1)) (.val (.op w2)) (.val (.env f)) (.val (.two (ofV v))) = RCLike.re (inner ℂ v (effHam e f w1 w2 l r v)) := by
  refine ⟨(fullT_mul hL e f w1 w2 (ofV v)).trans ?_, (fullT_ov hL e f w1 w2 (ofV v)).trans ?_⟩
  · show TX.val (.two (ofV (effHam e f w1 w2 l r (toV (ofV v))))) = _
    rw [toV_ofV']
  · show RCLike.re (inner ℂ (toV (ofV v)) (effHam e f w1 w2 l r (toV (ofV v)))) = _
    rw [toV_ofV']
    rfl

/-- The loop of the master is that of `ExM`. -/
theorem fullT_loop (hL : L.OKT P lact W) (e f : Env3 ℂ) (w1 w2 : Ten (σ × σ) ℂ) {l r : Nat} (δ : ℝ) : ∀ (n : Nat) (m : ExM (TwoV σ ℂ l r)),
    (tdvpFull N P L).loop (tdvpEng N P L) (.val (.env e)) (.val (.op w1)) (.val (.op w2)) (.val (.env f)) n ⟨l, r, δ, .run m⟩ =
      ExX.result ⟨l, r, δ, .run (exRun P.eig δ P.maxIter P.err (effHam e f w1 w2 l r) n m)⟩ := by
  intro n
  induction n with
  | zero => intro m; rfl
  | succ n ih =>
    intro m
    unfold Full.loop exRun
    by_cases hm : m.res.isSome = true
    · rw [if_pos (show (tdvpEng N P L).lzZero ⟨l, r, δ, .run m⟩ = true from hm), if_pos hm]
      rfl
    · rw [if_neg (show ¬ (tdvpEng N P L).lzZero ⟨l, r, δ, .run m⟩ = true from hm), if_neg hm]
      obtain ⟨h1, h2⟩ := fullT_prod (N := N) hL e f w1 w2 (m.bs m.m)
      have hv : (tdvpEng N P L).lzVec ⟨l, r, δ, .run m⟩ = .val (.two (ofV (m.bs m.m))) := rfl
      rw [hv, h1, h2]
      have ht : (tdvpEng N P L).lzTake ⟨l, r, δ, .run m⟩ (.val (.two (ofV (effHam e f w1 w2 l r (m.bs m.m)))))
          (RCLike.re (inner ℂ (m.bs m.m) (effHam e f w1 w2 l r (m.bs m.m)))) = _ := takeT_run (P := P) δ m _ _
      rw [ht]
      simp only []
      rw [ih]
      split
      · rename_i hs
        rw [exRun_over _ hs]
        rfl
      · rfl

/-- The solver at the master is the one of `tdvpPair`. -/
theorem fullT_lanczos (hL : L.OKT P lact W) (hK : 2 ≤ P.maxIter) (hE : EigLocal P.eig) (e f : Env3 ℂ) (w1 w2 : Ten (σ × σ) ℂ) (B : Blk2 σ ℂ) (dt : Rat) :
    ∃ r, expSolveMpi (effHam e f w1 w2 B.l B.r) (toV B) P.eig dt P.maxIter (B.l * (Fintype.card σ * Fintype.card σ) * B.r) P.err = some r ∧
    (tdvpFull N P L).lanczos (tdvpEng N P L) dt (.val (.env e)) (.val (.op w1)) (.val (.op w2)) (.val (.env f)) (.val (.two B)) = .val (.gs (ofV r.vec) none) := by
  obtain ⟨r, h1, h2⟩ := exRun_solve (H := effHam e f w1 w2 B.l B.r) (v := toV B) (δ := dt) (dim := B.l * (Fintype.card σ * Fintype.card σ) * B.r) (err := P.err) hE hK
  refine ⟨r, h1, ?_⟩
  unfold Full.lanczos
  have hs : (tdvpEng N P L).lzStart dt (.val (.two B)) = ⟨B.l, B.r, dt, .start (normalize ℂ (toV B))⟩ := rfl
  have hv : (tdvpEng N P L).lzVec ⟨B.l, B.r, dt, .start (normalize ℂ (toV B))⟩ = .val (.two (ofV (normalize ℂ (toV B)))) := rfl
  simp only []
  rw [hs, hv]
  obtain ⟨p1, p2⟩ := fullT_prod (N := N) hL e f w1 w2 (normalize ℂ (toV B))
  rw [p1, p2]
  have ht : (tdvpEng N P L).lzTake ⟨B.l, B.r, dt, .start (normalize ℂ (toV B))⟩ (.val (.two (ofV (effHam e f w1 w2 B.l B.r (normalize ℂ (toV B))))))
      (RCLike.re (inner ℂ (normalize ℂ (toV B)) (effHam e f w1 w2 B.l B.r (normalize ℂ (toV B))))) = _ := takeT_start (P := P) _ _ _ _
  rw [ht]
  refine (fullT_loop hL e f w1 w2 _ _ _).trans ?_
  unfold ExX.result
  simp only []
  have h2' := h2
  change (exRun P.eig dt P.maxIter P.err (effHam e f w1 w2 B.l B.r) ((tdvpEng N P L).maxIter dt - 1) _).res = some r at h2'
  rw [h2']

/-- One pair: solver and decomposition. -/
theorem fullT_pair (hL : L.OKT P lact W) (hK : 2 ≤ P.maxIter) (hE : EigLocal P.eig) (hm : P.mpi = true) (dir : Dir) (dt : Rat) (i : Nat) (e f : Env3 ℂ) (t u : Ten σ ℂ) :
    splitT P dir (gsB ((tdvpFull N P L).lanczos (tdvpEng N P L) dt (.val (.env e)) (.val (.op (P.w i))) (.val (.op (P.w (i + 1)))) (.val (.env f)) (.val (.two (mergeTen t u))))) =
      (tdvpEvo P).ev2 dir dt i e f t u := by
  obtain ⟨r, h1, h2⟩ := fullT_lanczos (N := N) hL hK hE e f (P.w i) (P.w (i + 1)) (mergeTen t u) dt
  rw [h2]
  show _ = tdvpPair P dir dt i e f t u
  unfold tdvpPair TdvpPar.solve
  rw [if_pos hm, h1]
  cases dir <;> rfl

/-! ### Jobs -/

theorem tdvp_laws (hL : L.OKT P lact W) : (tdvpEng N P L).Laws (tdvpFull N P L) lact W where
  mul _ _ _ _ _ := rfl
  ov _ _ _ _ _ := rfl
  growL _ _ _ := rfl
  growR _ _ _ := rfl
  expR _ _ _ _ _ := Finset.sum_const_zero
  expL _ _ _ _ _ := Finset.sum_const_zero
  svd d l gs := by
    obtain ⟨⟨M, h1, h2⟩, h3, h4⟩ := hL.svd (gsB gs)
    exact ⟨⟨M, h1, fun n s a b => ⟨(h2 n s a b).1, funext fun dir => (h2 n s a b).2 dir⟩⟩, h3, h4⟩
  sortMul := hL.sortMul
  sortGrow := hL.sortGrow
  lenv_svd d b l gs u k := by cases d <;> rfl
  renv_svd d b l gs u k := by cases d <;> rfl
  lenv_exp _ _ _ _ _ _ := rfl
  renv_exp _ _ _ _ _ _ := rfl

/-- The jobs in a row. -/
theorem jobsT_append (js js' : List (Eng.Job (MT σ) Rat ℝ)) (d : MT σ) :
    (tdvpFull N P L).jobs (tdvpEng N P L) (js ++ js') d = (tdvpFull N P L).jobs (tdvpEng N P L) js' ((tdvpFull N P L).jobs (tdvpEng N P L) js d) := by
  unfold Full.jobs
  rw [List.foldl_append]

/-- The jobs `js` do what the operations `ops` do, provided these succeed. -/
def DoesT (N : Nat) (P : TdvpPar σ) (L : MpiLib σ ℂ SL) (js : List (Eng.Job (MT σ) Rat ℝ)) (ops : List (Disk.Op (Ten σ ℂ) (Env3 ℂ))) : Prop :=
  ∀ (x : TdvpD σ) s', run N (N - 1) ops ⟨x.mem, x.sys.dsk⟩ = .ok s' → (tdvpFull N P L).jobs (tdvpEng N P L) js (.ok x) = .ok (x.after s')

theorem DoesT.append {js js' : List (Eng.Job (MT σ) Rat ℝ)} {ops ops' : List (Disk.Op (Ten σ ℂ) (Env3 ℂ))} (h : DoesT N P L js ops) (h' : DoesT N P L js' ops') :
    DoesT N P L (js ++ js') (ops ++ ops') := by
  intro x s' hs
  rw [run_append] at hs
  cases h1 : run N (N - 1) ops ⟨x.mem, x.sys.dsk⟩ with
  | error e => rw [h1] at hs; cases hs
  | ok s1 =>
    rw [h1] at hs
    rw [jobsT_append, h x s1 h1]
    exact h' (x.after s1) s' hs

theorem DoesT.nil : DoesT N P L [] [] := by
  intro x s' hs
  cases hs
  rfl

theorem DoesT.ops (ops : List (Disk.Op (Ten σ ℂ) (Env3 ℂ))) : DoesT N P L [opsJobT N ops] ops := by
  intro x s' hs
  show MT.run N ops (.ok x) = _
  unfold MT.run
  simp only []
  rw [hs]

theorem DoesT.flatMap {α : Type} (l : List α) {f : α → List (Eng.Job (MT σ) Rat ℝ)} {g : α → List (Disk.Op (Ten σ ℂ) (Env3 ℂ))} (h : ∀ a, DoesT N P L (f a) (g a)) :
    DoesT N P L (l.flatMap f) (l.flatMap g) := by
  induction l with
  | nil => exact DoesT.nil
  | cons a l ih =>
    rw [List.flatMap_cons, List.flatMap_cons]
    exact (h a).append ih

theorem runT_one {o : Disk.Op (Ten σ ℂ) (Env3 ℂ)} {s s' : Sys (Ten σ ℂ) (Env3 ℂ)} (h : run N (N - 1) [o] s = .ok s') : exec N (N - 1) o s = .ok s' := by
  unfold run at h
  obtain ⟨a, h1, h2⟩ := bind_ok h
  rw [h1]
  exact h2

theorem execT_calc {f : Mem (Ten σ ℂ) (Env3 ℂ) → Except Disk.Err (Mem (Ten σ ℂ) (Env3 ℂ))} {s s' : Sys (Ten σ ℂ) (Env3 ℂ)} (h : exec N (N - 1) (.calc f) s = .ok s') :
    ∃ m, f s.mem = .ok m ∧ s' = ⟨m, s.dsk⟩ := by
  unfold exec at h
  simp only [] at h
  obtain ⟨m, h1, h2⟩ := bind_ok h
  cases h2
  exact ⟨m, h1, rfl⟩

/-- Two calculations in a row. -/
theorem run_calc2 {f g : Mem (Ten σ ℂ) (Env3 ℂ) → Except Disk.Err (Mem (Ten σ ℂ) (Env3 ℂ))} (ops : List (Disk.Op (Ten σ ℂ) (Env3 ℂ))) (s : Sys (Ten σ ℂ) (Env3 ℂ)) :
    run N (N - 1) (.calc (fun m => f m >>= g) :: ops) s = run N (N - 1) (.calc f :: .calc g :: ops) s := by
  unfold run
  simp only [exec, bind, Except.bind, pure, Except.pure]
  cases h : f s.mem with
  | error e => rfl
  | ok m =>
    simp only [run, exec, bind, Except.bind, pure, Except.pure]

/-- A pair to the right. -/
theorem doesT_updR (hL : L.OKT P lact W) (hK : 2 ≤ P.maxIter) (hE : EigLocal P.eig) (hm : P.mpi = true) (tau : Rat) (i : Nat) :
    DoesT N P L [.upd ⟨true, i, tau / 2, none⟩] [.calc (tdvp2R (tdvpAlg N P) (tdvpEvo P) N (N - 1) tau i)] := by
  intro x s' hs
  obtain ⟨m, h, rfl⟩ := execT_calc (runT_one hs)
  unfold tdvp2R at h
  split at h
  · rename_i hb
    obtain ⟨e, he, h⟩ := bind_ok h
    obtain ⟨f, hf, h⟩ := bind_ok h
    obtain ⟨t, ht, h⟩ := bind_ok h
    obtain ⟨u, hu, h⟩ := bind_ok h
    have he := use_ok he
    have hf := use_ok hf
    have ht := use_ok ht
    have hu := use_ok hu
    cases h
    simp only [] at he hf ht hu
    show (tdvpFull N P L).update (tdvpEng N P L) true i (tau / 2) none (.ok x) = _
    unfold Full.update
    have l1 : (tdvpEng N P L).lenv (.ok x) i = .val (.env e) := by
      show slotE (x.mem.l i) = _
      rw [he]; rfl
    have r1 : (tdvpEng N P L).renv (.ok x) ((tdvpEng N P L).N - (i + 2)) = .val (.env f) := by
      show slotE (x.mem.r (N - (i + 2))) = _
      rw [hf]; rfl
    have p1 : (tdvpEng N P L).pair (.ok x) i = .val (.two (mergeTen t u)) := by
      show (match x.mem.m i, x.mem.m (i + 1) with
        | some t, some u => TX.val (.two (mergeTen t u))
        | _, _ => .bad) = _
      rw [ht, hu]
    simp only []
    rw [l1, r1, p1]
    unfold Full.finish
    simp only [if_true]
    have hp := fullT_pair (N := N) hL hK hE hm .r (tau / 2) i e f t u
    rw [show (tdvpEng N P L).mpo i = .val (.op (P.w i)) from rfl, show (tdvpEng N P L).mpo (i + 1) = .val (.op (P.w (i + 1))) from rfl]
    generalize (tdvpFull N P L).lanczos (tdvpEng N P L) (tau / 2) (.val (.env e)) (.val (.op (P.w i))) (.val (.op (P.w (i + 1)))) (.val (.env f)) (.val (.two (mergeTen t u))) = gs at hp
    have l2 : (tdvpEng N P L).lenv ((tdvpEng N P L).setSvd (.ok x) true i gs ((tdvpFull N P L).svd (.ok x) i gs)) i = .val (.env e) := l1
    have m2 : (tdvpEng N P L).mps ((tdvpEng N P L).setSvd (.ok x) true i gs ((tdvpFull N P L).svd (.ok x) i gs)) i = .val (.site (splitT P .r (gsB gs)).1) := by
      show slotT (Function.update (Function.update x.mem.m i _) (i + 1) _ i) = _
      rw [Function.update_of_ne (by omega), Function.update_self]
      rfl
    rw [l2, m2, hp, fullT_growL hL]
    rw [← hp]
    rfl
  · cases h

/-- A pair to the left. -/
theorem doesT_updL (hL : L.OKT P lact W) (hK : 2 ≤ P.maxIter) (hE : EigLocal P.eig) (hm : P.mpi = true) (tau : Rat) (i : Nat) :
    DoesT N P L [.upd ⟨false, i, tau / 2, none⟩] [.calc (tdvp2L (tdvpAlg N P) (tdvpEvo P) N (N - 1) tau i)] := by
  intro x s' hs
  obtain ⟨m, h, rfl⟩ := execT_calc (runT_one hs)
  unfold tdvp2L at h
  split at h
  · rename_i hb
    obtain ⟨e, he, h⟩ := bind_ok h
    obtain ⟨f, hf, h⟩ := bind_ok h
    obtain ⟨t, ht, h⟩ := bind_ok h
    obtain ⟨u, hu, h⟩ := bind_ok h
    have he := use_ok he
    have hf := use_ok hf
    have ht := use_ok ht
    have hu := use_ok hu
    cases h
    obtain ⟨j, rfl⟩ : ∃ j, i = j + 1 := ⟨i - 1, by omega⟩
    simp only [Nat.add_sub_cancel] at he hf ht hu
    show (tdvpFull N P L).update (tdvpEng N P L) false j (tau / 2) none (.ok x) = _
    unfold Full.update
    have l1 : (tdvpEng N P L).lenv (.ok x) j = .val (.env e) := by
      show slotE (x.mem.l j) = _
      rw [he]; rfl
    have r1 : (tdvpEng N P L).renv (.ok x) ((tdvpEng N P L).N - (j + 2)) = .val (.env f) := by
      show slotE (x.mem.r (N - (j + 2))) = _
      rw [show N - (j + 2) = N - (j + 1) - 1 by omega, hf]; rfl
    have p1 : (tdvpEng N P L).pair (.ok x) j = .val (.two (mergeTen t u)) := by
      show (match x.mem.m j, x.mem.m (j + 1) with
        | some t, some u => TX.val (.two (mergeTen t u))
        | _, _ => .bad) = _
      rw [ht, hu]
    simp only []
    rw [l1, r1, p1]
    unfold Full.finish
    simp only [Bool.false_eq_true, if_false]
    have hp := fullT_pair (N := N) hL hK hE hm .l (tau / 2) j e f t u
    rw [show (tdvpEng N P L).mpo j = .val (.op (P.w j)) from rfl, show (tdvpEng N P L).mpo (j + 1) = .val (.op (P.w (j + 1))) from rfl]
    generalize (tdvpFull N P L).lanczos (tdvpEng N P L) (tau / 2) (.val (.env e)) (.val (.op (P.w j))) (.val (.op (P.w (j + 1)))) (.val (.env f)) (.val (.two (mergeTen t u))) = gs at hp
    have r2 : (tdvpEng N P L).renv ((tdvpEng N P L).setSvd (.ok x) false j gs ((tdvpFull N P L).svd (.ok x) j gs)) ((tdvpEng N P L).N - (j + 2)) = .val (.env f) := r1
    have m2 : (tdvpEng N P L).mps ((tdvpEng N P L).setSvd (.ok x) false j gs ((tdvpFull N P L).svd (.ok x) j gs)) (j + 1) = .val (.site (splitT P .l (gsB gs)).2) := by
      show slotT (Function.update (Function.update x.mem.m j _) (j + 1) _ (j + 1)) = _
      rw [Function.update_self]
      rfl
    rw [r2, m2, hp, fullT_growR hL]
    simp only [Nat.add_sub_cancel]
    rw [← hp]
    rfl
  · cases h

/-- The jobs of a sweep are the file program. -/
theorem doesT_sweep (hL : L.OKT P lact W) (hK : 2 ≤ P.maxIter) (hE : EigLocal P.eig) (hm : P.mpi = true) (tau : Rat) {x : TdvpD σ} {s' : TdvpSys σ}
    (h : tdvpFiles N (sweepTM (tdvpAlg N P) (tdvpEvo P) N (tdvpEvo P.serial) tau) x.sys = .ok s') :
    ∃ m, (tdvpFull N P L).jobs (tdvpEng N P L) (sweepJT N P tau) (.ok x) = .ok { x with sys := s', mem := m } := by
  have hR : ∀ i, DoesT N P L (jobsRT N P tau i) (stepRT (tdvpAlg N P) (tdvpEvo P) N tau i) := fun i => by
    have := (DoesT.ops (N := N) (P := P) (L := L) (loadR2 N 0 i)).append ((doesT_updR (N := N) hL hK hE hm tau i).append
      (DoesT.ops (.calc (tdvp1 (tdvpEvo P) N (N - 1) tau (i + 1)) :: dumpR2 N i)))
    intro x s' hs
    refine this x s' ?_
    unfold stepRT at hs
    rw [run_append] at hs ⊢
    obtain ⟨s1, h1, h2⟩ := bind_ok hs
    rw [h1]
    exact (run_calc2 (f := tdvp2R (tdvpAlg N P) (tdvpEvo P) N (N - 1) tau i) (g := tdvp1 (tdvpEvo P) N (N - 1) tau (i + 1)) (dumpR2 N i) s1).symm.trans h2
  have hL' : ∀ i, DoesT N P L (jobsLT N P tau i) (stepLT (tdvpAlg N P) (tdvpEvo P) N tau i) := fun i => by
    have := (DoesT.ops (N := N) (P := P) (L := L) (loadL2 N (N - 1) i)).append ((doesT_updL (N := N) hL hK hE hm (if i = N - 1 then tau * 2 else tau) i).append
      (DoesT.ops (.calc (tdvp1 (tdvpEvo P) N (N - 1) tau (i - 1)) :: dumpL2 N i)))
    intro x s' hs
    refine this x s' ?_
    unfold stepLT at hs
    rw [run_append] at hs ⊢
    obtain ⟨s1, h1, h2⟩ := bind_ok hs
    rw [h1]
    exact (run_calc2 (f := tdvp2L (tdvpAlg N P) (tdvpEvo P) N (N - 1) (if i = N - 1 then tau * 2 else tau) i) (g := tdvp1 (tdvpEvo P) N (N - 1) tau (i - 1)) (dumpL2 N i) s1).symm.trans h2
  have hS : DoesT N P L (opsJobT N [.calc freshAll, .ldM 1] :: ((List.range (N - 2)).flatMap (jobsRT N P tau) ++
      ((List.range' 2 (N - 2)).reverse.flatMap (jobsLT N P tau) ++ [opsJobT N (lastT (tdvpAlg N P) (tdvpEvo P.serial) N tau)])))
      (sweepTM (tdvpAlg N P) (tdvpEvo P) N (tdvpEvo P.serial) tau) :=
    (DoesT.ops [.calc freshAll, .ldM 1]).append ((DoesT.flatMap _ hR).append ((DoesT.flatMap _ hL').append (DoesT.ops _)))
  unfold tdvpFiles at h
  split at h
  · rename_i r hr
    cases h
    exact ⟨r.mem, hS { x with mem := Mem.blank 0 } r hr⟩
  · cases h

/-- The jobs of the steps are the loop of the program. -/
theorem doesT_loop (hL : L.OKT P lact W) (hK : 2 ≤ P.maxIter) (hE : EigLocal P.eig) (hm : P.mpi = true) (o : TdvpObs σ) : ∀ (n k : Nat) (x : TdvpD σ) (s' : TdvpSys σ) (res : List (Option (Mps.Cell ℂ))),
    tdvpLoop N o.site0 o.tau (tdvpFiles N (sweepTM (tdvpAlg N P) (tdvpEvo P) N (tdvpEvo P.serial) o.tau)) (tdvpMeasM N o x.nrm) (tdvpPhase o.e0) n k x.sys x.res = .ok (s', res) →
    ∃ m, (tdvpFull N P L).jobs (tdvpEng N P L) ((List.range' k n).flatMap fun k => sweepJT N P o.tau ++ [locJT (measT N o k)]) (.ok x) = .ok ⟨s', m, x.nrm, res⟩ := by
  intro n
  induction n with
  | zero =>
    intro k x s' res h
    cases h
    exact ⟨x.mem, rfl⟩
  | succ n ih =>
    intro k x s' res h
    unfold tdvpLoop at h
    obtain ⟨s1, h1, h⟩ := bind_ok h
    obtain ⟨⟨s2, c⟩, h2, h⟩ := bind_ok h
    simp only [] at h
    obtain ⟨r2, h3, h⟩ := bind_ok h
    obtain ⟨m, hm'⟩ := doesT_sweep (x := x) hL hK hE hm o.tau h1
    rw [List.range'_succ, List.flatMap_cons, jobsT_append, jobsT_append, hm']
    have hj : (tdvpFull N P L).jobs (tdvpEng N P L) [locJT (measT N o k)] (.ok { x with sys := s1, mem := m }) = .ok ⟨s2, m, x.nrm, r2⟩ := by
      show measT N o k { x with sys := s1, mem := m } = _
      unfold measT
      simp only []
      rw [h2]
      simp only [bind, Except.bind]
      rw [h3]
      rfl
    rw [hj]
    exact ih (k + 1) ⟨s2, m, x.nrm, r2⟩ s' res h

/-- The jobs of the program. -/
theorem doesT_master (hL : L.OKT P lact W) (hK : 2 ≤ P.maxIter) (hE : EigLocal P.eig) (hm : P.mpi = true) (qr svd : Ten σ ℂ → Ten σ ℂ × Mat ℂ) (o : TdvpObs σ) {x : TdvpD σ} (hN : x.sys.m.size = N)
    {s' : TdvpSys σ} {res : List (Option (Mps.Cell ℂ))} (h : tdvpMaster qr svd P o x.sys = .ok (s', res)) :
    ∃ m nrm, (tdvpFull N P L).jobs (tdvpEng N P L) (masterJT qr svd N P o) (.ok x) = .ok ⟨s', m, nrm, res⟩ := by
  subst hN
  unfold tdvpMaster at h
  obtain ⟨s1, h1, h⟩ := bind_ok h
  obtain ⟨y, h2, h⟩ := bind_ok h
  obtain ⟨s3, h3, h⟩ := bind_ok h
  unfold tdvpRun at h
  simp only [if_true] at h
  obtain ⟨⟨s4, c⟩, h4, h⟩ := bind_ok h
  simp only [] at h
  obtain ⟨r4, h5, h⟩ := bind_ok h
  obtain ⟨m, hl⟩ := doesT_loop (N := x.sys.m.size) hL hK hE hm o o.step 0 ⟨s4, x.mem, y.2.2, r4⟩ s' res h
  refine ⟨m, y.2.2, ?_⟩
  unfold masterJT
  have hp : preT qr svd P o x = .ok ⟨s3, x.mem, y.2.2, List.replicate (x.sys.m.size * (o.step + 1)) Option.none⟩ := by
    unfold preT
    simp only [bind, Except.bind]
    rw [h1]
    simp only []
    rw [h2]
    simp only []
    rw [h3]
    rfl
  have h0 : meas0T x.sys.m.size o ⟨s3, x.mem, y.2.2, List.replicate (x.sys.m.size * (o.step + 1)) Option.none⟩ = .ok ⟨s4, x.mem, y.2.2, r4⟩ := by
    unfold meas0T
    simp only []
    rw [h4]
    simp only [bind, Except.bind]
    rw [h5]
    rfl
  show (tdvpFull _ P L).jobs (tdvpEng _ P L) _ (Except.bind (Except.bind (.ok x) (preT qr svd P o)) (meas0T x.sys.m.size o)) = _
  rw [show Except.bind (Except.bind (.ok x) (preT qr svd P o)) (meas0T x.sys.m.size o) = .ok ⟨s4, x.mem, y.2.2, r4⟩ by
    simp only [Except.bind]
    rw [hp]
    exact h0]
  rw [List.range_eq_range']
  exact hl

/-- The sites of all updates exist. -/
theorem tdvp_jobs_ok (hK : 2 ≤ P.maxIter) (qr svd : Ten σ ℂ → Ten σ ℂ × Mat ℂ) (o : TdvpObs σ) : ∀ j ∈ masterJT qr svd N P o, j.ok (tdvpEng N P L) .tdvp := by
  intro j hj
  simp only [masterJT, List.mem_cons, List.mem_flatMap, List.mem_append, List.not_mem_nil, or_false, sweepJT, jobsRT, jobsLT, List.mem_reverse, List.mem_range'_1, List.mem_range] at hj
  rcases hj with rfl | rfl | ⟨k, -, (rfl | rfl | ⟨i, hi, rfl | rfl | rfl⟩ | ⟨i, hi, rfl | rfl | rfl⟩ | rfl) | rfl⟩
  · trivial
  · trivial
  · trivial
  · trivial
  · trivial
  · exact ⟨by show i + 1 < N; omega, hK, fun _ => rfl⟩
  · trivial
  · trivial
  · exact ⟨by show 1 ≤ i ∧ i < N; omega, hK, fun _ => rfl⟩
  · trivial
  · trivial
  · trivial

end
end Verif.Mpi
