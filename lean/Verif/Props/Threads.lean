import Verif.Disk.NoisedMpi
import Verif.Disk.DmrgInit
import Verif.Props.Restart
/-
Property C40: the noised two-site program of the MPI version, whose master loads and dumps tensors in two threads beside the
update. With its crash points (C54), its restart (C55) and the state of the MPS object after it (C64).
-/
namespace Verif.Props
open Verif.Disk

variable {T E : Type}

/-- The sequential program behind the sweeps. -/
theorem seq_sweeps (A : Alg T E) (O : Opt3 T E) (C : Canon T) {N lb rb : Nat} (h1 : lb + 2 ≤ rb) (h2 : rb < N) (k : Nat) :
    run N (N - 1) (inl none (mpiSweeps3 A O C N lb rb k)) = run N N (sweeps3 A O C N lb rb k) := by
  rw [inl_sweeps A O N C h1 h2, alike_run N (alike_sweeps A O N C h2 k)]

/-- **C40** (the sweeps). From a directory with the MPS `ψ` and the environments that a sweep starts with, in every interleaving of
the main thread and the load and dump threads: there is no missing file, null pointer, index out of range, and no misuse of a thread
object; the next operation of the main thread and all that is left of the two threads never touch the same tensor or file, unless
all of them only read it; there is no deadlock and no infinite execution. An execution without next step is at the end of the program
with both threads joined; then the files are those of the serial program: the MPS obtained by the local updates in order, and
the environments that belong to it. -/
theorem C40_sweeps {A : Alg T E} {O : Opt3 T E} (H : O.Legs A) {C : Canon T} (HC : C.Legs A) {N lb rb : Nat} (h1 : lb + 2 ≤ rb)
    (h2 : rb < N) (k clk : Nat) {ψ : Nat → T} {d : Dsk T E} {mem : Mem T E} (h0 : NoTensors mem clk) (hm : OnDisk N ψ d)
    (he : EnvReady A N lb rb ψ d) {j : Nat} {c : Cfg T E} (hc : CSteps N (N - 1) j (.init (mpiSweeps3 A O C N lb rb k) ⟨mem, d⟩) c) :
    j ≤ cost (mpiSweeps3 A O C N lb rb k) ∧ ¬ Bad N (N - 1) c ∧ RaceFree N (N - 1) c ∧
    ((∀ c', ¬ CStep N (N - 1) c c') → c.main = [] ∧ (∀ t, c.thr t = none) ∧
      OnDisk N (noisedMps A O C N lb rb k (ψ, clk)) c.s.dsk ∧ NoTensors c.s.mem (opt3Sweeps A O N lb rb k (ψ, clk)).2 ∧
      EnvReady A N lb rb (noisedMps A O C N lb rb k (ψ, clk)) c.s.dsk) := by
  obtain ⟨sf, r1, e1, e2, e3, -⟩ := C24_sweeps H HC h1 h2 k clk h0 hm he
  obtain ⟨g1, g2, g3, g4⟩ := threads_ok (safe_sweeps A O N C h1 h2 k) (by rw [seq_sweeps A O C h1 h2]; exact r1) hc
  refine ⟨g1, g2, g3, fun hst => ?_⟩
  obtain ⟨-, g5, g6, g7⟩ := g4 hst
  rw [g7]
  exact ⟨g5, g6, e1, e2, e3⟩

/-- **C40**, **C54** (crashes of the threaded sweeps). Whenever the process is killed, with any of the three threads in the middle of
an operation: if the tensor files are all complete then every complete environment file of the swept range is the environment of the
tensors on disk. -/
theorem C54_threads_no_stale_environment {A : Alg T E} {O : Opt3 T E} (H : O.Legs A) {C : Canon T} (HC : C.Legs A) {N lb rb : Nat}
    (h1 : lb + 2 ≤ rb) (h2 : rb < N) (k clk : Nat) {ψ : Nat → T} {d d' : Dsk T E} {mem : Mem T E} (h0 : NoTensors mem clk)
    (hm : OnDisk N ψ d) (he : EnvReady A N lb rb ψ d) {j : Nat} {c : Cfg T E}
    (hc : CSteps N (N - 1) j (.init (mpiSweeps3 A O C N lb rb k) ⟨mem, d⟩) c) (hd : TCrash c d') {ψ' : Nat → T}
    (hm' : OnDisk N ψ' d') : d'.l lb = .whole (A.lenv ψ' lb) ∧
      ∀ k e, N ≤ k + 1 + rb → k + lb + 2 ≤ N → d'.r k = .whole e → e = A.renv N ψ' k := by
  obtain ⟨d0, e1, e2⟩ := threads_crash (safe_sweeps A O N C h1 h2 k) (calm_sweeps A O N C h1 h2 k) hc hd
  rw [inl_sweeps A O N C h1 h2] at e1
  have hm0 : OnDisk N ψ' d0 := fun j hj => by rw [← e2.m]; exact hm' j hj
  obtain ⟨g1, g2⟩ := C54_noised_no_stale_environment H HC h1 h2 k clk h0 hm he (alike_crash N (alike_sweeps A O N C h2 k) e1) hm0
  refine ⟨?_, fun k e a1 a2 a3 => ?_⟩
  · rcases e2.l lb with e | ⟨e, -⟩
    · rw [e]; exact g1
    · exact absurd rfl e
  · rcases e2.r k with e' | e'
    · exact g2 k e a1 a2 (by rw [← e']; exact a3)
    · rw [e'] at a3; exact absurd a3 (by simp)

/-! ### The whole program -/

/-- The post-processing moves the centre to site 0 and leaves a tensor in memory. -/
theorem noisedPost_ok (P : Gauge T) {N n lb : Nat} {φ : Nat → T} {s : Sys T E} (h : lb + 1 < N) (hd : OnDisk N φ s.dsk) :
    Does N n (noisedPost P lb) s (fun s' => OnDisk N (centred P lb φ) s'.dsk ∧ s'.dsk.l = s.dsk.l ∧
      s'.dsk.r = s.dsk.r ∧ s'.mem.clk = s.mem.clk ∧ ∃ t, s'.mem.m 0 = some t) := by
  refine .ldM h (hd _ h) ?_
  refine Does.append (postLoop_ok P (lb + 1) (φ := φ) h (by simp) fun j hj hj' => hd j hj) fun s1 ⟨e1, e2, e3, e4, e5⟩ => ?_
  refine .dpM' (by omega) e1 (.nil ⟨fun j hj => ?_, e3, e4, e5, _, e1⟩)
  by_cases a : j = 0
  · subst a; simp [centred]
  · simp only [Function.update_of_ne a]; exact e2 j hj a

theorem centred_right (P : Gauge T) (lb : Nat) (ψ : Nat → T) {j : Nat} (h : lb + 2 ≤ j) : centred P lb ψ j = ψ j := by
  have : ∀ k (φ : Nat → T), k < j → (List.range' 1 k).reverse.foldl (gaugeR P) φ j = φ j := by
    intro k
    induction k with
    | zero => intro φ _; rfl
    | succ k ih =>
      intro φ hk
      rw [List.range'_1_concat, List.reverse_append]
      simp only [List.reverse_cons, List.reverse_nil, List.nil_append, List.cons_append, List.foldl_cons]
      rw [ih _ (by omega), gaugeR_at P φ (by omega) (by omega)]
  exact this (lb + 1) ψ (by omega)

theorem safe_program (A : Alg T E) (O : Opt3 T E) (C : Canon T) (G P : Gauge T) (bl br : Nat → Bool) {N : Nat} (hN : 3 ≤ N)
    (d : Dsk T E) (k : Nat) : Safe N (N - 1) none none (mpiNoised A O C N G P bl br d k) := by
  obtain ⟨b1, b2⟩ := bounds_ok bl br hN
  exact Safe.append (Safe.append (Safe.ops _) (safe_sweeps A O N C b1 b2 k)) (Safe.ops _)

theorem inl_program (A : Alg T E) (O : Opt3 T E) (C : Canon T) (G P : Gauge T) (bl br : Nat → Bool) {N : Nat} (hN : 3 ≤ N)
    (d : Dsk T E) (k : Nat) : inl none (mpiNoised A O C N G P bl br d k) =
      vmpsInit A G bl br N d ++ (sweeps3' A O N C (lbOf bl N) (rbOf br N) k ++ (.calc (assertEmpty N) :: noisedPost P (lbOf bl N))) := by
  obtain ⟨b1, b2⟩ := bounds_ok bl br hN
  unfold mpiNoised
  rw [inl_append (N := N) (n := N - 1) _ (Safe.ops _), inl_append (N := N) (n := N - 1) _ (safe_sweeps A O N C b1 b2 k), inl_ops, inl_ops,
    inl_sweeps A O N C b1 b2]

theorem seq_program {A : Alg T E} {O : Opt3 T E} (H : O.Legs A) {C : Canon T} (HC : C.Legs A) {G P : Gauge T} (L : G.Laws A)
    (bl br : Nat → Bool) {N : Nat} (hN : 3 ≤ N) {clk : Nat} (k : Nat) {ψ : Nat → T} {d : Dsk T E} {mem : Mem T E}
    (h0 : NoTensors mem clk) (hm : OnDisk N ψ d) (hj : ∀ k, d.r k ≠ .junk) (hr : Reusable A N (lbOf bl N) (rbOf br N) ψ d) :
    ∃ s', run N (N - 1) (inl none (mpiNoised A O C N G P bl br d k)) ⟨mem, d⟩ = .ok s' ∧
      OnDisk N (centred P (lbOf bl N)
        (noisedMps A O C N (lbOf bl N) (rbOf br N) k (gauged G N (lbOf bl N) (rbOf br N) ψ, clk))) s'.dsk ∧
      (∀ j, N ≤ j + 1 + rbOf br N → j + lbOf bl N + 2 ≤ N → s'.dsk.r j = .whole (A.renv N (centred P (lbOf bl N)
        (noisedMps A O C N (lbOf bl N) (rbOf br N) k (gauged G N (lbOf bl N) (rbOf br N) ψ, clk))) j)) ∧
      ∃ t, s'.mem.m 0 = some t := by
  obtain ⟨b1, b2⟩ := bounds_ok bl br hN
  obtain ⟨s1, r1, e1, e2, e3, -⟩ := C20_boundary_envs (A := A) L bl br (n := N - 1) hN h0 hm hj hr
  obtain ⟨s2, r2, f1, f2, f3, -⟩ := C24_sweeps H HC b1 b2 k clk e1 e2 e3
  obtain ⟨s3, r3, q1, -, q3, -, q5⟩ := noisedPost_ok (N := N) (n := N - 1) P (lb := lbOf bl N) (by omega) f1
  have r2' : run N (N - 1) (sweeps3' A O N C (lbOf bl N) (rbOf br N) k) s1 = .ok s2 := by
    rw [alike_run N (alike_sweeps A O N C b2 k)]; exact r2
  have ra : exec N (N - 1) (.calc (assertEmpty N)) s2 = .ok s2 := by
    have : (List.range N).all (fun i => (s2.mem.m i).isNone) = true := by
      rw [List.all_eq_true]; intro i _; rw [f2.m]; rfl
    simp only [exec, assertEmpty, if_pos this, bind, Except.bind, pure, Except.pure]
  refine ⟨s3, ?_, q1, fun j g1 g2 => ?_, q5⟩
  · rw [inl_program A O C G P bl br hN]
    exact run_app_ok r1 (run_app_ok r2' (run_cons_ok ra r3))
  · rw [q3, f3.r j g1 g2]
    rw [renv_congr A (ψ' := noisedMps A O C N (lbOf bl N) (rbOf br N) k (gauged G N (lbOf bl N) (rbOf br N) ψ, clk))
      (by rw [centred_right P _ _ (by omega)]) j (fun i hi hi' => centred_right P _ _ (by omega)) (by omega)]

/-- **C40** (the program). The whole master process on at least three sites, wherever the bond dimensions put the boundary sites:
in every interleaving of its threads nothing fails, no tensor or file is touched by two threads at a time unless both only read it, and
every execution comes to its end, with the files of the updated MPS, its centre moved to site 0, and right environments that belong to it. -/
theorem C40_program {A : Alg T E} {O : Opt3 T E} (H : O.Legs A) {C : Canon T} (HC : C.Legs A) {G P : Gauge T} (L : G.Laws A)
    (bl br : Nat → Bool) {N : Nat} (hN : 3 ≤ N) {clk : Nat} (k : Nat) {ψ : Nat → T} {d : Dsk T E} {mem : Mem T E}
    (h0 : NoTensors mem clk) (hm : OnDisk N ψ d) (hj : ∀ k, d.r k ≠ .junk) (hr : Reusable A N (lbOf bl N) (rbOf br N) ψ d)
    {j : Nat} {c : Cfg T E} (hc : CSteps N (N - 1) j (.init (mpiNoised A O C N G P bl br d k) ⟨mem, d⟩) c) :
    j ≤ cost (mpiNoised A O C N G P bl br d k) ∧ ¬ Bad N (N - 1) c ∧ RaceFree N (N - 1) c ∧
    ((∀ c', ¬ CStep N (N - 1) c c') → c.main = [] ∧ (∀ t, c.thr t = none) ∧
      OnDisk N (centred P (lbOf bl N)
        (noisedMps A O C N (lbOf bl N) (rbOf br N) k (gauged G N (lbOf bl N) (rbOf br N) ψ, clk))) c.s.dsk ∧
      (∀ j, N ≤ j + 1 + rbOf br N → j + lbOf bl N + 2 ≤ N → c.s.dsk.r j = .whole (A.renv N (centred P (lbOf bl N)
        (noisedMps A O C N (lbOf bl N) (rbOf br N) k (gauged G N (lbOf bl N) (rbOf br N) ψ, clk))) j))) := by
  obtain ⟨sf, r1, e1, e2, -⟩ := seq_program (P := P) H HC L bl br hN k h0 hm hj hr
  obtain ⟨g1, g2, g3, g4⟩ := threads_ok (safe_program A O C G P bl br hN d k) r1 hc
  refine ⟨g1, g2, g3, fun hst => ?_⟩
  obtain ⟨-, g5, g6, g7⟩ := g4 hst
  rw [g7]
  exact ⟨g5, g6, e1, e2⟩

/-- **C64** (the code). After the program has come to its end, another call on the same MPS object fails the assertion that the
object is empty, in its first operation: the post-processing leaves tensors in memory. -/
theorem C64_second_call_violation {A : Alg T E} {O : Opt3 T E} (H : O.Legs A) {C : Canon T} (HC : C.Legs A) {G P : Gauge T} (L : G.Laws A)
    (bl br : Nat → Bool) {N : Nat} (hN : 3 ≤ N) {clk : Nat} (k : Nat) {ψ : Nat → T} {d : Dsk T E} {mem : Mem T E}
    (h0 : NoTensors mem clk) (hm : OnDisk N ψ d) (hj : ∀ k, d.r k ≠ .junk) (hr : Reusable A N (lbOf bl N) (rbOf br N) ψ d)
    {j : Nat} {c : Cfg T E} (hc : CSteps N (N - 1) j (.init (mpiNoised A O C N G P bl br d k) ⟨mem, d⟩) c)
    (hst : ∀ c', ¬ CStep N (N - 1) c c') (bl' br' : Nat → Bool) (k' : Nat) :
    (∀ c', ¬ CStep N (N - 1) (.init (mpiNoised A O C N G P bl' br' c.s.dsk k') c.s) c') ∧
    ∃ o ms, mpiNoised A O C N G P bl' br' c.s.dsk k' = .op o :: ms ∧ exec N (N - 1) o c.s = .error .assertFail := by
  obtain ⟨sf, r1, -, -, t, e3⟩ := seq_program (P := P) H HC L bl br hN k h0 hm hj hr
  obtain ⟨-, -, -, g4⟩ := threads_ok (safe_program A O C G P bl br hN d k) r1 hc
  obtain ⟨-, -, -, g7⟩ := g4 hst
  have ha : exec N (N - 1) (.calc (assertEmpty N)) c.s = .error .assertFail := by
    have : ¬ (List.range N).all (fun i => (c.s.mem.m i).isNone) = true := by
      rw [List.all_eq_true]
      intro hx
      have := hx 0 (List.mem_range.mpr (by omega))
      rw [g7, e3] at this
      simp at this
    simp only [exec, assertEmpty, if_neg this, bind, Except.bind]
  obtain ⟨ms, hms⟩ : ∃ ms, mpiNoised A O C N G P bl' br' c.s.dsk k' = .op (.calc (assertEmpty N)) :: ms := ⟨_, rfl⟩
  refine ⟨fun c' hc' => ?_, _, _, hms, ha⟩
  rw [hms] at hc'
  cases hc' with
  | op he => rw [ha] at he; cases he
  | thr ht => cases ht

/-! ### Restart -/

theorem resumable_fewer {A : Alg T E} {N lb rb : Nat} {d d' : Dsk T E} (hf : Fewer lb d d') (h : Resumable A N lb rb d) :
    Resumable A N lb rb d' := by
  rcases h with ⟨ψ, e1, e2⟩ | ⟨h, c, e1, e2⟩
  · refine .inl ⟨ψ, fun j t hj => by rw [hf.m]; exact e1 j t hj, fun k e g1 g2 g3 => ?_⟩
    rcases hf.r k with e' | e'
    · exact e2 k e g1 g2 (by rw [← e']; exact g3)
    · rw [e'] at g3; exact absurd g3 (by simp)
  · exact .inr ⟨h, c, e1, fun t => by rw [hf.m]; exact e2 t⟩

theorem sweeps3'_reads {A : Alg T E} {O : Opt3 T E} {C : Canon T} {N lb rb k j : Nat} (hk : 1 ≤ k) (h1 : lb + 2 ≤ j) (h2 : j + 1 < rb) :
    Reads j (sweeps3' A O N C lb rb k) := by
  obtain ⟨k, rfl⟩ : ∃ k', k = k' + 1 := ⟨k - 1, by omega⟩
  have hs : List.range' lb (rb - 1 - lb) = List.range' lb (j - 2 - lb) ++ (j - 2) :: List.range' (j - 1) (rb - j) := by
    rw [show rb - 1 - lb = (j - 2 - lb) + (rb - j + 1) by omega, ← List.range'_append_1, List.range'_succ,
      show lb + (j - 2 - lb) = j - 2 by omega, show j - 2 + 1 = j - 1 by omega]
  unfold sweeps3' sweep3'
  rw [List.replicate_succ, List.flatten_cons, hs, List.flatMap_append, List.flatMap_cons]
  rw [show ∀ (a b c d e f : List (Op T E)), .ldM lb :: .ldM (lb + 1) :: ((.calc freshEnvs :: (((a ++ (b ++ c)) ++ d)) ++ e) ++ f) =
    ([.ldM lb, .ldM (lb + 1), .calc freshEnvs] ++ a) ++ (b ++ (c ++ (d ++ (e ++ f)))) from fun a b c d e f => by simp]
  refine Reads.prepend (fun o ho rel => ?_) (Reads.append ?_)
  · simp only [List.mem_append, List.mem_cons, List.mem_flatMap, List.mem_range'_1, List.not_mem_nil, or_false] at ho
    rcases ho with (rfl | rfl | rfl) | ⟨i, hi, ho⟩
    · simp
    · simp
    · simp
    · unfold stepR3' loadR3 dumpR3 at ho
      split at ho <;>
        simp only [List.cons_append, List.nil_append, List.mem_cons, List.not_mem_nil, or_false] at ho <;>
        rcases ho with rfl | rfl | rfl | rfl | rfl | rfl | rfl | rfl | rfl <;> simp <;> omega
  · have : ∃ r, stepR3' A O N lb (j - 2) = .ldM j :: r := by
      unfold stepR3' loadR3
      split
      · exact ⟨_, by rw [show j - 2 + 2 = j by omega]; rfl⟩
      · exact ⟨_, by rw [show j - 2 + 2 = j by omega]; rfl⟩
    obtain ⟨r, hr⟩ := this
    rw [hr]
    exact ⟨[], _, rfl, fun o ho => absurd ho (by simp)⟩

/-- **C55** (the threaded program). Its sweeps over the range `lb … rb` are killed at any moment of any interleaving, and the program is
started again, with the same range or a smaller one. If some execution of it comes to its end, then all tensors on disk were complete at
its start, and it made exact sweeps on the MPS that they form. -/
theorem C55_restart_threads {A : Alg T E} {O : Opt3 T E} (H : O.Legs A) {C : Canon T} (HC : C.Legs A) {G P : Gauge T} (L : G.Laws A)
    {N lb rb : Nat} (h1 : lb + 2 ≤ rb) (h2 : rb < N) (k clk : Nat) {ψ : Nat → T} {d d' : Dsk T E} (hm : OnDisk N ψ d)
    (he : EnvReady A N lb rb ψ d) {j : Nat} {c : Cfg T E}
    (hc : CSteps N (N - 1) j (.init (mpiSweeps3 A O C N lb rb k) ⟨Mem.blank clk, d⟩) c) (hd : TCrash c d') (bl br : Nat → Bool)
    (hl : lb ≤ lbOf bl N) (hr : rbOf br N ≤ rb) {k' : Nat} (hk : 1 ≤ k') (clk' : Nat) {j' : Nat} {c' : Cfg T E}
    (hc' : CSteps N (N - 1) j' (.init (mpiNoised A O C N G P bl br d' k') ⟨Mem.blank clk', d'⟩) c') (hend : c'.main = [])
    (hjoined : ∀ t, c'.thr t = none) :
    ∃ ψ', OnDisk N ψ' d' ∧ OnDisk N (centred P (lbOf bl N)
      (noisedMps A O C N (lbOf bl N) (rbOf br N) k' (gauged G N (lbOf bl N) (rbOf br N) ψ', clk'))) c'.s.dsk := by
  obtain ⟨d0, e1, e2⟩ := threads_crash (safe_sweeps A O N C h1 h2 k) (calm_sweeps A O N C h1 h2 k) hc hd
  rw [inl_sweeps A O N C h1 h2] at e1
  have hres := resumable_fewer e2 (resumable_afterW h1 h2 (ψ 0)
    ((sweeps3_thru H HC h1 h2 k clk (blank_noTensors clk) hm he).2 _ (alike_crash N (alike_sweeps A O N C h2 k) e1)))
  have hrun := threads_back (safe_program A O C G P bl br (by omega) d' k') hc' hend hjoined
  rw [inl_program A O C G P bl br (by omega)] at hrun
  rcases resume (G := G) bl br (n := N - 1) (by omega) hl hr (blank_noTensors clk') hres
    (ops := sweeps3' A O N C (lbOf bl N) (rbOf br N) k' ++ (.calc (assertEmpty N) :: noisedPost P (lbOf bl N)))
    (fun j a b => Reads.append (sweeps3'_reads hk a b))
    (P := fun ψ' φ => φ = centred P (lbOf bl N) (noisedMps A O C N (lbOf bl N) (rbOf br N) k' (gauged G N (lbOf bl N) (rbOf br N) ψ', clk')))
    (fun ψ' d'' g1 g2 g3 => by
      obtain ⟨s', r1, e1, -⟩ := seq_program (P := P) H HC L bl br (by omega) k' (blank_noTensors clk') g1 g2 g3
      rw [inl_program A O C G P bl br (by omega)] at r1
      exact ⟨s', _, r1, rfl, e1⟩) with h | ⟨ψ', φ, s', a1, a2, a3, a4⟩
  · rw [hrun] at h
    rcases h with h | h <;> cases h
  · rw [hrun] at a2
    cases a2
    exact ⟨ψ', a1, a3 ▸ a4⟩

/-! ### Concrete executions -/

/-- A step of the chosen thread (`none` is the main thread). -/
def advance (N n : Nat) (c : Cfg T E) : Option Thr → Option (Cfg T E)
  | some t => match c.thr t with
    | some (o :: os) => match exec N n o c.s with
      | .ok s' => some ⟨c.main, Function.update c.thr t (some os), s'⟩
      | .error _ => none
    | _ => none
  | none => match c.main with
    | .op o :: ms => match exec N n o c.s with
      | .ok s' => some ⟨ms, c.thr, s'⟩
      | .error _ => none
    | .spawn t ops :: ms => match c.thr t with
      | none => some ⟨ms, Function.update c.thr t (some ops), c.s⟩
      | some _ => none
    | .join t :: ms => match c.thr t with
      | some [] => some ⟨ms, Function.update c.thr t none, c.s⟩
      | _ => none
    | [] => none

theorem advance_step {N n : Nat} {c c' : Cfg T E} {x : Option Thr} (h : advance N n c x = some c') : CStep N n c c' := by
  obtain ⟨main, th, s⟩ := c
  cases x with
  | some t =>
    simp only [advance] at h
    cases ht : th t with
    | none => rw [ht] at h; cases h
    | some l =>
      cases l with
      | nil => rw [ht] at h; cases h
      | cons o os =>
        rw [ht] at h
        simp only at h
        cases he : exec N n o s with
        | error e => rw [he] at h; cases h
        | ok s' => rw [he] at h; cases h; exact .thr ht he
  | none =>
    simp only [advance] at h
    cases main with
    | nil => cases h
    | cons m ms =>
      cases m with
      | op o =>
        simp only at h
        cases he : exec N n o s with
        | error e => rw [he] at h; cases h
        | ok s' => rw [he] at h; cases h; exact .op he
      | spawn t ops =>
        simp only at h
        cases ht : th t with
        | none => rw [ht] at h; cases h; exact .spawn ht
        | some l => rw [ht] at h; cases h
      | join t =>
        simp only at h
        cases ht : th t with
        | none => rw [ht] at h; cases h
        | some l =>
          cases l with
          | nil => rw [ht] at h; cases h; exact .join ht
          | cons o os => rw [ht] at h; cases h

/-- An execution of at most `k` steps, in which the first possible thread of `p` makes the next step; with the number of its steps. -/
def drive (N n : Nat) (p : List (Option Thr)) : Nat → Nat → Cfg T E → Nat × Cfg T E
  | 0, j, c => (j, c)
  | k + 1, j, c =>
    match p.findSome? (advance N n c) with
    | some c' => drive N n p k (j + 1) c'
    | none => (j, c)

theorem drive_steps {N n : Nat} (p : List (Option Thr)) {c0 : Cfg T E} : ∀ (k j : Nat) (c : Cfg T E), CSteps N n j c0 c →
    CSteps N n (drive N n p k j c).1 c0 (drive N n p k j c).2
  | 0, _, _, h => h
  | k + 1, j, c, h => by
    simp only [drive]
    cases hf : p.findSome? (advance N n c) with
    | none => exact h
    | some c' =>
      obtain ⟨x, -, hx⟩ := List.exists_of_findSome?_eq_some hf
      exact drive_steps p k (j + 1) c' (.snoc h (advance_step hx))

/-- What an execution leaves: its number of steps, whether it is at the end, the tensors. -/
def seen (x : Nat × Cfg Nat (List Nat)) (N : Nat) : Nat × Bool × List (File Nat) :=
  (x.1, x.2.main.isEmpty && (x.2.thr .ld).isNone && (x.2.thr .dp).isNone, (shot x.2.s.dsk N).1)

/-- A directory with the tensors `0, …, 4` of five sites and their environments. -/
def exReady5 : Dsk Nat (List Nat) := ⟨fun j => .whole j, fun k => if k = 0 then .whole [] else .gone,
  fun k => if k ≤ 3 then .whole (exAlg.renv 5 (fun j => j) k) else .gone⟩

/-- The sweeps over five sites at their start. -/
def exStart : Cfg Nat (List Nat) := .init (mpiSweeps3 exAlg exOpt3 exCanon 5 0 4 1) ⟨Mem.blank 0, exReady5⟩

/-- The hypotheses of the theorems about the sweeps hold for five sites. -/
example : OnDisk 5 (fun j => j) exReady5 ∧ EnvReady exAlg 5 0 4 (fun j => j) exReady5 := by
  refine ⟨fun _ _ => rfl, ⟨rfl, fun k _ h => ?_⟩⟩
  simp only [exReady5]
  rw [if_pos (by omega)]

/-- Two very different executions (threads as late as possible, threads as early as possible) have the maximal number of steps
and leave the same tensors, those of the specification. After 18 steps of the first both threads are at work. -/
example : seen (drive 5 4 [none, some .ld, some .dp] 80 0 exStart) 5 = seen (drive 5 4 [some .dp, some .ld, none] 80 0 exStart) 5 ∧
    seen (drive 5 4 [some .dp, some .ld, none] 80 0 exStart) 5 = (cost exStart.main, true, [.whole 125, .whole 126, .whole 27, .whole 24, .whole 21]) ∧
    (List.range 5).map (noisedMps exAlg exOpt3 exCanon 5 0 4 1 ((fun j => j), 0)) = [125, 126, 27, 24, 21] ∧
    (((drive 5 4 [none, some .ld, some .dp] 18 0 exStart).2.thr .ld).isSome ∧ ((drive 5 4 [none, some .ld, some .dp] 18 0 exStart).2.thr .dp).isSome) := by
  decide +kernel

/-- The hypotheses of the theorems about the program hold, and an execution of it leaves the tensor of site 0 in memory. -/
example : (OnDisk 5 (fun j => j) exDsk ∧ (∀ k, exDsk.r k ≠ .junk) ∧ Reusable exAlg 5 0 4 (fun j => j) exDsk) ∧
    ((drive 5 4 [none, some .ld, some .dp] 200 0 (.init (mpiNoised exAlg exOpt3 exCanon 5 exGauge exGauge wide.1 wide.2.1 exDsk 1)
      ⟨Mem.blank 0, exDsk⟩)).2.main.isEmpty = true) ∧
    ((drive 5 4 [none, some .ld, some .dp] 200 0 (.init (mpiNoised exAlg exOpt3 exCanon 5 exGauge exGauge wide.1 wide.2.1 exDsk 1)
      ⟨Mem.blank 0, exDsk⟩)).2.s.mem.m 0).isSome = true :=
  ⟨⟨fun _ _ => rfl, fun _ => by simp [exDsk], fun _ _ _ _ h => by simp [exDsk] at h⟩, by decide +kernel, by decide +kernel⟩

end Verif.Props
