import Verif.Props.SequenceSpec
import Verif.Props.SsNumEx
import Verif.Props.TnNumEx
/-
C95: optimisation programs one after the other.
-/
namespace Verif.Props
open Finset Verif.Mps Verif.Disk Verif.Algo Verif.Mpi

section
variable {σ 𝕜 : Type} [Fintype σ] [DecidableEq σ] [RCLike 𝕜] {N : Nat}

theorem no_ops {P : DmrgPar σ 𝕜} (hc : OpMatsOK N P.m) (hN : 3 ≤ N) (bl br : Nat → Bool) (φ : Nat → LTen σ 𝕜) (f : Nat → File (LTen σ 𝕜)) :
    OpsReusable (dmrgAlg P) (bondsOf P) N (lbOf bl N) (rbOf br N) φ (⟨f, fun _ _ => .gone, fun _ _ => .gone⟩ : CDsk (LTen σ 𝕜) (Option (BOp 𝕜))) := by
  obtain ⟨b1, b2⟩ := bounds_ok bl br hN
  intro h
  exfalso
  unfold needOps at h
  rw [List.any_eq_false] at h
  have h := h (N - 1 - rbOf br N) (by rw [List.mem_range'_1]; omega)
  simp only [Bool.not_eq_true, List.any_eq_false] at h
  have hpos : 0 < bondsOf P (N - (N - 1 - rbOf br N)) := by
    show 0 < (P.m _).rows
    rw [show N - (N - 1 - rbOf br N) = rbOf br N + 1 by omega, ← hc.fit]
    exact hc.pos _ b2
  exact absurd (h 0 (List.mem_range.mpr hpos)) (by simp [File.present])

/-- One program. -/
theorem run_step {w : Nat → Ten (σ × σ) 𝕜} (hw : Closed N w) (hh : (opM N w).IsHermitian) (hN : 3 ≤ N) {r : ProgRun σ 𝕜} (hr : IsRun N w r) {c : Nat} (hc : c ≤ r.accepts)
    {f : Nat → File (LTen σ 𝕜)} {ψ : Nat → LTen σ 𝕜} (hf : Holds N f ψ) (hcan : Mps.Canon N c (tens ψ)) (hz : stateV N (tens ψ) ≠ 0) :
    ∃ g ψ' e, r.does f g ∧ Holds N g ψ' ∧ r.site < N ∧ Mps.Canon N r.leaves (tens ψ') ∧ (ψ' r.site).e0 = some e ∧ stateV N (tens ψ') ≠ 0 ∧
      (∀ E0, (∀ Φ : ChainV σ 𝕜 N, E0 * ‖Φ‖ ^ 2 ≤ Mps.expect (opM N w) Φ) → E0 ≤ e) ∧
      (r.exact → ‖stateV N (tens ψ')‖ = 1 ∧ Mps.expect (opM N w) (stateV N (tens ψ')) = e ∧ e * ‖stateV N (tens ψ)‖ ^ 2 ≤ Mps.expect (opM N w) (stateV N (tens ψ))) := by
  cases hr with
  | vmps P k h0 h1 h2 h3 h4 hk =>
    subst h0
    obtain ⟨s', ψ', e, a1, a2, a3, a4, a5, -, a7, a8⟩ := C62_run (P := P) ⟨hw, hh, h1, h2, h3, h4⟩ hN false hk 0 (d := (⟨f, fun _ => .gone, fun _ => .gone⟩ : Dsk (LTen σ 𝕜) (Env3 𝕜))) hf
      (fun h => by cases h) (c := c) (by have : c ≤ 1 := hc; omega) hcan hz
    exact ⟨_, ψ', e, ⟨s', a1, rfl⟩, a2, by show 1 < N; omega, a3, a5, a4, a7, a8⟩
  | single P k h0 h1 h2 h3 h4 hq hk =>
    subst h0
    have hP : SsOK N P := ⟨hw, hh, h1, h2, h3, h4⟩
    obtain rfl : c = 0 := Nat.le_zero.mp hc
    have al : Alive N P (ssUpds N k) (ψ, 0) (ssUpds N k).length :=
      hq.elim (fun h => C77_alive_silent hP h (by omega) k 0 hcan hz) (fun h => C77_alive_nocut hP h (by omega) k 0 hcan hz)
    obtain ⟨s', ψ', e, a1, a2, a3, a4, a5, -, a7, a8⟩ := C77_run hP (by omega) false hk 0 (d := (⟨f, fun _ => .gone, fun _ => .gone⟩ : Dsk (LTen σ 𝕜) (Env3 𝕜))) hf (fun h => by cases h) hcan al
    exact ⟨_, ψ', e, ⟨s', a1, rfl⟩, a2, by show 0 < N; omega, a3, a5, a4, a7, a8⟩
  | noise P fuse dmax bl br k h0 h1 h2 h3 h4 h5 hq hk =>
    subst h0
    obtain ⟨b1, b2⟩ := bounds_ok bl br hN
    obtain ⟨s', ψ', e, a1, a2, a3, a4, -, a5, -, a7, a8⟩ := C78_run_alive (P := P) ⟨⟨hw, hh, h1, h2, h4, h5⟩, h3⟩ hN fuse dmax bl br hk 0 hq
      (d := (⟨f, fun _ => .gone, fun _ => .gone⟩ : Dsk (LTen σ 𝕜) (Env3 𝕜))) (blank_noTensors 0) hf (fun _ h => by cases h) (fun _ _ _ _ h => by cases h) hc hcan hz
    exact ⟨_, ψ', e, ⟨s', a1, rfl⟩, a2, by show lbOf bl N + 1 < N; omega, a3, a5, a4, a7, a8⟩
  | dmrg P bl br n k sg hm h0 h1 h2 h3 h4 h5 hsg hn0 hnk hem hno hend =>
    obtain ⟨b1, b2⟩ := bounds_ok bl br hN
    obtain ⟨s', ψ', e, a1, a2, a3, a4, -, a6⟩ := C75_run (P := P) ⟨hm, by show (opM N fun i => (P.m i).ten).IsHermitian; rw [h0]; exact hh, h1, h2, h3, h4, h5⟩ hN bl br 0
      (d := (⟨f, fun _ _ => .gone, fun _ _ => .gone⟩ : CDsk (LTen σ 𝕜) (Option (BOp 𝕜)))) hf (no_ops hm hN bl br ψ f) hc hcan hz n k hsg hn0 hnk hem hno (hend.imp_right fun h => ⟨hn0, h⟩)
    have ab := a6.above
    have ex := a6.exact
    rw [show opM N P.dense.w = opM N w from h0] at ab ex
    exact ⟨_, ψ', e, ⟨s', a1, rfl⟩, a2, by show lbOf bl N + 1 < N; omega, a3, a4, a6.nz, ab, ex⟩
  | vmpsMpi P SL VL L lact W qr fuse dmax bl br k h0 h1 h2 h3 h4 hT h5 hW hL hk =>
    subst h0
    obtain ⟨b1, b2⟩ := bounds_ok bl br hN
    obtain ⟨s', ψ', e, a1, a2, a3, a4, a5, -, a7, a8⟩ := C79_variational hW (P := P) ⟨hw, hh, h1, h2, h4, h5⟩ hT hL hN h3 fuse dmax bl br hk 0
      (d := (⟨f, fun _ => .gone, fun _ => .gone⟩ : Dsk (LTen σ 𝕜) (Env3 𝕜))) (blank_noTensors 0) hf (fun _ h => by cases h) (fun _ _ _ _ h => by cases h) hc hcan hz
    exact ⟨_, ψ', e, ⟨s', a1, rfl⟩, a2, by show lbOf bl N + 1 < N; omega, a3, a5, a4, a7, a8⟩
  | noiseMpi P SL VL L lact W noises fuse dmax bl br k h0 h1 h2 h3 h4 hT h5 hW hL hne hq hk =>
    subst h0
    obtain ⟨b1, b2⟩ := bounds_ok bl br hN
    obtain ⟨s', ψ', e, a1, a2, a3, a4, a5, a7, a8⟩ := C84_alive hW (P := P) ⟨⟨hw, hh, h1, h2, h4, h5⟩, h3⟩ hT hL hN fuse dmax hne hq bl br hk 0
      (d := (⟨f, fun _ => .gone, fun _ => .gone⟩ : Dsk (LTen σ 𝕜) (Env3 𝕜))) (blank_noTensors 0) hf (fun _ h => by cases h) (fun _ _ _ _ h => by cases h) hc hcan hz
    exact ⟨_, ψ', e, ⟨s', a1, rfl⟩, a2, by show lbOf bl N + 1 < N; omega, a3, a5, a4, a7, a8⟩
  | dmrgMpi P SL VL S lact W bl br k hm h0 h1 h2 h3 h4 hT h5 hW hS hk =>
    obtain ⟨b1, b2⟩ := bounds_ok bl br hN
    obtain ⟨s', ψ', e, a1, a2, a3, a4, -, a6⟩ := C76_variational hW (P := P) ⟨hm, by show (opM N fun i => (P.m i).ten).IsHermitian; rw [h0]; exact hh, h1, h2, h3, h4, h5⟩ hT hS hN bl br 0
      (d := (⟨f, fun _ _ => .gone, fun _ _ => .gone⟩ : CDsk (LTen σ 𝕜) (Option (BOp 𝕜)))) hf (no_ops hm hN bl br ψ f) hc hcan hz hk
    have ab := a6.above
    have ex := a6.exact
    rw [show opM N P.dense.w = opM N w from h0] at ab ex
    exact ⟨_, ψ', e, ⟨s', a1, rfl⟩, a2, by show lbOf bl N + 1 < N; omega, a3, a4, a6.nz, ab, ex⟩

/-- **C95.** Any number of optimisation programs, serial or parallel, one after the other on the same MPS directory and for the same Hamiltonian, each accepting the canonical centre where the one
before it has left it: all succeed; no reported energy is below the ground-state energy; the MPS then on disk is canonical around the centre the last
program leaves, and its state is not zero. If nothing is ever discarded, the energies never rise from one program to the
next, none is above the energy of the initial MPS, and the last is the energy of the normalised MPS that is then on disk. -/
theorem C95_sequence {w : Nat → Ten (σ × σ) 𝕜} (hw : Closed N w) (hh : (opM N w).IsHermitian) (hN : 3 ≤ N) {rs : List (ProgRun σ 𝕜)} (hr : ∀ r ∈ rs, IsRun N w r) {c : Nat} (hc : Fit c rs)
    {f : Nat → File (LTen σ 𝕜)} {ψ : Nat → LTen σ 𝕜} (hf : Holds N f ψ) (hcan : Mps.Canon N c (tens ψ)) (hz : stateV N (tens ψ) ≠ 0) :
    ∃ g ψ' es, Runs f rs es g ∧ Holds N g ψ' ∧ Mps.Canon N (endAt c rs) (tens ψ') ∧ stateV N (tens ψ') ≠ 0 ∧ es.length = rs.length ∧
      (∀ E0, (∀ Φ : ChainV σ 𝕜 N, E0 * ‖Φ‖ ^ 2 ≤ Mps.expect (opM N w) Φ) → ∀ e ∈ es, E0 ≤ e) ∧
      ((∀ r ∈ rs, r.exact) → es.Pairwise (fun e e' => e' ≤ e) ∧ (∀ e ∈ es, e * ‖stateV N (tens ψ)‖ ^ 2 ≤ Mps.expect (opM N w) (stateV N (tens ψ))) ∧
        ∀ e, es.getLast? = some e → ‖stateV N (tens ψ')‖ = 1 ∧ Mps.expect (opM N w) (stateV N (tens ψ')) = e) := by
  induction rs generalizing c f ψ with
  | nil => exact ⟨f, ψ, [], .nil f, hf, hcan, hz, rfl, fun _ _ _ h => (List.not_mem_nil h).elim, fun _ => ⟨List.Pairwise.nil, fun _ h => (List.not_mem_nil h).elim, fun _ h => by cases h⟩⟩
  | cons r rs ih =>
    obtain ⟨g, ψ1, e, s1, s2, s3, s4, s5, s6, s7, s8⟩ := run_step hw hh hN (hr r (by simp)) hc.1 hf hcan hz
    obtain ⟨h, ψ', es, t1, t2, tc, t3, t4, t5, t6⟩ := ih (fun r h => hr r (by simp [h])) hc.2 s2 s4 s6
    refine ⟨h, ψ', e :: es, .cons s1 ⟨_, s2 _ s3, s5⟩ t1, t2, tc, t3, by simp [t4], fun E0 hE e' he => ?_, fun hx => ?_⟩
    · rcases List.mem_cons.mp he with rfl | he
      · exact s7 E0 hE
      · exact t5 E0 hE e' he
    · obtain ⟨n1, n2, n3⟩ := s8 (hx r (by simp))
      obtain ⟨p1, p2, p3⟩ := t6 fun r h => hx r (by simp [h])
      have hle : ∀ e' ∈ es, e' ≤ e := fun e' he => by
        have := p2 e' he
        rwa [n1, n2, one_pow, mul_one] at this
      refine ⟨List.pairwise_cons.mpr ⟨hle, p1⟩, fun e' he => ?_, fun e' he => ?_⟩
      · rcases List.mem_cons.mp he with rfl | he
        · exact n3
        · exact le_trans (mul_le_mul_of_nonneg_right (hle e' he) (by positivity)) n3
      · cases es with
        | nil =>
          cases t1
          obtain rfl : e = e' := by simpa using he
          have : stateV N (tens ψ') = stateV N (tens ψ1) := by
            have hd : ∀ j, j < N → tens ψ' j = tens ψ1 j := fun j hj => by
              have := (t2 j hj).symm.trans (s2 j hj)
              exact congrArg LTen.ten (File.whole.inj this)
            unfold stateV
            have : (List.range N).map (tens ψ') = (List.range N).map (tens ψ1) := List.map_congr_left fun j hj => hd j (List.mem_range.mp hj)
            congr 1
            funext s
            exact congrArg (fun l => amp l (List.ofFn s) 0 0) this
          rw [this]
          exact ⟨n1, n2⟩
        | cons a es => exact p3 e' (by simpa using he)

end

/-! ### Non-vacuity -/

/-- On the Ising chain of any length from three: single-site sweeps with noise, then two-site sweeps, then two-site sweeps with noise between any boundaries, twice, from the product state, without
truncation. There are four energies, each not above the one before. -/
example (N : Nat) (hN : 3 ≤ N) (bl br : Nat → Bool) (fuse : (l : Nat) → Fin l × Bool ≃ Fin (l * Fintype.card Bool)) (dmax : Nat) : ∃ (tri : TriSolver) (rs : List (ProgRun Bool ℝ)) (g : Nat → File (LTen Bool ℝ)) (e1 e2 e3 e4 : ℝ),
    rs.map (·.accepts) = [0, 1, lbOf bl N + 1, lbOf bl N + 1] ∧ (∀ r ∈ rs, IsRun N (exIsing N) r) ∧ (∀ r ∈ rs, r.exact) ∧
    Runs (fun _ => .whole ⟨exUp, none⟩) rs [e1, e2, e3, e4] g ∧ e2 ≤ e1 ∧ e3 ≤ e2 ∧ e4 ≤ e3 := by
  obtain ⟨tri, ht⟩ := solver_exists
  have h1 := exSsNoise_ok (N := N) (by omega) ht
  have h2 := exParFull_ok (N := N) (by omega) ht
  have h3 := exTnNoise_ok (N := N) (by omega) ht
  have c3 : (exTnNoise N tri).NoCut := ⟨fullR_is upEnum, fullL_is upEnum⟩
  obtain ⟨q1, r1, x1, b1, l1⟩ : ∃ q : ProgRun Bool ℝ, IsRun N (exIsing N) q ∧ q.exact ∧ q.accepts = 0 ∧ q.leaves = 0 :=
    ⟨_, .single (exSsNoise N tri) 2 rfl h1.svR h1.svL ht (by show 2 ≤ 10; omega) (.inr (exSsNoise_nocut N tri)) (by omega), exSsNoise_nocut N tri, rfl, rfl⟩
  obtain ⟨q2, r2, x2, b2, l2⟩ : ∃ q : ProgRun Bool ℝ, IsRun N (exIsing N) q ∧ q.exact ∧ q.accepts = 1 ∧ q.leaves = 1 :=
    ⟨_, .vmps (exParFull N tri) 3 rfl h2.spR h2.spL ht (by show 2 ≤ 10; omega) (by omega), ⟨fullR_is upEnum, fullL_is upEnum⟩, rfl, rfl⟩
  obtain ⟨q3, r3, x3, b3, l3⟩ : ∃ q : ProgRun Bool ℝ, IsRun N (exIsing N) q ∧ q.exact ∧ q.accepts = lbOf bl N + 1 ∧ q.leaves = lbOf bl N + 1 :=
    ⟨_, .noise (exTnNoise N tri) fuse dmax bl br 2 rfl h3.spR h3.spL h3.qr ht (by show 2 ≤ 10; omega) (.inr c3) (by omega), c3, rfl, rfl⟩
  have hrs : ∀ r ∈ [q1, q2, q3, q3], IsRun N (exIsing N) r := by simp [r1, r2, r3]
  have hx : ∀ r ∈ [q1, q2, q3, q3], r.exact := by simp [x1, x2, x3]
  obtain ⟨g, ψ', es, a1, -, -, -, a4, -, a6⟩ := C95_sequence (exIsing_closed (by omega)) (herm_of_sym (exIsing_sym N)) hN hrs (c := 0)
    (by simp [Fit, b1, b2, b3, l1, l2, l3]) (fun _ _ => rfl) (exUp_canon N 0) (exUp_nz N)
  obtain ⟨p, -, -⟩ := a6 hx
  obtain ⟨e1, e2, e3, e4, rfl⟩ : ∃ e1 e2 e3 e4, es = [e1, e2, e3, e4] := by
    match es, a4 with
    | [e1, e2, e3, e4], _ => exact ⟨_, _, _, _, rfl⟩
  simp only [List.pairwise_cons, List.mem_cons, List.not_mem_nil, or_false] at p
  exact ⟨tri, _, g, e1, e2, e3, e4, by simp [b1, b2, b3], hrs, hx, a1, p.1 _ (.inl rfl), p.2.1 _ (.inl rfl), p.2.2.1 _ rfl⟩

end Verif.Props
