import Verif.Props.Kept
import Verif.Props.Sequence
/-
C96 with C95: the energies of programs that share a temporary directory.
-/
namespace Verif.Props
open Verif.Disk Verif.Mps Verif.Algo

variable {σ 𝕜 : Type} [Fintype σ] [DecidableEq σ] [RCLike 𝕜] {N : Nat}

/-- The call `r` is the program `q` of C95: started without a temporary directory it does the same. -/
structure IsProg (N : Nat) (w : Nat → Ten (σ × σ) 𝕜) (r : KeptRun (LTen σ 𝕜) (Env3 𝕜)) (q : ProgRun σ 𝕜) : Prop where
  run : IsRun N w q
  legs : r.Legs
  does : ∀ f g, q.does f g ↔ ∃ s, r.exec N false ⟨Mem.blank 0, ⟨f, fun _ => .gone, fun _ => .gone⟩⟩ = .ok s ∧ s.dsk.m = g

/-- `TwoSiteFiniteVMPS` is such a call. -/
theorem two_isProg {w : Nat → Ten (σ × σ) 𝕜} (P : VmpsPar σ 𝕜) (k : Nat) (h0 : P.w = w) (h1 : BlkSplitR P.splitR) (h2 : BlkSplitL P.splitL)
    (h3 : Solves P.tri) (h4 : 2 ≤ P.maxIter) (hk : k ≠ 0) : ∃ q, IsProg N w (.two (vmpsAlg N P) k) q ∧ q.accepts = 1 ∧ q.leaves = 1 ∧ q.site = 1 :=
  ⟨_, ⟨.vmps P k h0 h1 h2 h3 h4 hk, vmps_legs h1 h2, fun _ _ => Iff.rfl⟩, rfl, rfl, rfl⟩

/-- `SingleSiteFiniteVMPS` is such a call. -/
theorem single_isProg {w : Nat → Ten (σ × σ) 𝕜} (P : SsPar σ 𝕜) (k : Nat) (h0 : P.w = w) (h1 : SiteSvdR P.svdR) (h2 : SiteSvdL P.svdL)
    (h3 : Solves P.tri) (h4 : 2 ≤ P.maxIter) (h5 : P.Silent ∨ P.NoCut) (hk : k ≠ 0) :
    ∃ q, IsProg N w (.single (ssAlg N P) (ssOpt N P) k) q ∧ q.accepts = 0 ∧ q.leaves = 0 ∧ q.site = 0 :=
  ⟨_, ⟨.single P k h0 h1 h2 h3 h4 h5 hk, ss_legs h1 h2, fun _ _ => Iff.rfl⟩, rfl, rfl, rfl⟩

/-- `TwoSiteFiniteVMPSWithNoise` is such a call. -/
theorem noisy_isProg {w : Nat → Ten (σ × σ) 𝕜} (P : TnPar σ 𝕜) (fuse : (l : Nat) → Fin l × σ ≃ Fin (l * Fintype.card σ)) (dmax : Nat) (bl br : Nat → Bool)
    (k : Nat) (h0 : P.w = w) (h1 : BlkSplitR P.splitR) (h2 : BlkSplitL P.splitL) (h3 : QRSpec P.qr) (h4 : Solves P.tri) (h5 : 2 ≤ P.maxIter)
    (h6 : P.Silent ∨ P.NoCut) (hk : k ≠ 0) :
    ∃ q, IsProg N w (.noisy (tnAlg N P.toVmpsPar) (tnOpt P) (tnCanon P) (vmpsG P.qr fuse dmax) bl br k) q ∧ q.accepts = lbOf bl N + 1 ∧
      q.leaves = lbOf bl N + 1 ∧ q.site = lbOf bl N + 1 :=
  ⟨_, ⟨.noise P fuse dmax bl br k h0 h1 h2 h3 h4 h5 h6 hk, ⟨tn_legs h1 h2, tnCanon_legs h3, vmpsG_laws h3 fuse dmax⟩, fun _ _ => Iff.rfl⟩, rfl, rfl, rfl⟩

/-- The serial two-site and single-site programs for the same MPO tensors have the same environments. -/
theorem sameEnv_ss {P : SsPar σ 𝕜} {Q : VmpsPar σ 𝕜} (h : P.w = Q.w) : SameEnv (ssAlg N P) (vmpsAlg N Q) := by
  constructor <;> (simp only [ssAlg, vmpsAlg]; rw [h])

theorem sameEnv_two {P Q : VmpsPar σ 𝕜} (h : P.w = Q.w) : SameEnv (vmpsAlg N P) (vmpsAlg N Q) := by
  constructor <;> (simp only [vmpsAlg]; rw [h])

theorem runs_deleted {w : Nat → Ten (σ × σ) 𝕜} : ∀ {ps : List (KeptRun (LTen σ 𝕜) (Env3 𝕜) × ProgRun σ 𝕜)} {es : List ℝ} {g : Nat → File (LTen σ 𝕜)}
    {d : Dsk (LTen σ 𝕜) (Env3 𝕜)}, (∀ p ∈ ps, IsProg N w p.1 p.2) → Runs d.m (ps.map Prod.snd) es g →
    ∃ d', keptRuns N ((ps.map Prod.fst).map fun r => (true, r)) d = .ok d' ∧ d'.m = g
  | [], _, _, d, _, h => by
    cases h
    exact ⟨d, rfl, rfl⟩
  | (r, q) :: ps, _, _, d, hp, h => by
    cases h with
    | cons h1 h2 h3 =>
      obtain ⟨s, e1, e2⟩ := ((hp _ List.mem_cons_self).does _ _).1 h1
      rw [← e2] at h3
      obtain ⟨d', f1, f2⟩ := runs_deleted (fun p hp' => hp p (List.mem_cons_of_mem _ hp')) h3
      refine ⟨d', ?_, f2⟩
      simp only [List.map_cons, keptRuns, Bool.not_true, if_true]
      rw [show wipe d = ⟨d.m, fun _ => .gone, fun _ => .gone⟩ from rfl, e1]
      exact f1

/-- **C96** (energies). `TwoSiteFiniteVMPS`, `SingleSiteFiniteVMPS` and `TwoSiteFiniteVMPSWithNoise` one after the other for
the same Hermitian Hamiltonian, each accepting the canonical centre where the one before has left it, and with the
temporary directory kept only where it may be. All calls succeed and leave, file by file, the tensors and last energies
that the same programs leave with an empty temporary directory each time. So no reported energy is below the ground-state
energy, the MPS on disk is canonical around the centre the last program leaves and not zero, and if nothing is ever
discarded the energies never rise, and the last is the energy of the normalised MPS on disk. -/
theorem C96_energies {w : Nat → Ten (σ × σ) 𝕜} (hw : Closed N w) (hh : (opM N w).IsHermitian) (hN : 3 ≤ N)
    (ps : List (Bool × KeptRun (LTen σ 𝕜) (Env3 𝕜) × ProgRun σ 𝕜)) (hp : ∀ p ∈ ps, IsProg N w p.2.1 p.2.2)
    (hk : MayKeep N none (ps.map fun p => (p.1, p.2.1))) {c : Nat} (hc : Fit c (ps.map fun p => p.2.2))
    {d : Dsk (LTen σ 𝕜) (Env3 𝕜)} {ψ : Nat → LTen σ 𝕜} (hm : OnDisk N ψ d) (hcan : Mps.Canon N c (tens ψ)) (hz : stateV N (tens ψ) ≠ 0) :
    ∃ d' g ψ' es, keptRuns N (ps.map fun p => (p.1, p.2.1)) d = .ok d' ∧ Runs d.m (ps.map fun p => p.2.2) es g ∧
      (∀ j, j < N → d'.m j = g j) ∧ OnDisk N ψ' d' ∧ Mps.Canon N (endAt c (ps.map fun p => p.2.2)) (tens ψ') ∧ stateV N (tens ψ') ≠ 0 ∧
      (∀ E0, (∀ Φ : ChainV σ 𝕜 N, E0 * ‖Φ‖ ^ 2 ≤ Mps.expect (opM N w) Φ) → ∀ e ∈ es, E0 ≤ e) ∧
      ((∀ p ∈ ps, p.2.2.exact) → es.Pairwise (fun e e' => e' ≤ e) ∧
        (∀ e ∈ es, e * ‖stateV N (tens ψ)‖ ^ 2 ≤ Mps.expect (opM N w) (stateV N (tens ψ))) ∧
        ∀ e, es.getLast? = some e → ‖stateV N (tens ψ')‖ = 1 ∧ Mps.expect (opM N w) (stateV N (tens ψ')) = e) := by
  obtain ⟨g, ψ', es, a1, a2, a3, a4, -, a5, a6⟩ := C95_sequence hw hh hN (rs := ps.map fun p => p.2.2)
    (fun r hr => by obtain ⟨p, h, rfl⟩ := List.mem_map.1 hr; exact (hp p h).run) hc (f := d.m) hm hcan hz
  obtain ⟨d2, e1, e2⟩ := runs_deleted (N := N) (w := w) (ps := ps.map Prod.snd) (d := d) (es := es) (g := g)
    (fun p h => by obtain ⟨p', h', rfl⟩ := List.mem_map.1 h; exact hp p' h') (by rw [List.map_map]; exact a1)
  obtain ⟨d1, d2', f1, f2, f3⟩ := C96_as_deleted hN (ps.map fun p => (p.1, p.2.1))
    (fun r hr => by obtain ⟨p, h, rfl⟩ := List.mem_map.1 hr; exact (hp p h).legs) hk hm
  have he : d2' = d2 := by
    simp only [List.map_map] at f2 e1
    have := f2.symm.trans e1
    injection this
  rw [he, e2] at f3
  exact ⟨d1, g, ψ', es, f1, a1, f3, fun j hj => by rw [f3 j hj]; exact a2 j hj, a3, a4, a5,
    fun h => a6 fun r hr => by obtain ⟨p, h', rfl⟩ := List.mem_map.1 hr; exact h p h'⟩

/-- The condition on the directory holds for single-site calls followed by two-site calls with the same MPO tensors. -/
example (P : SsPar σ 𝕜) (Q : VmpsPar σ 𝕜) (h : P.w = Q.w) : MayKeep N none
    [(true, .single (ssAlg N P) (ssOpt N P) 2), (false, KeptRun.two (vmpsAlg N Q) 1), (false, .two (vmpsAlg N Q) 3)] :=
  ⟨⟨sameEnv_ss h, Nat.le_refl _, Nat.le_refl _, fun h => by simp [KeptRun.isSingle] at h⟩,
    ⟨sameEnv_two rfl, Nat.le_refl _, Nat.le_refl _, fun h => by simp [KeptRun.isSingle] at h⟩, trivial⟩

/-- On the Ising chain of any length from three: single-site sweeps with noise, then twice two-site sweeps, all in one
temporary directory, from the product state. The calls succeed, and every energy is at least any lower bound of the
Hamiltonian. -/
example (N : Nat) (hN : 3 ≤ N) : ∃ (tri : TriSolver) (qs : List (ProgRun Bool ℝ)) (d' : Dsk (LTen Bool ℝ) (Env3 ℝ)) (g : Nat → File (LTen Bool ℝ)) (es : List ℝ),
    keptRuns N [(true, .single (ssAlg N (exSsNoise N tri)) (ssOpt N (exSsNoise N tri)) 2), (false, .two (vmpsAlg N (exParFull N tri)) 3),
      (false, .two (vmpsAlg N (exParFull N tri)) 1)] ⟨fun _ => .whole ⟨exUp, none⟩, fun _ => .gone, fun _ => .gone⟩ = .ok d' ∧
    Runs (fun _ => .whole ⟨exUp, none⟩) qs es g ∧ (∀ j, j < N → d'.m j = g j) ∧
    (∀ E0, (∀ Φ : ChainV Bool ℝ N, E0 * ‖Φ‖ ^ 2 ≤ Mps.expect (opM N (exIsing N)) Φ) → ∀ e ∈ es, E0 ≤ e) := by
  obtain ⟨tri, ht⟩ := solver_exists
  have h1 := exSsNoise_ok (N := N) (by omega) ht
  have h2 := exParFull_ok (N := N) (by omega) ht
  obtain ⟨q1, r1, b1, l1, -⟩ := single_isProg (N := N) (w := exIsing N) (exSsNoise N tri) 2 rfl h1.svR h1.svL ht (by show 2 ≤ 10; omega)
    (.inr (exSsNoise_nocut N tri)) (by omega)
  obtain ⟨q2, r2, b2, l2, -⟩ := two_isProg (N := N) (w := exIsing N) (exParFull N tri) 3 rfl h2.spR h2.spL ht (by show 2 ≤ 10; omega) (by omega)
  obtain ⟨q3, r3, b3, l3, -⟩ := two_isProg (N := N) (w := exIsing N) (exParFull N tri) 1 rfl h2.spR h2.spL ht (by show 2 ≤ 10; omega) (by omega)
  obtain ⟨d', g, ψ', es, a1, a2, a3, -, -, -, a4, -⟩ := C96_energies (exIsing_closed (by omega)) (herm_of_sym (exIsing_sym N)) hN
    [(true, .single (ssAlg N (exSsNoise N tri)) (ssOpt N (exSsNoise N tri)) 2, q1), (false, .two (vmpsAlg N (exParFull N tri)) 3, q2),
      (false, .two (vmpsAlg N (exParFull N tri)) 1, q3)] (by simp only [List.mem_cons, List.not_mem_nil, or_false]; rintro p (rfl | rfl | rfl); exacts [r1, r2, r3])
    ⟨⟨sameEnv_ss (P := exSsNoise N tri) (Q := exParFull N tri) rfl, Nat.le_refl _, Nat.le_refl _, fun h => by simp [KeptRun.isSingle] at h⟩,
      ⟨sameEnv_two (P := exParFull N tri) (Q := exParFull N tri) rfl, Nat.le_refl _, Nat.le_refl _, fun h => by simp [KeptRun.isSingle] at h⟩, trivial⟩
    (c := 0) (by simp [Fit, b2, b3, l1, l2])
    (d := ⟨fun _ => .whole ⟨exUp, none⟩, fun _ => .gone, fun _ => .gone⟩) (fun _ _ => rfl) (exUp_canon N 0) (exUp_nz N)
  exact ⟨tri, _, d', g, es, a1, a2, a3, a4⟩

end Verif.Props
