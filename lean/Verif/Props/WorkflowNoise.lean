import Verif.Props.WorkflowNoiseSpec
import Verif.Props.Workflow
import Verif.Props.SsNumEx
/-
C92: whole calculations with `SingleSiteFiniteVMPS` and `TwoSiteFiniteVMPSWithNoise`.
-/
namespace Verif.Props
open Verif.Mpo Verif.Mps Verif.Disk Verif.Fock Verif.Algo Verif.Mpi Matrix

section
variable {𝕜 : Type} [RCLike 𝕜] {d N : Nat} {dec : Fin d → Occ}

theorem calc_noisy {ok : Occ → Prop} (hd : Function.Injective dec) (hok : ∀ k, ok (dec k)) {H : Matrix (Conf N) (Conf N) 𝕜} (hh : H.IsHermitian)
    {w : Nat → Ten (Fin d × Fin d) 𝕜} (hc : Closed N w) (hH : opM N w = H.submatrix (fun s i => dec (s i)) (fun s i => dec (s i))) (hN : 3 ≤ N) : CalcNoisy N w dec ok H := by
  have hm : (opM N w).IsHermitian := by rw [hH]; exact hh.submatrix _
  refine ⟨?_, ?_, ?_⟩
  · rintro P rfl h1 h2 h3 h4 hq k hk
    have hP : SsOK N P := ⟨hc, hm, h1, h2, h3, h4⟩
    refine calculates_of (c := 0) hd hok hH hN (by omega) (fun f φ hf hcan hz => ?_) (fun m m' l1 l2 hm => .inl (hm.elim id fun h => h.trans (after_fresh l1 l2 fun _ hi => touch_ss (by omega) hk false hi)))
    have al : Alive N P (ssUpds N k) (φ, 0) (ssUpds N k).length :=
      hq.elim (fun h => C77_alive_silent hP h (by omega) k 0 hcan hz) (fun h => C77_alive_nocut hP h (by omega) k 0 hcan hz)
    obtain ⟨s', ψ', e, a1, a2, a3, a4, a5, -, a7, a8⟩ := C77_run hP (by omega) false hk 0 (d := (⟨f, fun _ => .gone, fun _ => .gone⟩ : Dsk (LTen (Fin d) 𝕜) (Env3 𝕜))) hf (fun h => by cases h) hcan al
    exact ⟨_, ψ', e, ⟨s', a1, rfl⟩, a2, a3, a5, a4, a7, a8⟩
  · rintro P rfl h1 h2 h3 h4 h5 hq fuse dmax bl br k hk
    have hP : TnOK N P := ⟨⟨hc, hm, h1, h2, h4, h5⟩, h3⟩
    obtain ⟨b1, b2⟩ := bounds_ok bl br hN
    refine calculates_of (c := lbOf bl N + 1) hd hok hH hN (by omega) (fun f φ hf hcan hz => ?_) (fun m m' l1 l2 hm => hm.imp_right fun ⟨ex, h⟩ =>
      .inr ⟨_, Nat.lt_succ_self _, by omega, h.trans (after_marked l1 l2 (by omega) hk true ex)⟩)
    obtain ⟨s', ψ', e, a1, a2, a3, a4, -, a5, -, a7, a8⟩ := C78_run_alive hP hN fuse dmax bl br hk 0 hq (d := (⟨f, fun _ => .gone, fun _ => .gone⟩ : Dsk (LTen (Fin d) 𝕜) (Env3 𝕜)))
      (blank_noTensors 0) hf (fun _ h => by cases h) (fun _ _ _ _ h => by cases h) (Nat.zero_le _) hcan hz
    exact ⟨_, ψ', e, ⟨s', a1, rfl⟩, a2, a3, a5, a4, a7, a8⟩
  · rintro P SL VL L lact W rfl h1 h2 h3 h4 hT h5 hW hL noises hne hq fuse dmax bl br k hk
    have hP : TnOK N P := ⟨⟨hc, hm, h1, h2, h4, h5⟩, h3⟩
    obtain ⟨b1, b2⟩ := bounds_ok bl br hN
    refine calculates_of (c := 0) hd hok hH hN (by omega) (fun f φ hf hcan hz => ?_) (fun m m' l1 l2 hm => .inl hm)
    obtain ⟨s', ψ', e, a1, a2, a3, a4, a5, a7, a8⟩ := C84_alive hW hP hT hL hN fuse dmax hne hq bl br hk 0 (d := (⟨f, fun _ => .gone, fun _ => .gone⟩ : Dsk (LTen (Fin d) 𝕜) (Env3 𝕜)))
      (blank_noTensors 0) hf (fun _ h => by cases h) (fun _ _ _ _ h => by cases h) (Nat.zero_le _) hcan hz
    exact ⟨_, ψ', e, ⟨s', a1, rfl⟩, a2, a3, a5, a4, a7, a8⟩

end

section
variable {𝕜 : Type} [RCLike 𝕜] [DecidableEq 𝕜] {N : Nat}

/-- **C92**, Hubbard models with `SingleSiteFiniteVMPS` or `TwoSiteFiniteVMPSWithNoise`, serial or parallel. -/
theorem C92_hubbard_noise [GenTypes 𝕜 (Mpo.Op 4 𝕜)] (h : ExactTypes 4 𝕜) (im : 𝕜) (sym : Sym) (ts : List (HamTerm HubOn N 𝕜)) (hp : ∀ a ∈ ts, a.Proper) (h1 : OneEach ts)
    (hs : ∀ a ∈ ts, a.coef = 0 ∨ ∀ c ∈ [a.coef, -a.coef, a.coef / 2], GenTypes.tooSmall (Mpo.Op 4 𝕜) c = false) (hne : ∃ a ∈ ts, a.coef ≠ 0)
    (hr : ∀ a ∈ ts, star a.coef = a.coef) (compress : Bool) (hN : 3 ≤ N) :
    ∃ g ws, ts.foldlM (addHubTerm (hubOps im (hubSite sym))) (Generator.new (uniformIds 4 N)) = .ok g ∧
      g.genMpo (opDiv (hubSite sym).bond) 0 compress = .ok ws ∧ ws.length = N ∧
      CalcNoisy N (mpoW ws) (hubOcc (hubSite sym)) (fun _ => True) (ts.map (HamTerm.fock HubOn.fock id)).sum := by
  obtain ⟨g, ws, e1, e2, e3, e4, e5⟩ := C74_hubbard_mpo h im sym ts hp h1 hs hne compress
  exact ⟨g, ws, e1, e2, e3, calc_noisy (hubOcc_inj sym) (fun _ => trivial) (ham_herm hubOn_herm hp (ham_real hr)) e4 e5 hN⟩

/-- **C92**, t-J models with the same programs. -/
theorem C92_tJ_noise [GenTypes 𝕜 (Mpo.Op 3 𝕜)] (h : ExactTypes 3 𝕜) (sym : Sym) (ts : List (HamTerm TjOn N 𝕜)) (hp : ∀ a ∈ ts, a.Proper) (h1 : OneEach ts)
    (hs : ∀ a ∈ ts, a.coef = 0 ∨ ∀ c ∈ [a.coef, -a.coef, -star a.coef, a.coef / 2], GenTypes.tooSmall (Mpo.Op 3 𝕜) c = false) (hne : ∃ a ∈ ts, a.coef ≠ 0)
    (hr : ∀ a ∈ ts, a.Real star) (compress : Bool) (hN : 3 ≤ N) :
    ∃ g ws, ts.foldlM (addTjTerm (tjOps (tjSite sym))) (Generator.new (uniformIds 3 N)) = .ok g ∧
      g.genMpo (opDiv (tjSite sym).bond) 0 compress = .ok ws ∧ ws.length = N ∧
      CalcNoisy N (mpoW ws) (tjOcc (tjSite sym)) (fun o => o ≠ (true, true)) (ts.map (HamTerm.fock TjOn.fock star)).sum := by
  obtain ⟨g, ws, e1, e2, e3, e4, e5⟩ := C74_tJ_mpo h sym ts hp h1 hs hne compress
  exact ⟨g, ws, e1, e2, e3, calc_noisy (tjOcc_inj sym) (by cases sym <;> decide) (ham_herm tjOn_herm hp hr) e4 e5 hN⟩

/-- **C92**, spin-1/2 chains with the same programs. -/
theorem C92_spin_noise [GenTypes 𝕜 (Mpo.Op 2 𝕜)] (h : ExactTypes 2 𝕜) (im : 𝕜) {sym : Sym} {st : SpinSite} (hst : spinSite sym = some st) (ts : List (SpinTerm N 𝕜))
    (hp : ∀ a ∈ ts, a.Proper) (h1 : OneField ts)
    (hs : ∀ a ∈ ts, a.coef = 0 ∨ ∀ c ∈ [a.coef, a.coef / 2], GenTypes.tooSmall (Mpo.Op 2 𝕜) c = false) (hne : ∃ a ∈ ts, a.coef ≠ 0)
    (hr : ∀ a ∈ ts, star a.coef = a.coef) (compress : Bool) (hN : 3 ≤ N) :
    ∃ g ws, ts.foldlM (addSpinTerm (spinOps im st)) (Generator.new (uniformIds 2 N)) = .ok g ∧
      g.genMpo (opDiv st.bond) 0 compress = .ok ws ∧ ws.length = N ∧
      CalcNoisy N (mpoW ws) (spinOcc st) (fun o => o.1 ≠ o.2) (ts.map SpinTerm.fock).sum := by
  obtain ⟨g, ws, e1, e2, e3, e4, e5⟩ := C74_spin_mpo h im hst ts hp h1 hs hne compress
  exact ⟨g, ws, e1, e2, e3, calc_noisy (spinOcc_inj hst) (spinOcc_one st) (spin_herm hp hr) e4 e5 hN⟩

end

/-! ### Non-vacuity -/

section
open scoped Classical in
/-- The t-J model of `Workflow.lean` with `SingleSiteFiniteVMPS` and noises `1/(n+1)`, without truncation. -/
example : ∃ (ws : List (MpoTen 3 ℂ)) (P : SsPar (Fin 3) ℂ) (s : Sys (LTen (Fin 3) ℂ) (Env3 ℂ)) (dir : MpsDir (Fin 3) ℂ) (m1 m2 r r' : FMps (Fin 3) ℂ) (Ψ : ChainV (Fin 3) ℂ 3), P.w = mpoW ws ∧
    P.noise = (fun n : Nat => 1 / ((n : ℝ) + 1)) ∧ m1.dump true (fun _ => .gone) = .ok (m2, dir) ∧
    run 3 3 (singleSite (ssAlg 3 P) (ssOpt 3 P) 3 false 4) ⟨Mem.blank 0, ⟨asFiles dir, fun _ => .gone, fun _ => .gone⟩⟩ = .ok s ∧
    (m2.after (ssFlags 3 false 4)).loadDir (asDir s.dsk.m) = .ok r ∧
    measureOneSite (qrE (Equiv.refl _)) (svdE (Equiv.refl _)) r [(tjOps (tjSite .u1u1)).nf] = .ok (r', (List.finRange 3).map fun i => [mean (tjOcc (tjSite .u1u1)) Ψ (density i)]) ∧
    ‖inFock (tjOcc (tjSite .u1u1)) Ψ‖ = 1 ∧
    fockEnergy (demoTj.map (HamTerm.fock TjOn.fock star)).sum (inFock (tjOcc (tjSite .u1u1)) Ψ) ≤
      RCLike.re ((demoTj.map (HamTerm.fock TjOn.fock star)).sum (fun i => tjOcc (tjSite .u1u1) (![0, 1, 2] i)) fun i => tjOcc (tjSite .u1u1) (![0, 1, 2] i)) := by
  obtain ⟨g, ws, -, -, -, hw⟩ := C92_tJ_noise complex_exact .u1u1 demoTj demoTj_ok.1 demoTj_ok.2.1 demoTj_ok.2.2.1 demoTj_ok.2.2.2.1 demoTj_ok.2.2.2.2 true (by norm_num)
  obtain ⟨tri, ht⟩ := solver_exists
  let P : SsPar (Fin 3) ℂ := ⟨mpoW ws, qrE (Equiv.refl _), svdE (Equiv.refl _), tri, 10, 1, fun n => 1 / ((n : ℝ) + 1)⟩
  have hc : P.NoCut := ⟨fun t x a b ha hb => ((qrE_spec (K := ℂ) (Equiv.refl (Fin 3))).fac t x a b ha hb).symm, fun t x a b ha hb => ((svdE_spec (K := ℂ) (Equiv.refl (Fin 3))).fac t x a b ha hb).symm⟩
  obtain ⟨m1, m2, dir, files, e, Ψ, -, a0, -, ⟨s, a1, rfl⟩, -, a2, -, -, a4⟩ := hw.single P rfl (siteFullR_spec _) (siteFullL_spec _) ht
    (by show 2 ≤ 10; omega) (.inr hc) 4 (by omega) (qrE (Equiv.refl _)) (svdE (Equiv.refl _)) (qrE_spec _) (svdE_spec _) (fun _ k => if k = 0 then (1 : ℤ) else 0) ![0, 1, 2] (fun _ => .gone)
  obtain ⟨r, a2, a3⟩ := a2 _ (.inr rfl)
  obtain ⟨b1, b2, b3⟩ := a4 hc
  obtain ⟨r', hr⟩ := a3 _ _ ((C90_tJ (𝕜 := ℂ) .u1u1 3).1 [.nf])
  exact ⟨ws, P, s, dir, m1, m2, r, r', Ψ, rfl, rfl, a0, a1, a2, hr, b1, by rw [b2]; exact b3⟩

open scoped Classical in
/-- The same with `TwoSiteFiniteVMPSWithNoise`; the expansion is left out at every third site. -/
example : ∃ (ws : List (MpoTen 3 ℂ)) (P : TnPar (Fin 3) ℂ) (s : Sys (LTen (Fin 3) ℂ) (Env3 ℂ)) (dir : MpsDir (Fin 3) ℂ) (m1 m2 r r' : FMps (Fin 3) ℂ) (Ψ : ChainV (Fin 3) ℂ 3), P.w = mpoW ws ∧
    P.noise = (fun n : Nat => 1 / ((n : ℝ) + 1)) ∧ m1.dump true (fun _ => .gone) = .ok (m2, dir) ∧
    run 3 3 (noised (tnAlg 3 P.toVmpsPar) (tnOpt P) (tnCanon P) 3 (vmpsG P.qr (fun _ => finProdFinEquiv) 100) (fun _ => false) (fun _ => false) ⟨asFiles dir, fun _ => .gone, fun _ => .gone⟩ 4)
      ⟨Mem.blank 0, ⟨asFiles dir, fun _ => .gone, fun _ => .gone⟩⟩ = .ok s ∧
    (m2.after (tnFlags 3 (lbOf (fun _ => false) 3) (rbOf (fun _ => false) 3) true (fun n => n % 2 == 0) 4)).loadDir (asDir s.dsk.m) = .ok r ∧
    measureOneSite (qrE (Equiv.refl _)) (svdE (Equiv.refl _)) r [(tjOps (tjSite .u1u1)).nf] = .ok (r', (List.finRange 3).map fun i => [mean (tjOcc (tjSite .u1u1)) Ψ (density i)]) ∧
    ‖inFock (tjOcc (tjSite .u1u1)) Ψ‖ = 1 := by
  obtain ⟨g, ws, -, -, -, hw⟩ := C92_tJ_noise complex_exact .u1u1 demoTj demoTj_ok.1 demoTj_ok.2.1 demoTj_ok.2.2.1 demoTj_ok.2.2.2.1 demoTj_ok.2.2.2.2 true (by norm_num)
  obtain ⟨tri, ht⟩ := solver_exists
  let P : TnPar (Fin 3) ℂ := ⟨⟨mpoW ws, fullR (Equiv.refl _), fullL (Equiv.refl _), tri, 10, 1⟩, mpoW ws, fun _ i _ _ => i % 3 == 2, fun _ _ T => List.range (3 * T.r), fun n => 1 / ((n : ℝ) + 1), qrE (Equiv.refl _)⟩
  have hc : P.NoCut := ⟨fullR_is _, fullL_is _⟩
  obtain ⟨m1, m2, dir, files, e, Ψ, -, a0, -, ⟨s, a1, rfl⟩, -, a2, -, -, a4⟩ := hw.noise P rfl (fullR_spec _) (fullL_spec _) (qrE_spec _) ht
    (by show 2 ≤ 10; omega) (.inr hc) (fun _ => finProdFinEquiv) 100 (fun _ => false) (fun _ => false) 4 (by omega) (qrE (Equiv.refl _)) (svdE (Equiv.refl _)) (qrE_spec _) (svdE_spec _)
    (fun _ k => if k = 0 then (1 : ℤ) else 0) ![0, 1, 2] (fun _ => .gone)
  obtain ⟨r, a2, a3⟩ := a2 _ (.inr ⟨_, rfl⟩)
  obtain ⟨r', hr⟩ := a3 _ _ ((C90_tJ (𝕜 := ℂ) .u1u1 3).1 [.nf])
  exact ⟨ws, P, s, dir, m1, m2, r, r', Ψ, rfl, rfl, a0, a1, a2, hr, (a4 hc).1⟩
end

end Verif.Props
