import Verif.Props.HamAllSpec
import Verif.Props.HamEnergy
import Verif.Props.DmrgHam
/-
C88: from the terms of a Hamiltonian to the energies of the programs beside `TwoSiteFiniteVMPS` and the serial DMRG executor.
-/
namespace Verif.Props
open Verif.Mpo Verif.Fock Verif.Mps Verif.Disk Verif.Algo Verif.Mpi Finset Matrix

section
variable {𝕜 : Type} [RCLike 𝕜] {d N : Nat} {dec : Fin d → Occ}

/-- From the chain to Fock space. -/
theorem finds_of {ok : Occ → Prop} (hd : Function.Injective dec) (hok : ∀ k, ok (dec k)) {H : Matrix (Conf N) (Conf N) 𝕜} {H' : Matrix (Fin N → Fin d) (Fin N → Fin d) 𝕜}
    (hH : H' = H.submatrix (fun s i => dec (s i)) (fun s i => dec (s i))) {nocut : Prop} {Φ Ψ : ChainV (Fin d) 𝕜 N} {e : ℝ} (nz : Ψ ≠ 0)
    (ab : ∀ E0, (∀ Φ : ChainV (Fin d) 𝕜 N, E0 * ‖Φ‖ ^ 2 ≤ Mps.expect H' Φ) → E0 ≤ e)
    (ex : nocut → ‖Ψ‖ = 1 ∧ Mps.expect H' Ψ = e ∧ e * ‖Φ‖ ^ 2 ≤ Mps.expect H' Φ) : Finds dec ok H nocut Φ Ψ e := by
  refine ⟨nz, fun E0 hE => ab E0 fun Φ => lower_chain hd hok hH hE Φ, fun h => ?_, fun h => ?_, fun h => ?_⟩
  · rw [inFock_norm hd]; exact (ex h).1
  · rw [inFock_energy hd H hH]; exact (ex h).2.1
  · rw [inFock_norm hd, inFock_energy hd H hH]; exact (ex h).2.2

theorem all_find {ok : Occ → Prop} (hd : Function.Injective dec) (hok : ∀ k, ok (dec k)) {H : Matrix (Conf N) (Conf N) 𝕜} (hh : H.IsHermitian)
    {w : Nat → Ten (Fin d × Fin d) 𝕜} (hc : Closed N w) (hH : opM N w = H.submatrix (fun s i => dec (s i)) (fun s i => dec (s i))) (hN : 3 ≤ N) :
    AllFind N w dec ok H := by
  have hm : (opM N w).IsHermitian := by rw [hH]; exact hh.submatrix _
  refine ⟨?_, ?_, ?_, ?_⟩
  · rintro P rfl h1 h2 h3 h4 temp k clk ψ dsk hk ho ht hcan hz
    obtain ⟨s', ψ', e, a1, a2, -, a4, a5, -, a7, a8⟩ := C77_run (P := P) ⟨hc, hm, h1, h2, h3, h4⟩ (by omega) temp hk clk ho ht hcan hz
    exact ⟨s', ψ', e, a1, a2, a5, finds_of hd hok hH a4 a7 a8⟩
  · rintro P rfl h1 h2 h3 h4 h5 fuse dmax bl br k clk ψ dsk mem c hk h0 ho hj hr hcc hcan hz
    obtain ⟨s', ψ', e, a1, a2, -, a4, -, a5, -, a7, a8⟩ := C78_run (P := P) ⟨⟨hc, hm, h1, h2, h4, h5⟩, h3⟩ hN fuse dmax bl br hk clk h0 ho hj hr hcc hcan hz
    exact ⟨s', ψ', e, a1, a2, a5, finds_of hd hok hH a4 a7 a8⟩
  · rintro P SL VL L lact W qr rfl h1 h2 h3 h4 h5 h6 hW hL fuse dmax bl br k clk ψ dsk mem c hk h0 ho hj hr hcc hcan hz
    obtain ⟨s', ψ', e, a1, a2, -, a4, a5, -, a7, a8⟩ := C79_variational hW (P := P) ⟨hc, hm, h1, h2, h4, h6⟩ h5 hL hN h3 fuse dmax bl br hk clk h0 ho hj hr hcc hcan hz
    exact ⟨s', ψ', e, a1, a2, a5, finds_of hd hok hH a4 a7 a8⟩
  · rintro P SL VL L lact W rfl h1 h2 h3 h4 h5 h6 hW hL fuse dmax noises bl br k clk ψ dsk mem c hne hk h0 ho hj hr hcc hcan hz
    obtain ⟨s', ψ', e, a1, a2, -, a4, a5, a7, a8⟩ := C84_variational hW (P := P) ⟨⟨hc, hm, h1, h2, h4, h6⟩, h3⟩ h5 hL hN fuse dmax hne bl br hk clk h0 ho hj hr hcc hcan hz
    exact ⟨s', ψ', e, a1, a2, a5, finds_of hd hok hH a4 a7 a8⟩

theorem par_dmrg_finds {ok : Occ → Prop} (hd : Function.Injective dec) (hok : ∀ k, ok (dec k)) {H : Matrix (Conf N) (Conf N) 𝕜} (hh : H.IsHermitian)
    {m : Nat → OpMat (Fin d) 𝕜} (hc : OpMatsOK N m) (hH : opM N (fun i => (m i).ten) = H.submatrix (fun s i => dec (s i)) (fun s i => dec (s i))) (hN : 3 ≤ N) :
    ParallelDmrgFinds N m dec ok H := by
  rintro P SL VL S lact W rfl h1 h2 h3 h4 h5 h6 hW hS bl br k clk ψ dsk c hk ho hr hcc hcan hz
  have hP : DmrgOK N P := ⟨hc, by show (opM N fun i => (P.m i).ten).IsHermitian; rw [hH]; exact hh.submatrix _, h1, h2, h3, h4, h6⟩
  obtain ⟨s', ψ', e, a1, a2, -, a4, -, a6⟩ := C76_variational hW hP h5 hS hN bl br clk ho hr hcc hcan hz hk
  exact ⟨s', ψ', e, a1, a2, a4, finds_of hd hok hH a6.nz a6.above a6.exact⟩

end

section
variable {𝕜 : Type} [RCLike 𝕜] [DecidableEq 𝕜] {N : Nat}

/-- **C88**, Hubbard models. Write any Hamiltonian of hoppings, exchange and density couplings and one-site terms with real coefficients as calls of the builders: with the MPO that `Gen` returns,
compressed or not, `SingleSiteFiniteVMPS`, `TwoSiteFiniteVMPSWithNoise` and the parallel versions of the two-site programs, and with the matrices that `GenMatReprMPO` returns the parallel DMRG executor,
report energies that are never below the exact ground-state energy in Fock space; without truncation these are the energies in Fock space of the MPS on disk and not above that of the initial MPS. -/
theorem C88_hubbard [GenTypes 𝕜 (Op 4 𝕜)] (h : ExactTypes 4 𝕜) (im : 𝕜) (sym : Sym) (ts : List (HamTerm HubOn N 𝕜)) (hp : ∀ a ∈ ts, a.Proper) (h1 : OneEach ts)
    (hs : ∀ a ∈ ts, a.coef = 0 ∨ ∀ c ∈ [a.coef, -a.coef, a.coef / 2], GenTypes.tooSmall (Op 4 𝕜) c = false) (hne : ∃ a ∈ ts, a.coef ≠ 0)
    (hr : ∀ a ∈ ts, star a.coef = a.coef) (compress : Bool) (hN : 3 ≤ N) :
    ∃ g ws rs, ts.foldlM (addHubTerm (hubOps im (hubSite sym))) (Generator.new (uniformIds 4 N)) = .ok g ∧
      g.genMpo (opDiv (hubSite sym).bond) 0 compress = .ok ws ∧ g.genMatReprMpo = .ok rs ∧
      AllFind N (mpoW ws) (hubOcc (hubSite sym)) (fun _ => True) (ts.map (HamTerm.fock HubOn.fock id)).sum ∧
      ParallelDmrgFinds N (opMats rs) (hubOcc (hubSite sym)) (fun _ => True) (ts.map (HamTerm.fock HubOn.fock id)).sum := by
  have hh : (ts.map (HamTerm.fock HubOn.fock id)).sum.IsHermitian := ham_herm hubOn_herm hp fun a ha => by
    have := hr a ha
    cases a <;> first | exact this | exact this.symm
  obtain ⟨g, ws, e1, e2, -, e4, e5⟩ := C74_hubbard_mpo h im sym ts hp h1 hs hne compress
  obtain ⟨g', l, e1', -, -, e4', -⟩ := hub_ham h im sym ts hp h1 hs hne true
  obtain rfl : g' = g := Except.ok.inj (e1'.symm.trans e1)
  obtain ⟨rs, f1, -, f3, f4⟩ := matRep_op (dec := hubOcc (hubSite sym)) (by omega) e4'.2
  exact ⟨g', ws, rs, e1, e2, f1, all_find (hubOcc_inj sym) (fun _ => trivial) hh e4 e5 hN, par_dmrg_finds (hubOcc_inj sym) (fun _ => trivial) hh f3 f4 hN⟩

/-- **C88**, t-J models: the same on the states without doubly occupied sites. The amplitude of a hopping may be complex. -/
theorem C88_tJ [GenTypes 𝕜 (Op 3 𝕜)] (h : ExactTypes 3 𝕜) (sym : Sym) (ts : List (HamTerm TjOn N 𝕜)) (hp : ∀ a ∈ ts, a.Proper) (h1 : OneEach ts)
    (hs : ∀ a ∈ ts, a.coef = 0 ∨ ∀ c ∈ [a.coef, -a.coef, -star a.coef, a.coef / 2], GenTypes.tooSmall (Op 3 𝕜) c = false) (hne : ∃ a ∈ ts, a.coef ≠ 0)
    (hr : ∀ a ∈ ts, a.Real star) (compress : Bool) (hN : 3 ≤ N) :
    ∃ g ws rs, ts.foldlM (addTjTerm (tjOps (tjSite sym))) (Generator.new (uniformIds 3 N)) = .ok g ∧
      g.genMpo (opDiv (tjSite sym).bond) 0 compress = .ok ws ∧ g.genMatReprMpo = .ok rs ∧
      AllFind N (mpoW ws) (tjOcc (tjSite sym)) (fun o => o ≠ (true, true)) (ts.map (HamTerm.fock TjOn.fock star)).sum ∧
      ParallelDmrgFinds N (opMats rs) (tjOcc (tjSite sym)) (fun o => o ≠ (true, true)) (ts.map (HamTerm.fock TjOn.fock star)).sum := by
  have hh := ham_herm tjOn_herm hp hr
  have hk : ∀ k, tjOcc (tjSite sym) k ≠ (true, true) := by cases sym <;> decide
  obtain ⟨g, ws, e1, e2, -, e4, e5⟩ := C74_tJ_mpo h sym ts hp h1 hs hne compress
  obtain ⟨g', l, e1', -, -, e4', -⟩ := tj_ham h sym ts hp h1 hs hne true
  obtain rfl : g' = g := Except.ok.inj (e1'.symm.trans e1)
  obtain ⟨rs, f1, -, f3, f4⟩ := matRep_op (dec := tjOcc (tjSite sym)) (by omega) e4'.2
  exact ⟨g', ws, rs, e1, e2, f1, all_find (tjOcc_inj sym) hk hh e4 e5 hN, par_dmrg_finds (tjOcc_inj sym) hk hh f3 f4 hN⟩

/-- **C88**, spin-1/2 chains: on the states with one particle per site. -/
theorem C88_spin [GenTypes 𝕜 (Op 2 𝕜)] (h : ExactTypes 2 𝕜) (im : 𝕜) {sym : Sym} {st : SpinSite} (hst : spinSite sym = some st) (ts : List (SpinTerm N 𝕜))
    (hp : ∀ a ∈ ts, a.Proper) (h1 : OneField ts)
    (hs : ∀ a ∈ ts, a.coef = 0 ∨ ∀ c ∈ [a.coef, a.coef / 2], GenTypes.tooSmall (Op 2 𝕜) c = false) (hne : ∃ a ∈ ts, a.coef ≠ 0)
    (hr : ∀ a ∈ ts, star a.coef = a.coef) (compress : Bool) (hN : 3 ≤ N) :
    ∃ g ws rs, ts.foldlM (addSpinTerm (spinOps im st)) (Generator.new (uniformIds 2 N)) = .ok g ∧
      g.genMpo (opDiv st.bond) 0 compress = .ok ws ∧ g.genMatReprMpo = .ok rs ∧
      AllFind N (mpoW ws) (spinOcc st) (fun o => o.1 ≠ o.2) (ts.map SpinTerm.fock).sum ∧
      ParallelDmrgFinds N (opMats rs) (spinOcc st) (fun o => o.1 ≠ o.2) (ts.map SpinTerm.fock).sum := by
  have hh := spin_herm hp hr
  obtain ⟨g, ws, e1, e2, -, e4, e5⟩ := C74_spin_mpo h im hst ts hp h1 hs hne compress
  obtain ⟨g', l, e1', -, -, e4', -⟩ := spin_ham h im hst ts hp h1 hs hne true
  obtain rfl : g' = g := Except.ok.inj (e1'.symm.trans e1)
  obtain ⟨rs, f1, -, f3, f4⟩ := matRep_op (dec := spinOcc st) (by omega) e4'.2
  exact ⟨g', ws, rs, e1, e2, f1, all_find (spinOcc_inj hst) (spinOcc_one st) hh e4 e5 hN, par_dmrg_finds (spinOcc_inj hst) (spinOcc_one st) hh f3 f4 hN⟩

end

/-! ### A concrete case: the t-J chain with a complex hopping -/

section
open Classical

example : ∃ g ws rs, demoTj.foldlM (addTjTerm (tjOps (tjSite .u1u1))) (Generator.new (uniformIds 3 3)) = .ok g ∧
    g.genMpo (opDiv (tjSite .u1u1).bond) 0 true = .ok ws ∧ g.genMatReprMpo = .ok rs ∧
    AllFind 3 (mpoW ws) (tjOcc (tjSite .u1u1)) (fun o => o ≠ (true, true)) (demoTj.map (HamTerm.fock TjOn.fock star)).sum ∧
    ParallelDmrgFinds 3 (opMats rs) (tjOcc (tjSite .u1u1)) (fun o => o ≠ (true, true)) (demoTj.map (HamTerm.fock TjOn.fock star)).sum :=
  C88_tJ complex_exact .u1u1 demoTj demoTj_ok.1 demoTj_ok.2.1 demoTj_ok.2.2.1 demoTj_ok.2.2.2.1 demoTj_ok.2.2.2.2 true (by norm_num)

end
end Verif.Props
