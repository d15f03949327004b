import Verif.Props.SequenceFockSpec
import Verif.Props.Sequence
import Verif.Props.Workflow
/-
C95 in Fock space: whole calculations with several programs.
-/
namespace Verif.Props
open Verif.Mpo Verif.Mps Verif.Disk Verif.Fock Verif.Algo Verif.Mpi Matrix

section
variable {σ 𝕜 : Type} [Fintype σ] [DecidableEq σ] [RCLike 𝕜] {N : Nat}

/-- The energy of the last program is in its files. -/
theorem runs_last {f g : Nat → File (LTen σ 𝕜)} {rs : List (ProgRun σ 𝕜)} {r : ProgRun σ 𝕜} {es : List ℝ} (h : Runs f (rs ++ [r]) es g) :
    ∃ e t, es.getLast? = some e ∧ g r.site = .whole t ∧ t.e0 = some e := by
  induction rs generalizing f es with
  | nil =>
    cases h with
    | cons h1 h2 h3 =>
      cases h3
      obtain ⟨t, h2, h4⟩ := h2
      exact ⟨_, t, rfl, h2, h4⟩
  | cons a rs ih =>
    cases h with
    | cons h1 h2 h3 =>
      obtain ⟨e, t, h4, h5, h6⟩ := ih h3
      refine ⟨e, t, ?_, h5, h6⟩
      rename_i es'
      cases es' with
      | nil => cases h4
      | cons b es' => simpa using h4

theorem run_site {w : Nat → Ten (σ × σ) 𝕜} (hN : 3 ≤ N) {r : ProgRun σ 𝕜} (hr : IsRun N w r) : r.site < N := by
  cases hr with
  | vmps => show 1 < N; omega
  | single => show 0 < N; omega
  | noise P fuse dmax bl br => obtain ⟨b1, b2⟩ := bounds_ok bl br hN; show lbOf bl N + 1 < N; omega
  | dmrg P bl br => obtain ⟨b1, b2⟩ := bounds_ok bl br hN; show lbOf bl N + 1 < N; omega
  | vmpsMpi P SL VL L lact W qr fuse dmax bl br => obtain ⟨b1, b2⟩ := bounds_ok bl br hN; show lbOf bl N + 1 < N; omega
  | noiseMpi P SL VL L lact W noises fuse dmax bl br => obtain ⟨b1, b2⟩ := bounds_ok bl br hN; show lbOf bl N + 1 < N; omega
  | dmrgMpi P SL VL S lact W bl br => obtain ⟨b1, b2⟩ := bounds_ok bl br hN; show lbOf bl N + 1 < N; omega
end

section
variable {𝕜 : Type} [RCLike 𝕜] {d N : Nat} {dec : Fin d → Occ}

theorem calc_seq {ok : Occ → Prop} (hd : Function.Injective dec) (hok : ∀ k, ok (dec k)) {H : Matrix (Conf N) (Conf N) 𝕜} (hh : H.IsHermitian)
    {w : Nat → Ten (Fin d × Fin d) 𝕜} (hc : Closed N w) (hH : opM N w = H.submatrix (fun s i => dec (s i)) (fun s i => dec (s i))) (hN : 3 ≤ N) : CalcSeq N w dec ok H := by
  intro rs r hr hfit
  have hm : (opM N w).IsHermitian := by rw [hH]; exact hh.submatrix _
  refine calculates_of (c := endAt 0 (rs ++ [r])) hd hok hH hN (run_site hN (hr r (by simp))) (fun f φ hf hcan hz => ?_) (fun m m' l1 l2 hm => .inl hm)
  obtain ⟨g, ψ', es, a1, a2, a3, a4, -, a6, a7⟩ := C95_sequence hc hm hN hr hfit hf hcan hz
  obtain ⟨e, t, h1, h2, h3⟩ := runs_last a1
  refine ⟨g, ψ', e, ⟨es, a1⟩, a2, a3, ?_, a4, fun E0 hE => a6 E0 hE e (List.mem_of_getLast? h1), fun hx => ?_⟩
  · have := (a2 _ (run_site hN (hr r (by simp)))).symm.trans h2
    rw [File.whole.inj this]; exact h3
  · obtain ⟨-, b2, b3⟩ := a7 hx
    exact ⟨(b3 e h1).1, (b3 e h1).2, b2 e (List.mem_of_getLast? h1)⟩

end

section
variable {𝕜 : Type} [RCLike 𝕜] [DecidableEq 𝕜] {N : Nat}

/-- **C95**, Hubbard models: generate the MPO tensors and, for `FiniteDMRG`, the matrices of operators, which stand for the same Hamiltonian; start from a product state, run any sequence of programs that
fit together, load and measure. -/
theorem C95_hubbard [GenTypes 𝕜 (Mpo.Op 4 𝕜)] (h : ExactTypes 4 𝕜) (im : 𝕜) (sym : Sym) (ts : List (HamTerm HubOn N 𝕜)) (hp : ∀ a ∈ ts, a.Proper) (h1 : OneEach ts)
    (hs : ∀ a ∈ ts, a.coef = 0 ∨ ∀ c ∈ [a.coef, -a.coef, a.coef / 2], GenTypes.tooSmall (Mpo.Op 4 𝕜) c = false) (hne : ∃ a ∈ ts, a.coef ≠ 0)
    (hr : ∀ a ∈ ts, star a.coef = a.coef) (compress : Bool) (hN : 3 ≤ N) :
    ∃ g ws ms, ts.foldlM (addHubTerm (hubOps im (hubSite sym))) (Generator.new (uniformIds 4 N)) = .ok g ∧
      g.genMpo (opDiv (hubSite sym).bond) 0 compress = .ok ws ∧ g.genMatReprMpo = .ok ms ∧ OpMatsOK N (opMats ms) ∧ opM N (fun i => (opMats ms i).ten) = opM N (mpoW ws) ∧
      CalcSeq N (mpoW ws) (hubOcc (hubSite sym)) (fun _ => True) (ts.map (HamTerm.fock HubOn.fock id)).sum := by
  obtain ⟨g, ws, e1, e2, -, e4, e5⟩ := C74_hubbard_mpo h im sym ts hp h1 hs hne compress
  obtain ⟨g', l, e1', -, -, e4', -⟩ := hub_ham h im sym ts hp h1 hs hne true
  obtain rfl : g' = g := Except.ok.inj (e1'.symm.trans e1)
  obtain ⟨ms, f1, -, f3, f4⟩ := matRep_op (dec := hubOcc (hubSite sym)) (by omega) e4'.2
  exact ⟨g', ws, ms, e1, e2, f1, f3, f4.trans e5.symm, calc_seq (hubOcc_inj sym) (fun _ => trivial) (ham_herm hubOn_herm hp (ham_real hr)) e4 e5 hN⟩

/-- **C95**, t-J models. -/
theorem C95_tJ [GenTypes 𝕜 (Mpo.Op 3 𝕜)] (h : ExactTypes 3 𝕜) (sym : Sym) (ts : List (HamTerm TjOn N 𝕜)) (hp : ∀ a ∈ ts, a.Proper) (h1 : OneEach ts)
    (hs : ∀ a ∈ ts, a.coef = 0 ∨ ∀ c ∈ [a.coef, -a.coef, -star a.coef, a.coef / 2], GenTypes.tooSmall (Mpo.Op 3 𝕜) c = false) (hne : ∃ a ∈ ts, a.coef ≠ 0)
    (hr : ∀ a ∈ ts, a.Real star) (compress : Bool) (hN : 3 ≤ N) :
    ∃ g ws ms, ts.foldlM (addTjTerm (tjOps (tjSite sym))) (Generator.new (uniformIds 3 N)) = .ok g ∧
      g.genMpo (opDiv (tjSite sym).bond) 0 compress = .ok ws ∧ g.genMatReprMpo = .ok ms ∧ OpMatsOK N (opMats ms) ∧ opM N (fun i => (opMats ms i).ten) = opM N (mpoW ws) ∧
      CalcSeq N (mpoW ws) (tjOcc (tjSite sym)) (fun o => o ≠ (true, true)) (ts.map (HamTerm.fock TjOn.fock star)).sum := by
  obtain ⟨g, ws, e1, e2, -, e4, e5⟩ := C74_tJ_mpo h sym ts hp h1 hs hne compress
  obtain ⟨g', l, e1', -, -, e4', -⟩ := tj_ham h sym ts hp h1 hs hne true
  obtain rfl : g' = g := Except.ok.inj (e1'.symm.trans e1)
  obtain ⟨ms, f1, -, f3, f4⟩ := matRep_op (dec := tjOcc (tjSite sym)) (by omega) e4'.2
  exact ⟨g', ws, ms, e1, e2, f1, f3, f4.trans e5.symm, calc_seq (tjOcc_inj sym) (by cases sym <;> decide) (ham_herm tjOn_herm hp hr) e4 e5 hN⟩

/-- **C95**, spin-1/2 chains. -/
theorem C95_spin [GenTypes 𝕜 (Mpo.Op 2 𝕜)] (h : ExactTypes 2 𝕜) (im : 𝕜) {sym : Sym} {st : SpinSite} (hst : spinSite sym = some st) (ts : List (SpinTerm N 𝕜))
    (hp : ∀ a ∈ ts, a.Proper) (h1 : OneField ts)
    (hs : ∀ a ∈ ts, a.coef = 0 ∨ ∀ c ∈ [a.coef, a.coef / 2], GenTypes.tooSmall (Mpo.Op 2 𝕜) c = false) (hne : ∃ a ∈ ts, a.coef ≠ 0)
    (hr : ∀ a ∈ ts, star a.coef = a.coef) (compress : Bool) (hN : 3 ≤ N) :
    ∃ g ws ms, ts.foldlM (addSpinTerm (spinOps im st)) (Generator.new (uniformIds 2 N)) = .ok g ∧
      g.genMpo (opDiv st.bond) 0 compress = .ok ws ∧ g.genMatReprMpo = .ok ms ∧ OpMatsOK N (opMats ms) ∧ opM N (fun i => (opMats ms i).ten) = opM N (mpoW ws) ∧
      CalcSeq N (mpoW ws) (spinOcc st) (fun o => o.1 ≠ o.2) (ts.map SpinTerm.fock).sum := by
  obtain ⟨g, ws, e1, e2, -, e4, e5⟩ := C74_spin_mpo h im hst ts hp h1 hs hne compress
  obtain ⟨g', l, e1', -, -, e4', -⟩ := spin_ham h im hst ts hp h1 hs hne true
  obtain rfl : g' = g := Except.ok.inj (e1'.symm.trans e1)
  obtain ⟨ms, f1, -, f3, f4⟩ := matRep_op (dec := spinOcc st) (by omega) e4'.2
  exact ⟨g', ws, ms, e1, e2, f1, f3, f4.trans e5.symm, calc_seq (spinOcc_inj hst) (spinOcc_one st) (spin_herm hp hr) e4 e5 hN⟩

end

/-! ### Non-vacuity -/

section
open scoped Classical in
/-- Three sites of a t-J model with complex hoppings: `FiniteDMRG`, then `SingleSiteFiniteVMPS` with noise, then `TwoSiteFiniteVMPS`, without truncation, from `|↑, ↓, 0⟩`. -/
example : ∃ (ws : List (MpoTen 3 ℂ)) (q1 q2 q3 : ProgRun (Fin 3) ℂ) (f g : Nat → File (LTen (Fin 3) ℂ)) (es : List ℝ) (r r' : FMps (Fin 3) ℂ) (Ψ : ChainV (Fin 3) ℂ 3),
    (∀ q ∈ [q1, q2, q3], IsRun 3 (mpoW ws) q) ∧ Runs f [q1, q2, q3] es g ∧ (FMps.fresh 3).loadDir (asDir g) = .ok r ∧
    measureOneSite (qrE (Equiv.refl _)) (svdE (Equiv.refl _)) r [(tjOps (tjSite .u1u1)).nf] = .ok (r', (List.finRange 3).map fun i => [mean (tjOcc (tjSite .u1u1)) Ψ (density i)]) ∧
    ‖inFock (tjOcc (tjSite .u1u1)) Ψ‖ = 1 := by
  obtain ⟨_, ws, ms, -, -, -, hm, hmw, hw⟩ := C95_tJ complex_exact .u1u1 demoTj demoTj_ok.1 demoTj_ok.2.1 demoTj_ok.2.2.1 demoTj_ok.2.2.2.1 demoTj_ok.2.2.2.2 true (by norm_num)
  obtain ⟨tri, ht⟩ := solver_exists
  let D : DmrgPar (Fin 3) ℂ := ⟨opMats ms, fullR (Equiv.refl _), fullL (Equiv.refl _), qrE (Equiv.refl _), fun _ => finProdFinEquiv, 100, tri, 10, 1⟩
  let S : SsPar (Fin 3) ℂ := ⟨mpoW ws, qrE (Equiv.refl _), svdE (Equiv.refl _), tri, 10, 1, fun n => 1 / ((n : ℝ) + 1)⟩
  have hc : S.NoCut := ⟨fun t x a b ha hb => ((qrE_spec (K := ℂ) (Equiv.refl (Fin 3))).fac t x a b ha hb).symm, fun t x a b ha hb => ((svdE_spec (K := ℂ) (Equiv.refl (Fin 3))).fac t x a b ha hb).symm⟩
  let V : VmpsPar (Fin 3) ℂ := ⟨mpoW ws, fullR (Equiv.refl _), fullL (Equiv.refl _), tri, 10, 1⟩
  obtain ⟨q1, r1, x1, b1, l1⟩ : ∃ q : ProgRun (Fin 3) ℂ, IsRun 3 (mpoW ws) q ∧ q.exact ∧ 0 ≤ q.accepts ∧ q.leaves = 0 :=
    ⟨_, .dmrg D (fun _ => false) (fun _ => false) 4 4 quiet hm hmw (fullR_spec _) (fullL_spec _) (qrE_spec _) ht (by show 2 ≤ 10; omega) quiet_ok (by omega) (le_refl _) rfl (fun _ _ => rfl) (.inl rfl),
      ⟨fullR_is _, fullL_is _⟩, Nat.zero_le _, rfl⟩
  obtain ⟨q2, r2, x2, b2, l2⟩ : ∃ q : ProgRun (Fin 3) ℂ, IsRun 3 (mpoW ws) q ∧ q.exact ∧ q.accepts = 0 ∧ q.leaves = 0 :=
    ⟨_, .single S 2 rfl (siteFullR_spec _) (siteFullL_spec _) ht (by show 2 ≤ 10; omega) (.inr hc) (by omega), hc, rfl, rfl⟩
  obtain ⟨q3, r3, x3, b3, l3⟩ : ∃ q : ProgRun (Fin 3) ℂ, IsRun 3 (mpoW ws) q ∧ q.exact ∧ q.accepts = 1 ∧ q.leaves = 1 :=
    ⟨_, .vmps V 3 rfl (fullR_spec _) (fullL_spec _) ht (by show 2 ≤ 10; omega) (by omega), ⟨fullR_is _, fullL_is _⟩, rfl, rfl⟩
  obtain ⟨m1, m2, dir, files, e, Ψ, -, -, -, ⟨es, a1⟩, -, a2, -, -, a4⟩ := hw [q1, q2] q3 (by simp [r1, r2, r3]) (by simp [Fit, l1, l2, b2]) (qrE (Equiv.refl _)) (svdE (Equiv.refl _)) (qrE_spec _)
    (svdE_spec _) (fun _ k => if k = 0 then (1 : ℤ) else 0) ![0, 1, 2] (fun _ => .gone)
  obtain ⟨r, a2, a3⟩ := a2 _ rfl
  obtain ⟨r', hr⟩ := a3 _ _ ((C90_tJ (𝕜 := ℂ) .u1u1 3).1 [.nf])
  exact ⟨ws, q1, q2, q3, asFiles dir, files, es, r, r', Ψ, by simp [r1, r2, r3], a1, a2, hr, (a4 (by simp [x1, x2, x3])).1⟩
end

end Verif.Props
