import Verif.Props.DmrgHamSpec
import Verif.Props.HamEnergy
/-
C75, from terms to energies: `GenMatReprMPO` and the DMRG executor.
-/
namespace Verif.Props
open Verif.Mpo Verif.Fock Verif.Mps Finset Matrix

section
variable {K : Type} [RCLike K] [DecidableEq K] {d : Nat} [GenTypes K (Op d K)]

/-- **C75** (`GenMatReprMPO`). For any valid history of `AddTerm` calls of which at least one is not negligible, no one-site term of which has the operator of an earlier one on its site,
`GenMatReprMPO` succeeds. The matrices form a chain in which no row and no column is without an operator, and between any two configurations their product is the sum of the terms. No
quantum numbers are needed. -/
theorem C75_mat_repr (h : ExactTypes d K) (ids : List (Op d K)) (calls : List (Mpo.Call K (Op d K)))
    (hv : ∀ c ∈ calls, c.Valid ids.length) (hne : effective calls ≠ []) (hcol : NoCollision (effective calls)) :
    ∃ g rs, history ids calls = .ok g ∧ g.genMatReprMpo = .ok rs ∧ rs.length = ids.length ∧ OpMatsOK ids.length (opMats rs) ∧
      ∀ x y : Nat → Fin d, opM ids.length (fun i => (opMats rs i).ten) (fun s => y s) (fun s => x s) = ((effective calls).map (termVal (opVals h x y) ids)).sum := by
  obtain ⟨g, ms, e1, -⟩ := C01_generated_mpo (R := K) ids calls hv hne hcol
  obtain ⟨rs, r1, r2, r3, r4⟩ := matRepr_ok h hv e1 hne
  exact ⟨g, rs, e1, r1, r2, r3, fun x y => (r4 x y).trans (keptSum_of_noCollision _ _ _ [] (by simpa [NoCollision] using hcol))⟩

/-- From the matrix elements for labels of all natural numbers to the operator. -/
theorem matRep_op {N : Nat} {dec : Fin d → Occ} {H : Matrix (Conf N) (Conf N) K} {g : Generator K (Op d K)} (hN : N ≠ 0)
    (hm : MatRep g N fun x y => H (fun s => dec (y s)) (fun s => dec (x s))) :
    ∃ rs, g.genMatReprMpo = .ok rs ∧ rs.length = N ∧ OpMatsOK N (opMats rs) ∧
      opM N (fun i => (opMats rs i).ten) = H.submatrix (fun s i => dec (s i)) (fun s i => dec (s i)) := by
  obtain ⟨rs, f1, f2, f3, f4⟩ := hm
  refine ⟨rs, f1, f2, f3, ?_⟩
  ext s s'
  have hd : 0 < d := Fin.pos (s ⟨0, Nat.pos_of_ne_zero hN⟩)
  have key := f4 (fun i => if hi : i < N then s' ⟨i, hi⟩ else ⟨0, hd⟩) (fun i => if hi : i < N then s ⟨i, hi⟩ else ⟨0, hd⟩)
  simp only [Fin.is_lt, dif_pos] at key
  exact key

end

section
variable {𝕜 : Type} [RCLike 𝕜] {d N : Nat} {dec : Fin d → Occ}

/-- `C75_run` in Fock space. -/
theorem dmrg_finds {ok : Occ → Prop} (hd : Function.Injective dec) (hok : ∀ k, ok (dec k)) {H : Matrix (Conf N) (Conf N) 𝕜} (hh : H.IsHermitian)
    {m : Nat → OpMat (Fin d) 𝕜} (hc : OpMatsOK N m) (hH : opM N (fun i => (m i).ten) = H.submatrix (fun s i => dec (s i)) (fun s i => dec (s i))) (hN : 3 ≤ N) :
    DmrgFinds N m dec ok H := by
  rintro P rfl h1 h2 h3 h4 h5 bl br clk ψ dsk c hm ht hcc hcan hz n k sg hs h0 hn hem hno hend
  have hP : DmrgOK N P := ⟨hc, by show (opM N fun i => (P.m i).ten).IsHermitian; rw [hH]; exact hh.submatrix _, h1, h2, h3, h4, h5⟩
  obtain ⟨s', ψ', e, a1, a2, -, a4, a5, a6⟩ := C75_run hP hN bl br clk hm ht hcc hcan hz n k hs h0 hn hem hno hend
  refine ⟨s', ψ', e, a1, a2, a6.nz, a4, a5, fun E0 hE => a6.above E0 fun Φ => lower_chain hd hok hH hE Φ, fun hcut => ?_⟩
  obtain ⟨b1, b2, b3⟩ := a6.exact hcut
  rw [inFock_norm hd, inFock_norm hd, inFock_energy hd H hH, inFock_energy hd H hH]
  exact ⟨b1, b2, b3⟩

variable [DecidableEq 𝕜]

/-- **C75**, ground states of Hubbard models with the DMRG executor: terms with real coefficients, builders, `GenMatReprMPO`, `Execute`. -/
theorem C75_hubbard_dmrg [GenTypes 𝕜 (Op 4 𝕜)] (h : ExactTypes 4 𝕜) (im : 𝕜) (sym : Sym) (ts : List (HamTerm HubOn N 𝕜)) (hp : ∀ a ∈ ts, a.Proper) (h1 : OneEach ts)
    (hs : ∀ a ∈ ts, a.coef = 0 ∨ ∀ c ∈ [a.coef, -a.coef, a.coef / 2], GenTypes.tooSmall (Op 4 𝕜) c = false) (hne : ∃ a ∈ ts, a.coef ≠ 0)
    (hr : ∀ a ∈ ts, star a.coef = a.coef) (hN : 3 ≤ N) :
    ∃ g rs, ts.foldlM (addHubTerm (hubOps im (hubSite sym))) (Generator.new (uniformIds 4 N)) = .ok g ∧ g.genMatReprMpo = .ok rs ∧ rs.length = N ∧
      DmrgFinds N (opMats rs) (hubOcc (hubSite sym)) (fun _ => True) (ts.map (HamTerm.fock HubOn.fock id)).sum := by
  obtain ⟨g, l, e1, -, -, e4, -⟩ := hub_ham h im sym ts hp h1 hs hne true
  obtain ⟨rs, f1, f2, f3, f4⟩ := matRep_op (dec := hubOcc (hubSite sym)) (by omega) e4.2
  refine ⟨g, rs, e1, f1, f2, dmrg_finds (hubOcc_inj sym) (fun _ => trivial) (ham_herm hubOn_herm hp fun a ha => ?_) f3 f4 hN⟩
  have := hr a ha
  cases a <;> first | exact this | exact this.symm

/-- **C75**, ground states of t-J models: the same on the states without doubly occupied sites. The amplitude of a hopping may be complex. -/
theorem C75_tJ_dmrg [GenTypes 𝕜 (Op 3 𝕜)] (h : ExactTypes 3 𝕜) (sym : Sym) (ts : List (HamTerm TjOn N 𝕜)) (hp : ∀ a ∈ ts, a.Proper) (h1 : OneEach ts)
    (hs : ∀ a ∈ ts, a.coef = 0 ∨ ∀ c ∈ [a.coef, -a.coef, -star a.coef, a.coef / 2], GenTypes.tooSmall (Op 3 𝕜) c = false) (hne : ∃ a ∈ ts, a.coef ≠ 0)
    (hr : ∀ a ∈ ts, a.Real star) (hN : 3 ≤ N) :
    ∃ g rs, ts.foldlM (addTjTerm (tjOps (tjSite sym))) (Generator.new (uniformIds 3 N)) = .ok g ∧ g.genMatReprMpo = .ok rs ∧ rs.length = N ∧
      DmrgFinds N (opMats rs) (tjOcc (tjSite sym)) (fun o => o ≠ (true, true)) (ts.map (HamTerm.fock TjOn.fock star)).sum := by
  obtain ⟨g, l, e1, -, -, e4, -⟩ := tj_ham h sym ts hp h1 hs hne true
  obtain ⟨rs, f1, f2, f3, f4⟩ := matRep_op (dec := tjOcc (tjSite sym)) (by omega) e4.2
  exact ⟨g, rs, e1, f1, f2, dmrg_finds (tjOcc_inj sym) (by cases sym <;> decide) (ham_herm tjOn_herm hp hr) f3 f4 hN⟩

/-- **C75**, ground states of spin-1/2 chains: on the states with one particle per site. -/
theorem C75_spin_dmrg [GenTypes 𝕜 (Op 2 𝕜)] (h : ExactTypes 2 𝕜) (im : 𝕜) {sym : Sym} {st : SpinSite} (hst : spinSite sym = some st) (ts : List (SpinTerm N 𝕜))
    (hp : ∀ a ∈ ts, a.Proper) (h1 : OneField ts)
    (hs : ∀ a ∈ ts, a.coef = 0 ∨ ∀ c ∈ [a.coef, a.coef / 2], GenTypes.tooSmall (Op 2 𝕜) c = false) (hne : ∃ a ∈ ts, a.coef ≠ 0)
    (hr : ∀ a ∈ ts, star a.coef = a.coef) (hN : 3 ≤ N) :
    ∃ g rs, ts.foldlM (addSpinTerm (spinOps im st)) (Generator.new (uniformIds 2 N)) = .ok g ∧ g.genMatReprMpo = .ok rs ∧ rs.length = N ∧
      DmrgFinds N (opMats rs) (spinOcc st) (fun o => o.1 ≠ o.2) (ts.map SpinTerm.fock).sum := by
  obtain ⟨g, l, e1, -, -, e4, -⟩ := spin_ham h im hst ts hp h1 hs hne true
  obtain ⟨rs, f1, f2, f3, f4⟩ := matRep_op (dec := spinOcc st) (by omega) e4.2
  exact ⟨g, rs, e1, f1, f2, dmrg_finds (spinOcc_inj hst) (spinOcc_one st) (spin_herm hp hr) f3 f4 hN⟩

end

/-! ### A concrete case: the t-J chain with a complex hopping -/

section
open Classical

example : ∃ g rs, demoTj.foldlM (addTjTerm (tjOps (tjSite .u1u1))) (Generator.new (uniformIds 3 3)) = .ok g ∧ g.genMatReprMpo = .ok rs ∧ rs.length = 3 ∧
    DmrgFinds 3 (opMats rs) (tjOcc (tjSite .u1u1)) (fun o => o ≠ (true, true)) (demoTj.map (HamTerm.fock TjOn.fock star)).sum :=
  C75_tJ_dmrg complex_exact .u1u1 demoTj demoTj_ok.1 demoTj_ok.2.1 demoTj_ok.2.2.1 demoTj_ok.2.2.2.1 demoTj_ok.2.2.2.2 (by norm_num)

end
end Verif.Props
