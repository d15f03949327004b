import Verif.Props.HamHerm
import Verif.Props.Ham
/-
Property theorem C74: from the terms of a Hamiltonian to the energies of the programs. The tensors `Gen` returns are those of the Hamiltonian the calls describe, so what C62 and
C73 say of the operator of an MPO holds for the energies in Fock space of that Hamiltonian.
-/
namespace Verif.Props
open Verif.Mpo Verif.Fock Verif.Mps Finset Matrix

section
variable {K : Type} [RCLike K] [DecidableEq K] {d : Nat} [GenTypes K (Op d K)]

/-- **C74** (the tensors). For any valid history of `AddTerm` calls of which at least one is not negligible, no one-site term of which has the operator of an earlier one on its site, with
identities of divergence zero and charge-neutral terms, `Gen` succeeds, with or without compression: no label points outside the tables of coefficients and operators, the tensors
have one index value at both ends and fit at every bond, and between any two configurations their product is the sum of the terms. -/
theorem C74_mpo {Q : Type} [DecidableEq Q] [AddCommGroup Q] (h : ExactTypes d K) (ids : List (Op d K)) (calls : List (Mpo.Call K (Op d K)))
    (hv : ∀ c ∈ calls, c.Valid ids.length) (hne : effective calls ≠ []) (hcol : NoCollision (effective calls)) (hN : ids ≠ [])
    (tdiv : Op d K → Q) (hneg : ∀ t, tdiv (GenTypes.tneg K t) = tdiv t) (hid : ∀ t ∈ ids, tdiv t = 0)
    (hneu : ∀ c ∈ effective calls, (c.ops.map tdiv).sum = 0) (compress : Bool) :
    ∃ g ws, history ids calls = .ok g ∧ g.genMpo tdiv 0 compress = .ok ws ∧ ws.length = ids.length ∧ Closed ids.length (mpoW ws) ∧
      ∀ x y : Nat → Fin d, opM ids.length (mpoW ws) (fun s => y s) (fun s => x s) = ((effective calls).map (termVal (opVals h x y) ids)).sum := by
  obtain ⟨g, l, e1, e2, e3, e4⟩ := C01_gen_returns_sum (R := K) ids calls hv hne hcol tdiv hneg hid hneu compress
  obtain ⟨ws, f1, f2, f3, f4⟩ := genMpo_of_gen h e3 (by simpa using hN) e2 (gen_ok hv e1 hne tdiv hneg hid hneu compress e2)
  exact ⟨g, ws, e1, f1, f2, f3, fun x y => (f4 x y).trans (e4 _)⟩

/-- From the matrix elements for labels of all natural numbers to the operator. -/
theorem mpo_op {N : Nat} (h : ExactTypes d K) {dec : Fin d → Occ} {H : Matrix (Conf N) (Conf N) K} {Q : Type} [DecidableEq Q] [AddCommGroup Q]
    {g : Generator K (Op d K)} {tdiv : Op d K → Q} {compress : Bool} {l : List (SiteTen Q)} (hl : l.length = N) (hN : N ≠ 0)
    (e : g.gen tdiv 0 compress = .ok l) (hok : GenOK g.coefHub.length g.opHub.length l)
    (hm : ∀ x y : Nat → Fin d, mpoVal (opVals h x y) g (l.map (·.mat)) = H (fun s => dec (y s)) (fun s => dec (x s))) :
    ∃ ws, g.genMpo tdiv 0 compress = .ok ws ∧ ws.length = N ∧ Closed N (mpoW ws) ∧
      opM N (mpoW ws) = H.submatrix (fun s i => dec (s i)) (fun s i => dec (s i)) := by
  obtain ⟨ws, f1, f2, f3, f4⟩ := genMpo_of_gen h hl hN e hok
  refine ⟨ws, f1, f2, f3, ?_⟩
  ext s s'
  have hd : 0 < d := Fin.pos (s ⟨0, Nat.pos_of_ne_zero hN⟩)
  have key := (f4 (fun i => if hi : i < N then s' ⟨i, hi⟩ else ⟨0, hd⟩) (fun i => if hi : i < N then s ⟨i, hi⟩ else ⟨0, hd⟩)).trans (hm _ _)
  simp only [Fin.is_lt, dif_pos] at key
  exact key

end

section
variable {K : Type} [RCLike K] [DecidableEq K] {N : Nat}

/-- **C74**, Hubbard: the tensors `Gen` returns are those of the Hamiltonian in Fock space, all of it. -/
theorem C74_hubbard_mpo [GenTypes K (Op 4 K)] (h : ExactTypes 4 K) (im : K) (sym : Sym) (ts : List (HamTerm HubOn N K)) (hp : ∀ a ∈ ts, a.Proper) (h1 : OneEach ts)
    (hs : ∀ a ∈ ts, a.coef = 0 ∨ ∀ c ∈ [a.coef, -a.coef, a.coef / 2], GenTypes.tooSmall (Op 4 K) c = false) (hne : ∃ a ∈ ts, a.coef ≠ 0)
    (compress : Bool) :
    ∃ g ws, ts.foldlM (addHubTerm (hubOps im (hubSite sym))) (Generator.new (uniformIds 4 N)) = .ok g ∧
      g.genMpo (opDiv (hubSite sym).bond) 0 compress = .ok ws ∧ ws.length = N ∧ Closed N (mpoW ws) ∧
      opM N (mpoW ws) = (ts.map (HamTerm.fock HubOn.fock id)).sum.submatrix (fun s i => hubOcc (hubSite sym) (s i)) (fun s i => hubOcc (hubSite sym) (s i)) := by
  obtain ⟨g, l, e1, e2, e3, e4, e5⟩ := hub_ham h im sym ts hp h1 hs hne compress
  have hN : N ≠ 0 := by
    obtain ⟨a, -, -⟩ := hne
    rintro rfl
    cases a with
    | hop t i j => exact i.elim0
    | heis t i j => exact i.elim0
    | dens t i j => exact i.elim0
    | site t c i => exact i.elim0
  obtain ⟨ws, f1, f2, f3, f4⟩ := mpo_op h e3 hN e2 e4.1 e5
  exact ⟨g, ws, e1, f1, f2, f3, f4⟩

/-- **C74**, t-J. -/
theorem C74_tJ_mpo [GenTypes K (Op 3 K)] (h : ExactTypes 3 K) (sym : Sym) (ts : List (HamTerm TjOn N K)) (hp : ∀ a ∈ ts, a.Proper) (h1 : OneEach ts)
    (hs : ∀ a ∈ ts, a.coef = 0 ∨ ∀ c ∈ [a.coef, -a.coef, -star a.coef, a.coef / 2], GenTypes.tooSmall (Op 3 K) c = false) (hne : ∃ a ∈ ts, a.coef ≠ 0)
    (compress : Bool) :
    ∃ g ws, ts.foldlM (addTjTerm (tjOps (tjSite sym))) (Generator.new (uniformIds 3 N)) = .ok g ∧
      g.genMpo (opDiv (tjSite sym).bond) 0 compress = .ok ws ∧ ws.length = N ∧ Closed N (mpoW ws) ∧
      opM N (mpoW ws) = (ts.map (HamTerm.fock TjOn.fock star)).sum.submatrix (fun s i => tjOcc (tjSite sym) (s i)) (fun s i => tjOcc (tjSite sym) (s i)) := by
  obtain ⟨g, l, e1, e2, e3, e4, e5⟩ := tj_ham h sym ts hp h1 hs hne compress
  have hN : N ≠ 0 := by
    obtain ⟨a, -, -⟩ := hne
    rintro rfl
    cases a with
    | hop t i j => exact i.elim0
    | heis t i j => exact i.elim0
    | dens t i j => exact i.elim0
    | site t c i => exact i.elim0
  obtain ⟨ws, f1, f2, f3, f4⟩ := mpo_op h e3 hN e2 e4.1 e5
  exact ⟨g, ws, e1, f1, f2, f3, f4⟩

/-- **C74**, spin-1/2 chains. -/
theorem C74_spin_mpo [GenTypes K (Op 2 K)] (h : ExactTypes 2 K) (im : K) {sym : Sym} {st : SpinSite} (hst : spinSite sym = some st) (ts : List (SpinTerm N K))
    (hp : ∀ a ∈ ts, a.Proper) (h1 : OneField ts)
    (hs : ∀ a ∈ ts, a.coef = 0 ∨ ∀ c ∈ [a.coef, a.coef / 2], GenTypes.tooSmall (Op 2 K) c = false) (hne : ∃ a ∈ ts, a.coef ≠ 0) (compress : Bool) :
    ∃ g ws, ts.foldlM (addSpinTerm (spinOps im st)) (Generator.new (uniformIds 2 N)) = .ok g ∧
      g.genMpo (opDiv st.bond) 0 compress = .ok ws ∧ ws.length = N ∧ Closed N (mpoW ws) ∧
      opM N (mpoW ws) = (ts.map SpinTerm.fock).sum.submatrix (fun s i => spinOcc st (s i)) (fun s i => spinOcc st (s i)) := by
  obtain ⟨g, l, e1, e2, e3, e4, e5⟩ := spin_ham h im hst ts hp h1 hs hne compress
  have hN : N ≠ 0 := by
    obtain ⟨a, -, -⟩ := hne
    rintro rfl
    cases a with
    | heis t i j => exact i.elim0
    | field c i => exact i.elim0
  obtain ⟨ws, f1, f2, f3, f4⟩ := mpo_op h e3 hN e2 e4.1 e5
  exact ⟨g, ws, e1, f1, f2, f3, f4⟩

end

theorem hubOcc_inj (sym : Sym) : Function.Injective (hubOcc (hubSite sym)) := by
  cases sym <;> decide

theorem tjOcc_inj (sym : Sym) : Function.Injective (tjOcc (tjSite sym)) := by
  cases sym <;> decide

theorem spinOcc_inj {sym : Sym} {st : SpinSite} (hst : spinSite sym = some st) : Function.Injective (spinOcc st) := by
  rw [spin_labels hst]
  intro a b
  show (if a = 0 then _ else _) = (if b = 0 then _ else _) → _
  revert a b
  decide

theorem spinOcc_one (st : SpinSite) (k : Fin 2) : (spinOcc st k).1 ≠ (spinOcc st k).2 := by
  unfold spinOcc
  split <;> decide

section
variable {𝕜 : Type} [RCLike 𝕜] [DecidableEq 𝕜] {N : Nat}

/-- **C74**, ground states of Hubbard models. Write any Hamiltonian of hoppings, exchange and density couplings and one-site terms with real coefficients as calls of the builders, `Gen`
the MPO and optimise an MPS with it: the energy returned is never below the exact ground-state energy in Fock space; if nothing was discarded, it is the energy in Fock space of the MPS on
disk and not above that of the initial MPS. -/
theorem C74_hubbard_vmps [GenTypes 𝕜 (Op 4 𝕜)] (h : ExactTypes 4 𝕜) (im : 𝕜) (sym : Sym) (ts : List (HamTerm HubOn N 𝕜)) (hp : ∀ a ∈ ts, a.Proper) (h1 : OneEach ts)
    (hs : ∀ a ∈ ts, a.coef = 0 ∨ ∀ c ∈ [a.coef, -a.coef, a.coef / 2], GenTypes.tooSmall (Op 4 𝕜) c = false) (hne : ∃ a ∈ ts, a.coef ≠ 0)
    (hr : ∀ a ∈ ts, star a.coef = a.coef) (compress : Bool) (hN : 3 ≤ N) :
    ∃ g ws, ts.foldlM (addHubTerm (hubOps im (hubSite sym))) (Generator.new (uniformIds 4 N)) = .ok g ∧
      g.genMpo (opDiv (hubSite sym).bond) 0 compress = .ok ws ∧ ws.length = N ∧
      VmpsFinds N (mpoW ws) (hubOcc (hubSite sym)) (fun _ => True) (ts.map (HamTerm.fock HubOn.fock id)).sum := by
  obtain ⟨g, ws, e1, e2, e3, e4, e5⟩ := C74_hubbard_mpo h im sym ts hp h1 hs hne compress
  refine ⟨g, ws, e1, e2, e3, vmps_finds (hubOcc_inj sym) (fun _ => trivial) (ham_herm hubOn_herm hp fun a ha => ?_) e4 e5 hN⟩
  have := hr a ha
  cases a <;> first | exact this | exact this.symm

/-- **C74**, ground states of t-J models: the same on the states without doubly occupied sites. The amplitude of a hopping may be complex. -/
theorem C74_tJ_vmps [GenTypes 𝕜 (Op 3 𝕜)] (h : ExactTypes 3 𝕜) (sym : Sym) (ts : List (HamTerm TjOn N 𝕜)) (hp : ∀ a ∈ ts, a.Proper) (h1 : OneEach ts)
    (hs : ∀ a ∈ ts, a.coef = 0 ∨ ∀ c ∈ [a.coef, -a.coef, -star a.coef, a.coef / 2], GenTypes.tooSmall (Op 3 𝕜) c = false) (hne : ∃ a ∈ ts, a.coef ≠ 0)
    (hr : ∀ a ∈ ts, a.Real star) (compress : Bool) (hN : 3 ≤ N) :
    ∃ g ws, ts.foldlM (addTjTerm (tjOps (tjSite sym))) (Generator.new (uniformIds 3 N)) = .ok g ∧
      g.genMpo (opDiv (tjSite sym).bond) 0 compress = .ok ws ∧ ws.length = N ∧
      VmpsFinds N (mpoW ws) (tjOcc (tjSite sym)) (fun o => o ≠ (true, true)) (ts.map (HamTerm.fock TjOn.fock star)).sum := by
  obtain ⟨g, ws, e1, e2, e3, e4, e5⟩ := C74_tJ_mpo h sym ts hp h1 hs hne compress
  exact ⟨g, ws, e1, e2, e3, vmps_finds (tjOcc_inj sym) (by cases sym <;> decide) (ham_herm tjOn_herm hp hr) e4 e5 hN⟩

/-- **C74**, ground states of spin-1/2 chains: on the states with one particle per site. -/
theorem C74_spin_vmps [GenTypes 𝕜 (Op 2 𝕜)] (h : ExactTypes 2 𝕜) (im : 𝕜) {sym : Sym} {st : SpinSite} (hst : spinSite sym = some st) (ts : List (SpinTerm N 𝕜))
    (hp : ∀ a ∈ ts, a.Proper) (h1 : OneField ts)
    (hs : ∀ a ∈ ts, a.coef = 0 ∨ ∀ c ∈ [a.coef, a.coef / 2], GenTypes.tooSmall (Op 2 𝕜) c = false) (hne : ∃ a ∈ ts, a.coef ≠ 0)
    (hr : ∀ a ∈ ts, star a.coef = a.coef) (compress : Bool) (hN : 3 ≤ N) :
    ∃ g ws, ts.foldlM (addSpinTerm (spinOps im st)) (Generator.new (uniformIds 2 N)) = .ok g ∧
      g.genMpo (opDiv st.bond) 0 compress = .ok ws ∧ ws.length = N ∧
      VmpsFinds N (mpoW ws) (spinOcc st) (fun o => o.1 ≠ o.2) (ts.map SpinTerm.fock).sum := by
  obtain ⟨g, ws, e1, e2, e3, e4, e5⟩ := C74_spin_mpo h im hst ts hp h1 hs hne compress
  exact ⟨g, ws, e1, e2, e3, vmps_finds (spinOcc_inj hst) (spinOcc_one st) (spin_herm hp hr) e4 e5 hN⟩

/-- **C74**, time evolution of Hubbard models. -/
theorem C74_hubbard_tdvp [DecidableEq ℂ] [GenTypes ℂ (Op 4 ℂ)] (h : ExactTypes 4 ℂ) (im : ℂ) (sym : Sym) (ts : List (HamTerm HubOn N ℂ)) (hp : ∀ a ∈ ts, a.Proper) (h1 : OneEach ts)
    (hs : ∀ a ∈ ts, a.coef = 0 ∨ ∀ c ∈ [a.coef, -a.coef, a.coef / 2], GenTypes.tooSmall (Op 4 ℂ) c = false) (hne : ∃ a ∈ ts, a.coef ≠ 0)
    (hr : ∀ a ∈ ts, star a.coef = a.coef) (compress : Bool) (hN : 3 ≤ N) :
    ∃ g ws, ts.foldlM (addHubTerm (hubOps im (hubSite sym))) (Generator.new (uniformIds 4 N)) = .ok g ∧
      g.genMpo (opDiv (hubSite sym).bond) 0 compress = .ok ws ∧ ws.length = N ∧
      TdvpConserves N (mpoW ws) (hubOcc (hubSite sym)) (ts.map (HamTerm.fock HubOn.fock id)).sum := by
  obtain ⟨g, ws, e1, e2, e3, e4, e5⟩ := C74_hubbard_mpo h im sym ts hp h1 hs hne compress
  refine ⟨g, ws, e1, e2, e3, tdvp_conserves (hubOcc_inj sym) (ham_herm hubOn_herm hp fun a ha => ?_) e4 e5 hN⟩
  have := hr a ha
  cases a <;> first | exact this | exact this.symm

/-- **C74**, time evolution of t-J models. -/
theorem C74_tJ_tdvp [DecidableEq ℂ] [GenTypes ℂ (Op 3 ℂ)] (h : ExactTypes 3 ℂ) (sym : Sym) (ts : List (HamTerm TjOn N ℂ)) (hp : ∀ a ∈ ts, a.Proper) (h1 : OneEach ts)
    (hs : ∀ a ∈ ts, a.coef = 0 ∨ ∀ c ∈ [a.coef, -a.coef, -star a.coef, a.coef / 2], GenTypes.tooSmall (Op 3 ℂ) c = false) (hne : ∃ a ∈ ts, a.coef ≠ 0)
    (hr : ∀ a ∈ ts, a.Real star) (compress : Bool) (hN : 3 ≤ N) :
    ∃ g ws, ts.foldlM (addTjTerm (tjOps (tjSite sym))) (Generator.new (uniformIds 3 N)) = .ok g ∧
      g.genMpo (opDiv (tjSite sym).bond) 0 compress = .ok ws ∧ ws.length = N ∧
      TdvpConserves N (mpoW ws) (tjOcc (tjSite sym)) (ts.map (HamTerm.fock TjOn.fock star)).sum := by
  obtain ⟨g, ws, e1, e2, e3, e4, e5⟩ := C74_tJ_mpo h sym ts hp h1 hs hne compress
  exact ⟨g, ws, e1, e2, e3, tdvp_conserves (tjOcc_inj sym) (ham_herm tjOn_herm hp hr) e4 e5 hN⟩

/-- **C74**, time evolution of spin-1/2 chains. -/
theorem C74_spin_tdvp [DecidableEq ℂ] [GenTypes ℂ (Op 2 ℂ)] (h : ExactTypes 2 ℂ) (im : ℂ) {sym : Sym} {st : SpinSite} (hst : spinSite sym = some st) (ts : List (SpinTerm N ℂ))
    (hp : ∀ a ∈ ts, a.Proper) (h1 : OneField ts)
    (hs : ∀ a ∈ ts, a.coef = 0 ∨ ∀ c ∈ [a.coef, a.coef / 2], GenTypes.tooSmall (Op 2 ℂ) c = false) (hne : ∃ a ∈ ts, a.coef ≠ 0)
    (hr : ∀ a ∈ ts, star a.coef = a.coef) (compress : Bool) (hN : 3 ≤ N) :
    ∃ g ws, ts.foldlM (addSpinTerm (spinOps im st)) (Generator.new (uniformIds 2 N)) = .ok g ∧
      g.genMpo (opDiv st.bond) 0 compress = .ok ws ∧ ws.length = N ∧ TdvpConserves N (mpoW ws) (spinOcc st) (ts.map SpinTerm.fock).sum := by
  obtain ⟨g, ws, e1, e2, e3, e4, e5⟩ := C74_spin_mpo h im hst ts hp h1 hs hne compress
  exact ⟨g, ws, e1, e2, e3, tdvp_conserves (spinOcc_inj hst) (spin_herm hp hr) e4 e5 hN⟩

end

/-! ### A concrete case: the t-J chain with a complex hopping, and states that meet the hypotheses of the programs -/

section
open Classical

/-- Complex coefficients with the machine epsilon as limit of the modulus; a tensor has a negative first element if the real part of its first element that is not zero is negative. -/
noncomputable instance complexTypes {d : Nat} : GenTypes ℂ (Op d ℂ) where
  czero := 0
  cone := 1
  cneg := fun c => -c
  tooSmall := fun c => decide (‖c‖ < 1 / 2 ^ 52)
  tneg := fun t c r => -t c r
  negFirst := fun t => ((((List.finRange d).flatMap fun c => (List.finRange d).map fun r => t c r)).find? (fun v => decide (v ≠ 0))).elim false
    fun v => decide (v.re < 0)

theorem complex_exact {d : Nat} : ExactTypes d ℂ := ⟨rfl, rfl, fun _ => rfl, fun _ _ _ => rfl⟩

/-- Three sites in a magnetic field: hoppings with a phase, exchange, chemical potential. -/
noncomputable def demoTj : List (HamTerm TjOn 3 ℂ) := [.hop Complex.I 0 1, .hop Complex.I 2 1, .hop 1 0 2, .heis 1 0 1, .heis 1 1 2, .site .n (-2) 1]

theorem demoTj_ok : (∀ a ∈ demoTj, a.Proper) ∧ OneEach demoTj ∧
    (∀ a ∈ demoTj, a.coef = 0 ∨ ∀ c ∈ [a.coef, -a.coef, -star a.coef, a.coef / 2], GenTypes.tooSmall (Op 3 ℂ) c = false) ∧ (∃ a ∈ demoTj, a.coef ≠ 0) ∧
    ∀ a ∈ demoTj, a.Real star := by
  refine ⟨?_, ?_, ?_, ⟨.hop 1 0 2, by simp [demoTj], by simp [HamTerm.coef]⟩, ?_⟩
  · intro a ha
    simp only [demoTj, List.mem_cons, List.not_mem_nil, or_false] at ha
    rcases ha with rfl | rfl | rfl | rfl | rfl | rfl <;> simp [HamTerm.Proper]
  · simp [OneEach, demoTj]
  · intro a ha
    refine Or.inr fun c hc => ?_
    simp only [demoTj, List.mem_cons, List.not_mem_nil, or_false] at ha
    have key : (1 : ℝ) / 2 ^ 52 ≤ ‖c‖ → GenTypes.tooSmall (Op 3 ℂ) c = false := fun h => decide_eq_false (not_lt.2 h)
    apply key
    rcases ha with rfl | rfl | rfl | rfl | rfl | rfl <;> simp only [HamTerm.coef, List.mem_cons, List.not_mem_nil, or_false] at hc <;>
      rcases hc with rfl | rfl | rfl | rfl <;> simp [norm_neg] <;> norm_num
  · intro a ha
    simp only [demoTj, List.mem_cons, List.not_mem_nil, or_false] at ha
    rcases ha with rfl | rfl | rfl | rfl | rfl | rfl <;> simp [HamTerm.Real]

/-- The programs for this Hamiltonian, with compression. -/
example : ∃ g ws, demoTj.foldlM (addTjTerm (tjOps (tjSite .u1u1))) (Generator.new (uniformIds 3 3)) = .ok g ∧
    g.genMpo (opDiv (tjSite .u1u1).bond) 0 true = .ok ws ∧ ws.length = 3 ∧
    TdvpConserves 3 (mpoW ws) (tjOcc (tjSite .u1u1)) (demoTj.map (HamTerm.fock TjOn.fock star)).sum :=
  C74_tJ_tdvp complex_exact .u1u1 demoTj demoTj_ok.1 demoTj_ok.2.1 demoTj_ok.2.2.1 demoTj_ok.2.2.2.1 demoTj_ok.2.2.2.2 true (by norm_num)

end
end Verif.Props
