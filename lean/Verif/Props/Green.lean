import Verif.Props.GreenSpec
import Verif.Props.HamEnergy
import Verif.Props.Models
/-
C89: dynamical correlation functions of `TwoSiteFiniteTDVP` in Fock space, from the terms of the Hamiltonian.
-/
namespace Verif.Props
open Verif.Mpo Verif.Fock Verif.Mps Verif.Disk Verif.Algo Verif.Mpi Finset Matrix

section
variable {d N : Nat} {dec : Fin d → Occ} {ok : Occ → Prop}

theorem inFock_mul (hd : Function.Injective dec) (M : Matrix (Conf N) (Conf N) ℂ) (Ψ : ChainV (Fin d) ℂ N) (s : Fin N → Fin d) :
    Matrix.toEuclideanLin M (inFock dec Ψ) (fun i => dec (s i)) =
      Matrix.toEuclideanLin (M.submatrix (fun s i => dec (s i)) (fun s i => dec (s i))) Ψ s := by
  rw [Matrix.ofLp_toLpLin, Matrix.ofLp_toLpLin, Matrix.toLin'_apply, Matrix.toLin'_apply]
  symm
  show ∑ s', _ = ∑ n, _
  refine inFock_sum hd _ _ (fun n hn => ?_) fun s' => ?_
  · show _ * inFock dec Ψ n = 0
    rw [inFock_off Ψ n hn, mul_zero]
  · show _ = _ * inFock dec Ψ _
    rw [inFock_at hd]; rfl

theorem inFock_inner (hd : Function.Injective dec) (M : Matrix (Conf N) (Conf N) ℂ) (Φ Ψ : ChainV (Fin d) ℂ N) :
    inner ℂ (inFock dec Φ) (Matrix.toEuclideanLin M (inFock dec Ψ)) =
      inner ℂ Φ (Matrix.toEuclideanLin (M.submatrix (fun s i => dec (s i)) (fun s i => dec (s i))) Ψ) := by
  rw [PiLp.inner_apply, PiLp.inner_apply]
  symm
  refine inFock_sum hd _ _ (fun n hn => by rw [inFock_off Φ n hn, inner_zero_left]) fun s => ?_
  rw [inFock_at hd, inFock_mul hd]

theorem inFock_apply (hd : Function.Injective dec) (hok : ∀ o, ok o ↔ ∃ k, dec k = o) (M : Matrix (Conf N) (Conf N) ℂ) (Ψ : ChainV (Fin d) ℂ N) :
    inFock dec (Matrix.toEuclideanLin (M.submatrix (fun s i => dec (s i)) (fun s i => dec (s i))) Ψ) = onlyAllowed ok (Matrix.toEuclideanLin M (inFock dec Ψ)) := by
  classical
  ext n
  by_cases hn : ∀ i, ok (n i)
  · choose s hs using fun i => (hok _).1 (hn i)
    obtain rfl : (fun i => dec (s i)) = n := funext hs
    rw [inFock_at hd, ← inFock_mul hd]
    show _ = ite _ _ _
    rw [if_pos hn]
  · rw [inFock_off _ n]
    · show _ = ite _ _ _
      rw [if_neg hn]
    · rintro ⟨s, rfl⟩
      exact hn fun i => (hok _).2 ⟨s i, rfl⟩

/-- The tensor and insertion operator of a probe stand for its operator of Fock space. -/
def Stands (dec : Fin d → Occ) (p : Probe d N) : Prop :=
  ∀ i : Fin N, prodM N (strung p.ten p.inst i) = (p.fock i).submatrix (fun s i => dec (s i)) (fun s i => dec (s i))

theorem stands_site {o : Mpo.Op d ℂ} {A : Fin N → Matrix (Conf N) (Conf N) ℂ} (h : ∀ (i : Fin N) (x y : Nat → Fin d), onSite o i x y = A i (fun s => dec (y s)) (fun s => dec (x s))) :
    Stands dec ⟨o, Option.none, A⟩ := by
  intro i
  ext s' s
  have := h i (fun j => if hj : j < N then s ⟨j, hj⟩ else s i) (fun j => if hj : j < N then s' ⟨j, hj⟩ else s' i)
  simp only [Fin.is_lt, dite_true, Fin.eta] at this
  show _ = A i (fun j => dec (s' j)) (fun j => dec (s j))
  rw [← this]
  show (∏ j : Fin N, strung o Option.none (i : Nat) j (s j) (s' j)) = _
  refine Finset.prod_congr rfl fun j _ => ?_
  simp only [strung, Fin.is_lt, dite_true, Fin.eta, Option.getD_none]
  by_cases h1 : j = i
  · subst h1; simp
  · have h2 : (j : Nat) ≠ i := fun e => h1 (Fin.ext e)
    by_cases h3 : (j : Nat) < i <;> simp [h1, h2, h3, Mps.idOp]

theorem stands_string {o f : Mpo.Op d ℂ} {A : Fin N → Matrix (Conf N) (Conf N) ℂ}
    (h : ∀ (i : Fin N) (x y : Nat → Fin d), withString f o i x y = A i (fun s => dec (y s)) (fun s => dec (x s))) : Stands dec ⟨o, some f, A⟩ := by
  intro i
  ext s' s
  have := h i (fun j => if hj : j < N then s ⟨j, hj⟩ else s i) (fun j => if hj : j < N then s' ⟨j, hj⟩ else s' i)
  simp only [Fin.is_lt, dite_true, Fin.eta] at this
  show _ = A i (fun j => dec (s' j)) (fun j => dec (s j))
  rw [← this]
  show (∏ j : Fin N, strung o (some f) (i : Nat) j (s j) (s' j)) = _
  refine Finset.prod_congr rfl fun j _ => ?_
  simp only [strung, Fin.is_lt, dite_true, Fin.eta, Option.getD_some]
  by_cases h3 : j < i
  · have : (j : Nat) < i := h3
    simp [h3]
  · have h3' : ¬ (j : Nat) < i := h3
    by_cases h1 : j = i
    · subst h1; simp
    · have h2 : (j : Nat) ≠ i := fun e => h1 (Fin.ext e)
      simp [h1, h2, h3, Mps.idOp]

theorem hub_stands (im : ℂ) (sym : Sym) (p : HubProbe) : Stands (hubOcc (hubSite sym)) (p.probe (hubOps im (hubSite sym)) N) := by
  have a := fun i : Fin N => C69_operators (N := N) im sym i
  have b := fun i : Fin N => C69_fermion_operators (N := N) im sym i
  cases p with
  | sz => exact stands_site fun i x y => (a i x y).2.1
  | sp => exact stands_site fun i x y => (a i x y).2.2.1
  | sm => exact stands_site fun i x y => (a i x y).2.2.2.1
  | nup => exact stands_site fun i x y => (a i x y).2.2.2.2.2.2.1
  | ndn => exact stands_site fun i x y => (a i x y).2.2.2.2.2.2.2.1
  | nf => exact stands_site fun i x y => (a i x y).2.2.2.2.2.2.2.2.1
  | nupndn => exact stands_site fun i x y => (a i x y).2.2.2.2.2.2.2.2.2.2.1
  | cupccdnc => exact stands_site fun i x y => (a i x y).2.2.2.2.2.2.2.2.2.2.2.1
  | cdnacupa => exact stands_site fun i x y => (a i x y).2.2.2.2.2.2.2.2.2.2.2.2.1
  | bupa => exact stands_string fun i x y => (b i x y).1
  | bupc => exact stands_string fun i x y => (b i x y).2.1
  | Fbdna => exact stands_string fun i x y => (b i x y).2.2.1
  | Fbdnc => exact stands_string fun i x y => (b i x y).2.2.2

theorem tj_stands (sym : Sym) (p : TjProbe) : Stands (tjOcc (tjSite sym)) (p.probe (tjOps (tjSite sym)) N) := by
  have a := fun i : Fin N => C70_operators (K := ℂ) (N := N) sym i
  cases p with
  | sz => exact stands_site fun i x y => (a i x y).2.1
  | sp => exact stands_site fun i x y => (a i x y).2.2.1
  | sm => exact stands_site fun i x y => (a i x y).2.2.2.1
  | nup => exact stands_site fun i x y => (a i x y).2.2.2.2.1
  | ndn => exact stands_site fun i x y => (a i x y).2.2.2.2.2.1
  | nf => exact stands_site fun i x y => (a i x y).2.2.2.2.2.2.1
  | bupa => exact stands_string fun i x y => (a i x y).2.2.2.2.2.2.2.1
  | bupc => exact stands_string fun i x y => (a i x y).2.2.2.2.2.2.2.2.1
  | bdna => exact stands_string fun i x y => (a i x y).2.2.2.2.2.2.2.2.2.1
  | bdnc => exact stands_string fun i x y => (a i x y).2.2.2.2.2.2.2.2.2.2

theorem spin_stands (im : ℂ) {sym : Sym} {st : SpinSite} (hst : spinSite sym = some st) (p : SpinProbe) : Stands (spinOcc st) (p.probe (spinOps im st) N) := by
  have a := fun i : Fin N => C71_operators (N := N) im hst i
  cases p with
  | sz => exact stands_site fun i x y => (a i x y).2.1
  | sp => exact stands_site fun i x y => (a i x y).2.2.1
  | sm => exact stands_site fun i x y => (a i x y).2.2.2.1

theorem applyAt_inner (hd : Function.Injective dec) {B : Probe d N} (hB : Stands dec B) (i : Fin N) (Φ Ψ : ChainV (Fin d) ℂ N) :
    inner ℂ Φ (applyAt N B.ten B.inst i Ψ) = inner ℂ (inFock dec Φ) (Matrix.toEuclideanLin (B.fock i) (inFock dec Ψ)) := by
  rw [inFock_inner hd, ← hB i]; rfl

theorem applyAt_start (hd : Function.Injective dec) (hok : ∀ o, ok o ↔ ∃ k, dec k = o) {A : Probe d N} (hA : Stands dec A) (i : Fin N) (Ψ : ChainV (Fin d) ℂ N) :
    inFock dec (applyAt N A.ten A.inst i Ψ) = onlyAllowed ok (Matrix.toEuclideanLin (A.fock i) (inFock dec Ψ)) := by
  rw [← inFock_apply hd hok, ← hA i]; rfl

theorem energy_eq (hd : Function.Injective dec) {H : Matrix (Conf N) (Conf N) ℂ} {H' : Matrix (Fin N → Fin d) (Fin N → Fin d) ℂ}
    (hH : H' = H.submatrix (fun s i => dec (s i)) (fun s i => dec (s i))) {Φ Ψ : ChainV (Fin d) ℂ N}
    (h : inner ℂ Φ (Matrix.toEuclideanLin H' Φ) = inner ℂ Ψ (Matrix.toEuclideanLin H' Ψ)) : fockEnergy H (inFock dec Φ) = fockEnergy H (inFock dec Ψ) := by
  rw [inFock_energy hd H hH, inFock_energy hd H hH]
  unfold Mps.expect
  rw [h]

theorem nonzero_of (hd : Function.Injective dec) (hok : ∀ o, ok o ↔ ∃ k, dec k = o) {A : Probe d N} (hA : Stands dec A) {i : Fin N} {Ψ : ChainV (Fin d) ℂ N}
    (h : onlyAllowed ok (Matrix.toEuclideanLin (A.fock i) (inFock dec Ψ)) ≠ 0) : applyAt N A.ten A.inst i Ψ ≠ 0 := by
  intro e
  apply h
  rw [← applyAt_start hd hok hA, e, ← norm_eq_zero, inFock_norm hd, norm_zero]

theorem correlates (hd : Function.Injective dec) (hok : ∀ o, ok o ↔ ∃ k, dec k = o) {H : Matrix (Conf N) (Conf N) ℂ} (hh : H.IsHermitian)
    {w : Nat → Ten (Fin d × Fin d) ℂ} (hc : Closed N w) (hH : opM N w = H.submatrix (fun s i => dec (s i)) (fun s i => dec (s i))) (hN : 3 ≤ N)
    {A B : Probe d N} (hA : Stands dec A) (hB : Stands dec B) : Correlates N w dec ok H A B := by
  rintro P qr svd rfl hm h1 h2 h3 h4 hq site0 tau step e0 s ψ φ hs hdk hψ hr hφ hi hz
  have hP : TdvpOK N P := ⟨hc, by rw [hH]; exact hh.submatrix _, h1, h2, h3, h4⟩
  obtain ⟨s', res, t, a1, a2, a3, a4, a5, -⟩ := C81_tdvp_program (svd := svd) hq hP hm hN (o := ⟨tau, step, site0, true, A.ten, A.inst, B.ten, B.inst, e0⟩) rfl site0.2 hs hdk hψ hr hφ hi
    (nonzero_of hd hok hA hz)
  obtain ⟨b1, b2, b3⟩ := a4 _ rfl
  refine ⟨s', res, t, a1, a3, a5, ?_, a2, ?_, ?_, ?_⟩
  · rw [b2]; exact applyAt_start hd hok hA _ _
  · intro k i hk
    rw [b1 k i hk i.2, applyAt_inner hd hB]
  · intro k
    rw [inFock_norm hd, inFock_norm hd]
    induction k with
    | zero => exact le_rfl
    | succ k ih => exact ((b3 k).2.1).trans ih
  · intro hcut k
    obtain ⟨c1, c2⟩ := (b3 k).2.2 hcut
    rw [inFock_norm hd, inFock_norm hd]
    exact ⟨c1, energy_eq hd hH c2⟩

theorem parallel_correlates (hd : Function.Injective dec) (hok : ∀ o, ok o ↔ ∃ k, dec k = o) {H : Matrix (Conf N) (Conf N) ℂ} (hh : H.IsHermitian)
    {w : Nat → Ten (Fin d × Fin d) ℂ} (hc : Closed N w) (hH : opM N w = H.submatrix (fun s i => dec (s i)) (fun s i => dec (s i))) (hN : 3 ≤ N)
    {A B : Probe d N} (hA : Stands dec A) (hB : Stands dec B) : ParallelCorrelates N w dec ok H A B := by
  rintro P SL VL L lact W qr svd rfl hm h1 h2 h3 hE h4 hq hW hL site0 tau step e0 corr x ψ φ hs hdk hψ hr hφ hi hz
  have hP : TdvpOK N P := ⟨hc, by rw [hH]; exact hh.submatrix _, h1, h2, h3, h4⟩
  obtain ⟨y, t, a1, a2, a3, a4, a5, -⟩ := C83_tdvp_parallel (svd := svd) hW hL hE hm hq hP hN (o := ⟨tau, step, site0, corr, A.ten, A.inst, B.ten, B.inst, e0⟩) site0.2 hs hdk hψ hr hφ hi
    (nonzero_of hd hok hA hz)
  obtain ⟨b1, b2, b3⟩ := a4 _ rfl
  have hn : ‖onlyAllowed ok (Matrix.toEuclideanLin (A.fock site0) (inFock dec (stateV N ψ)))‖ = ‖applyAt N A.ten A.inst site0 (stateV N ψ)‖ := by
    rw [← applyAt_start hd hok hA, inFock_norm hd]
  refine ⟨y, t, a1, a3, a5, ?_⟩
  rw [hn]
  refine ⟨?_, a2, ?_, ?_, ?_⟩
  · rw [b2]; exact applyAt_start hd hok hA _ _
  · intro k i hk
    rw [b1 k i hk i.2, applyAt_inner hd hB]
  · intro k
    rw [inFock_norm hd, inFock_norm hd]
    exact (b3 k).2.1
  · intro hcut k
    obtain ⟨c1, c2⟩ := (b3 k).2.2 hcut
    rw [inFock_norm hd, inFock_norm hd]
    exact ⟨c1, energy_eq hd hH c2⟩

end

section
variable [DecidableEq ℂ] {N : Nat}

/-- **C89**, Hubbard models. Write any Hamiltonian of hoppings, exchange and density couplings and one-site terms with real coefficients as calls of the builders. With the MPO that `Gen` returns,
compressed or not, and any two operators of `HubbardOperators` (a fermion operator with the parity operator as insertion operator), the serial and the parallel `TwoSiteFiniteTDVP` fill the table
with `exp(i e0 t) ⟨φ| B_i |Φ(t)⟩` in Fock space, `Φ(0) = A_{site0} ψ`, fermionic signs included. -/
theorem C89_hubbard [GenTypes ℂ (Mpo.Op 4 ℂ)] (h : ExactTypes 4 ℂ) (im : ℂ) (sym : Sym) (ts : List (HamTerm HubOn N ℂ)) (hp : ∀ a ∈ ts, a.Proper) (h1 : OneEach ts)
    (hs : ∀ a ∈ ts, a.coef = 0 ∨ ∀ c ∈ [a.coef, -a.coef, a.coef / 2], GenTypes.tooSmall (Mpo.Op 4 ℂ) c = false) (hne : ∃ a ∈ ts, a.coef ≠ 0)
    (hr : ∀ a ∈ ts, star a.coef = a.coef) (compress : Bool) (hN : 3 ≤ N) :
    ∃ g ws, ts.foldlM (addHubTerm (hubOps im (hubSite sym))) (Generator.new (uniformIds 4 N)) = .ok g ∧ g.genMpo (opDiv (hubSite sym).bond) 0 compress = .ok ws ∧
      ∀ A B : HubProbe, let o := hubOps im (hubSite sym)
        Correlates N (mpoW ws) (hubOcc (hubSite sym)) (fun _ => True) (ts.map (HamTerm.fock HubOn.fock id)).sum (A.probe o N) (B.probe o N) ∧
        ParallelCorrelates N (mpoW ws) (hubOcc (hubSite sym)) (fun _ => True) (ts.map (HamTerm.fock HubOn.fock id)).sum (A.probe o N) (B.probe o N) := by
  have hh : (ts.map (HamTerm.fock HubOn.fock id)).sum.IsHermitian := ham_herm hubOn_herm hp fun a ha => by
    have := hr a ha
    cases a <;> first | exact this | exact this.symm
  obtain ⟨g, ws, e1, e2, -, e4, e5⟩ := C74_hubbard_mpo h im sym ts hp h1 hs hne compress
  have hok : ∀ o, (fun _ : Occ => True) o ↔ ∃ k, hubOcc (hubSite sym) k = o := by cases sym <;> decide
  exact ⟨g, ws, e1, e2, fun A B => ⟨correlates (hubOcc_inj sym) hok hh e4 e5 hN (hub_stands im sym A) (hub_stands im sym B),
    parallel_correlates (hubOcc_inj sym) hok hh e4 e5 hN (hub_stands im sym A) (hub_stands im sym B)⟩⟩

/-- **C89**, t-J models: the same, where an operator that makes a doubly occupied site is projected to the states without. -/
theorem C89_tJ [GenTypes ℂ (Mpo.Op 3 ℂ)] (h : ExactTypes 3 ℂ) (sym : Sym) (ts : List (HamTerm TjOn N ℂ)) (hp : ∀ a ∈ ts, a.Proper) (h1 : OneEach ts)
    (hs : ∀ a ∈ ts, a.coef = 0 ∨ ∀ c ∈ [a.coef, -a.coef, -star a.coef, a.coef / 2], GenTypes.tooSmall (Mpo.Op 3 ℂ) c = false) (hne : ∃ a ∈ ts, a.coef ≠ 0)
    (hr : ∀ a ∈ ts, a.Real star) (compress : Bool) (hN : 3 ≤ N) :
    ∃ g ws, ts.foldlM (addTjTerm (tjOps (tjSite sym))) (Generator.new (uniformIds 3 N)) = .ok g ∧ g.genMpo (opDiv (tjSite sym).bond) 0 compress = .ok ws ∧
      ∀ A B : TjProbe, let o := tjOps (tjSite sym)
        Correlates N (mpoW ws) (tjOcc (tjSite sym)) (fun o => o ≠ (true, true)) (ts.map (HamTerm.fock TjOn.fock star)).sum (A.probe o N) (B.probe o N) ∧
        ParallelCorrelates N (mpoW ws) (tjOcc (tjSite sym)) (fun o => o ≠ (true, true)) (ts.map (HamTerm.fock TjOn.fock star)).sum (A.probe o N) (B.probe o N) := by
  have hh := ham_herm tjOn_herm hp hr
  obtain ⟨g, ws, e1, e2, -, e4, e5⟩ := C74_tJ_mpo h sym ts hp h1 hs hne compress
  have hok : ∀ o, (fun o : Occ => o ≠ (true, true)) o ↔ ∃ k, tjOcc (tjSite sym) k = o := by cases sym <;> decide
  exact ⟨g, ws, e1, e2, fun A B => ⟨correlates (tjOcc_inj sym) hok hh e4 e5 hN (tj_stands sym A) (tj_stands sym B),
    parallel_correlates (tjOcc_inj sym) hok hh e4 e5 hN (tj_stands sym A) (tj_stands sym B)⟩⟩

/-- **C89**, spin-1/2 chains. -/
theorem C89_spin [GenTypes ℂ (Mpo.Op 2 ℂ)] (h : ExactTypes 2 ℂ) (im : ℂ) {sym : Sym} {st : SpinSite} (hst : spinSite sym = some st) (ts : List (SpinTerm N ℂ))
    (hp : ∀ a ∈ ts, a.Proper) (h1 : OneField ts)
    (hs : ∀ a ∈ ts, a.coef = 0 ∨ ∀ c ∈ [a.coef, a.coef / 2], GenTypes.tooSmall (Mpo.Op 2 ℂ) c = false) (hne : ∃ a ∈ ts, a.coef ≠ 0)
    (hr : ∀ a ∈ ts, star a.coef = a.coef) (compress : Bool) (hN : 3 ≤ N) :
    ∃ g ws, ts.foldlM (addSpinTerm (spinOps im st)) (Generator.new (uniformIds 2 N)) = .ok g ∧ g.genMpo (opDiv st.bond) 0 compress = .ok ws ∧
      ∀ A B : SpinProbe, let o := spinOps im st
        Correlates N (mpoW ws) (spinOcc st) (fun o => o.1 ≠ o.2) (ts.map SpinTerm.fock).sum (A.probe o N) (B.probe o N) ∧
        ParallelCorrelates N (mpoW ws) (spinOcc st) (fun o => o.1 ≠ o.2) (ts.map SpinTerm.fock).sum (A.probe o N) (B.probe o N) := by
  have hh := spin_herm hp hr
  obtain ⟨g, ws, e1, e2, -, e4, e5⟩ := C74_spin_mpo h im hst ts hp h1 hs hne compress
  have hok : ∀ o, (fun o : Occ => o.1 ≠ o.2) o ↔ ∃ k, spinOcc st k = o := by
    cases sym <;> simp only [spinSite, Option.some.injEq, reduceCtorEq] at hst <;> subst hst <;> decide
  exact ⟨g, ws, e1, e2, fun A B => ⟨correlates (spinOcc_inj hst) hok hh e4 e5 hN (spin_stands im hst A) (spin_stands im hst B),
    parallel_correlates (spinOcc_inj hst) hok hh e4 e5 hN (spin_stands im hst A) (spin_stands im hst B)⟩⟩

end

/-! ### A concrete case: a hole in the t-J chain with complex hopping -/

section
open Classical

/-- All spins up. -/
noncomputable def exUp3 (_ : Nat) : Ten (Fin 3) ℂ := ⟨1, 1, fun s _ _ => if s = 0 then 1 else 0⟩

theorem exUp3_canon : Mps.Canon 3 0 exUp3 := by
  refine ⟨⟨rfl, rfl, fun _ _ => rfl⟩, fun j hj => absurd hj (by omega), fun j hj _ => ?_⟩
  intro x hx y hy
  obtain rfl : x = 0 := by simpa [exUp3] using hx
  obtain rfl : y = 0 := by simpa [exUp3] using hy
  simp [exUp3]

theorem exUp3_state (s : Fin 3 → Fin 3) : stateV 3 exUp3 s = if s = fun _ => 0 then 1 else 0 := by
  show amp ((List.range 3).map exUp3) (List.ofFn s) 0 0 = _
  have : (s = fun _ => 0) ↔ s 0 = 0 ∧ s 1 = 0 ∧ s 2 = 0 := by
    constructor
    · rintro rfl; simp
    · rintro ⟨a, b, c⟩; funext j; fin_cases j <;> assumption
  simp only [this, List.range_succ, List.range_zero, List.nil_append, List.map_append, List.map_cons, List.map_nil, List.cons_append, List.ofFn_succ, List.ofFn_zero]
  simp only [amp, exUp3, Finset.sum_range_one]
  by_cases h0 : s 0 = 0 <;> by_cases h1 : s 1 = 0 <;> by_cases h2 : s 2 = 0 <;> simp [h0, h1, h2]

theorem exHole : onlyAllowed (fun o => o ≠ (true, true)) (Matrix.toEuclideanLin ((TjProbe.bupa.probe (tjOps (tjSite .u1u1)) 3).fock 1) (inFock (tjOcc (tjSite .u1u1)) (stateV 3 exUp3))) ≠ 0 := by
  have hok : ∀ o, (fun o : Occ => o ≠ (true, true)) o ↔ ∃ k, tjOcc (tjSite .u1u1) k = o := by decide
  rw [← applyAt_start (tjOcc_inj .u1u1) hok (tj_stands .u1u1 .bupa), ← norm_ne_zero_iff, inFock_norm (tjOcc_inj .u1u1), norm_ne_zero_iff]
  intro h
  have h' := congrArg (fun v : ChainV (Fin 3) ℂ 3 => v ![0, 2, 0]) h
  simp only [applyAt, Matrix.toEuclideanLin_apply] at h'
  have e : (∑ x : Fin 3 → Fin 3, prodM 3 (strung (TjProbe.bupa.probe (tjOps (tjSite .u1u1)) 3).ten (TjProbe.bupa.probe (tjOps (tjSite .u1u1)) 3).inst (1 : Fin 3)) ![0, 2, 0] x * stateV 3 exUp3 x) = -1 := by
    rw [Finset.sum_eq_single fun _ => 0]
    · rw [exUp3_state, if_pos rfl, mul_one]
      unfold prodM
      rw [Matrix.of_apply, Fin.prod_univ_three]
      simp [strung, TjProbe.probe, tjOps, tjSite, mkOp, Mps.idOp]
    · intro x _ hx
      rw [exUp3_state, if_neg hx, mul_zero]
    · intro hx; exact absurd (Finset.mem_univ _) hx
  have h'' : (-1 : ℂ) = 0 := e.symm.trans h'
  norm_num at h''

/-- For the t-J chain of C74 and the fully polarised state, a spin-up particle is taken out at site 1 and the correlations with its creation are recorded; the directory of the initial state is
absent and nothing is cut. -/
example (n : Nat) (tau : Rat) (e0 : ℝ) : ∃ g ws, demoTj.foldlM (addTjTerm (tjOps (tjSite .u1u1))) (Generator.new (uniformIds 3 3)) = .ok g ∧
    g.genMpo (opDiv (tjSite .u1u1).bond) 0 true = .ok ws ∧ ∃ (P : TdvpPar (Fin 3)) (s' : TdvpSys (Fin 3)) (res : List (Option (Mps.Cell ℂ))) (Φ : Nat → ChainV (Fin 3) ℂ 3), P.w = mpoW ws ∧ P.NoCut ∧
      tdvpProgram (qrE (K := ℂ) (Equiv.refl (Fin 3))) (fun t => (t, fun _ _ => 0)) P
        ⟨tau, n, 1, true, (tjOps (tjSite .u1u1)).bupa, some (tjOps (tjSite .u1u1)).f, (tjOps (tjSite .u1u1)).bupc, some (tjOps (tjSite .u1u1)).f, e0⟩
        ⟨⟨fun j => .whole (exUp3 j), fun _ => .gone, fun _ => .gone⟩, Option.none, fun _ => Option.none, FMps.fresh 3⟩ = .ok (s', res) ∧
      Correlations (tjOcc (tjSite .u1u1)) (fun o => o ≠ (true, true)) (demoTj.map (HamTerm.fock TjOn.fock star)).sum (fun i => ann (i, .up)) (fun i => cre (i, .up)) P.NoCut 1 tau n e0
        (stateV 3 exUp3) (stateV 3 exUp3) Φ res := by
  obtain ⟨g, ws, e1, e2, e3⟩ := C89_tJ complex_exact .u1u1 demoTj demoTj_ok.1 demoTj_ok.2.1 demoTj_ok.2.2.1 demoTj_ok.2.2.2.1 demoTj_ok.2.2.2.2 true (by norm_num)
  obtain ⟨eig, he⟩ := eig_exists
  obtain ⟨s', res, t, h1, -, -, h2⟩ := (e3 .bupa .bupc).1 ⟨mpoW ws, fullR (Equiv.refl (Fin 3)), fullL (Equiv.refl (Fin 3)), eig, 100, 0, false⟩ (qrE (K := ℂ) (Equiv.refl (Fin 3)))
    (fun t => (t, fun _ _ => 0)) rfl rfl (fullR_spec _) (fullL_spec _) he (by show 2 ≤ 100; omega) (qrE_spec _) 1 tau n e0
    ⟨⟨fun j => .whole (exUp3 j), fun _ => .gone, fun _ => .gone⟩, Option.none, fun _ => Option.none, FMps.fresh 3⟩ exUp3 exUp3 (by
      have := slots_of_empty (m := (FMps.fresh 3 : FMps (Fin 3) ℂ)) (by simp [FMps.isEmpty, FMps.fresh])
      rwa [show (FMps.fresh 3 : FMps (Fin 3) ℂ).size = 3 by simp [FMps.size, FMps.fresh]] at this) (fun _ _ => rfl) exUp3_canon.1
    (fun j hj hj' => exUp3_canon.2.2 j (by simp at hj; omega) hj') exUp3_canon.1 (Or.inl ⟨rfl, rfl⟩) exHole
  exact ⟨g, ws, e1, e2, _, s', res, _, rfl, ⟨fun T => fullR_is _ T, fun T => fullL_is _ T⟩, h1, h2⟩

end
end Verif.Props
