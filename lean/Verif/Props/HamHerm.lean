import Verif.Props.HamEnergySpec
import Verif.Props.ModelVals
/-
Hamiltonians with real coefficients are Hermitian, and energies of a chain are energies in Fock space.
-/
namespace Verif.Fock
open Finset Verif.Mps Verif.Props Verif.Mpo Matrix

section
variable {K : Type} [Field K] [StarRing K] {N : Nat}

theorem ann_real (m : Fin N × Spin) (a b : Conf N) : star ((ann m : Matrix (Conf N) (Conf N) K) a b) = ann m a b := by
  unfold ann
  split
  · simp
  · simp

theorem ann_ct (m : Fin N × Spin) : (ann m : Matrix (Conf N) (Conf N) K)ᴴ = cre m := by
  ext a b
  rw [Matrix.conjTranspose_apply, ann_real]; rfl

theorem cre_ct (m : Fin N × Spin) : (cre m : Matrix (Conf N) (Conf N) K)ᴴ = ann m := by
  rw [← ann_ct, Matrix.conjTranspose_conjTranspose]

theorem num_herm (m : Fin N × Spin) : (num m : Matrix (Conf N) (Conf N) K).IsHermitian := by
  unfold Matrix.IsHermitian num
  rw [Matrix.conjTranspose_mul, ann_ct, cre_ct]

theorem density_herm (i : Fin N) : (density i : Matrix (Conf N) (Conf N) K).IsHermitian := (num_herm _).add (num_herm _)

theorem half_star : star (2⁻¹ : K) = 2⁻¹ := by
  rw [star_inv₀]; simp

theorem Sz_herm (i : Fin N) : (Sz i : Matrix (Conf N) (Conf N) K).IsHermitian := by
  unfold Matrix.IsHermitian Sz
  rw [Matrix.conjTranspose_smul, half_star, ((num_herm _).sub (num_herm _)).eq]

theorem Sp_ct (i : Fin N) : (Sp i : Matrix (Conf N) (Conf N) K)ᴴ = Sm i := by
  unfold Sp Sm
  rw [Matrix.conjTranspose_mul, ann_ct, cre_ct]

theorem Sm_ct (i : Fin N) : (Sm i : Matrix (Conf N) (Conf N) K)ᴴ = Sp i := by
  unfold Sp Sm
  rw [Matrix.conjTranspose_mul, ann_ct, cre_ct]

theorem herm_smul {n : Type} {A : Matrix n n K} {c : K} (hc : star c = c) (h : A.IsHermitian) : (c • A).IsHermitian := by
  unfold Matrix.IsHermitian
  rw [Matrix.conjTranspose_smul, hc, h.eq]

theorem herm_mul {n : Type} [Fintype n] {A B : Matrix n n K} (hA : A.IsHermitian) (hB : B.IsHermitian) (h : A * B = B * A) : (A * B).IsHermitian := by
  unfold Matrix.IsHermitian
  rw [Matrix.conjTranspose_mul, hA.eq, hB.eq, h]

theorem density_site (i : Fin N) : (density i : Matrix (Conf N) (Conf N) K) = strOp (siteL i ((loc .up).transpose * loc .up + (loc .dn).transpose * loc .dn)) := by
  unfold density; rw [num_site, num_site, siteL_add]

theorem Sz_site (i : Fin N) : (Sz i : Matrix (Conf N) (Conf N) K) =
    strOp (siteL i ((2⁻¹ : K) • ((loc .up).transpose * loc .up - (loc .dn).transpose * loc .dn))) := by
  unfold Sz; rw [num_site, num_site, siteL_sub, siteL_smul]

theorem num_comm (i : Fin N) : (num (i, .up) * num (i, .dn) : Matrix (Conf N) (Conf N) K) = num (i, .dn) * num (i, .up) := by
  rw [num_site, num_site, siteL_mul, siteL_mul]
  congr 2
  rw [l_nup, l_ndn]
  ext a b
  obtain ⟨a1, a2⟩ := a
  obtain ⟨b1, b2⟩ := b
  simp only [Matrix.mul_apply, Matrix.of_apply, Fintype.sum_prod_type, Fintype.sum_bool]
  cases a1 <;> cases a2 <;> cases b1 <;> cases b2 <;> simp

theorem hop_herm (a b : K) (hb : b = star a) (i j : Fin N) : (hopping a b i j).IsHermitian := by
  subst hb
  unfold Matrix.IsHermitian hopping
  rw [Matrix.conjTranspose_sum]
  refine Finset.sum_congr rfl fun σ _ => ?_
  rw [Matrix.conjTranspose_add, Matrix.conjTranspose_smul, Matrix.conjTranspose_smul, Matrix.conjTranspose_mul, Matrix.conjTranspose_mul, ann_ct, cre_ct, ann_ct, cre_ct,
    star_star, add_comm]

theorem heis_herm {J : K} (hJ : star J = J) {i j : Fin N} (hij : i ≠ j) : (heisenberg J i j).IsHermitian := by
  unfold heisenberg
  refine herm_smul hJ (Matrix.IsHermitian.add (herm_mul (Sz_herm i) (Sz_herm j) (by rw [Sz_site, Sz_site, siteL_comm hij])) (herm_smul half_star ?_))
  unfold Matrix.IsHermitian
  rw [Matrix.conjTranspose_add, Matrix.conjTranspose_mul, Matrix.conjTranspose_mul, Sp_ct, Sm_ct, Sp_ct, Sm_ct, add_comm]
  unfold Sp Sm
  rw [pair_cc, pair_cc, pair_cc, pair_cc, siteL_comm hij, siteL_comm hij]

theorem sum_herm {n : Type} : ∀ (l : List (Matrix n n K)), (∀ A ∈ l, A.IsHermitian) → l.sum.IsHermitian
  | [], _ => Matrix.isHermitian_zero
  | A :: l, h => by
    rw [List.sum_cons]
    exact (h A (by simp)).add (sum_herm l fun B hB => h B (by simp [hB]))

theorem hubOn_herm (k : HubOn) (i : Fin N) : (HubOn.fock k i : Matrix (Conf N) (Conf N) K).IsHermitian := by
  cases k
  · exact herm_mul (num_herm _) (num_herm _) (num_comm i)
  · exact density_herm i
  · exact herm_mul (density_herm i) (density_herm i) rfl
  · exact num_herm _
  · exact num_herm _
  · exact Sz_herm i

theorem tjOn_herm (k : TjOn) (i : Fin N) : (TjOn.fock k i : Matrix (Conf N) (Conf N) K).IsHermitian := by
  cases k
  · exact density_herm i
  · exact num_herm _
  · exact num_herm _
  · exact Sz_herm i
end

section
variable {𝕜 : Type} [RCLike 𝕜] {d N : Nat} {On : Type}

theorem ham_herm {on : On → Fin N → Matrix (Conf N) (Conf N) 𝕜} {conj : 𝕜 → 𝕜} (hon : ∀ k i, (on k i).IsHermitian) {ts : List (HamTerm On N 𝕜)}
    (hp : ∀ a ∈ ts, a.Proper) (hr : ∀ a ∈ ts, a.Real conj) : ((ts.map (HamTerm.fock on conj)).sum).IsHermitian := by
  refine sum_herm _ fun A hA => ?_
  obtain ⟨a, ha, rfl⟩ := List.mem_map.1 hA
  have h1 := hp a ha
  have h2 := hr a ha
  cases a with
  | hop t i j => exact hop_herm _ _ (by rw [show conj t = star t from h2, star_neg]) i j
  | heis J i j => exact heis_herm h2 h1
  | dens V i j => exact herm_smul h2 (herm_mul (density_herm i) (density_herm j) (by rw [density_site, density_site, siteL_comm h1]))
  | site k c i => exact herm_smul h2 (hon k i)

theorem spin_herm {ts : List (SpinTerm N 𝕜)} (hp : ∀ a ∈ ts, a.Proper) (hr : ∀ a ∈ ts, a.Real) : ((ts.map SpinTerm.fock).sum).IsHermitian := by
  refine sum_herm _ fun A hA => ?_
  obtain ⟨a, ha, rfl⟩ := List.mem_map.1 hA
  have h1 := hp a ha
  have h2 := hr a ha
  cases a with
  | heis J i j => exact heis_herm h2 h1
  | field b i => exact herm_smul h2 (Sz_herm i)

variable {dec : Fin d → Occ}

theorem conf_inj (hd : Function.Injective dec) : Function.Injective fun (s : Fin N → Fin d) i => dec (s i) :=
  fun _ _ e => funext fun i => hd (congrFun e i)

theorem inFock_at (hd : Function.Injective dec) (Φ : ChainV (Fin d) 𝕜 N) (s : Fin N → Fin d) : inFock dec Φ (fun i => dec (s i)) = Φ s := by
  show ∑ s' : Fin N → Fin d, (if (fun i => dec (s' i)) = (fun i => dec (s i)) then Φ s' else 0) = Φ s
  rw [Finset.sum_eq_single s (fun b _ hb => if_neg fun e => hb (conf_inj hd e)) (by simp), if_pos rfl]

theorem inFock_off (Φ : ChainV (Fin d) 𝕜 N) (n : Conf N) (hn : n ∉ Set.range fun (s : Fin N → Fin d) i => dec (s i)) : inFock dec Φ n = 0 :=
  Finset.sum_eq_zero fun s _ => if_neg fun e => hn ⟨s, e⟩

theorem inFock_sum (hd : Function.Injective dec) {M : Type} [AddCommMonoid M] (f : (Fin N → Fin d) → M) (g : Conf N → M)
    (h0 : ∀ n ∉ Set.range fun (s : Fin N → Fin d) i => dec (s i), g n = 0) (h1 : ∀ s, f s = g fun i => dec (s i)) : ∑ s, f s = ∑ n, g n :=
  Fintype.sum_of_injective _ (conf_inj hd) f g h0 h1

theorem inFock_norm (hd : Function.Injective dec) (Φ : ChainV (Fin d) 𝕜 N) : ‖inFock dec Φ‖ = ‖Φ‖ := by
  rw [EuclideanSpace.norm_eq, EuclideanSpace.norm_eq]
  congr 1
  symm
  refine inFock_sum hd _ _ (fun n hn => by rw [inFock_off Φ n hn]; simp) fun s => by rw [inFock_at hd]

theorem inFock_energy (hd : Function.Injective dec) (H : Matrix (Conf N) (Conf N) 𝕜) {H' : Matrix (Fin N → Fin d) (Fin N → Fin d) 𝕜}
    (hH : H' = H.submatrix (fun s i => dec (s i)) (fun s i => dec (s i))) (Φ : ChainV (Fin d) 𝕜 N) : fockEnergy H (inFock dec Φ) = Mps.expect H' Φ := by
  subst hH
  unfold fockEnergy Mps.expect
  congr 1
  rw [PiLp.inner_apply, PiLp.inner_apply]
  symm
  refine inFock_sum hd _ _ (fun n hn => by rw [inFock_off Φ n hn, inner_zero_left]) fun s => ?_
  rw [inFock_at hd]
  congr 1
  rw [Matrix.ofLp_toLpLin, Matrix.ofLp_toLpLin, Matrix.toLin'_apply, Matrix.toLin'_apply]
  show ∑ s', _ = ∑ n, _
  refine inFock_sum hd _ _ (fun n hn => ?_) fun s' => ?_
  · show _ * inFock dec Φ n = 0
    rw [inFock_off Φ n hn, mul_zero]
  · show _ = _ * inFock dec Φ _
    rw [inFock_at hd]; rfl

theorem lower_chain {ok : Occ → Prop} (hd : Function.Injective dec) (hok : ∀ k, ok (dec k)) {H : Matrix (Conf N) (Conf N) 𝕜}
    {H' : Matrix (Fin N → Fin d) (Fin N → Fin d) 𝕜} (hH : H' = H.submatrix (fun s i => dec (s i)) (fun s i => dec (s i))) {E0 : ℝ} (hE : LowerBound ok H E0)
    (Φ : ChainV (Fin d) 𝕜 N) : E0 * ‖Φ‖ ^ 2 ≤ Mps.expect H' Φ := by
  rw [← inFock_norm hd, ← inFock_energy hd H hH]
  refine hE _ fun n ⟨i, hi⟩ => inFock_off Φ n ?_
  rintro ⟨s, rfl⟩
  exact hi (hok _)

/-- C62 in Fock space. -/
theorem vmps_finds {ok : Occ → Prop} (hd : Function.Injective dec) (hok : ∀ k, ok (dec k)) {H : Matrix (Conf N) (Conf N) 𝕜} (hh : H.IsHermitian)
    {w : Nat → Ten (Fin d × Fin d) 𝕜} (hc : Closed N w) (hH : opM N w = H.submatrix (fun s i => dec (s i)) (fun s i => dec (s i))) (hN : 3 ≤ N) :
    VmpsFinds N w dec ok H := by
  rintro P rfl h1 h2 h3 h4 temp k clk ψ dsk c hk hm ht hcc hcan hz
  have hP : ParOK N P := ⟨hc, by rw [hH]; exact hh.submatrix _, h1, h2, h3, h4⟩
  obtain ⟨s', ψ', e, a1, a2, -, a4, a5, a6, a7, a8⟩ := C62_run hP hN temp hk clk hm ht hcc hcan hz
  refine ⟨s', ψ', e, a1, a2, a4, a5, a6, fun E0 hE => a7 E0 fun Φ => lower_chain hd hok hH hE Φ, fun hcut => ?_⟩
  obtain ⟨b1, b2, b3⟩ := a8 hcut
  rw [inFock_norm hd, inFock_norm hd, inFock_energy hd H hH, inFock_energy hd H hH]
  exact ⟨b1, b2, b3⟩

/-- C73 in Fock space. -/
theorem tdvp_conserves (hd : Function.Injective dec) {H : Matrix (Conf N) (Conf N) ℂ} (hh : H.IsHermitian)
    {w : Nat → Ten (Fin d × Fin d) ℂ} (hc : Closed N w) (hH : opM N w = H.submatrix (fun s i => dec (s i)) (fun s i => dec (s i))) (hN : 3 ≤ N) :
    TdvpConserves N w dec H := by
  rintro P rfl hm h1 h2 h3 h4 tau k clk t dsk c hd' hcc hcan hz
  have hP : TdvpOK N P := ⟨hc, by rw [hH]; exact hh.submatrix _, h1, h2, h3, h4⟩
  obtain ⟨s', t', a1, a2, a3, -, a5, a6⟩ := C73_conserved hP hm hN tau k clk hd' hcc hcan hz
  refine ⟨s', t', a1, a2, a3, by rw [inFock_norm hd, inFock_norm hd]; exact a5, fun hcut => ?_⟩
  obtain ⟨b1, b2⟩ := a6 hcut
  rw [inFock_norm hd, inFock_norm hd, inFock_energy hd H hH, inFock_energy hd H hH]
  exact ⟨b1, by unfold Mps.expect; rw [b2]⟩

end
end Verif.Fock
