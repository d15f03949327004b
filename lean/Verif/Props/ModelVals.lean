import Verif.Props.ModelTerms
import Verif.Props.MpoGen
/-
Values of the calls made by the Hamiltonian builders, and what a list of calls leaves in a generator.
-/
namespace Verif.Fock
open Finset Matrix Verif.Mpo Verif.Props
variable {K : Type} [Field K] {N d : Nat}

section
variable [DecidableEq K] [GenTypes K (Op d K)] {dec : Fin d → Occ}

theorem strCall_rep (h : ExactTypes d K) (hid : Rep dec (idOp : Op d K) 1) (x y : Nat → Fin d) (c : K) {i j : Fin N} (hij : i < j) {a f b : Op d K}
    {A F B : Matrix Occ Occ K} (ha : Rep dec a A) (hf : Rep dec f F) (hb : Rep dec b B) :
    termVal (opVals h x y) (uniformIds d N) (strCall c i j a f b) =
      c * strOp (two i j A F B) (fun s => dec (y s)) (fun s => dec (x s)) := by
  rw [strCall_val _ _ _ _ _ hij j.2, ← prod_rep _ _ (rep_strF hid ha hf hb)]
  rfl

theorem pairCall_rep (h : ExactTypes d K) (hid : Rep dec (idOp : Op d K) 1) (x y : Nat → Fin d) (c : K) {i j : Fin N} (hij : i ≠ j) {a b : Op d K}
    {A B : Matrix Occ Occ K} (ha : Rep dec a A) (hb : Rep dec b B) :
    termVal (opVals h x y) (uniformIds d N) (pairCall c i j a b) =
      c * strOp (two i j A 1 B) (fun s => dec (y s)) (fun s => dec (x s)) := by
  rw [pairCall_val _ _ _ _ (fun e => hij (Fin.ext e)) i.2 j.2, ← prod_rep _ _ (rep_strF hid ha hid hb)]
  rfl

/-- A one-site call. -/
def siteCall (c : K) (i : Nat) (a : Op d K) : Call K (Op d K) := ⟨c, [a], [i]⟩

omit [GenTypes K (Op d K)] [DecidableEq K] [Field K] in
theorem siteCall_valid (c : K) {i : Nat} (a : Op d K) (hi : i < N) : (siteCall c i a).Valid N :=
  ⟨rfl, by simp [siteCall], by simp [siteCall], by intro s hs; simp [siteCall] at hs; omega⟩

theorem siteCall_rep (h : ExactTypes d K) (hid : Rep dec (idOp : Op d K) 1) (x y : Nat → Fin d) (c : K) (i : Fin N) {a : Op d K}
    {A : Matrix Occ Occ K} (ha : Rep dec a A) :
    termVal (opVals h x y) (uniformIds d N) (siteCall c i a) = c * strOp (siteL i A) (fun s => dec (y s)) (fun s => dec (x s)) := by
  have hlen : (uniformIds d N : List (Op d K)).length = N := by simp [uniformIds]
  have := termVal_of_fun (opVals h x y) (uniformIds d N) (siteCall c i a) (by rw [hlen]; exact siteCall_valid c a i.2)
    (fun s => if s = i.1 then a else idOp) ?_ ?_
  · rw [this, hlen, ← prod_rep (fun s => if s = i.1 then a else idOp)]
    · rfl
    · intro s
      unfold siteL
      by_cases h1 : s = i
      · subst h1; simpa using ha
      · have h2 : s.1 ≠ i.1 := fun e => h1 (Fin.ext e)
        simp only [if_neg h1, if_neg h2]; exact hid
  · intro p hp
    simp [siteCall] at hp
    subst hp; simp
  · intro s hs hns
    rw [hlen] at hs
    simp [siteCall] at hns
    simp [uniformIds, hs, hns]
end

omit [Field K] in
theorem hopping_swap [CommRing K] (a b : K) (i j : Fin N) : hopping a b i j = hopping b a j i := by
  unfold hopping
  exact Finset.sum_congr rfl fun σ _ => add_comm _ _

omit [Field K] in
theorem sum_spin {M : Type} [AddCommMonoid M] (f : Spin → M) : ∑ σ : Spin, f σ = f .up + f .dn :=
  Finset.sum_pair (a := Spin.up) (b := Spin.dn) (by decide)

/-- The four products of a hopping term, left site first. -/
theorem hop_strings {i j : Fin N} (hij : i < j) (a b : K) : hopping a b i j =
    a • strOp (two i j ((loc .up).transpose * par) par (loc .up)) + b • strOp (two i j (par * loc .up) par (loc .up).transpose) +
      (a • strOp (two i j ((loc .dn).transpose * par) par (loc .dn)) + b • strOp (two i j (par * loc .dn) par (loc .dn).transpose)) := by
  unfold hopping
  rw [sum_spin]
  simp only [cre_strAt, ann_strAt]
  rw [str_lr hij, str_rl hij, str_lr hij, str_rl hij]

/-- The three products of a Heisenberg term, either order of the sites. -/
theorem heis_strings {i j : Fin N} (hij : i ≠ j) (J : K) : heisenberg J i j =
    J • strOp (two i j ((2⁻¹ : K) • ((loc .up).transpose * loc .up - (loc .dn).transpose * loc .dn)) 1
        ((2⁻¹ : K) • ((loc .up).transpose * loc .up - (loc .dn).transpose * loc .dn))) +
      ((J / 2) • strOp (two i j ((loc .up).transpose * loc .dn) 1 ((loc .dn).transpose * loc .up)) +
       (J / 2) • strOp (two i j ((loc .dn).transpose * loc .up) 1 ((loc .up).transpose * loc .dn))) := by
  unfold heisenberg Sz Sp Sm num
  simp only [pair_cc, siteL_sub, siteL_smul]
  rw [siteL_two hij, siteL_two hij, siteL_two hij, smul_add, smul_smul, smul_add, div_eq_mul_inv]

theorem heis_swap {i j : Fin N} (hij : i ≠ j) (J : K) : heisenberg J i j = heisenberg J j i := by
  unfold heisenberg Sz Sp Sm num
  simp only [pair_cc, siteL_sub, siteL_smul]
  rw [siteL_comm hij, siteL_comm hij, siteL_comm hij, add_comm (strOp (siteL j ((loc Spin.dn).transpose * loc Spin.up)) * _)]

/-- Values of on-site operators. -/
theorem num_site (i : Fin N) (σ : Spin) : (num (i, σ) : Matrix (Conf N) (Conf N) K) = strOp (siteL i ((loc σ).transpose * loc σ)) := pair_cc i σ σ

section
variable {C T : Type} [DecidableEq C] [DecidableEq T] [GenTypes C T] {R : Type} [CommRing R]

omit [Field K] in
theorem keptSum_multi (v : Vals R C T) (ids : List T) : ∀ (cs before : List (Call C T)), (∀ c ∈ cs, 2 ≤ c.idxs.length) →
    keptSum v ids before cs = (cs.map (termVal v ids)).sum := by
  intro cs before h
  refine keptSum_of_noCollision v ids cs before ?_
  rintro pre c post e ⟨⟨b, _, s, _, hs, _⟩, _⟩
  have := h c (by rw [e]; simp)
  rw [hs] at this; simp at this

omit [Field K] [DecidableEq C] [DecidableEq T] in
theorem keptSum_app (v : Vals R C T) (ids : List T) : ∀ (calls before cs : List (Call C T)),
    keptSum v ids before (calls ++ cs) = keptSum v ids before calls + keptSum v ids (before ++ calls) cs
  | [], before, cs => by simp [keptSum]
  | d :: calls, before, cs => by
    rw [List.cons_append, keptSum, keptSum, keptSum_app v ids calls (before ++ [d]) cs, add_assoc]
    simp

omit [Field K] in
/-- Several multi-site calls after any history add the sum of their terms. -/
theorem add_calls (ids : List T) (calls cs : List (Call C T)) (hv : ∀ c ∈ calls, c.Valid ids.length) (hc : ∀ c ∈ cs, c.Valid ids.length)
    (hn : ∀ c ∈ cs, c.negligible = false) (hne : cs ≠ []) (h2 : ∀ c ∈ cs, 2 ≤ c.idxs.length) :
    ∃ g g' ms', history ids calls = .ok g ∧ cs.foldlM (fun g c => g.addTerm c.coef c.ops c.idxs) g = .ok g' ∧ g'.fsm.genMatRepr = .ok ms' ∧
      ms'.length = ids.length ∧ ∀ v : Vals R C T, mpoVal v g' ms' = keptSum v ids [] (effective calls) + (cs.map (termVal v ids)).sum := by
  have heff : effective (calls ++ cs) = effective calls ++ cs := by
    unfold effective
    have hcs : cs.filter (fun c => !c.negligible) = cs := List.filter_eq_self.2 fun c hc => by simp [hn c hc]
    rw [List.filter_append, hcs]
  have hv' : ∀ d ∈ calls ++ cs, d.Valid ids.length := by
    intro d hd
    rcases List.mem_append.1 hd with h | h
    · exact hv d h
    · exact hc d h
  obtain ⟨g', ms', k1, k2, k3, k4⟩ := C01_generated_mpo_exact (R := R) ids (calls ++ cs) hv' (by rw [heff]; simp [hne])
  obtain ⟨g, _, _, hg, _⟩ := history_spec ids calls hv
  have hadd : cs.foldlM (fun g c => g.addTerm c.coef c.ops c.idxs) g = .ok g' := by
    unfold history at k1 hg
    rw [List.foldlM_append, hg] at k1
    exact k1
  refine ⟨g, g', ms', hg, hadd, k2, k3, fun v => ?_⟩
  rw [k4, heff, keptSum_app, keptSum_multi v ids cs _ h2]

end
end Verif.Fock
