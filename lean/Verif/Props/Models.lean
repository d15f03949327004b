import Verif.Props.ModelVals
import Verif.Props.MpoStrings
import Mathlib.Algebra.CharZero.Defs
/-
Property theorems C69–C71: the predefined operators and Hamiltonian terms are the fermion and spin operators they are documented to be.
Vocabulary: `FockSpec`, `ModelSpec`; `history`, `keptSum`, `mpoVal` as for C01.
-/
namespace Verif.Props
open Verif.Mpo Verif.Fock Finset Matrix
variable {K : Type} [Field K] {N d : Nat}

theorem onSite_rep {dec : Fin d → Occ} (hid : Rep dec (idOp : Op d K) 1) {o : Op d K} {A : Matrix Occ Occ K} (h : Rep dec o A) (i : Fin N)
    (x y : Nat → Fin d) : onSite o i x y = strOp (siteL i A) (fun s => dec (y s)) (fun s => dec (x s)) := by
  refine Finset.prod_congr rfl fun s _ => ?_
  unfold siteL
  by_cases h1 : s = i
  · rw [if_pos h1, if_pos h1]; exact h _ _
  · rw [if_neg h1, if_neg h1]; exact hid _ _

theorem withString_rep {dec : Fin d → Occ} (hid : Rep dec (idOp : Op d K) 1) {f o : Op d K} {A : Matrix Occ Occ K} (hf : Rep dec f par) (h : Rep dec o A)
    (i : Fin N) (x y : Nat → Fin d) : withString f o i x y = strOp (strAt i A) (fun s => dec (y s)) (fun s => dec (x s)) := by
  refine Finset.prod_congr rfl fun s _ => ?_
  unfold strAt
  by_cases h1 : s < i
  · rw [if_pos h1, if_pos h1]; exact hf _ _
  · rw [if_neg h1, if_neg h1]
    by_cases h2 : s = i
    · rw [if_pos h2, if_pos h2]; exact h _ _
    · rw [if_neg h2, if_neg h2]; exact hid _ _

/-- The specification is the fermion algebra: the operators `ann` and `cre` of `FockSpec` satisfy the canonical anticommutation relations. -/
theorem fock_anticommutation {K : Type} [CommRing K] (p q : Fin N × Spin) :
    (ann p * ann q + ann q * ann p : Matrix (Conf N) (Conf N) K) = 0 ∧
    (ann p * cre q + cre q * ann p : Matrix (Conf N) (Conf N) K) = if p = q then 1 else 0 :=
  ⟨car_ann p q, car_mixed p q⟩

/-! ### C69: Hubbard -/

/-- C69, one-site operators: on any site of any chain and for each supported symmetry, the tensors of `HubbardOperators` are the operators they are named
after, between the occupation states the labels of `HubbardSite` stand for. -/
theorem C69_operators (im : K) (sym : Sym) (i : Fin N) (x y : Nat → Fin 4) :
    let o := hubOps im (hubSite sym)
    let X : Conf N := fun s => hubOcc (hubSite sym) (x s)
    let Y : Conf N := fun s => hubOcc (hubSite sym) (y s)
    onSite o.id i x y = (1 : Matrix (Conf N) (Conf N) K) Y X ∧
    onSite o.sz i x y = (Sz i : Matrix (Conf N) (Conf N) K) Y X ∧
    onSite o.sp i x y = (Sp i : Matrix (Conf N) (Conf N) K) Y X ∧
    onSite o.sm i x y = (Sm i : Matrix (Conf N) (Conf N) K) Y X ∧
    onSite o.sx i x y = ((2⁻¹ : K) • (Sp i + Sm i) : Matrix (Conf N) (Conf N) K) Y X ∧
    onSite o.sy i x y = ((-(2⁻¹ * im) : K) • (Sp i - Sm i) : Matrix (Conf N) (Conf N) K) Y X ∧
    onSite o.nup i x y = (num (i, .up) : Matrix (Conf N) (Conf N) K) Y X ∧
    onSite o.ndn i x y = (num (i, .dn) : Matrix (Conf N) (Conf N) K) Y X ∧
    onSite o.nf i x y = (density i : Matrix (Conf N) (Conf N) K) Y X ∧
    onSite o.nfsquare i x y = (density i * density i : Matrix (Conf N) (Conf N) K) Y X ∧
    onSite o.nupndn i x y = (num (i, .up) * num (i, .dn) : Matrix (Conf N) (Conf N) K) Y X ∧
    onSite o.cupccdnc i x y = (cre (i, .up) * cre (i, .dn) : Matrix (Conf N) (Conf N) K) Y X ∧
    onSite o.cdnacupa i x y = (ann (i, .dn) * ann (i, .up) : Matrix (Conf N) (Conf N) K) Y X ∧
    onSite o.f i x y = ((1 - (2 : K) • num (i, .up)) * (1 - (2 : K) • num (i, .dn)) : Matrix (Conf N) (Conf N) K) Y X := by
  intro o X Y
  have hid := hub_id (K := K) sym
  simp only [onSite_rep hid (hub_id' im sym), onSite_rep hid (hub_sz im sym), onSite_rep hid (hub_sp im sym), onSite_rep hid (hub_sm im sym),
    onSite_rep hid (hub_sx im sym), onSite_rep hid (hub_sy im sym), onSite_rep hid (hub_nup im sym), onSite_rep hid (hub_ndn im sym),
    onSite_rep hid (hub_nf im sym), onSite_rep hid (hub_nfsquare im sym), onSite_rep hid (hub_nupndn im sym), onSite_rep hid (hub_cc im sym),
    onSite_rep hid (hub_aa im sym), onSite_rep hid (hub_f' im sym), o]
  unfold Sz Sp Sm density
  simp only [num_site, pair_cc, pair_create, pair_annihilate, siteL_sub, siteL_add, siteL_smul, siteL_mul, ← siteL_one i, siteL_sub]
  exact ⟨rfl, rfl, rfl, rfl, rfl, rfl, rfl, rfl, rfl, rfl, rfl, rfl, rfl, rfl⟩

/-- C69, Jordan-Wigner form of single fermion operators: with the parity operator `f` on the sites before, `bupa` is `c_↑`, `bupc` is `c†_↑`, `Fbdna` is
`c_↓` and `Fbdnc` is `-c†_↓`. -/
theorem C69_fermion_operators (im : K) (sym : Sym) (i : Fin N) (x y : Nat → Fin 4) :
    let o := hubOps im (hubSite sym)
    let X : Conf N := fun s => hubOcc (hubSite sym) (x s)
    let Y : Conf N := fun s => hubOcc (hubSite sym) (y s)
    withString o.f o.bupa i x y = (ann (i, .up) : Matrix (Conf N) (Conf N) K) Y X ∧
    withString o.f o.bupc i x y = (cre (i, .up) : Matrix (Conf N) (Conf N) K) Y X ∧
    withString o.f o.Fbdna i x y = (ann (i, .dn) : Matrix (Conf N) (Conf N) K) Y X ∧
    withString o.f o.Fbdnc i x y = (-cre (i, .dn) : Matrix (Conf N) (Conf N) K) Y X := by
  intro o X Y
  have hid := hub_id (K := K) sym
  have hf := hub_f im sym
  rw [withString_rep hid hf (hub_bupa im sym), withString_rep hid hf (hub_bupc im sym), withString_rep hid hf (hub_Fbdna im sym),
    withString_rep hid hf (hub_Fbdnc im sym)]
  simp only [ann_strAt, cre_strAt]
  refine ⟨rfl, rfl, rfl, ?_⟩
  rw [strOp_smul _ (strAt i (loc .dn).transpose) i (-1) (by simp [strAt]) (fun k hk => by simp [strAt, hk]), neg_one_smul]

section
variable [DecidableEq K] [GenTypes K (Op 4 K)]

theorem hub_hop_val (h : ExactTypes 4 K) (im : K) (sym : Sym) (t : K) {i j : Fin N} (hij : i ≠ j) (x y : Nat → Fin 4) :
    ((hubHopCalls (hubOps im (hubSite sym)) t i.1 j.1).map (termVal (opVals h x y) (uniformIds 4 N))).sum =
      hopping (-t) (-t) i j (fun s => hubOcc (hubSite sym) (y s)) (fun s => hubOcc (hubSite sym) (x s)) := by
  have key : ∀ i j : Fin N, i < j → ((hubHopCalls (hubOps im (hubSite sym)) t i.1 j.1).map (termVal (opVals h x y) (uniformIds 4 N))).sum =
      hopping (-t) (-t) i j (fun s => hubOcc (hubSite sym) (y s)) (fun s => hubOcc (hubSite sym) (x s)) := by
    intro i j hij
    have hid := hub_id (K := K) sym
    have hf := hub_f im sym
    unfold hubHopCalls
    rw [min_eq_left (le_of_lt (show i.1 < j.1 from hij)), max_eq_right (le_of_lt (show i.1 < j.1 from hij))]
    simp only [List.map_cons, List.map_nil, List.sum_cons, List.sum_nil]
    rw [strCall_rep h hid x y _ hij (hub_bupcF im sym) hf (hub_bupa im sym), strCall_rep h hid x y _ hij (hub_bupaF im sym) hf (hub_bupc im sym),
      strCall_rep h hid x y _ hij (hub_bdnc im sym) hf (hub_Fbdna im sym), strCall_rep h hid x y _ hij (hub_bdna im sym) hf (hub_Fbdnc im sym),
      two_left, two_right (ne_of_lt hij), hop_strings hij]
    simp only [Matrix.add_apply, Matrix.smul_apply, smul_eq_mul]
    ring
  rcases lt_or_gt_of_ne hij with hlt | hlt
  · exact key i j hlt
  · have e : hubHopCalls (hubOps im (hubSite sym)) t i.1 j.1 = hubHopCalls (hubOps im (hubSite sym)) t j.1 i.1 := by
      unfold hubHopCalls; rw [min_comm, max_comm]
    rw [e, hopping_swap]
    exact key j i hlt

/-- C69, hopping: `AddHubbardHoppingTerms(t, i, j)` on two different sites, in either order and after any history of valid `AddTerm` calls, adds exactly
`-t Σ_σ (c†_{iσ} c_{jσ} + c†_{jσ} c_{iσ})` to the operator the generator stands for. -/
theorem C69_hubbard_hopping (h : ExactTypes 4 K) (im : K) (sym : Sym) (calls : List (Call K (Op 4 K))) (hv : ∀ c ∈ calls, c.Valid N) {i j : Fin N}
    (hij : i ≠ j) (t : K) (ht : t ≠ 0) (hs : GenTypes.tooSmall (Op 4 K) t = false) (hs' : GenTypes.tooSmall (Op 4 K) (-t) = false) :
    ∃ g g' ms, history (uniformIds 4 N) calls = .ok g ∧ addHubbardHopping (hubOps im (hubSite sym)) g t i j = .ok g' ∧
      g'.fsm.genMatRepr = .ok ms ∧ ms.length = N ∧
      ∀ x y : Nat → Fin 4, mpoVal (opVals h x y) g' ms = keptSum (opVals h x y) (uniformIds 4 N) [] (effective calls) +
        hopping (-t) (-t) i j (fun s => hubOcc (hubSite sym) (y s)) (fun s => hubOcc (hubSite sym) (x s)) := by
  have hlen : (uniformIds 4 N : List (Op 4 K)).length = N := by simp [uniformIds]
  have hlt : min i.1 j < max i.1 j := by
    have : i.1 ≠ j.1 := fun e => hij (Fin.ext e)
    omega
  have hmax : max i.1 j < N := by have := i.2; have := j.2; omega
  have hn : -t ≠ 0 := neg_ne_zero.2 ht
  have hc : ∀ c ∈ hubHopCalls (hubOps im (hubSite sym)) t i.1 j.1, c.Valid N ∧ c.negligible = false ∧ 2 ≤ c.idxs.length := by
    intro c hc
    simp only [hubHopCalls, List.mem_cons, List.not_mem_nil, or_false] at hc
    rcases hc with rfl | rfl | rfl | rfl <;>
      exact ⟨strCall_valid _ _ _ _ hlt hmax, by simp [Call.negligible, strCall, h.zero, ht, hn, hs, hs'], by simp [strCall]⟩
  obtain ⟨g, g', ms, a1, a2, a3, a4, a5⟩ := add_calls (R := K) (uniformIds 4 N) calls (hubHopCalls (hubOps im (hubSite sym)) t i.1 j.1)
    (by rw [hlen]; exact hv) (fun c h => by rw [hlen]; exact (hc c h).1) (fun c h => (hc c h).2.1) (by simp [hubHopCalls]) (fun c h => (hc c h).2.2)
  refine ⟨g, g', ms, a1, ?_, a3, by rw [a4, hlen], fun x y => ?_⟩
  · rw [hubbardHop_calls _ _ _ (fun e => hij (Fin.ext e))]; exact a2
  · rw [a5, hub_hop_val h im sym t hij]

/-- On one site the call fails an assertion. -/
theorem C69_same_site (o : HubOps K) (g : Generator K (Op 4 K)) (t : K) (i : Nat) : addHubbardHopping o g t i i = .error .assertFail := by
  unfold addHubbardHopping
  simp only [Generator.addTerm2]
  by_cases h : i = 0
  · simp [h]; rfl
  · simp [h]; rfl
end

/-! ### C70: t-J -/

/-- C70, one-site operators of `tJOperators`. -/
theorem C70_operators (sym : Sym) (i : Fin N) (x y : Nat → Fin 3) :
    let o := tjOps (K := K) (tjSite sym)
    let X : Conf N := fun s => tjOcc (tjSite sym) (x s)
    let Y : Conf N := fun s => tjOcc (tjSite sym) (y s)
    onSite o.id i x y = (1 : Matrix (Conf N) (Conf N) K) Y X ∧
    onSite o.sz i x y = (Sz i : Matrix (Conf N) (Conf N) K) Y X ∧
    onSite o.sp i x y = (Sp i : Matrix (Conf N) (Conf N) K) Y X ∧
    onSite o.sm i x y = (Sm i : Matrix (Conf N) (Conf N) K) Y X ∧
    onSite o.nup i x y = (num (i, .up) : Matrix (Conf N) (Conf N) K) Y X ∧
    onSite o.ndn i x y = (num (i, .dn) : Matrix (Conf N) (Conf N) K) Y X ∧
    onSite o.nf i x y = (density i : Matrix (Conf N) (Conf N) K) Y X ∧
    withString o.f o.bupa i x y = (ann (i, .up) : Matrix (Conf N) (Conf N) K) Y X ∧
    withString o.f o.bupc i x y = (cre (i, .up) : Matrix (Conf N) (Conf N) K) Y X ∧
    withString o.f o.bdna i x y = (ann (i, .dn) : Matrix (Conf N) (Conf N) K) Y X ∧
    withString o.f o.bdnc i x y = (cre (i, .dn) : Matrix (Conf N) (Conf N) K) Y X := by
  intro o X Y
  have hid := tj_id (K := K) sym
  have hf := tj_f (K := K) sym
  simp only [onSite_rep hid (tj_id' sym), onSite_rep hid (tj_sz sym), onSite_rep hid (tj_sp sym), onSite_rep hid (tj_sm sym), onSite_rep hid (tj_nup sym),
    onSite_rep hid (tj_ndn sym), onSite_rep hid (tj_nf sym), withString_rep hid hf (tj_bupa sym), withString_rep hid hf (tj_bupc sym),
    withString_rep hid hf (tj_bdna sym), withString_rep hid hf (tj_bdnc sym), o]
  unfold Sz Sp Sm density
  simp only [num_site, pair_cc, siteL_sub, siteL_add, siteL_smul, ← siteL_one i]
  simp only [ann_strAt, cre_strAt]
  exact ⟨rfl, rfl, rfl, rfl, rfl, rfl, rfl, rfl, rfl, rfl, rfl⟩

/-- C70, what the two composite operators are: `bdnc_multi_bupa` acts as `c†_↑ c_↓` and `bupc_multi_bdna` as `c†_↓ c_↑`. -/
theorem C70_composite_exact (sym : Sym) (i : Fin N) (x y : Nat → Fin 3) :
    let o := tjOps (K := K) (tjSite sym)
    let X : Conf N := fun s => tjOcc (tjSite sym) (x s)
    let Y : Conf N := fun s => tjOcc (tjSite sym) (y s)
    onSite o.bdnc_multi_bupa i x y = (cre (i, .up) * ann (i, .dn) : Matrix (Conf N) (Conf N) K) Y X ∧
    onSite o.bupc_multi_bdna i x y = (cre (i, .dn) * ann (i, .up) : Matrix (Conf N) (Conf N) K) Y X := by
  intro o X Y
  have hid := tj_id (K := K) sym
  simp only [onSite_rep hid (tj_du sym), onSite_rep hid (tj_ud sym), o, pair_cc]
  exact ⟨rfl, rfl⟩

/-- C70 fails for the composite operators: for every symmetry and every site `i`, there are states between which `bdnc_multi_bupa`, documented as
`c†_↓ c_↑`, does not have the matrix element of `c†_↓ c_↑`; likewise `bupc_multi_bdna`, documented as `c†_↑ c_↓`. -/
theorem C70_composite_violation (sym : Sym) (i : Fin N) :
    let o := tjOps (K := K) (tjSite sym)
    (∃ x y : Nat → Fin 3, onSite o.bdnc_multi_bupa i x y ≠
      (cre (i, .dn) * ann (i, .up) : Matrix (Conf N) (Conf N) K) (fun s => tjOcc (tjSite sym) (y s)) (fun s => tjOcc (tjSite sym) (x s))) ∧
    (∃ x y : Nat → Fin 3, onSite o.bupc_multi_bdna i x y ≠
      (cre (i, .up) * ann (i, .dn) : Matrix (Conf N) (Conf N) K) (fun s => tjOcc (tjSite sym) (y s)) (fun s => tjOcc (tjSite sym) (x s))) := by
  intro o
  have hid := tj_id (K := K) sym
  have hz : ∀ (A B : Matrix Occ Occ K) (x y : Nat → Fin 3), A (tjOcc (tjSite sym) (y i)) (tjOcc (tjSite sym) (x i)) = 1 →
      B (tjOcc (tjSite sym) (y i)) (tjOcc (tjSite sym) (x i)) = 0 → (∀ s : Fin N, s ≠ i → x s = y s) →
      strOp (siteL i A) (fun s : Fin N => tjOcc (tjSite sym) (y s)) (fun s => tjOcc (tjSite sym) (x s)) ≠
        strOp (siteL i B) (fun s : Fin N => tjOcc (tjSite sym) (y s)) (fun s => tjOcc (tjSite sym) (x s)) := by
    intro A B x y h1 h0 hrest
    have e1 : strOp (siteL i A) (fun s : Fin N => tjOcc (tjSite sym) (y s)) (fun s => tjOcc (tjSite sym) (x s)) = 1 := by
      refine Finset.prod_eq_one fun s _ => ?_
      unfold siteL
      by_cases hs : s = i
      · subst hs; simpa using h1
      · rw [if_neg hs]
        show (1 : Matrix Occ Occ K) (tjOcc (tjSite sym) (y s)) (tjOcc (tjSite sym) (x s)) = 1
        rw [hrest s hs, Matrix.one_apply_eq]
    have e0 : strOp (siteL i B) (fun s : Fin N => tjOcc (tjSite sym) (y s)) (fun s => tjOcc (tjSite sym) (x s)) = 0 := by
      refine Finset.prod_eq_zero (Finset.mem_univ i) ?_
      simpa [siteL] using h0
    rw [e1, e0]; exact one_ne_zero
  constructor
  · refine ⟨fun s => if s = i.1 then (tjSite sym).dn else (tjSite sym).emp, fun s => if s = i.1 then (tjSite sym).up else (tjSite sym).emp, ?_⟩
    rw [onSite_rep hid (tj_du sym), pair_cc]
    refine hz _ _ (fun s => if s = i.1 then (tjSite sym).dn else (tjSite sym).emp) (fun s => if s = i.1 then (tjSite sym).up else (tjSite sym).emp) ?_ ?_ fun s hs => ?_
    · rw [l_sp]; cases sym <;> simp [tjOcc, tjSite]
    · rw [l_sm]; cases sym <;> simp [tjOcc, tjSite]
    · have : s.1 ≠ i.1 := fun e => hs (Fin.ext e)
      simp [this]
  · refine ⟨fun s => if s = i.1 then (tjSite sym).up else (tjSite sym).emp, fun s => if s = i.1 then (tjSite sym).dn else (tjSite sym).emp, ?_⟩
    rw [onSite_rep hid (tj_ud sym), pair_cc]
    refine hz _ _ (fun s => if s = i.1 then (tjSite sym).up else (tjSite sym).emp) (fun s => if s = i.1 then (tjSite sym).dn else (tjSite sym).emp) ?_ ?_ fun s hs => ?_
    · rw [l_sm]; cases sym <;> simp [tjOcc, tjSite]
    · rw [l_sp]; cases sym <;> simp [tjOcc, tjSite]
    · have : s.1 ≠ i.1 := fun e => hs (Fin.ext e)
      simp [this]

section
variable [DecidableEq K] [StarRing K] [GenTypes K (Op 3 K)]

theorem tj_hop_val (h : ExactTypes 3 K) (sym : Sym) (t : K) {i j : Fin N} (hij : i ≠ j) (x y : Nat → Fin 3) :
    ((tjHopCalls (tjOps (tjSite sym)) t i.1 j.1).map (termVal (opVals h x y) (uniformIds 3 N))).sum =
      hopping (-t) (-star t) i j (fun s => tjOcc (tjSite sym) (y s)) (fun s => tjOcc (tjSite sym) (x s)) := by
  have key : ∀ i j : Fin N, i < j → ∀ t : K, ((tjHopCalls (tjOps (tjSite sym)) t i.1 j.1).map (termVal (opVals h x y) (uniformIds 3 N))).sum =
      hopping (-t) (-star t) i j (fun s => tjOcc (tjSite sym) (y s)) (fun s => tjOcc (tjSite sym) (x s)) := by
    intro i j hij t
    have hid := tj_id (K := K) sym
    have hf := tj_f (K := K) sym
    unfold tjHopCalls tjT0
    rw [if_pos (show i.1 < j.1 from hij), min_eq_left (le_of_lt (show i.1 < j.1 from hij)), max_eq_right (le_of_lt (show i.1 < j.1 from hij))]
    simp only [List.map_cons, List.map_nil, List.sum_cons, List.sum_nil]
    rw [strCall_rep h hid x y _ hij (tj_bupc' sym) hf (tj_bupa sym), strCall_rep h hid x y _ hij (tj_bdnc' sym) hf (tj_bdna sym),
      strCall_rep h hid x y _ hij (tj_bupa' sym) hf (tj_bupc sym), strCall_rep h hid x y _ hij (tj_bdna' sym) hf (tj_bdnc sym), hop_strings hij]
    simp only [Matrix.add_apply, Matrix.smul_apply, smul_eq_mul]
    ring
  rcases lt_or_gt_of_ne hij with hlt | hlt
  · exact key i j hlt t
  · have e : tjHopCalls (tjOps (tjSite sym)) t i.1 j.1 = tjHopCalls (tjOps (tjSite sym)) (star t) j.1 i.1 := by
      unfold tjHopCalls tjT0
      rw [min_comm, max_comm, if_neg (not_lt.2 (le_of_lt (show j.1 < i.1 from hlt))), if_pos (show j.1 < i.1 from hlt)]
    rw [e, hopping_swap, key j i hlt (star t), star_star]

/-- C70, hopping: `AddTJHoppingTerms(t, i, j)` on two different sites, in either order and after any history of valid `AddTerm` calls, adds exactly
`-t Σ_σ c†_{iσ} c_{jσ} - t* Σ_σ c†_{jσ} c_{iσ}`, restricted to states without double occupancy. -/
theorem C70_tJ_hopping (h : ExactTypes 3 K) (sym : Sym) (calls : List (Call K (Op 3 K))) (hv : ∀ c ∈ calls, c.Valid N) {i j : Fin N}
    (hij : i ≠ j) (t : K) (ht : t ≠ 0) (hs : GenTypes.tooSmall (Op 3 K) (-t) = false) (hs' : GenTypes.tooSmall (Op 3 K) (-star t) = false) :
    ∃ g g' ms, history (uniformIds 3 N) calls = .ok g ∧ addTJHopping (tjOps (tjSite sym)) g t i j = .ok g' ∧
      g'.fsm.genMatRepr = .ok ms ∧ ms.length = N ∧
      ∀ x y : Nat → Fin 3, mpoVal (opVals h x y) g' ms = keptSum (opVals h x y) (uniformIds 3 N) [] (effective calls) +
        hopping (-t) (-star t) i j (fun s => tjOcc (tjSite sym) (y s)) (fun s => tjOcc (tjSite sym) (x s)) := by
  have hlen : (uniformIds 3 N : List (Op 3 K)).length = N := by simp [uniformIds]
  have hlt : min i.1 j < max i.1 j := by
    have : i.1 ≠ j.1 := fun e => hij (Fin.ext e)
    omega
  have hmax : max i.1 j < N := by have := i.2; have := j.2; omega
  have hst : star t ≠ 0 := star_ne_zero.2 ht
  have hc : ∀ c ∈ tjHopCalls (tjOps (tjSite sym)) t i.1 j.1, c.Valid N ∧ c.negligible = false ∧ 2 ≤ c.idxs.length := by
    intro c hc
    simp only [tjHopCalls, List.mem_cons, List.not_mem_nil, or_false] at hc
    have h1 : tjT0 t i.1 j.1 ≠ 0 ∧ GenTypes.tooSmall (Op 3 K) (-tjT0 t i.1 j.1) = false ∧ GenTypes.tooSmall (Op 3 K) (-star (tjT0 t i.1 j.1)) = false := by
      unfold tjT0
      split
      · exact ⟨ht, hs, hs'⟩
      · rw [star_star]; exact ⟨hst, hs', hs⟩
    have h2 : star (tjT0 t i.1 j.1) ≠ 0 := star_ne_zero.2 h1.1
    rcases hc with rfl | rfl | rfl | rfl <;>
      exact ⟨strCall_valid _ _ _ _ hlt hmax, by simp [Call.negligible, strCall, h.zero, h1, h2], by simp [strCall]⟩
  obtain ⟨g, g', ms, a1, a2, a3, a4, a5⟩ := add_calls (R := K) (uniformIds 3 N) calls (tjHopCalls (tjOps (tjSite sym)) t i.1 j.1)
    (by rw [hlen]; exact hv) (fun c h => by rw [hlen]; exact (hc c h).1) (fun c h => (hc c h).2.1) (by simp [tjHopCalls]) (fun c h => (hc c h).2.2)
  refine ⟨g, g', ms, a1, ?_, a3, by rw [a4, hlen], fun x y => ?_⟩
  · rw [tjHop_calls _ _ _ (fun e => hij (Fin.ext e))]; exact a2
  · rw [a5, tj_hop_val h sym t hij]

/-- On one site the call throws. -/
theorem C70_same_site (o : TjOps K) (g : Generator K (Op 3 K)) (t : K) (i : Nat) : addTJHopping o g t i i = .error .exitFail := by
  unfold addTJHopping
  simp only [lt_irrefl, if_false]
  rfl
end

/-! ### C71: Heisenberg coupling -/

/-- C71, one-site operators of `SpinOneHalfOperators`; a spin-1/2 site is a site with exactly one particle. -/
theorem C71_operators (im : K) {sym : Sym} {st : SpinSite} (hst : spinSite sym = some st) (i : Fin N) (x y : Nat → Fin 2) :
    let o := spinOps im st
    let X : Conf N := fun s => spinOcc st (x s)
    let Y : Conf N := fun s => spinOcc st (y s)
    onSite o.id i x y = (1 : Matrix (Conf N) (Conf N) K) Y X ∧
    onSite o.sz i x y = (Sz i : Matrix (Conf N) (Conf N) K) Y X ∧
    onSite o.sp i x y = (Sp i : Matrix (Conf N) (Conf N) K) Y X ∧
    onSite o.sm i x y = (Sm i : Matrix (Conf N) (Conf N) K) Y X ∧
    onSite o.sx i x y = ((2⁻¹ : K) • (Sp i + Sm i) : Matrix (Conf N) (Conf N) K) Y X ∧
    onSite o.sy i x y = ((-(2⁻¹ * im) : K) • (Sp i - Sm i) : Matrix (Conf N) (Conf N) K) Y X := by
  intro o X Y
  have hid := spin_id (K := K) hst
  simp only [onSite_rep hid (spin_id' im hst), onSite_rep hid (spin_sz im hst), onSite_rep hid (spin_sp im hst), onSite_rep hid (spin_sm im hst),
    onSite_rep hid (spin_sx im hst), onSite_rep hid (spin_sy im hst), o]
  unfold Sz Sp Sm
  simp only [num_site, pair_cc, siteL_sub, siteL_add, siteL_smul, ← siteL_one i]
  exact ⟨rfl, rfl, rfl, rfl, rfl, rfl⟩

section
variable [DecidableEq K] [GenTypes K (Op d K)]

/-- The tensors `sz`, `sp`, `sm` represent the spin of a site. -/
structure IsSpin (dec : Fin d → Occ) (sz sp sm : Op d K) : Prop where
  id : Rep dec (idOp : Op d K) 1
  sz : Rep dec sz ((2⁻¹ : K) • ((loc .up).transpose * loc .up - (loc .dn).transpose * loc .dn))
  sp : Rep dec sp ((loc .up).transpose * loc .dn)
  sm : Rep dec sm ((loc .dn).transpose * loc .up)

theorem heis_val (h : ExactTypes d K) {dec : Fin d → Occ} {sz sp sm : Op d K} (hsp : IsSpin dec sz sp sm) (J : K) {i j : Fin N} (hij : i ≠ j)
    (x y : Nat → Fin d) : ((heisCalls sz sp sm J i.1 j.1).map (termVal (opVals h x y) (uniformIds d N))).sum =
      heisenberg J i j (fun s => dec (y s)) (fun s => dec (x s)) := by
  have key : ∀ i j : Fin N, i < j → ((heisCalls sz sp sm J i.1 j.1).map (termVal (opVals h x y) (uniformIds d N))).sum =
      heisenberg J i j (fun s => dec (y s)) (fun s => dec (x s)) := by
    intro i j hij
    unfold heisCalls
    rw [min_eq_left (le_of_lt (show i.1 < j.1 from hij)), max_eq_right (le_of_lt (show i.1 < j.1 from hij))]
    simp only [List.map_cons, List.map_nil, List.sum_cons, List.sum_nil]
    rw [pairCall_rep h hsp.id x y _ (ne_of_lt hij) hsp.sz hsp.sz, pairCall_rep h hsp.id x y _ (ne_of_lt hij) hsp.sp hsp.sm, pairCall_rep h hsp.id x y _ (ne_of_lt hij) hsp.sm hsp.sp,
      heis_strings (ne_of_lt hij)]
    simp only [Matrix.add_apply, Matrix.smul_apply, smul_eq_mul]
    ring
  rcases lt_or_gt_of_ne hij with hlt | hlt
  · exact key i j hlt
  · have e : heisCalls sz sp sm J i.1 j.1 = heisCalls sz sp sm J j.1 i.1 := by
      unfold heisCalls; rw [min_comm, max_comm]
    rw [e, heis_swap hij]
    exact key j i hlt

theorem heis_adds (h : ExactTypes d K) {dec : Fin d → Occ} {sz sp sm : Op d K} (hsp : IsSpin dec sz sp sm) (calls : List (Call K (Op d K)))
    (hv : ∀ c ∈ calls, c.Valid N) {i j : Fin N} (hij : i ≠ j) (J : K) (hJ : J ≠ 0) (hJ' : J / 2 ≠ 0) (hs : GenTypes.tooSmall (Op d K) J = false)
    (hs' : GenTypes.tooSmall (Op d K) (J / 2) = false) :
    ∃ g g' ms, history (uniformIds d N) calls = .ok g ∧ addHeisenberg sz sp sm g J i j = .ok g' ∧ g'.fsm.genMatRepr = .ok ms ∧ ms.length = N ∧
      ∀ x y : Nat → Fin d, mpoVal (opVals h x y) g' ms = keptSum (opVals h x y) (uniformIds d N) [] (effective calls) +
        heisenberg J i j (fun s => dec (y s)) (fun s => dec (x s)) := by
  have hlen : (uniformIds d N : List (Op d K)).length = N := by simp [uniformIds]
  have hlt : min i.1 j < max i.1 j := by
    have : i.1 ≠ j.1 := fun e => hij (Fin.ext e)
    omega
  have hmax : max i.1 j < N := by have := i.2; have := j.2; omega
  have hc : ∀ c ∈ heisCalls sz sp sm J i.1 j.1, c.Valid N ∧ c.negligible = false ∧ 2 ≤ c.idxs.length := by
    intro c hc
    simp only [heisCalls, List.mem_cons, List.not_mem_nil, or_false] at hc
    rcases hc with rfl | rfl | rfl
    · exact ⟨pairCall_valid _ _ _ (ne_of_lt hlt) (lt_trans hlt hmax) hmax, by simp [Call.negligible, pairCall, h.zero, hJ, hs], by simp [pairCall]⟩
    · exact ⟨pairCall_valid _ _ _ (ne_of_lt hlt) (lt_trans hlt hmax) hmax, by simp only [Call.negligible, pairCall, h.zero, hJ', hs']; simp, by simp [pairCall]⟩
    · exact ⟨pairCall_valid _ _ _ (ne_of_lt hlt) (lt_trans hlt hmax) hmax, by simp only [Call.negligible, pairCall, h.zero, hJ', hs']; simp, by simp [pairCall]⟩
  obtain ⟨g, g', ms, a1, a2, a3, a4, a5⟩ := add_calls (R := K) (uniformIds d N) calls (heisCalls sz sp sm J i.1 j.1)
    (by rw [hlen]; exact hv) (fun c h => by rw [hlen]; exact (hc c h).1) (fun c h => (hc c h).2.1) (by simp [heisCalls]) (fun c h => (hc c h).2.2)
  refine ⟨g, g', ms, a1, ?_, a3, by rw [a4, hlen], fun x y => ?_⟩
  · rw [heis_calls _ _ _ _ _ (fun e => hij (Fin.ext e))]; exact a2
  · rw [a5, heis_val h hsp J hij]
end

theorem hub_isSpin (im : K) (sym : Sym) : IsSpin (hubOcc (hubSite sym)) (hubOps im (hubSite sym)).sz (hubOps im (hubSite sym)).sp (hubOps im (hubSite sym)).sm :=
  ⟨hub_id sym, hub_sz im sym, hub_sp im sym, hub_sm im sym⟩

theorem tj_isSpin (sym : Sym) : IsSpin (tjOcc (tjSite sym)) (tjOps (K := K) (tjSite sym)).sz (tjOps (tjSite sym)).sp (tjOps (tjSite sym)).sm :=
  ⟨tj_id sym, tj_sz sym, tj_sp sym, tj_sm sym⟩

theorem spin_isSpin (im : K) {sym : Sym} {st : SpinSite} (hst : spinSite sym = some st) :
    IsSpin (spinOcc st) (spinOps im st).sz (spinOps im st).sp (spinOps im st).sm :=
  ⟨spin_id hst, spin_sz im hst, spin_sp im hst, spin_sm im hst⟩

section
variable [CharZero K] [DecidableEq K]

/-- C71: `AddHeisenbergCoupling(J, i, j)` with the Hubbard, the t-J or the spin-1/2 operators, on two different sites in either order and after any
history of valid `AddTerm` calls, adds exactly `J S_i·S_j` (`S^z S^z + ½ (S^+ S^- + S^- S^+)`). -/
theorem C71_heisenberg_hubbard [GenTypes K (Op 4 K)] (h : ExactTypes 4 K) (im : K) (sym : Sym) (calls : List (Call K (Op 4 K))) (hv : ∀ c ∈ calls, c.Valid N) {i j : Fin N}
    (hij : i ≠ j) (J : K) (hJ : J ≠ 0) (hs : GenTypes.tooSmall (Op 4 K) J = false) (hs' : GenTypes.tooSmall (Op 4 K) (J / 2) = false) :
    ∃ g g' ms, history (uniformIds 4 N) calls = .ok g ∧
      addHeisenberg (hubOps im (hubSite sym)).sz (hubOps im (hubSite sym)).sp (hubOps im (hubSite sym)).sm g J i j = .ok g' ∧
      g'.fsm.genMatRepr = .ok ms ∧ ms.length = N ∧
      ∀ x y : Nat → Fin 4, mpoVal (opVals h x y) g' ms = keptSum (opVals h x y) (uniformIds 4 N) [] (effective calls) +
        heisenberg J i j (fun s => hubOcc (hubSite sym) (y s)) (fun s => hubOcc (hubSite sym) (x s)) :=
  heis_adds h (hub_isSpin im sym) calls hv hij J hJ (div_ne_zero hJ two_ne_zero) hs hs'

theorem C71_heisenberg_tJ [GenTypes K (Op 3 K)] (h : ExactTypes 3 K) (sym : Sym) (calls : List (Call K (Op 3 K))) (hv : ∀ c ∈ calls, c.Valid N) {i j : Fin N}
    (hij : i ≠ j) (J : K) (hJ : J ≠ 0) (hs : GenTypes.tooSmall (Op 3 K) J = false) (hs' : GenTypes.tooSmall (Op 3 K) (J / 2) = false) :
    ∃ g g' ms, history (uniformIds 3 N) calls = .ok g ∧
      addHeisenberg (tjOps (tjSite sym)).sz (tjOps (tjSite sym)).sp (tjOps (tjSite sym)).sm g J i j = .ok g' ∧
      g'.fsm.genMatRepr = .ok ms ∧ ms.length = N ∧
      ∀ x y : Nat → Fin 3, mpoVal (opVals h x y) g' ms = keptSum (opVals h x y) (uniformIds 3 N) [] (effective calls) +
        heisenberg J i j (fun s => tjOcc (tjSite sym) (y s)) (fun s => tjOcc (tjSite sym) (x s)) :=
  heis_adds h (tj_isSpin sym) calls hv hij J hJ (div_ne_zero hJ two_ne_zero) hs hs'

theorem C71_heisenberg_spin [GenTypes K (Op 2 K)] (h : ExactTypes 2 K) (im : K) {sym : Sym} {st : SpinSite} (hst : spinSite sym = some st) (calls : List (Call K (Op 2 K)))
    (hv : ∀ c ∈ calls, c.Valid N) {i j : Fin N} (hij : i ≠ j) (J : K) (hJ : J ≠ 0) (hs : GenTypes.tooSmall (Op 2 K) J = false)
    (hs' : GenTypes.tooSmall (Op 2 K) (J / 2) = false) :
    ∃ g g' ms, history (uniformIds 2 N) calls = .ok g ∧ addHeisenberg (spinOps im st).sz (spinOps im st).sp (spinOps im st).sm g J i j = .ok g' ∧
      g'.fsm.genMatRepr = .ok ms ∧ ms.length = N ∧
      ∀ x y : Nat → Fin 2, mpoVal (opVals h x y) g' ms = keptSum (opVals h x y) (uniformIds 2 N) [] (effective calls) +
        heisenberg J i j (fun s => spinOcc st (y s)) (fun s => spinOcc st (x s)) :=
  heis_adds h (spin_isSpin im hst) calls hv hij J hJ (div_ne_zero hJ two_ne_zero) hs hs'

/-- On one site the call fails an assertion. -/
theorem C71_same_site {d : Nat} {K : Type} [Field K] [DecidableEq K] [StarRing K] [GenTypes K (Op d K)] (sz sp sm : Op d K) (g : Generator K (Op d K)) (J : K) (i : Nat) :
    addHeisenberg sz sp sm g J i i = .error .assertFail := by
  unfold addHeisenberg
  rw [if_pos rfl]

end

end Verif.Props
