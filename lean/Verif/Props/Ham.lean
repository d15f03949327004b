import Verif.Props.HamFacts
import Mathlib.Data.Rat.Star
import Mathlib.Algebra.Order.Field.Rat
/-
Property theorem C72: any Hamiltonian put together from the predefined terms becomes an MPO with exactly its matrix elements, and the quantum numbers fit.
-/
namespace Verif.Props
open Verif.Mpo Verif.Fock Finset Matrix
variable {K : Type} [Field K] {N d : Nat}

section
variable [CharZero K] [DecidableEq K]

/-- C72, definite charges: every predefined Hubbard operator that a Hamiltonian with quantum numbers can use changes the quantum number of a site by one
definite amount (`Charge`: all elements that are not zero agree, and there is one): creating an up or a down particle by `qU` or `qD`, which is
(±1 in N, ±1 in Sz) for `U1U1QN`, ±1 in Sz for `U1QN`, nothing for `TrivialRepQN`. -/
theorem C72_charges_hubbard (im : K) (sym : Sym) :
    let o := hubOps im (hubSite sym)
    let ch := Charge (hubSite sym).bond (K := K)
    ch o.id 0 ∧ ch o.f 0 ∧ ch o.sz 0 ∧ ch o.nf 0 ∧ ch o.nfsquare 0 ∧ ch o.nup 0 ∧ ch o.ndn 0 ∧ ch o.nupndn 0 ∧
    ch o.bupc (qU sym) ∧ ch o.bupcF (qU sym) ∧ ch o.bupa (-qU sym) ∧ ch o.bupaF (-qU sym) ∧
    ch o.bdnc (qD sym) ∧ ch o.Fbdnc (qD sym) ∧ ch o.bdna (-qD sym) ∧ ch o.Fbdna (-qD sym) ∧
    ch o.sp (qU sym - qD sym) ∧ ch o.sm (qD sym - qU sym) ∧ ch o.cupccdnc (qU sym + qD sym) ∧ ch o.cdnacupa (-qU sym - qD sym) :=
  ⟨hubq_id im sym, hubq_f im sym, hubq_sz im sym, hubq_nf im sym, hubq_nfsquare im sym, hubq_nup im sym, hubq_ndn im sym, hubq_nupndn im sym,
    hubq_bupc im sym, hubq_bupcF im sym, hubq_bupa im sym, hubq_bupaF im sym, hubq_bdnc im sym, hubq_Fbdnc im sym, hubq_bdna im sym, hubq_Fbdna im sym,
    hubq_sp im sym, hubq_sm im sym, hubq_cupccdnc im sym, hubq_cdnacupa im sym⟩

theorem C72_charges_tJ (sym : Sym) :
    let o := tjOps (K := K) (tjSite sym)
    let ch := Charge (tjSite sym).bond (K := K)
    ch o.id 0 ∧ ch o.f 0 ∧ ch o.sz 0 ∧ ch o.nf 0 ∧ ch o.nup 0 ∧ ch o.ndn 0 ∧
    ch o.bupc (qU sym) ∧ ch o.bupa (-qU sym) ∧ ch o.bdnc (qD sym) ∧ ch o.bdna (-qD sym) ∧
    ch o.sp (qU sym - qD sym) ∧ ch o.sm (qD sym - qU sym) :=
  ⟨tjq_id sym, tjq_f sym, tjq_sz sym, tjq_nf sym, tjq_nup sym, tjq_ndn sym, tjq_bupc sym, tjq_bupa sym, tjq_bdnc sym, tjq_bdna sym, tjq_sp sym, tjq_sm sym⟩

section
variable [GenTypes K (Op d K)]

/-- Calls of a term. -/
def hamCalls {On : Type} (sz sp sm nf : Op d K) (op : On → Op d K) (hopc : K → Fin N → Fin N → List (Call K (Op d K))) :
    HamTerm On N K → List (Call K (Op d K))
  | .hop t i j => hopc t i j
  | .heis J i j => heisCalls sz sp sm J i j
  | .dens V i j => [pairCall V i j nf nf]
  | .site k c i => [siteCall c i (op k)]

omit [CharZero K] [DecidableEq K] [Field K] [GenTypes K (Op d K)] in
theorem minmax {i j : Fin N} (hij : i ≠ j) : min i.1 j < max i.1 j ∧ max i.1 j < N := by
  have : i.1 ≠ j.1 := fun e => hij (Fin.ext e)
  have := i.2
  have := j.2
  omega

omit [CharZero K] in
/-- The common part of the Hubbard and the t-J theorem. -/
theorem ham_model {On : Type} (h : ExactTypes d K) (bond : List ((Int × Int) × Nat)) (dec : Fin d → Occ) (sz sp sm nf : Op d K) (op : On → Op d K)
    (onFock : On → Fin N → Matrix (Conf N) (Conf N) K) (conj : K → K) (hopc : K → Fin N → Fin N → List (Call K (Op d K)))
    (add : Generator K (Op d K) → HamTerm On N K → Except Err (Generator K (Op d K))) (derived : K → List K) (qs : Int × Int)
    (hadd : ∀ a : HamTerm On N K, a.Proper → ∀ g, add g a = (hamCalls sz sp sm nf op hopc a).foldlM (fun g c => g.addTerm c.coef c.ops c.idxs) g)
    (hsp : IsSpin dec sz sp sm)
    (hnf : Rep dec nf ((loc .up).transpose * loc .up + (loc .dn).transpose * loc .dn))
    (hon : ∀ k, ∃ A, Rep dec (op k) A ∧ ∀ i : Fin N, onFock k i = strOp (siteL i A))
    (qsz : opDiv bond sz = 0) (qsp : opDiv bond sp = qs) (qsm : opDiv bond sm = -qs) (qnf : opDiv bond nf = 0) (qon : ∀ k, opDiv bond (op k) = 0)
    (hdiff : ∀ k k', ((∀ x y, op k x y = op k' x y) ∨ ∀ x y, op k x y = -op k' x y) → k = k')
    (hd0 : ∀ c, c = 0 → ∀ c' ∈ derived c, c' = 0) (hd1 : ∀ c, c ∈ derived c) (hd2 : ∀ c, c / 2 ∈ derived c)
    (hhop : ∀ t (i j : Fin N), i ≠ j → ∀ c ∈ hopc t i j, c.Valid N ∧ 2 ≤ c.idxs.length ∧ (c.ops.map (opDiv bond)).sum = 0 ∧ c.coef ∈ derived t)
    (hhop' : ∀ t (i j : Fin N), t ≠ 0 → ∃ c ∈ hopc t i j, c.coef ≠ 0)
    (hhopv : ∀ t (i j : Fin N), i ≠ j → ∀ x y, ((hopc t i j).map (termVal (opVals h x y) (uniformIds d N))).sum =
      hopping (-t) (-conj t) i j (fun s => dec (y s)) (fun s => dec (x s)))
    (ts : List (HamTerm On N K)) (hp : ∀ a ∈ ts, a.Proper) (h1 : OneEach ts)
    (hs : ∀ a ∈ ts, a.coef = 0 ∨ ∀ c ∈ derived a.coef, GenTypes.tooSmall (Op d K) c = false) (hne : ∃ a ∈ ts, a.coef ≠ 0) (compress : Bool) :
    ∃ g l, ts.foldlM add (Generator.new (uniformIds d N)) = .ok g ∧ g.gen (opDiv bond) 0 compress = .ok l ∧ l.length = N ∧ (GenOK g.coefHub.length g.opHub.length l ∧
        MatRep g N fun x y => (ts.map (HamTerm.fock onFock conj)).sum (fun s => dec (y s)) (fun s => dec (x s))) ∧
      ∀ x y : Nat → Fin d, mpoVal (opVals h x y) g (l.map (·.mat)) =
        (ts.map (HamTerm.fock onFock conj)).sum (fun s => dec (y s)) (fun s => dec (x s)) := by
  have hid := hsp.id
  have hcoef : ∀ a : HamTerm On N K, a.Proper → ∀ c ∈ hamCalls sz sp sm nf op hopc a, c.coef ∈ derived a.coef := by
    intro a hpa c hc
    cases a with
    | hop t i j => exact (hhop t i j hpa c hc).2.2.2
    | heis J i j =>
      simp only [hamCalls, heisCalls, List.mem_cons, List.not_mem_nil, or_false] at hc
      rcases hc with rfl | rfl | rfl
      · exact hd1 J
      · exact hd2 J
      · exact hd2 J
    | dens V i j =>
      simp only [hamCalls, List.mem_cons, List.not_mem_nil, or_false] at hc
      subst hc; exact hd1 V
    | site k b i =>
      simp only [hamCalls, List.mem_cons, List.not_mem_nil, or_false] at hc
      subst hc; exact hd1 b
  have hlen : ∀ a : HamTerm On N K, a.Proper → ∀ c ∈ hamCalls sz sp sm nf op hopc a, ∀ s, c.idxs = [s] →
      ∃ k b i, a = .site k b i ∧ c = siteCall b i (op k) := by
    intro a hpa c hc s hs
    cases a with
    | hop t i j =>
      have := (hhop t i j hpa c hc).2.1
      rw [hs] at this; simp at this
    | heis J i j =>
      simp only [hamCalls, heisCalls, List.mem_cons, List.not_mem_nil, or_false] at hc
      rcases hc with rfl | rfl | rfl <;> simp [pairCall] at hs
    | dens V i j =>
      simp only [hamCalls, List.mem_cons, List.not_mem_nil, or_false] at hc
      subst hc; simp [pairCall] at hs
    | site k c i =>
      simp only [hamCalls, List.mem_cons, List.not_mem_nil, or_false] at hc
      exact ⟨k, c, i, rfl, hc⟩
  refine ham_gen h bond dec (hamCalls sz sp sm nf op hopc) _ _ ts (fun a ha => hadd a (hp a ha)) ?_ ?_ ?_ ?_ ?_ ?_ compress
  · intro a ha c hc
    have hpa := hp a ha
    cases a with
    | hop t i j => exact (hhop t i j hpa c hc).1
    | heis J i j =>
      simp only [hamCalls, heisCalls, List.mem_cons, List.not_mem_nil, or_false] at hc
      rcases hc with rfl | rfl | rfl <;>
        exact pairCall_valid _ _ _ (ne_of_lt (minmax hpa).1) (lt_trans (minmax hpa).1 (minmax hpa).2) (minmax hpa).2
    | dens V i j =>
      simp only [hamCalls, List.mem_cons, List.not_mem_nil, or_false] at hc
      subst hc
      exact pairCall_valid _ _ _ (fun e => hpa (Fin.ext e)) i.2 j.2
    | site k c i =>
      simp only [hamCalls, List.mem_cons, List.not_mem_nil, or_false] at hc
      subst hc
      exact siteCall_valid _ _ i.2
  · intro a ha x y
    have hpa := hp a ha
    cases a with
    | hop t i j => exact hhopv t i j hpa x y
    | heis J i j => exact heis_val h hsp J hpa x y
    | dens V i j =>
      simp only [hamCalls, List.map_cons, List.map_nil, List.sum_cons, List.sum_nil, add_zero]
      rw [pairCall_rep h hid x y V hpa hnf hnf]
      simp only [HamTerm.fock, density, num_site, siteL_add]
      rw [siteL_two hpa]; rfl
    | site k c i =>
      obtain ⟨A, hA, hf⟩ := hon k
      simp only [hamCalls, List.map_cons, List.map_nil, List.sum_cons, List.sum_nil, add_zero]
      rw [siteCall_rep h hid x y c i hA]
      simp only [HamTerm.fock, hf]; rfl
  · intro a ha c hc hneg
    have hm := hcoef a (hp a ha) c hc
    rcases hs a ha with h0 | hsm
    · exact hd0 _ h0 _ hm
    · simp only [Call.negligible, h.zero, Bool.or_eq_true, decide_eq_true_eq, hsm _ hm] at hneg
      simpa using hneg
  · obtain ⟨a, ha, h0⟩ := hne
    refine ⟨a, ha, ?_⟩
    have hsm := (hs a ha).resolve_left h0
    have hcl : ∃ c ∈ hamCalls sz sp sm nf op hopc a, c.coef ≠ 0 := by
      cases a with
      | hop t i j => exact hhop' t i j h0
      | heis J i j => exact ⟨_, List.mem_cons_self .., h0⟩
      | dens V i j => exact ⟨_, List.mem_cons_self .., h0⟩
      | site k c i => exact ⟨_, List.mem_cons_self .., h0⟩
    obtain ⟨c, hc, hc0⟩ := hcl
    refine ⟨c, hc, ?_⟩
    simp [Call.negligible, h.zero, hc0, hsm _ (hcoef a (hp a ha) c hc)]
  · intro a ha c hc
    have hpa := hp a ha
    cases a with
    | hop t i j => exact (hhop t i j hpa c hc).2.2.1
    | heis J i j =>
      simp only [hamCalls, heisCalls, List.mem_cons, List.not_mem_nil, or_false] at hc
      rcases hc with rfl | rfl | rfl <;> simp only [pairCall, List.map_cons, List.map_nil, List.sum_cons, List.sum_nil, qsz, qsp, qsm, add_zero,
        add_neg_cancel, neg_add_cancel]
    | dens V i j =>
      simp only [hamCalls, List.mem_cons, List.not_mem_nil, or_false] at hc
      subst hc
      simp only [pairCall, List.map_cons, List.map_nil, List.sum_cons, List.sum_nil, qnf, add_zero]
    | site k c i =>
      simp only [hamCalls, List.mem_cons, List.not_mem_nil, or_false] at hc
      subst hc
      simp only [siteCall, List.map_cons, List.map_nil, List.sum_cons, List.sum_nil, qon, add_zero]
  · rw [List.pairwise_flatMap]
    constructor
    · intro a ha
      have hpa := hp a ha
      by_cases hsite : ∃ k c i, a = .site k c i
      · obtain ⟨k, c, i, rfl⟩ := hsite
        simp [hamCalls]
      · refine List.Pairwise.imp_of_mem (R := fun _ _ => True) ?_ (List.pairwise_iff_forall_sublist.2 fun _ => trivial)
        rintro p q hpm hqm _ ⟨s, e1, _, _⟩
        obtain ⟨k, c, i, hk, _⟩ := hlen a hpa p hpm s e1
        exact hsite ⟨k, c, i, hk⟩
    · unfold OneEach at h1
      refine List.Pairwise.imp_of_mem ?_ h1
      intro a b ha hb hab p hpa q hqb hpq
      obtain ⟨s, e1, e2, _⟩ := id hpq
      obtain ⟨k, c, i, rfl, rfl⟩ := hlen a (hp _ ha) p hpa s e1
      obtain ⟨k', c', i', rfl, rfl⟩ := hlen b (hp _ hb) q hqb s e2
      obtain ⟨hi, ho⟩ := same_site_ops h hpq
      have hk := hdiff k k' ho
      subst hk
      exact hab k c i c' i' rfl rfl (Fin.ext hi)
end

section
variable [GenTypes K (Op 4 K)]

theorem hub_ham (h : ExactTypes 4 K) (im : K) (sym : Sym) (ts : List (HamTerm HubOn N K)) (hp : ∀ a ∈ ts, a.Proper) (h1 : OneEach ts)
    (hs : ∀ a ∈ ts, a.coef = 0 ∨ ∀ c ∈ [a.coef, -a.coef, a.coef / 2], GenTypes.tooSmall (Op 4 K) c = false) (hne : ∃ a ∈ ts, a.coef ≠ 0)
    (compress : Bool) :
    ∃ g l, ts.foldlM (addHubTerm (hubOps im (hubSite sym))) (Generator.new (uniformIds 4 N)) = .ok g ∧
      g.gen (opDiv (hubSite sym).bond) 0 compress = .ok l ∧ l.length = N ∧ (GenOK g.coefHub.length g.opHub.length l ∧
        MatRep g N fun x y => (ts.map (HamTerm.fock HubOn.fock id)).sum (fun s => hubOcc (hubSite sym) (y s)) (fun s => hubOcc (hubSite sym) (x s))) ∧
      ∀ x y : Nat → Fin 4, mpoVal (opVals h x y) g (l.map (·.mat)) =
        (ts.map (HamTerm.fock HubOn.fock id)).sum (fun s => hubOcc (hubSite sym) (y s)) (fun s => hubOcc (hubSite sym) (x s)) := by
  refine ham_model h (hubSite sym).bond (hubOcc (hubSite sym)) (hubOps im (hubSite sym)).sz (hubOps im (hubSite sym)).sp (hubOps im (hubSite sym)).sm
    (hubOps im (hubSite sym)).nf (fun k => k.op (hubOps im (hubSite sym))) HubOn.fock id (fun t i j => hubHopCalls (hubOps im (hubSite sym)) t i j) _
    (fun c => [c, -c, c / 2]) (qU sym - qD sym) ?_ (hub_isSpin im sym) (hub_nf im sym) ?_ (hubq_sz im sym).div (hubq_sp im sym).div ?_
    (hubq_nf im sym).div ?_ (fun k k' => hubOn_diff im sym) ?_ (by simp) (by simp) ?_ ?_ (fun t i j hij x y => hub_hop_val h im sym t hij x y)
    ts hp h1 hs hne compress
  · intro a hpa g
    cases a with
    | hop t i j => exact hubbardHop_calls _ _ _ (fun e => hpa (Fin.ext e))
    | heis J i j => exact heis_calls _ _ _ _ _ (fun e => hpa (Fin.ext e))
    | dens V i j => simp [addHubTerm, hamCalls, pairCall]
    | site k c i => simp [addHubTerm, hamCalls, siteCall]
  · intro k
    cases k
    · exact ⟨_, hub_nupndn im sym, fun i => by simp only [HubOn.fock, num_site, siteL_mul]⟩
    · exact ⟨_, hub_nf im sym, fun i => by simp only [HubOn.fock, density, num_site, siteL_add]⟩
    · exact ⟨_, hub_nfsquare im sym, fun i => by simp only [HubOn.fock, density, num_site, siteL_add, siteL_mul]⟩
    · exact ⟨_, hub_nup im sym, fun i => by simp only [HubOn.fock, num_site]⟩
    · exact ⟨_, hub_ndn im sym, fun i => by simp only [HubOn.fock, num_site]⟩
    · exact ⟨_, hub_sz im sym, fun i => by simp only [HubOn.fock, Sz, num_site, siteL_sub, siteL_smul]⟩
  · rw [(hubq_sm im sym).div, neg_sub]
  · intro k
    cases k
    · exact (hubq_nupndn im sym).div
    · exact (hubq_nf im sym).div
    · exact (hubq_nfsquare im sym).div
    · exact (hubq_nup im sym).div
    · exact (hubq_ndn im sym).div
    · exact (hubq_sz im sym).div
  · rintro c rfl c' hc
    simpa using hc
  · intro t i j hij c hc
    simp only [hubHopCalls, List.mem_cons, List.not_mem_nil, or_false] at hc
    have hm := minmax hij
    rcases hc with rfl | rfl | rfl | rfl <;>
      refine ⟨strCall_valid _ _ _ _ hm.1 hm.2, by simp [strCall], ?_, by simp [strCall]⟩ <;> rw [strCall_div _ _ _ _ _ _ _ (hubq_f im sym).div]
    · rw [(hubq_bupcF im sym).div, (hubq_bupa im sym).div, add_neg_cancel]
    · rw [(hubq_bupaF im sym).div, (hubq_bupc im sym).div, neg_add_cancel]
    · rw [(hubq_bdnc im sym).div, (hubq_Fbdna im sym).div, add_neg_cancel]
    · rw [(hubq_bdna im sym).div, (hubq_Fbdnc im sym).div, neg_add_cancel]
  · intro t i j ht
    exact ⟨_, List.mem_cons_self .., by simpa [strCall] using ht⟩

/-- C72, Hubbard: take any list of hopping, Heisenberg, density-density and one-site terms, in any order and on any sites; two-site terms act on different
sites, no site has two one-site terms of the same kind, each coefficient is 0 or is not negligible (with its negative and its half), and one is not 0.
Then the program that makes the corresponding calls and `Gen`, with or without compression, succeed for each supported symmetry, and the matrix elements
of the MPO are those of the sum of the terms. -/
theorem C72_hubbard_hamiltonian (h : ExactTypes 4 K) (im : K) (sym : Sym) (ts : List (HamTerm HubOn N K)) (hp : ∀ a ∈ ts, a.Proper) (h1 : OneEach ts)
    (hs : ∀ a ∈ ts, a.coef = 0 ∨ ∀ c ∈ [a.coef, -a.coef, a.coef / 2], GenTypes.tooSmall (Op 4 K) c = false) (hne : ∃ a ∈ ts, a.coef ≠ 0)
    (compress : Bool) :
    ∃ g l, ts.foldlM (addHubTerm (hubOps im (hubSite sym))) (Generator.new (uniformIds 4 N)) = .ok g ∧
      g.gen (opDiv (hubSite sym).bond) 0 compress = .ok l ∧ l.length = N ∧
      ∀ x y : Nat → Fin 4, mpoVal (opVals h x y) g (l.map (·.mat)) =
        (ts.map (HamTerm.fock HubOn.fock id)).sum (fun s => hubOcc (hubSite sym) (y s)) (fun s => hubOcc (hubSite sym) (x s)) := by
  obtain ⟨g, l, e1, e2, e3, -, e4⟩ := hub_ham h im sym ts hp h1 hs hne compress
  exact ⟨g, l, e1, e2, e3, e4⟩
end

section
variable [StarRing K] [GenTypes K (Op 3 K)]

theorem tj_ham (h : ExactTypes 3 K) (sym : Sym) (ts : List (HamTerm TjOn N K)) (hp : ∀ a ∈ ts, a.Proper) (h1 : OneEach ts)
    (hs : ∀ a ∈ ts, a.coef = 0 ∨ ∀ c ∈ [a.coef, -a.coef, -star a.coef, a.coef / 2], GenTypes.tooSmall (Op 3 K) c = false) (hne : ∃ a ∈ ts, a.coef ≠ 0)
    (compress : Bool) :
    ∃ g l, ts.foldlM (addTjTerm (tjOps (tjSite sym))) (Generator.new (uniformIds 3 N)) = .ok g ∧
      g.gen (opDiv (tjSite sym).bond) 0 compress = .ok l ∧ l.length = N ∧ (GenOK g.coefHub.length g.opHub.length l ∧
        MatRep g N fun x y => (ts.map (HamTerm.fock TjOn.fock star)).sum (fun s => tjOcc (tjSite sym) (y s)) (fun s => tjOcc (tjSite sym) (x s))) ∧
      ∀ x y : Nat → Fin 3, mpoVal (opVals h x y) g (l.map (·.mat)) =
        (ts.map (HamTerm.fock TjOn.fock star)).sum (fun s => tjOcc (tjSite sym) (y s)) (fun s => tjOcc (tjSite sym) (x s)) := by
  refine ham_model h (tjSite sym).bond (tjOcc (tjSite sym)) (tjOps (tjSite sym)).sz (tjOps (tjSite sym)).sp (tjOps (tjSite sym)).sm
    (tjOps (tjSite sym)).nf (fun k => k.op (tjOps (tjSite sym))) TjOn.fock star (fun t i j => tjHopCalls (tjOps (tjSite sym)) t i j) _
    (fun c => [c, -c, -star c, c / 2]) (qU sym - qD sym) ?_ (tj_isSpin sym) (tj_nf sym) ?_ (tjq_sz sym).div (tjq_sp sym).div ?_
    (tjq_nf sym).div ?_ (fun k k' => tjOn_diff sym) ?_ (by simp) (by simp) ?_ ?_ (fun t i j hij x y => tj_hop_val h sym t hij x y)
    ts hp h1 hs hne compress
  · intro a hpa g
    cases a with
    | hop t i j => exact tjHop_calls _ _ _ (fun e => hpa (Fin.ext e))
    | heis J i j => exact heis_calls _ _ _ _ _ (fun e => hpa (Fin.ext e))
    | dens V i j => simp [addTjTerm, hamCalls, pairCall]
    | site k c i => simp [addTjTerm, hamCalls, siteCall]
  · intro k
    cases k
    · exact ⟨_, tj_nf sym, fun i => by simp only [TjOn.fock, density, num_site, siteL_add]⟩
    · exact ⟨_, tj_nup sym, fun i => by simp only [TjOn.fock, num_site]⟩
    · exact ⟨_, tj_ndn sym, fun i => by simp only [TjOn.fock, num_site]⟩
    · exact ⟨_, tj_sz sym, fun i => by simp only [TjOn.fock, Sz, num_site, siteL_sub, siteL_smul]⟩
  · rw [(tjq_sm sym).div, neg_sub]
  · intro k
    cases k
    · exact (tjq_nf sym).div
    · exact (tjq_nup sym).div
    · exact (tjq_ndn sym).div
    · exact (tjq_sz sym).div
  · rintro c rfl c' hc
    simpa using hc
  · intro t i j hij c hc
    simp only [tjHopCalls, List.mem_cons, List.not_mem_nil, or_false] at hc
    have hm := minmax hij
    have h0 : -tjT0 t i.1 j.1 ∈ [t, -t, -star t, t / 2] ∧ -star (tjT0 t i.1 j.1) ∈ [t, -t, -star t, t / 2] := by
      unfold tjT0; split <;> simp
    rcases hc with rfl | rfl | rfl | rfl <;>
      refine ⟨strCall_valid _ _ _ _ hm.1 hm.2, by simp [strCall], ?_, by first | exact h0.1 | exact h0.2⟩ <;>
      rw [strCall_div _ _ _ _ _ _ _ (tjq_f sym).div]
    · rw [(tjq_bupc sym).div, (tjq_bupa sym).div, add_neg_cancel]
    · rw [(tjq_bdnc sym).div, (tjq_bdna sym).div, add_neg_cancel]
    · rw [(tjq_bupa sym).div, (tjq_bupc sym).div, neg_add_cancel]
    · rw [(tjq_bdna sym).div, (tjq_bdnc sym).div, neg_add_cancel]
  · intro t i j ht
    refine ⟨_, List.mem_cons_self .., ?_⟩
    show -tjT0 t i.1 j.1 ≠ 0
    unfold tjT0
    split
    · exact neg_ne_zero.2 ht
    · exact neg_ne_zero.2 (star_ne_zero.2 ht)

/-- C72, t-J: the same for the t-J operators and builders, restricted to states without double occupancy. -/
theorem C72_tJ_hamiltonian (h : ExactTypes 3 K) (sym : Sym) (ts : List (HamTerm TjOn N K)) (hp : ∀ a ∈ ts, a.Proper) (h1 : OneEach ts)
    (hs : ∀ a ∈ ts, a.coef = 0 ∨ ∀ c ∈ [a.coef, -a.coef, -star a.coef, a.coef / 2], GenTypes.tooSmall (Op 3 K) c = false) (hne : ∃ a ∈ ts, a.coef ≠ 0)
    (compress : Bool) :
    ∃ g l, ts.foldlM (addTjTerm (tjOps (tjSite sym))) (Generator.new (uniformIds 3 N)) = .ok g ∧
      g.gen (opDiv (tjSite sym).bond) 0 compress = .ok l ∧ l.length = N ∧
      ∀ x y : Nat → Fin 3, mpoVal (opVals h x y) g (l.map (·.mat)) =
        (ts.map (HamTerm.fock TjOn.fock star)).sum (fun s => tjOcc (tjSite sym) (y s)) (fun s => tjOcc (tjSite sym) (x s)) := by
  obtain ⟨g, l, e1, e2, e3, -, e4⟩ := tj_ham h sym ts hp h1 hs hne compress
  exact ⟨g, l, e1, e2, e3, e4⟩
end

section
variable [GenTypes K (Op 2 K)]

/-- A spin term as a term of the general form. -/
def toHam : SpinTerm N K → HamTerm Unit N K
  | .heis J i j => .heis J i j
  | .field b i => .site () b i

theorem spin_ham (h : ExactTypes 2 K) (im : K) {sym : Sym} {st : SpinSite} (hst : spinSite sym = some st) (ts : List (SpinTerm N K))
    (hp : ∀ a ∈ ts, a.Proper) (h1 : OneField ts)
    (hs : ∀ a ∈ ts, a.coef = 0 ∨ ∀ c ∈ [a.coef, a.coef / 2], GenTypes.tooSmall (Op 2 K) c = false) (hne : ∃ a ∈ ts, a.coef ≠ 0) (compress : Bool) :
    ∃ g l, ts.foldlM (addSpinTerm (spinOps im st)) (Generator.new (uniformIds 2 N)) = .ok g ∧
      g.gen (opDiv st.bond) 0 compress = .ok l ∧ l.length = N ∧ (GenOK g.coefHub.length g.opHub.length l ∧
        MatRep g N fun x y => (ts.map SpinTerm.fock).sum (fun s => spinOcc st (y s)) (fun s => spinOcc st (x s))) ∧
      ∀ x y : Nat → Fin 2, mpoVal (opVals h x y) g (l.map (·.mat)) =
        (ts.map SpinTerm.fock).sum (fun s => spinOcc st (y s)) (fun s => spinOcc st (x s)) := by
  obtain ⟨qz, _, q, qp, qm⟩ := spinq im hst
  have hcalls : ∀ a : SpinTerm N K, ∀ c ∈ hamCalls (spinOps im st).sz (spinOps im st).sp (spinOps im st).sm (spinOps im st).sz
      (fun _ : Unit => (spinOps im st).sz) (fun _ _ _ => []) (toHam a), c.coef = a.coef ∨ c.coef = a.coef / 2 := by
    intro a c hc
    cases a with
    | heis J i j =>
      simp only [toHam, hamCalls, heisCalls, List.mem_cons, List.not_mem_nil, or_false] at hc
      rcases hc with rfl | rfl | rfl
      · exact Or.inl rfl
      · exact Or.inr rfl
      · exact Or.inr rfl
    | field b i =>
      simp only [toHam, hamCalls, List.mem_cons, List.not_mem_nil, or_false] at hc
      subst hc; exact Or.inl rfl
  have hlen : ∀ a : SpinTerm N K, ∀ c ∈ hamCalls (spinOps im st).sz (spinOps im st).sp (spinOps im st).sm (spinOps im st).sz
      (fun _ : Unit => (spinOps im st).sz) (fun _ _ _ => []) (toHam a), ∀ s, c.idxs = [s] → ∃ b i, a = .field b i ∧ c = siteCall b i (spinOps im st).sz := by
    intro a c hc s hs
    cases a with
    | heis J i j =>
      simp only [toHam, hamCalls, heisCalls, List.mem_cons, List.not_mem_nil, or_false] at hc
      rcases hc with rfl | rfl | rfl <;> simp [pairCall] at hs
    | field b i =>
      simp only [toHam, hamCalls, List.mem_cons, List.not_mem_nil, or_false] at hc
      exact ⟨b, i, rfl, hc⟩
  refine ham_gen h st.bond (spinOcc st) (fun a => hamCalls (spinOps im st).sz (spinOps im st).sp (spinOps im st).sm (spinOps im st).sz
    (fun _ : Unit => (spinOps im st).sz) (fun _ _ _ => []) (toHam a)) _ _ ts ?_ ?_ ?_ ?_ ?_ ?_ ?_ compress
  · intro a ha g
    have hpa := hp a ha
    cases a with
    | heis J i j => exact heis_calls _ _ _ _ _ (fun e => hpa (Fin.ext e))
    | field b i => simp [addSpinTerm, toHam, hamCalls, siteCall]
  · intro a ha c hc
    have hpa := hp a ha
    cases a with
    | heis J i j =>
      simp only [toHam, hamCalls, heisCalls, List.mem_cons, List.not_mem_nil, or_false] at hc
      rcases hc with rfl | rfl | rfl <;>
        exact pairCall_valid _ _ _ (ne_of_lt (minmax hpa).1) (lt_trans (minmax hpa).1 (minmax hpa).2) (minmax hpa).2
    | field b i =>
      simp only [toHam, hamCalls, List.mem_cons, List.not_mem_nil, or_false] at hc
      subst hc
      exact siteCall_valid _ _ i.2
  · intro a ha x y
    have hpa := hp a ha
    cases a with
    | heis J i j => exact heis_val h (spin_isSpin im hst) J hpa x y
    | field b i =>
      simp only [toHam, hamCalls, List.map_cons, List.map_nil, List.sum_cons, List.sum_nil, add_zero]
      rw [siteCall_rep h (spin_id hst) x y b i (spin_sz im hst)]
      simp only [SpinTerm.fock, Sz, num_site, siteL_sub, siteL_smul i (2⁻¹ : K)]
      rfl
  · intro a ha c hc hneg
    have hm := hcalls a c hc
    rcases hs a ha with h0 | hsm
    · rcases hm with hm | hm <;> rw [hm, h0]
      exact zero_div 2
    · have hsc : GenTypes.tooSmall (Op 2 K) c.coef = false := hsm _ (by simpa using hm)
      simp only [Call.negligible, h.zero, Bool.or_eq_true, decide_eq_true_eq, hsc] at hneg
      simpa using hneg
  · obtain ⟨a, ha, h0⟩ := hne
    refine ⟨a, ha, ?_⟩
    have hsm := (hs a ha).resolve_left h0
    have k1 := hsm a.coef (by simp)
    cases a with
    | heis J i j => exact ⟨_, List.mem_cons_self .., by simp only [SpinTerm.coef] at k1 h0; simp [Call.negligible, pairCall, h.zero, k1, h0]⟩
    | field b i => exact ⟨_, List.mem_cons_self .., by simp only [SpinTerm.coef] at k1 h0; simp [Call.negligible, siteCall, h.zero, k1, h0]⟩
  · intro a ha c hc
    cases a with
    | heis J i j =>
      simp only [toHam, hamCalls, heisCalls, List.mem_cons, List.not_mem_nil, or_false] at hc
      rcases hc with rfl | rfl | rfl <;> simp only [pairCall, List.map_cons, List.map_nil, List.sum_cons, List.sum_nil, qz.div, qp.div, qm.div, add_zero,
        add_neg_cancel, neg_add_cancel]
    | field b i =>
      simp only [toHam, hamCalls, List.mem_cons, List.not_mem_nil, or_false] at hc
      subst hc
      simp only [siteCall, List.map_cons, List.map_nil, List.sum_cons, List.sum_nil, qz.div, add_zero]
  · rw [List.pairwise_flatMap]
    constructor
    · intro a ha
      by_cases hsite : ∃ b i, a = .field b i
      · obtain ⟨b, i, rfl⟩ := hsite
        simp [toHam, hamCalls]
      · refine List.Pairwise.imp_of_mem (R := fun _ _ => True) ?_ (List.pairwise_iff_forall_sublist.2 fun _ => trivial)
        rintro p q hpm hqm _ ⟨s, e1, _, _⟩
        obtain ⟨b, i, hk, _⟩ := hlen a p hpm s e1
        exact hsite ⟨b, i, hk⟩
    · unfold OneField at h1
      refine List.Pairwise.imp ?_ h1
      intro a b hab p hpa q hqb hpq
      obtain ⟨s, e1, e2, _⟩ := id hpq
      obtain ⟨c, i, rfl, rfl⟩ := hlen a p hpa s e1
      obtain ⟨c', i', rfl, rfl⟩ := hlen b q hqb s e2
      obtain ⟨hi, _⟩ := same_site_ops h hpq
      exact hab c i c' i' rfl rfl (Fin.ext hi)

/-- C72, spin-1/2 chains: exchange couplings and fields. -/
theorem C72_spin_hamiltonian (h : ExactTypes 2 K) (im : K) {sym : Sym} {st : SpinSite} (hst : spinSite sym = some st) (ts : List (SpinTerm N K))
    (hp : ∀ a ∈ ts, a.Proper) (h1 : OneField ts)
    (hs : ∀ a ∈ ts, a.coef = 0 ∨ ∀ c ∈ [a.coef, a.coef / 2], GenTypes.tooSmall (Op 2 K) c = false) (hne : ∃ a ∈ ts, a.coef ≠ 0) (compress : Bool) :
    ∃ g l, ts.foldlM (addSpinTerm (spinOps im st)) (Generator.new (uniformIds 2 N)) = .ok g ∧
      g.gen (opDiv st.bond) 0 compress = .ok l ∧ l.length = N ∧
      ∀ x y : Nat → Fin 2, mpoVal (opVals h x y) g (l.map (·.mat)) =
        (ts.map SpinTerm.fock).sum (fun s => spinOcc st (y s)) (fun s => spinOcc st (x s)) := by
  obtain ⟨g, l, e1, e2, e3, -, e4⟩ := spin_ham h im hst ts hp h1 hs hne compress
  exact ⟨g, l, e1, e2, e3, e4⟩
end
end

/-! ### A concrete case -/

/-- Rational coefficients with the machine epsilon as limit. -/
instance ratTypes : GenTypes ℚ (Op d ℚ) where
  czero := 0
  cone := 1
  cneg := fun c => -c
  tooSmall := fun c => decide (-(1 / 2 ^ 52 : ℚ) < c ∧ c < 1 / 2 ^ 52)
  tneg := fun t c r => -t c r
  negFirst := fun t => ((((List.finRange d).flatMap fun c => (List.finRange d).map fun r => t c r)).find? (fun v => decide (v ≠ 0))).elim false
    fun v => decide (v < 0)

theorem rat_exact : ExactTypes d ℚ := ⟨rfl, rfl, fun _ => rfl, fun _ _ _ => rfl⟩

/-- A Hubbard chain of three sites: two hoppings, one across a site and with the larger site first, an exchange, interaction and chemical potential. -/
def demoHub : List (HamTerm HubOn 3 ℚ) :=
  [.hop 1 0 1, .hop (3 / 10) 2 0, .heis (-2) 1 2, .dens (1 / 2) 2 1, .site .dbl 8 0, .site .dbl 8 1, .site .n (-4) 1, .site .sz 0 1]

example : (∀ a ∈ demoHub, a.Proper) ∧ OneEach demoHub ∧
    (∀ a ∈ demoHub, a.coef = 0 ∨ ∀ c ∈ [a.coef, -a.coef, a.coef / 2], GenTypes.tooSmall (Op 4 ℚ) c = false) ∧ ∃ a ∈ demoHub, a.coef ≠ 0 := by
  refine ⟨?_, ?_, ?_, ⟨.hop 1 0 1, by simp [demoHub], by simp [HamTerm.coef]⟩⟩
  · intro a ha
    simp only [demoHub, List.mem_cons, List.not_mem_nil, or_false] at ha
    rcases ha with rfl | rfl | rfl | rfl | rfl | rfl | rfl | rfl <;> simp [HamTerm.Proper]
  · simp only [OneEach, demoHub, List.pairwise_cons, List.mem_cons, List.not_mem_nil, or_false, forall_eq_or_imp, forall_eq, reduceCtorEq, HamTerm.site.injEq,
      false_implies, implies_true, and_true, true_and, List.Pairwise.nil, and_imp]
    refine ⟨⟨?_, ?_, ?_⟩, ⟨?_, ?_⟩, ?_⟩ <;> intro k c i c' i' a1 a2 a3 a4 a5 a6 <;> subst a1 <;>
      first | (subst a3; subst a6; decide) | exact absurd a4 (by decide)
  · intro a ha
    simp only [demoHub, List.mem_cons, List.not_mem_nil, or_false] at ha
    rcases ha with rfl | rfl | rfl | rfl | rfl | rfl | rfl | rfl <;> simp only [HamTerm.coef] <;> decide +kernel

/-- The hypotheses of C69, C70 and C71 can be met: any history of valid calls, here an earlier one-site call. -/
example : ∃ c : Call ℚ (Op 4 ℚ), c.Valid 3 ∧ c.negligible = false ∧ (2 : Fin 3) ≠ 0 ∧ (3 / 10 : ℚ) ≠ 0 ∧
    (∀ c ∈ [(3 / 10 : ℚ), -(3 / 10), -star (3 / 10), 3 / 10 / 2], GenTypes.tooSmall (Op 4 ℚ) c = false ∧ GenTypes.tooSmall (Op 3 ℚ) c = false ∧
      GenTypes.tooSmall (Op 2 ℚ) c = false) ∧ spinSite .u1 = some ⟨0, 1, [((0, 1), 1), ((0, -1), 1)]⟩ :=
  ⟨siteCall 8 1 (hubOps 0 (hubSite .u1u1)).nupndn, siteCall_valid _ _ (by decide), by decide +kernel, by decide, by norm_num, by decide +kernel, rfl⟩

/-- The Fock space side is not trivial: hopping of an up particle over an occupied site changes the sign of the matrix element. -/
example : (hopping (-1) (-1) (0 : Fin 3) 2 : Matrix (Conf 3) (Conf 3) ℚ) (![(true, false), (true, false), (false, false)])
    (![(false, false), (true, false), (true, false)]) = 1 := by
  rw [hop_strings (by decide)]
  simp only [Matrix.add_apply, Matrix.smul_apply, strOp]
  decide +kernel

end Verif.Props
