import Verif.Props.HamSpec
import Verif.Props.Models
import Verif.Mpo.MatReprFacts
/-
Charges of the predefined operators, and Hamiltonians as lists of calls.
-/
namespace Verif.Fock
open Finset Matrix Verif.Mpo Verif.Props
variable {K : Type} [Field K] {N d : Nat}

/-- All elements of the tensor that are not zero change the quantum number by `q`, and there is one. -/
def Charge (bond : List ((Int × Int) × Nat)) (t : Op d K) (q : Int × Int) : Prop :=
  (∀ c r, t c r ≠ 0 → labelQn bond r - labelQn bond c = q) ∧ ∃ c r, t c r ≠ 0

theorem Charge.div [DecidableEq K] {bond : List ((Int × Int) × Nat)} {t : Op d K} {q : Int × Int} (h : Charge bond t q) : opDiv bond t = q := by
  unfold opDiv
  cases hf : ((List.finRange d).flatMap fun c => (List.finRange d).map fun r => (c, r)).find? (fun p => decide (t p.1 p.2 ≠ 0)) with
  | none =>
    obtain ⟨c, r, hcr⟩ := h.2
    rw [List.find?_eq_none] at hf
    exact absurd (hf (c, r) (by simp)) (by simpa using hcr)
  | some p =>
    have := List.find?_some hf
    exact h.1 p.1 p.2 (by simpa using this)

theorem opDiv_neg [DecidableEq K] [GenTypes K (Op d K)] (h : ExactTypes d K) (bond : List ((Int × Int) × Nat)) (t : Op d K) :
    opDiv bond (GenTypes.tneg K t) = opDiv bond t := by
  unfold opDiv
  congr 2
  funext p
  rw [h.tneg]
  simp

/-! Hubbard charges. -/
def qU : Sym → Int × Int
  | .u1u1 => (1, 1)
  | .trivial => 0
  | .u1 => (0, 1)

def qD : Sym → Int × Int
  | .u1u1 => (1, -1)
  | .trivial => 0
  | .u1 => (0, -1)

macro "charge" sym:ident : tactic => `(tactic| (
  intro c r
  cases $sym:ident <;> fin_cases c <;> fin_cases r <;> first | exact fun _ => by decide | exact fun h => absurd rfl h))

section
variable [CharZero K] (im : K)
theorem hubq_bupcF (sym : Sym) : Charge (hubSite sym).bond (hubOps im (hubSite sym)).bupcF (qU sym) :=
  ⟨by charge sym, (hubSite sym).emp, (hubSite sym).up, by cases sym <;> exact one_ne_zero⟩
theorem hubq_bupa (sym : Sym) : Charge (hubSite sym).bond (hubOps im (hubSite sym)).bupa (-qU sym) :=
  ⟨by charge sym, (hubSite sym).up, (hubSite sym).emp, by cases sym <;> exact one_ne_zero⟩
theorem hubq_bupaF (sym : Sym) : Charge (hubSite sym).bond (hubOps im (hubSite sym)).bupaF (-qU sym) :=
  ⟨by charge sym, (hubSite sym).dbl, (hubSite sym).dn, by cases sym <;> exact one_ne_zero⟩
theorem hubq_bupc (sym : Sym) : Charge (hubSite sym).bond (hubOps im (hubSite sym)).bupc (qU sym) :=
  ⟨by charge sym, (hubSite sym).emp, (hubSite sym).up, by cases sym <;> exact one_ne_zero⟩
theorem hubq_bdnc (sym : Sym) : Charge (hubSite sym).bond (hubOps im (hubSite sym)).bdnc (qD sym) :=
  ⟨by charge sym, (hubSite sym).emp, (hubSite sym).dn, by cases sym <;> exact one_ne_zero⟩
theorem hubq_Fbdna (sym : Sym) : Charge (hubSite sym).bond (hubOps im (hubSite sym)).Fbdna (-qD sym) :=
  ⟨by charge sym, (hubSite sym).dn, (hubSite sym).emp, by cases sym <;> exact one_ne_zero⟩
theorem hubq_bdna (sym : Sym) : Charge (hubSite sym).bond (hubOps im (hubSite sym)).bdna (-qD sym) :=
  ⟨by charge sym, (hubSite sym).dn, (hubSite sym).emp, by cases sym <;> exact one_ne_zero⟩
theorem hubq_Fbdnc (sym : Sym) : Charge (hubSite sym).bond (hubOps im (hubSite sym)).Fbdnc (qD sym) :=
  ⟨by charge sym, (hubSite sym).up, (hubSite sym).dbl, by cases sym <;> exact one_ne_zero⟩
theorem hubq_f (sym : Sym) : Charge (hubSite sym).bond (hubOps im (hubSite sym)).f 0 :=
  ⟨by charge sym, (hubSite sym).dbl, (hubSite sym).dbl, by cases sym <;> exact one_ne_zero⟩
theorem hubq_sz (sym : Sym) : Charge (hubSite sym).bond (hubOps im (hubSite sym)).sz 0 :=
  ⟨by charge sym, (hubSite sym).up, (hubSite sym).up, by cases sym <;> exact (inv_ne_zero two_ne_zero)⟩
theorem hubq_sp (sym : Sym) : Charge (hubSite sym).bond (hubOps im (hubSite sym)).sp (qU sym - qD sym) :=
  ⟨by charge sym, (hubSite sym).dn, (hubSite sym).up, by cases sym <;> exact one_ne_zero⟩
theorem hubq_sm (sym : Sym) : Charge (hubSite sym).bond (hubOps im (hubSite sym)).sm (qD sym - qU sym) :=
  ⟨by charge sym, (hubSite sym).up, (hubSite sym).dn, by cases sym <;> exact one_ne_zero⟩
theorem hubq_nf (sym : Sym) : Charge (hubSite sym).bond (hubOps im (hubSite sym)).nf 0 :=
  ⟨by charge sym, (hubSite sym).up, (hubSite sym).up, by cases sym <;> exact one_ne_zero⟩
theorem hubq_nfsquare (sym : Sym) : Charge (hubSite sym).bond (hubOps im (hubSite sym)).nfsquare 0 :=
  ⟨by charge sym, (hubSite sym).up, (hubSite sym).up, by cases sym <;> exact one_ne_zero⟩
theorem hubq_nup (sym : Sym) : Charge (hubSite sym).bond (hubOps im (hubSite sym)).nup 0 :=
  ⟨by charge sym, (hubSite sym).up, (hubSite sym).up, by cases sym <;> exact one_ne_zero⟩
theorem hubq_ndn (sym : Sym) : Charge (hubSite sym).bond (hubOps im (hubSite sym)).ndn 0 :=
  ⟨by charge sym, (hubSite sym).dn, (hubSite sym).dn, by cases sym <;> exact one_ne_zero⟩
theorem hubq_nupndn (sym : Sym) : Charge (hubSite sym).bond (hubOps im (hubSite sym)).nupndn 0 :=
  ⟨by charge sym, (hubSite sym).dbl, (hubSite sym).dbl, by cases sym <;> exact one_ne_zero⟩
theorem hubq_cupccdnc (sym : Sym) : Charge (hubSite sym).bond (hubOps im (hubSite sym)).cupccdnc (qU sym + qD sym) :=
  ⟨by charge sym, (hubSite sym).emp, (hubSite sym).dbl, by cases sym <;> exact one_ne_zero⟩
theorem hubq_cdnacupa (sym : Sym) : Charge (hubSite sym).bond (hubOps im (hubSite sym)).cdnacupa (-qU sym - qD sym) :=
  ⟨by charge sym, (hubSite sym).dbl, (hubSite sym).emp, by cases sym <;> exact one_ne_zero⟩
theorem hubq_id (sym : Sym) : Charge (hubSite sym).bond (hubOps im (hubSite sym)).id 0 :=
  ⟨by charge sym, (hubSite sym).up, (hubSite sym).up, by cases sym <;> exact one_ne_zero⟩

end

section
variable [CharZero K]
theorem tjq_bupa (sym : Sym) : Charge (tjSite sym).bond (tjOps (K := K) (tjSite sym)).bupa (-qU sym) :=
  ⟨by charge sym, (tjSite sym).up, (tjSite sym).emp, by cases sym <;> exact one_ne_zero⟩
theorem tjq_bupc (sym : Sym) : Charge (tjSite sym).bond (tjOps (K := K) (tjSite sym)).bupc (qU sym) :=
  ⟨by charge sym, (tjSite sym).emp, (tjSite sym).up, by cases sym <;> exact one_ne_zero⟩
theorem tjq_bdnc (sym : Sym) : Charge (tjSite sym).bond (tjOps (K := K) (tjSite sym)).bdnc (qD sym) :=
  ⟨by charge sym, (tjSite sym).emp, (tjSite sym).dn, by cases sym <;> exact one_ne_zero⟩
theorem tjq_bdna (sym : Sym) : Charge (tjSite sym).bond (tjOps (K := K) (tjSite sym)).bdna (-qD sym) :=
  ⟨by charge sym, (tjSite sym).dn, (tjSite sym).emp, by cases sym <;> exact one_ne_zero⟩
theorem tjq_f (sym : Sym) : Charge (tjSite sym).bond (tjOps (K := K) (tjSite sym)).f 0 :=
  ⟨by charge sym, (tjSite sym).emp, (tjSite sym).emp, by cases sym <;> exact one_ne_zero⟩
theorem tjq_sz (sym : Sym) : Charge (tjSite sym).bond (tjOps (K := K) (tjSite sym)).sz 0 :=
  ⟨by charge sym, (tjSite sym).up, (tjSite sym).up, by cases sym <;> exact (inv_ne_zero two_ne_zero)⟩
theorem tjq_sp (sym : Sym) : Charge (tjSite sym).bond (tjOps (K := K) (tjSite sym)).sp (qU sym - qD sym) :=
  ⟨by charge sym, (tjSite sym).dn, (tjSite sym).up, by cases sym <;> exact one_ne_zero⟩
theorem tjq_sm (sym : Sym) : Charge (tjSite sym).bond (tjOps (K := K) (tjSite sym)).sm (qD sym - qU sym) :=
  ⟨by charge sym, (tjSite sym).up, (tjSite sym).dn, by cases sym <;> exact one_ne_zero⟩
theorem tjq_nf (sym : Sym) : Charge (tjSite sym).bond (tjOps (K := K) (tjSite sym)).nf 0 :=
  ⟨by charge sym, (tjSite sym).up, (tjSite sym).up, by cases sym <;> exact one_ne_zero⟩
theorem tjq_nup (sym : Sym) : Charge (tjSite sym).bond (tjOps (K := K) (tjSite sym)).nup 0 :=
  ⟨by charge sym, (tjSite sym).up, (tjSite sym).up, by cases sym <;> exact one_ne_zero⟩
theorem tjq_ndn (sym : Sym) : Charge (tjSite sym).bond (tjOps (K := K) (tjSite sym)).ndn 0 :=
  ⟨by charge sym, (tjSite sym).dn, (tjSite sym).dn, by cases sym <;> exact one_ne_zero⟩
theorem tjq_id (sym : Sym) : Charge (tjSite sym).bond (tjOps (K := K) (tjSite sym)).id 0 :=
  ⟨by charge sym, (tjSite sym).up, (tjSite sym).up, by cases sym <;> exact one_ne_zero⟩
end

section
variable [CharZero K] (im : K)

theorem spinq {sym : Sym} {st : SpinSite} (hst : spinSite sym = some st) : Charge st.bond (spinOps im st).sz 0 ∧
    Charge st.bond (spinOps im st).id 0 ∧
    ∃ q, Charge st.bond (spinOps im st).sp q ∧ Charge st.bond (spinOps im st).sm (-q) := by
  cases sym <;> simp only [spinSite, Option.some.injEq, reduceCtorEq] at hst <;> subst hst
  · refine ⟨⟨?_, 0, 0, inv_ne_zero two_ne_zero⟩, ⟨?_, 0, 0, one_ne_zero⟩, 0, ⟨?_, 1, 0, one_ne_zero⟩, ⟨?_, 0, 1, one_ne_zero⟩⟩ <;> intro c r <;>
      fin_cases c <;> fin_cases r <;> first | exact fun _ => by decide | exact fun h => absurd rfl h
  · refine ⟨⟨?_, 0, 0, inv_ne_zero two_ne_zero⟩, ⟨?_, 0, 0, one_ne_zero⟩, (0, 2), ⟨?_, 1, 0, one_ne_zero⟩, ⟨?_, 0, 1, one_ne_zero⟩⟩ <;> intro c r <;>
      fin_cases c <;> fin_cases r <;> first | exact fun _ => by decide | exact fun h => absurd rfl h

end

/-- The identity has charge zero. -/
theorem idOp_div [DecidableEq K] (bond : List ((Int × Int) × Nat)) : opDiv bond (idOp : Op d K) = 0 := by
  unfold opDiv
  cases hf : ((List.finRange d).flatMap fun c => (List.finRange d).map fun r => (c, r)).find? (fun p => decide ((idOp : Op d K) p.1 p.2 ≠ 0)) with
  | none => rfl
  | some p =>
    have := List.find?_some hf
    have h2 : p.1 = p.2 := by
      by_contra hne
      simp [idOp, hne] at this
    show labelQn bond p.2 - labelQn bond p.1 = 0
    rw [h2, sub_self]

section
variable [DecidableEq K] [GenTypes K (Op d K)]

theorem foldlM_flat {τ : Type} (calls : τ → List (Call K (Op d K))) (add : Generator K (Op d K) → τ → Except Err (Generator K (Op d K))) :
    ∀ (ts : List τ) (g : Generator K (Op d K)), (∀ a ∈ ts, ∀ g, add g a = (calls a).foldlM (fun g c => g.addTerm c.coef c.ops c.idxs) g) →
    ts.foldlM add g = (ts.flatMap calls).foldlM (fun g c => g.addTerm c.coef c.ops c.idxs) g
  | [], _, _ => rfl
  | a :: ts, g, h => by
    rw [List.foldlM_cons, List.flatMap_cons, List.foldlM_append, h a (by simp)]
    refine bind_congr fun g' => ?_
    exact foldlM_flat calls add ts g' fun a ha => h a (by simp [ha])

theorem sum_effective (v : Vals K K (Op d K)) (hv0 : v.cval 0 = 0) (ids : List (Op d K)) : ∀ cs : List (Call K (Op d K)),
    (∀ c ∈ cs, c.negligible = true → c.coef = 0) → ((effective cs).map (termVal v ids)).sum = (cs.map (termVal v ids)).sum
  | [], _ => rfl
  | c :: cs, h => by
    have ih := sum_effective v hv0 ids cs fun c hc => h c (by simp [hc])
    unfold effective at ih ⊢
    cases hn : c.negligible with
    | true =>
      have hz : termVal v ids c = 0 := by
        unfold termVal
        rw [h c (by simp) hn, hv0, zero_mul, zero_mul]
      rw [List.filter_cons_of_neg (by simp [hn]), ih, List.map_cons, List.sum_cons, hz, zero_add]
    | false =>
      rw [List.filter_cons_of_pos (by simp [hn]), List.map_cons, List.map_cons, List.sum_cons, List.sum_cons, ih]

theorem sum_flat {τ : Type} (val : Call K (Op d K) → K) (calls : τ → List (Call K (Op d K))) (f : τ → K) : ∀ ts : List τ,
    (∀ a ∈ ts, ((calls a).map val).sum = f a) → ((ts.flatMap calls).map val).sum = (ts.map f).sum
  | [], _ => rfl
  | a :: ts, h => by
    rw [List.flatMap_cons, List.map_append, List.sum_append, h a (by simp), sum_flat val calls f ts fun a ha => h a (by simp [ha])]
    rfl

theorem sum_apply {n : Type} (l : List (Matrix n n K)) (a b : n) : l.sum a b = (l.map fun m => m a b).sum := by
  induction l with
  | nil => rfl
  | cons m l ih => rw [List.sum_cons, Matrix.add_apply, ih]; rfl

/-- Programs that add terms of known calls. -/
theorem ham_gen {τ : Type} (h : ExactTypes d K) (bond : List ((Int × Int) × Nat)) (dec : Fin d → Occ) (calls : τ → List (Call K (Op d K)))
    (add : Generator K (Op d K) → τ → Except Err (Generator K (Op d K))) (fock : τ → Matrix (Conf N) (Conf N) K) (ts : List τ)
    (hadd : ∀ a ∈ ts, ∀ g, add g a = (calls a).foldlM (fun g c => g.addTerm c.coef c.ops c.idxs) g)
    (hvalid : ∀ a ∈ ts, ∀ c ∈ calls a, c.Valid N)
    (hval : ∀ a ∈ ts, ∀ x y, ((calls a).map (termVal (opVals h x y) (uniformIds d N))).sum = fock a (fun s => dec (y s)) (fun s => dec (x s)))
    (hzero : ∀ a ∈ ts, ∀ c ∈ calls a, c.negligible = true → c.coef = 0) (hne : ∃ a ∈ ts, ∃ c ∈ calls a, c.negligible = false)
    (hneu : ∀ a ∈ ts, ∀ c ∈ calls a, (c.ops.map (opDiv bond)).sum = 0)
    (hpair : (ts.flatMap calls).Pairwise fun a b => ¬ sameOneSite a b) (compress : Bool) :
    ∃ g l, ts.foldlM add (Generator.new (uniformIds d N)) = .ok g ∧ g.gen (opDiv bond) 0 compress = .ok l ∧ l.length = N ∧
      (GenOK g.coefHub.length g.opHub.length l ∧ MatRep g N fun x y => (ts.map fock).sum (fun s => dec (y s)) (fun s => dec (x s))) ∧
      ∀ x y : Nat → Fin d, mpoVal (opVals h x y) g (l.map (·.mat)) = (ts.map fock).sum (fun s => dec (y s)) (fun s => dec (x s)) := by
  have hlen : (uniformIds d N : List (Op d K)).length = N := by simp [uniformIds]
  have hmem : ∀ c ∈ ts.flatMap calls, ∃ a ∈ ts, c ∈ calls a := fun c hc => by simpa using hc
  have hcol : NoCollision (effective (ts.flatMap calls)) := by
    rintro pre c post e ⟨⟨b, hb, hbc⟩, _⟩
    have hp : (effective (ts.flatMap calls)).Pairwise fun a b => ¬ sameOneSite a b := hpair.filter _
    rw [e, List.pairwise_append] at hp
    exact hp.2.2 b hb c (by simp) hbc
  have k1 : ∀ c ∈ ts.flatMap calls, c.Valid (uniformIds d N : List (Op d K)).length := fun c hc => by
    obtain ⟨a, ha, hc⟩ := hmem c hc; rw [hlen]; exact hvalid a ha c hc
  have k2 : effective (ts.flatMap calls) ≠ [] := by
    obtain ⟨a, ha, c, hc, hn⟩ := hne
    refine List.ne_nil_of_mem (a := c) (List.mem_filter.2 ⟨?_, by simp [hn]⟩)
    simp only [List.mem_flatMap]; exact ⟨a, ha, hc⟩
  have k3 : ∀ t ∈ (uniformIds d N : List (Op d K)), opDiv bond t = 0 := fun t ht => by
    obtain ⟨_, rfl⟩ := List.mem_replicate.1 ht
    exact idOp_div bond
  have k4 : ∀ c ∈ effective (ts.flatMap calls), (c.ops.map (opDiv bond)).sum = 0 := fun c hc => by
    obtain ⟨a, ha, hc⟩ := hmem c (List.mem_of_mem_filter hc)
    exact hneu a ha c hc
  obtain ⟨g, l, e1, e2, e3, e4⟩ := C01_gen_returns_sum (R := K) (uniformIds d N) (ts.flatMap calls) k1 k2 hcol (opDiv bond) (opDiv_neg h bond) k3 k4 compress
  have hsum : ∀ x y, ((effective (ts.flatMap calls)).map (termVal (opVals h x y) (uniformIds d N))).sum = (ts.map fock).sum (fun s => dec (y s)) (fun s => dec (x s)) := fun x y => by
    rw [sum_effective _ rfl, sum_apply, List.map_map]
    · exact sum_flat _ _ _ ts fun a ha => hval a ha x y
    · intro c hc
      obtain ⟨a, ha, hc⟩ := hmem c hc
      exact hzero a ha c hc
  refine ⟨g, l, ?_, e2, by rw [e3, hlen], ⟨gen_ok k1 e1 k2 (opDiv bond) (opDiv_neg h bond) k3 k4 compress e2, ?_⟩, fun x y => (e4 _).trans (hsum x y)⟩
  · rw [foldlM_flat calls add ts _ hadd]; exact e1
  · have := matRepr_ok h k1 e1 k2
    rw [hlen] at this
    obtain ⟨rs, r1, r2, r3, r4⟩ := this
    exact ⟨rs, r1, r2, r3, fun x y => (r4 x y).trans ((keptSum_of_noCollision _ _ _ [] (by simpa [NoCollision] using hcol)).trans (hsum x y))⟩

/-- Two one-site calls that are the same up to the sign convention carry the same tensor up to sign. -/
theorem same_site_ops (h : ExactTypes d K) {c c' : K} {i i' : Nat} {a b : Op d K} (hs : sameOneSite (siteCall c i a) (siteCall c' i' b)) :
    i = i' ∧ ((∀ x y, a x y = b x y) ∨ ∀ x y, a x y = -b x y) := by
  obtain ⟨s, h1, h2, h3⟩ := hs
  simp only [siteCall, List.cons.injEq, and_true] at h1 h2
  refine ⟨h1.trans h2.symm, ?_⟩
  simp only [siteCall, Mpo.normalize] at h3
  by_cases ha : GenTypes.negFirst K a = true <;> by_cases hb : GenTypes.negFirst K b = true
  · simp only [ha, hb, if_true, Prod.mk.injEq, List.cons.injEq, and_true] at h3
    left; intro x y
    have := congrFun (congrFun h3.2 x) y
    rw [h.tneg, h.tneg] at this
    exact neg_injective this
  · simp only [ha, hb, if_true, Prod.mk.injEq, List.cons.injEq, and_true, if_false] at h3
    right; intro x y
    have := congrFun (congrFun h3.2 x) y
    rw [h.tneg] at this
    have this : -a x y = b x y := this
    rw [← this, neg_neg]
  · simp only [ha, hb, if_true, Prod.mk.injEq, List.cons.injEq, and_true, if_false] at h3
    right; intro x y
    have := congrFun (congrFun h3.2 x) y
    rw [h.tneg] at this
    exact this
  · simp only [ha, hb, Prod.mk.injEq, List.cons.injEq, and_true, if_false] at h3
    left; intro x y
    exact congrFun (congrFun h3.2 x) y

end

theorem hubOn_diff [CharZero K] (im : K) (sym : Sym) {k k' : HubOn}
    (h : (∀ x y, k.op (hubOps im (hubSite sym)) x y = k'.op (hubOps im (hubSite sym)) x y) ∨
      ∀ x y, k.op (hubOps im (hubSite sym)) x y = -k'.op (hubOps im (hubSite sym)) x y) : k = k' := by
  have v : ∀ k : HubOn, k.op (hubOps im (hubSite sym)) (hubSite sym).dbl (hubSite sym).dbl = (match k with
      | .dbl => 1 | .n => 2 | .n2 => 4 | .nup => 1 | .ndn => 1 | .sz => 0 : K) ∧
    k.op (hubOps im (hubSite sym)) (hubSite sym).up (hubSite sym).up = (match k with
      | .dbl => 0 | .n => 1 | .n2 => 1 | .nup => 1 | .ndn => 0 | .sz => 2⁻¹ : K) ∧
    k.op (hubOps im (hubSite sym)) (hubSite sym).dn (hubSite sym).dn = (match k with
      | .dbl => 0 | .n => 1 | .n2 => 1 | .nup => 0 | .ndn => 1 | .sz => -2⁻¹ : K) := by
    intro k
    cases sym <;> cases k <;> exact ⟨rfl, rfl, rfl⟩
  obtain ⟨a1, a2, a3⟩ := v k
  obtain ⟨b1, b2, b3⟩ := v k'
  rcases h with h | h
  · have e1 := h (hubSite sym).dbl (hubSite sym).dbl
    have e2 := h (hubSite sym).up (hubSite sym).up
    have e3 := h (hubSite sym).dn (hubSite sym).dn
    rw [a1, b1] at e1; rw [a2, b2] at e2; rw [a3, b3] at e3
    cases k <;> cases k' <;> first | rfl | (exfalso; revert e1 e2 e3; norm_num)
  · have e1 := h (hubSite sym).dbl (hubSite sym).dbl
    have e2 := h (hubSite sym).up (hubSite sym).up
    have e3 := h (hubSite sym).dn (hubSite sym).dn
    rw [a1, b1] at e1; rw [a2, b2] at e2; rw [a3, b3] at e3
    cases k <;> cases k' <;> first | rfl | (exfalso; revert e1 e2 e3; norm_num)

theorem tjOn_diff [CharZero K] (sym : Sym) {k k' : TjOn}
    (h : (∀ x y, k.op (tjOps (K := K) (tjSite sym)) x y = k'.op (tjOps (tjSite sym)) x y) ∨
      ∀ x y, k.op (tjOps (K := K) (tjSite sym)) x y = -k'.op (tjOps (tjSite sym)) x y) : k = k' := by
  have v : ∀ k : TjOn, k.op (tjOps (K := K) (tjSite sym)) (tjSite sym).up (tjSite sym).up = (match k with
      | .n => 1 | .nup => 1 | .ndn => 0 | .sz => 2⁻¹ : K) ∧
    k.op (tjOps (K := K) (tjSite sym)) (tjSite sym).dn (tjSite sym).dn = (match k with
      | .n => 1 | .nup => 0 | .ndn => 1 | .sz => -2⁻¹ : K) := by
    intro k
    cases sym <;> cases k <;> exact ⟨rfl, rfl⟩
  obtain ⟨a2, a3⟩ := v k
  obtain ⟨b2, b3⟩ := v k'
  rcases h with h | h
  · have e2 := h (tjSite sym).up (tjSite sym).up
    have e3 := h (tjSite sym).dn (tjSite sym).dn
    rw [a2, b2] at e2; rw [a3, b3] at e3
    cases k <;> cases k' <;> first | rfl | (exfalso; revert e2 e3; norm_num)
  · have e2 := h (tjSite sym).up (tjSite sym).up
    have e3 := h (tjSite sym).dn (tjSite sym).dn
    rw [a2, b2] at e2; rw [a3, b3] at e3
    cases k <;> cases k' <;> first | rfl | (exfalso; revert e2 e3; norm_num)

end Verif.Fock
