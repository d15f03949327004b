import Verif.Mps.InstE
import Verif.Mps.NormFacts
import Verif.Props.MpsCano
import Mathlib.LinearAlgebra.Matrix.Trace
import Mathlib.LinearAlgebra.Matrix.ConjTranspose
import Mathlib.Data.Real.Sqrt
import Mathlib.Data.Real.Star
/-
C65: the operator represented by a `FiniteMPO`, and the truth of its flags and centre.

Specification vocabulary: an operator on `N` sites is a matrix over the configurations `Fin N → σ`; `amp`, `LeftIso`, `RightIso`, `Linked`
are those of Verif/Mps/Tensor.lean.
-/
namespace Verif.Props
open Verif.Mps Finset

variable {σ K : Type} [CommRing K] {N : Nat}

/-- The operator of a chain of MPO tensors: row = configuration of the outgoing legs, column = of the incoming legs. -/
def opMat (N : Nat) (ts : List (Ten (σ × σ) K)) : Matrix (Fin N → σ) (Fin N → σ) K :=
  fun s s' => amp ts (List.ofFn fun i => (s i, s' i)) 0 0

/-- The object has a tensor at each of its `N` sites, neighbours share their bonds, the two outer bonds are trivial, and the chain is the
operator `O`. -/
def IsOp (m : FMpo σ K) (O : Matrix (Fin N → σ) (Fin N → σ) K) : Prop :=
  ∃ ts : List (Ten (σ × σ) K), m.slots = ts.map some ∧ ts.length = N ∧ Linked ts ∧ headL ts = 1 ∧ lastR ts = 1 ∧ m.flags.length = N ∧
    opMat N ts = O

/-- No bond has dimension zero. -/
def NoZeroBond (m : FMpo σ K) : Prop := ∀ (i : Nat) (t : Ten (σ × σ) K), m.slots[i]? = some (some t) → 0 < t.l

/-- `GetCenter()` is −1 or a site. -/
def CenterOk (m : FMpo σ K) : Prop := m.center = -1 ∨ ∃ i : Nat, i < m.size ∧ m.center = (i : Int)

theorem IsOp.rep {m : FMpo σ K} {O : Matrix (Fin N → σ) (Fin N → σ) K} (h : IsOp m O) :
    ∃ ts : List (Ten (σ × σ) K), Rep m ts ∧ ts.length = N ∧ headL ts = 1 ∧ lastR ts = 1 ∧ opMat N ts = O := by
  obtain ⟨ts, a, b, c, d, e, f, g⟩ := h
  exact ⟨ts, ⟨a, by rw [f, b], c⟩, b, d, e, g⟩

theorem IsOp.mk' {m : FMpo σ K} {ts : List (Ten (σ × σ) K)} {O : Matrix (Fin N → σ) (Fin N → σ) K} (hr : Rep m ts)
    (hN : ts.length = N) (h1 : headL ts = 1) (h2 : lastR ts = 1) (ho : opMat N ts = O) : IsOp m O :=
  ⟨ts, hr.slots, hN, hr.link, h1, h2, by rw [hr.flen, hN], ho⟩

theorem ne_nil_of_pos {ts : List (Ten (σ × σ) K)} (h : headL ts = 1) : ts ≠ [] := by
  intro e; rw [e] at h; simp [headL] at h

/-! ### The operator -/

/-- **C65, product.** `MpoProduct(a, b, out)` without compression puts the matrix product of the two operators (first operand on the left) into
`out`, whatever `out` held; all flags become NONE and the centre −1. -/
theorem C65_product [Fintype σ] {a b out : FMpo σ K} {A B : Matrix (Fin N → σ) (Fin N → σ) K} (ha : IsOp a A) (hb : IsOp b B)
    (za : NoZeroBond a) (zb : NoZeroBond b) (hs : out.size = N) (hf : out.flags.length = N) :
    ∃ o, FMpo.product a b out = .ok o ∧ IsOp o (A * B) ∧ o.flags = List.replicate N .none ∧ o.center = -1 := by
  obtain ⟨ts, ra, rfl, a1, a2, rfl⟩ := ha.rep
  obtain ⟨us, rb, hl, b1, b2, rfl⟩ := hb.rep
  have hn := ne_nil_of_pos a1
  have hn' := ne_nil_of_pos b1
  have pos : ∀ {m : FMpo σ K} {ts : List (Ten (σ × σ) K)}, Rep m ts → NoZeroBond m → ∀ t ∈ ts, 0 < t.l := by
    intro m ts r z t ht
    obtain ⟨i, hi⟩ := List.getElem?_of_mem ht
    exact z i t (r.get hi)
  have e := product_eq ra.slots rb.slots hl hs hf (List.length_pos_iff.mpr hn) (pos ra za) (pos rb zb)
  refine ⟨_, e, ?_, rfl, rfl⟩
  refine IsOp.mk' (ts := List.zipWith prodTen ts us) ⟨rfl, by simp [hl], prod_linked _ _ hl.symm ra.link rb.link⟩ (by simp [hl]) ?_ ?_ ?_
  · match ts, us, hn, hn' with
    | t :: ts, u :: us, _, _ =>
      have x : t.l = 1 := a1
      have y : u.l = 1 := b1
      show t.l * u.l = 1
      rw [x, y]
  · rw [prod_lastR _ _ hl.symm, a2, b2]
  · funext s s'
    have o1 : outR 1 ts = 1 := by rw [outR_eq _ _ hn, a2]
    have o2 : outR 1 us = 1 := by rw [outR_eq _ _ hn', b2]
    have hh : ∀ {ts : List (Ten (σ × σ) K)}, headL ts = 1 → ∀ t, ts.head? = some t → t.l = 1 := by
      intro ts h t ht
      cases ts with
      | nil => simp at ht
      | cons u us => simp at ht; subst ht; exact h
    have := prod_amp ts us ts.length 1 1 rfl hl ra.link rb.link (hh a1) (hh b1) s s' 0 0 (by omega) (by rw [o1, o2]; omega)
    simp only [Nat.zero_div, Nat.zero_mod] at this
    exact this

/-- **C65, product into an operand.** `MpoProduct(a, b, a)` clears its first operand before reading it: undefined behaviour. -/
theorem C65_product_in_place [Fintype σ] {a b : FMpo σ K} {A B : Matrix (Fin N → σ) (Fin N → σ) K} (ha : IsOp a A) (hb : IsOp b B)
    (hN : 0 < N) : FMpo.productInPlace a b = .error .ub := by
  obtain ⟨ts, ra, rfl, a1, a2, rfl⟩ := ha.rep
  obtain ⟨us, rb, hl, b1, b2, rfl⟩ := hb.rep
  refine productInPlace_eq (by rw [ra.flen, ra.slots]; simp) (by rw [ra.slots]; simpa using hN) (by rw [ra.slots, rb.slots]; simp [hl]) ?_
  intro i hi
  rw [rb.slots] at hi ⊢
  simp at hi
  exact ⟨us[i], by simp [hi]⟩

/-- **C65, identity.** `GenerateIdentityMPO(sample)` is the identity operator on the sites of the sample. -/
theorem C65_identity [DecidableEq σ] {S : FMpo σ K} {O : Matrix (Fin N → σ) (Fin N → σ) K} (hS : IsOp S O) :
    ∃ o, FMpo.identity S = .ok o ∧ IsOp o (1 : Matrix (Fin N → σ) (Fin N → σ) K) ∧ o.flags = List.replicate N .none ∧ o.center = -1 := by
  obtain ⟨ts, r, rfl, a1, a2, rfl⟩ := hS.rep
  refine ⟨_, identity_eq r.slots (by omega), ?_, rfl, rfl⟩
  have hpos : 0 < ts.length := List.length_pos_iff.mpr (ne_nil_of_pos a1)
  rw [a1]
  refine IsOp.mk' (ts := List.replicate ts.length ⟨1, 1, fun s a b => if a = 0 ∧ b = 0 ∧ s.1 = s.2 then 1 else 0⟩) ⟨by simp, by simp, ?_⟩
    (by simp) ?_ ?_ ?_
  · unfold Linked
    exact List.isChain_replicate_of_rel _ rfl
  · obtain ⟨n, hn⟩ : ∃ n, ts.length = n + 1 := ⟨ts.length - 1, by omega⟩
    rw [hn, List.replicate_succ]; rfl
  · obtain ⟨n, hn⟩ : ∃ n, ts.length = n + 1 := ⟨ts.length - 1, by omega⟩
    rw [hn, List.replicate_succ']
    simp [lastR]
  · funext s s'
    rw [Matrix.one_apply]
    exact identity_amp 1 (by omega) ts.length s s'

theorem opMat_smul {ts us : List (Ten (σ × σ) K)} {c : K} (h : ∀ ss, ss.length = N → amp us ss 0 0 = c * amp ts ss 0 0) :
    opMat N us = c • opMat N ts := by
  funext s s'
  exact h _ (by simp)

/-- **C65, scaling.** `Scale(c)` and `*= c` multiply the operator by `c` and keep the centre. -/
theorem C65_scale {m : FMpo σ K} {O : Matrix (Fin N → σ) (Fin N → σ) K} (h : IsOp m O) (hc : CenterOk m) (c : K) :
    ∃ m', FMpo.scale m c = .ok m' ∧ IsOp m' (c • O) ∧ m'.center = m.center := by
  obtain ⟨ts, r, rfl, a1, a2, rfl⟩ := h.rep
  obtain ⟨i, t, hi, ht, -, -, e⟩ := scale_eq r (ne_nil_of_pos a1) c (by simpa [CenterOk, FMps.size, r.slots] using hc)
  obtain ⟨l1, l2, l3⟩ := linked_set_same (u := scaleTen c t) r.link ht rfl rfl
  exact ⟨_, e, IsOp.mk' ⟨rfl, by simp [r.flen], l1⟩ (by simp) (l2.trans a1) (l3.trans a2)
    (opMat_smul fun ss _ => amp_scale_set c i ts t ht ss 0 0), rfl⟩

/-- **C65, `MpoAllScale(c)`** multiplies every tensor: the operator is multiplied by `c ^ N`. -/
theorem C65_all_scale {m : FMpo σ K} {O : Matrix (Fin N → σ) (Fin N → σ) K} (h : IsOp m O) (c : K) :
    ∃ m', FMpo.allScale m c = .ok m' ∧ IsOp m' (c ^ N • O) ∧ m'.center = m.center ∧ m'.flags = m.flags := by
  obtain ⟨ts, r, rfl, a1, a2, rfl⟩ := h.rep
  refine ⟨⟨m.slots.map (Option.map (scaleTen c)), m.flags, m.center⟩, ?_, ?_, rfl, rfl⟩
  · unfold FMpo.allScale
    rw [if_pos (by rw [r.slots]; simp)]
  · refine IsOp.mk' (ts := ts.map (scaleTen c)) ⟨by simp [r.slots, Function.comp_def], by simp [r.flen], ?_⟩ (by simp) ?_ ?_ ?_
    · have := r.link
      unfold Linked at this ⊢
      rw [List.isChain_map]
      exact this
    · cases ts with
      | nil => exact a1
      | cons t ts => exact a1
    · rw [← a2]
      unfold lastR
      rw [List.getLast?_map]
      cases ts.getLast? <;> rfl
    · exact opMat_smul fun ss hs => amp_scale_all c ts ss 0 0 hs

/-- **C65, sum.** For at least two sites `a += b` makes `a` the sum; flags become NONE and the centre −1. -/
theorem C65_add {a b : FMpo σ K} {A B : Matrix (Fin N → σ) (Fin N → σ) K} (ha : IsOp a A) (hb : IsOp b B) (h2 : 2 ≤ N) :
    ∃ a', FMpo.addAssign a b = .ok a' ∧ IsOp a' (A + B) ∧ a'.flags = List.replicate N .none ∧ a'.center = -1 := by
  obtain ⟨ts, ra, rfl, a1, a2, rfl⟩ := ha.rep
  obtain ⟨us, rb, hl, b1, b2, rfl⟩ := hb.rep
  obtain ⟨k1, k2, k3⟩ := addAll_linked hl.symm h2 ra.link rb.link
  refine ⟨_, addAssign_eq ra.slots rb.slots hl.symm ra.flen h2 (by rw [a1, b1]) (by rw [a2, b2]), ?_, rfl, rfl⟩
  refine IsOp.mk' (ts := addAll ts us) ⟨rfl, by simp [addAll_length hl.symm], k1⟩ (addAll_length hl.symm) (k2.trans a1) (k3.trans a2) ?_
  funext s s'
  exact addAll_amp hl.symm h2 ra.link rb.link (by rw [a2, b2]) _ 0 0 (by rw [a2]; omega)

/-- **C65, sum with itself.** `a += a` doubles the operator although every tensor is replaced while it is read. -/
theorem C65_add_self {a : FMpo σ K} {A : Matrix (Fin N → σ) (Fin N → σ) K} (ha : IsOp a A) (h2 : 2 ≤ N) :
    ∃ a', FMpo.addSelf a = .ok a' ∧ IsOp a' (A + A) ∧ a'.flags = List.replicate N .none ∧ a'.center = -1 := by
  obtain ⟨ts, ra, rfl, a1, a2, rfl⟩ := ha.rep
  obtain ⟨k1, k2, k3⟩ := addAll_linked (us := ts) rfl h2 ra.link ra.link
  refine ⟨_, addSelf_eq ra.slots ra.flen h2, ?_, rfl, rfl⟩
  refine IsOp.mk' (ts := addAll ts ts) ⟨rfl, by simp [addAll_length rfl], k1⟩ (addAll_length rfl) (k2.trans a1) (k3.trans a2) ?_
  funext s s'
  exact addAll_amp rfl h2 ra.link ra.link rfl _ 0 0 (by rw [a2]; omega)

/-- **C65 is false of `+=` on a single site:** the result has an outer right bond of dimension two whose first component is the left operand; the right
operand is lost. -/
theorem C65_add_single_site_violation {a b : FMpo σ K} {A B : Matrix (Fin 1 → σ) (Fin 1 → σ) K} (ha : IsOp a A) (hb : IsOp b B) :
    ∃ a' t, FMpo.addAssign a b = .ok a' ∧ a'.slots = [some t] ∧ t.r = 2 ∧ opMat 1 [t] = A := by
  obtain ⟨ts, ra, hl, a1, a2, rfl⟩ := ha.rep
  obtain ⟨us, rb, hl', b1, b2, rfl⟩ := hb.rep
  match ts, us, hl, hl' with
  | [t], [u], _, _ =>
    have at1 : t.l = 1 := a1
    have ut1 : u.l = 1 := b1
    have at2 : t.r = 1 := by simpa [lastR] using a2
    have ut2 : u.r = 1 := by simpa [lastR] using b2
    have sa : a.slots = [some t] := ra.slots
    have sb : b.slots = [some u] := rb.slots
    have ex : expand false true t u = .ok (expTen false true t u) := expand_ok (Or.inr (by rw [at1, ut1])) (Or.inl rfl)
    have key := addStep_eq (N := 1) (a := a) (b := b) (i := 0) (t := t) (u := u) (by rw [sa]; rfl) (by rw [sb]; rfl) ex
    refine ⟨⟨a.slots.set 0 (some (expTen false true t u)), a.flags.set 0 .none, -1⟩, expTen false true t u, ?_, by rw [sa]; rfl, ?_, ?_⟩
    · unfold FMpo.addAssign
      have s1 : a.size = 1 := by simp [FMps.size, sa]
      have s2 : b.size = 1 := by simp [FMps.size, sb]
      rw [if_pos (by rw [s1, s2]), s1]
      show (FMpo.addStep 1 b a 0 >>= fun s' => List.foldlM (FMpo.addStep 1 b) s' []) = _
      rw [key]
      rfl
    · simp [expTen, at2, ut2]
    · funext s s'
      show amp [expTen false true t u] _ 0 0 = amp [t] _ 0 0
      simp [amp, expTen, at2, ut2, at1]

/-- **C65, trace.** `Trace()` is the trace of the operator; it leaves the tensors alone but discards all flags and the centre. -/
theorem C65_trace [Fintype σ] [DecidableEq σ] {m : FMpo σ K} {O : Matrix (Fin N → σ) (Fin N → σ) K} (h : IsOp m O) :
    FMpo.trace m = .ok (⟨m.slots, List.replicate N .none, -1⟩, Matrix.trace O) := by
  obtain ⟨ts, r, rfl, a1, a2, rfl⟩ := h.rep
  rw [trace_eq r (ne_nil_of_pos a1) (by omega) (by omega)]
  rfl

/-- **C65, `Centralize(t)`** keeps the operator after every history of calls (`Load` and `MpoAllScale` included); afterwards the centre is `t` and the flags are the
mixed-canonical ones. -/
theorem C65_centralize [StarRing K] [Fintype σ] [DecidableEq σ] {qr svd tsvd : Ten (σ × σ) K → Ten (σ × σ) K × Mat K}
    {nrm : Ten (σ × σ) K → K × Ten (σ × σ) K} {terr : Ten (σ × σ) K → K} (H : QRSpec qr) (H' : SVDSpec svd) {cs : List (MpoCall σ K)}
    {m : FMpo σ K} (hist : FMpo.history qr svd nrm tsvd terr N cs = .ok m) {O : Matrix (Fin N → σ) (Fin N → σ) K} (h : IsOp m O) {t : Nat} (ht : t < N) :
    ∃ m', FMpo.centralize qr svd m t = .ok m' ∧ IsOp m' O ∧ m'.center = t ∧ m'.flags = mixedFlags N t := by
  obtain ⟨ts, r, rfl, a1, a2, rfl⟩ := h.rep
  obtain ⟨m', ts', e, r', q, c, f, -⟩ := mpoCentralize_rep H H' r (mpo_history_inv hist).1 ht
  refine ⟨m', e, IsOp.mk' r' q.len (q.head.trans a1) (q.last.trans a2) ?_, c, ?_⟩
  · funext s s'
    exact q.amp _ 0 0 (by rw [a1]; omega)
  · apply List.ext_getElem?
    intro j
    by_cases hj : j < ts.length
    · rw [f j hj]; simp [mixedFlags, hj]
    · rw [List.getElem?_eq_none (by rw [r'.flen, q.len]; omega), List.getElem?_eq_none (by simp [mixedFlags]; omega)]

/-! ### Flags and centre over all histories -/

/-- **C65, flags.** After every history of calls on a new object (assignments through the access operators, canonicalisations, centralisations, scaling,
normalisation, sums, traces, truncations; not `Load`, not `MpoAllScale`) a tensor reported LEFT or RIGHT is a left or right isometry, and a reported centre is a site of
the object around which the flags are mixed-canonical. -/
theorem C65_flags_truthful [StarRing K] [Fintype σ] [DecidableEq σ] {qr svd tsvd : Ten (σ × σ) K → Ten (σ × σ) K × Mat K}
    {nrm : Ten (σ × σ) K → K × Ten (σ × σ) K} {terr : Ten (σ × σ) K → K} (H : QRSpec qr) (H' : SVDSpec svd) (H'' : TruncSpec tsvd terr)
    {n : Nat} {cs : List (MpoCall σ K)} {m : FMpo σ K} (hist : FMpo.history qr svd nrm tsvd terr n cs = .ok m)
    (noLoad : ∀ c ∈ cs, ∀ d, c ≠ .loadDir d) (noAll : ∀ c ∈ cs, ∀ k, c ≠ .allScale k) :
    (∀ (i : Nat) (t : Ten (σ × σ) K), m.slots[i]? = some (some t) →
      (m.flags[i]? = some .left → LeftIso t) ∧ (m.flags[i]? = some .right → RightIso t)) ∧
    (m.center ≠ -1 → ∃ c, c < n ∧ m.center = (c : Int) ∧ m.flags = mixedFlags n c) := by
  have tr : ∀ c ∈ cs, c.tracked := by
    intro c hc
    have h1 := noLoad c hc
    have h2 := noAll c hc
    cases c with
    | loadDir d => exact absurd rfl (h1 d)
    | allScale k => exact absurd rfl (h2 k)
    | _ => trivial
  obtain ⟨hi, ht, hc, hn⟩ := mpo_history H H' H'' tr hist
  refine ⟨ht, fun h => ?_⟩
  rcases hc with hc | ⟨c, h1, h2, h3⟩
  · exact absurd hc h
  · refine ⟨c, by omega, h2, ?_⟩
    apply List.ext_getElem?
    intro j
    have hs : m.slots.length = n := hn
    by_cases hj : j < n
    · rw [h3 j (by omega)]; simp [mixedFlags, hj]
    · rw [List.getElem?_eq_none (by rw [hi.flen, hs]; omega), List.getElem?_eq_none (by simp [mixedFlags]; omega)]

theorem sum_pairs [Fintype σ] {M : Type} [AddCommMonoid M] (N : Nat) (f : (Fin N → σ × σ) → M) :
    ∑ p, f p = ∑ s : Fin N → σ, ∑ s' : Fin N → σ, f (fun i => (s i, s' i)) := by
  rw [← (Equiv.arrowProdEquivProdArrow (Fin N) (fun _ => σ) (fun _ => σ)).symm.sum_comp, Fintype.sum_prod_type]
  rfl

/-- The squared Frobenius norm of the operator is the squared norm of the chain. -/
theorem frob_chain [StarRing K] [Fintype σ] (ts : List (Ten (σ × σ) K)) :
    Matrix.trace (opMat ts.length ts * (opMat ts.length ts).conjTranspose) = chainSq ts := by
  unfold chainSq Matrix.trace
  rw [sum_pairs]
  refine sum_congr rfl fun s _ => ?_
  rw [Matrix.diag_apply, Matrix.mul_apply]
  rfl

/-- A normalisation of the tensor library leaves a tensor of norm one, unless the tensor was zero. -/
def NormUnit {τ K : Type} [CommRing K] [StarRing K] [Fintype τ] (nrm : Ten τ K → K × Ten τ K) : Prop :=
  ∀ t, normSq t ≠ 0 → normSq (nrm t).2 = 1

/-- **C65, normalisation.** `Normalize()` returns a number `n` and leaves an operator `O'` with `n • O' = O`. -/
theorem C65_normalize {nrm : Ten (σ × σ) K → K × Ten (σ × σ) K} (Hn : NormSpec nrm)
    {m : FMpo σ K} {O : Matrix (Fin N → σ) (Fin N → σ) K} (h : IsOp m O) (hc : CenterOk m) :
    ∃ m' n O', FMpo.normalize nrm m = .ok (m', n) ∧ IsOp m' O' ∧ n • O' = O ∧ m'.center = m.center := by
  obtain ⟨ts, r, rfl, a1, a2, rfl⟩ := h.rep
  obtain ⟨i, t, hi, ht, -, -, e⟩ := normalize_eq (nrm := nrm) r (ne_nil_of_pos a1) (by simpa [CenterOk, FMps.size, r.slots] using hc)
  obtain ⟨l1, l2, l3⟩ := linked_set_same (u := (nrm t).2) r.link ht (Hn.dim t).1 (Hn.dim t).2
  refine ⟨_, _, opMat ts.length (ts.set i (nrm t).2), e, IsOp.mk' ⟨rfl, by simp [r.flen], l1⟩ (by simp) (l2.trans a1) (l3.trans a2) rfl, ?_, rfl⟩
  refine (opMat_smul fun ss _ => ?_).symm
  have hg : (ts.set i (nrm t).2)[i]? = some (nrm t).2 := List.getElem?_set_self (by omega)
  have key := amp_scale_set (nrm t).1 i (ts.set i (nrm t).2) (nrm t).2 hg ss 0 0
  rw [List.set_set, show scaleTen (nrm t).1 (nrm t).2 = t from ?_] at key
  · rw [← key]
    congr 1
    exact (List.ext_getElem? fun j => by
      rw [List.getElem?_set]
      split
      · rename_i hj; subst hj; exact ht
      · rfl)
  · have d := Hn.dim t
    have f := Hn.fac t
    cases t with
    | mk l r v =>
      simp only [scaleTen, d.1, d.2]
      congr 1
      funext s a b
      exact (f s a b).symm

/-- **C65, normalisation of a centralised operator.** When the object has been produced by calls that keep the flags (not `Load`, not `MpoAllScale`), reports a centre and
the operator is not zero, `Normalize()` leaves an operator of Frobenius norm one. -/
theorem C65_normalize_unit [StarRing K] [Fintype σ] [DecidableEq σ] {qr svd tsvd : Ten (σ × σ) K → Ten (σ × σ) K × Mat K}
    {nrm : Ten (σ × σ) K → K × Ten (σ × σ) K} {terr : Ten (σ × σ) K → K} (H : QRSpec qr) (H' : SVDSpec svd) (H'' : TruncSpec tsvd terr)
    (Hn : NormSpec nrm) (Hu : NormUnit nrm) {cs : List (MpoCall σ K)} {m : FMpo σ K}
    (hist : FMpo.history qr svd nrm tsvd terr N cs = .ok m) (noLoad : ∀ c ∈ cs, ∀ d, c ≠ .loadDir d) (noAll : ∀ c ∈ cs, ∀ k, c ≠ .allScale k)
    {O : Matrix (Fin N → σ) (Fin N → σ) K} (h : IsOp m O) (hc : m.center ≠ -1) (h0 : Matrix.trace (O * O.conjTranspose) ≠ 0) :
    ∃ m' n O', FMpo.normalize nrm m = .ok (m', n) ∧ IsOp m' O' ∧ n • O' = O ∧ Matrix.trace (O' * O'.conjTranspose) = 1 := by
  obtain ⟨T, C⟩ := C65_flags_truthful H H' H'' hist noLoad noAll
  obtain ⟨c, h1, h2, h3⟩ := C hc
  obtain ⟨ts, r, rfl, a1, a2, rfl⟩ := h.rep
  have cok : m.center = -1 ∨ ∃ i, i < ts.length ∧ m.center = (i : Int) := Or.inr ⟨c, h1, h2⟩
  obtain ⟨m', n, O', e, io, hO, -⟩ := C65_normalize Hn h (by simpa [CenterOk, FMps.size, r.slots] using cok)
  obtain ⟨i, t, hi, ht, -, hci, e'⟩ := normalize_eq (nrm := nrm) r (ne_nil_of_pos a1) cok
  have hic : i = c := by have := hci hc; omega
  subst hic
  rw [e'] at e
  have em : m' = ⟨(ts.set i (nrm t).2).map some, m.flags.set i .none, m.center⟩ := by cases e; rfl
  refine ⟨m', n, O', by rw [e', e], io, hO, ?_⟩
  obtain ⟨us, ru, hul, u1, u2, rfl⟩ := io.rep
  have hus : us = ts.set i (nrm t).2 := by
    have := ru.slots
    rw [em] at this
    exact (List.map_injective_iff.mpr (Option.some_injective _) this).symm
  have hL : ∀ j u, j < i → ts[j]? = some u → LeftIso u := fun j u hj hu => by
    refine (T j u (r.get hu)).1 ?_
    rw [h3]; simp [mixedFlags, hj, show j < ts.length by omega]
  have hR : ∀ j u, i < j → ts[j]? = some u → RightIso u := fun j u hj hu => by
    have hj' : j < ts.length := (List.getElem?_eq_some_iff.mp hu).1
    refine (T j u (r.get hu)).2 ?_
    rw [h3]; simp [mixedFlags, hj, hj', show ¬ j < i by omega]
  rw [frob_chain, chainSq_center a1 a2 r.link ht hL hR] at h0
  have hul' : us.length = ts.length := hul
  rw [← hul', frob_chain, chainSq_center u1 u2 ru.link (i := i) (t := (nrm t).2) (by rw [hus]; exact List.getElem?_set_self hi) ?_ ?_]
  · exact Hu t h0
  · intro j u hj hu
    rw [hus, List.getElem?_set_ne (by omega)] at hu
    exact hL j u hj hu
  · intro j u hj hu
    rw [hus, List.getElem?_set_ne (by omega)] at hu
    exact hR j u hj hu

/-! ### Violations and round trip -/

/-- A one-dimensional MPO tensor on a one-dimensional site with the given entry. -/
def oneTen (x : K) : Ten (Unit × Unit) K := ⟨1, 1, fun _ _ _ => x⟩

/-- **C65 is false without a centre:** on a two-site object that is not centralised `Normalize()` only normalises the first tensor. Whatever the normalisation routine,
the result of normalising the operator `(2)` written as `1·2` has squared Frobenius norm 4. -/
theorem C65_normalize_uncentred_violation {nrm : Ten (Unit × Unit) ℝ → ℝ × Ten (Unit × Unit) ℝ} (Hn : NormSpec nrm) (Hu : NormUnit nrm)
    (qr svd tsvd : Ten (Unit × Unit) ℝ → Ten (Unit × Unit) ℝ × Mat ℝ) (terr : Ten (Unit × Unit) ℝ → ℝ) :
    ∃ m m' n O', FMpo.history qr svd nrm tsvd terr 2 [.write 0 (oneTen 1), .write 1 (oneTen 2)] = .ok m ∧
      IsOp (N := 2) m (fun _ _ => 2) ∧ FMpo.normalize nrm m = .ok (m', n) ∧ IsOp (N := 2) m' O' ∧ Matrix.trace (O' * O'.conjTranspose) = 4 := by
  have io : IsOp (N := 2) (σ := Unit) (K := ℝ) ⟨[some (oneTen 1), some (oneTen 2)], [.none, .none], -1⟩ (fun _ _ => 2) := by
    refine ⟨[oneTen 1, oneTen 2], rfl, rfl, linked_mk rfl (List.IsChain.singleton _), rfl, rfl, rfl, ?_⟩
    funext s s'
    simp [opMat, amp, oneTen, List.ofFn_succ]
  have d := Hn.dim (oneTen 1)
  have f := Hn.fac (oneTen 1)
  have n1 : normSq (oneTen (1 : ℝ)) = 1 := by simp [normSq, oneTen]
  have u := Hu (oneTen 1) (by rw [n1]; exact one_ne_zero)
  refine ⟨⟨[some (oneTen 1), some (oneTen 2)], [.none, .none], -1⟩, ⟨[some (nrm (oneTen 1)).2, some (oneTen 2)], [.none, .none], -1⟩, (nrm (oneTen 1)).1,
    opMat 2 [(nrm (oneTen 1)).2, oneTen 2], rfl, io, rfl, ⟨[(nrm (oneTen 1)).2, oneTen 2], rfl, rfl, linked_mk d.2 (List.IsChain.singleton _), d.1, rfl, rfl, rfl⟩, ?_⟩
  refine (frob_chain [(nrm (oneTen (1 : ℝ))).2, oneTen 2]).trans ?_
  have d1 : (nrm (oneTen (1 : ℝ))).2.l = 1 := d.1
  have d2 : (nrm (oneTen (1 : ℝ))).2.r = 1 := d.2
  rw [normSq] at u
  simp only [d1, d2, sum_range_one, Fintype.sum_prod_type, univ_unique, sum_singleton, star_trivial] at u
  unfold chainSq
  rw [sum_pairs]
  simp only [univ_unique, sum_singleton, star_trivial]
  have e : ∀ s s' : Fin [(nrm (oneTen (1 : ℝ))).2, oneTen 2].length → Unit,
      amp [(nrm (oneTen (1 : ℝ))).2, oneTen 2] (List.ofFn fun i => (s i, s' i)) 0 0 = (nrm (oneTen (1 : ℝ))).2.v default 0 0 * 2 := by
    intro s s'
    show amp [(nrm (oneTen (1 : ℝ))).2, oneTen 2] [(s 0, s' 0), (s 1, s' 1)] 0 0 = _
    rw [amp_cons, d2, sum_range_one]
    congr 1
    simp [amp, oneTen]
  rw [e]
  linarith [u]

/-- **C65 is false after `MpoAllScale`:** it scales the tensors behind the back of the flags. A centralised two-site operator scaled by 2 still reports LEFT for a tensor
that is not an isometry (whatever the decomposition routines, for a decomposition that keeps the bond). -/
theorem C65_all_scale_violation {qr svd tsvd : Ten (Unit × Unit) ℝ → Ten (Unit × Unit) ℝ × Mat ℝ} {terr : Ten (Unit × Unit) ℝ → ℝ}
    {nrm : Ten (Unit × Unit) ℝ → ℝ × Ten (Unit × Unit) ℝ} (H : QRSpec qr) (hq : (qr (oneTen 1)).1.r = 1) :
    ∃ m t, FMpo.history qr svd nrm tsvd terr 2 [.write 0 (oneTen 1), .write 1 (oneTen 2), .centralize 1, .allScale 2] = .ok m ∧
      m.center = 1 ∧ m.flags = [.left, .none] ∧ m.slots[0]? = some (some t) ∧ ¬ LeftIso t := by
  refine ⟨⟨[some (scaleTen 2 (qr (oneTen 1)).1), some (scaleTen 2 (mulL (qr (oneTen 1)).2 (qr (oneTen 1)).1.r (oneTen 2)))], [.left, .none], 1⟩,
    scaleTen 2 (qr (oneTen 1)).1, rfl, rfl, rfl, rfl, ?_⟩
  intro h
  have h1 := h 0 (by simp [scaleTen, hq]) 0 (by simp [scaleTen, hq])
  have h2 := H.iso (oneTen 1) 0 (by rw [hq]; omega) 0 (by rw [hq]; omega)
  have hd : (qr (oneTen (1 : ℝ))).1.l = 1 := H.dim _
  simp only [scaleTen, hd, sum_range_one, Fintype.sum_prod_type, univ_unique, sum_singleton, star_trivial, if_true] at h1 h2
  nlinarith

theorem loadLoop (d : MpoDir σ K) (ts : List (Ten (σ × σ) K)) (fl : List Cano) (c : Int) (hd : ∀ i t, ts[i]? = some t → d.tens i = some t) :
    ∀ (n i : Nat) (sl : List (Option (Ten (σ × σ) K))), sl.length = ts.length → i + n = ts.length → (∀ j, j < i → sl[j]? = (ts.map some)[j]?) →
      (List.range' i n).foldlM (FMpo.loadStep d) ⟨sl, fl, c⟩ = .ok ⟨ts.map some, fl, c⟩
  | 0, i, sl, hl, hi, hp => by
    have : sl = ts.map some := List.ext_getElem? fun j => by
      by_cases hj : j < i
      · exact hp j hj
      · rw [List.getElem?_eq_none (by omega), List.getElem?_eq_none (by simp; omega)]
    rw [this]; rfl
  | n + 1, i, sl, hl, hi, hp => by
    have hi' : i < ts.length := by omega
    rw [List.range'_succ, List.foldlM_cons]
    have st : FMpo.loadStep d ⟨sl, fl, c⟩ i = .ok ⟨sl.set i (some ts[i]), fl, c⟩ := by
      unfold FMpo.loadStep
      rw [hd i ts[i] (List.getElem?_eq_getElem hi')]
      show FMps.load _ i ts[i] = _
      unfold FMps.load
      exact if_pos (show i < sl.length by omega)
    rw [st]
    refine loadLoop d ts fl c hd n (i + 1) _ (by simp [hl]) (by omega) fun j hj => ?_
    rw [List.getElem?_set]
    split
    · rename_i h; subst h; rw [if_pos (by omega)]; simp [hi']
    · exact hp j (by omega)

/-- **C65, `Dump` and `Load`.** Dumping a full object whose centre is the one its flags say, and loading the directory into a new object of the same size, gives the same
tensors and the same centre; the flags are those of the centre, and NONE without a centre (flags of a partly canonical object are not stored). -/
theorem C65_dump_load {m : FMpo σ K} {O : Matrix (Fin N → σ) (Fin N → σ) K} (h : IsOp m O) (hc : CenterOk m) (d : MpoDir σ K) :
    ∃ d' m', FMpo.dump m d = .ok d' ∧ FMpo.loadDir (FMpo.fresh N) d' = .ok m' ∧ m'.slots = m.slots ∧ IsOp m' O ∧ m'.center = m.center ∧
      (m.center = -1 → m'.flags = List.replicate N .none) ∧ (∀ c : Nat, m.center = (c : Int) → m'.flags = mixedFlags N c) := by
  obtain ⟨ts, r, rfl, a1, a2, rfl⟩ := h.rep
  have cok : m.center = -1 ∨ ∃ i, i < ts.length ∧ m.center = (i : Int) := by simpa [CenterOk, FMps.size, r.slots] using hc
  obtain ⟨f, e1, hf⟩ : ∃ f, FMpo.dump m d = .ok ⟨f, some m.center⟩ ∧ ∀ i t, m.slots[i]? = some (some t) → f i = some t := by
    unfold FMpo.dump
    rw [if_pos (by rw [r.slots]; simp)]
    exact ⟨_, rfl, fun i t ht => by simp only [ht]⟩
  refine ⟨⟨f, some m.center⟩, ?_⟩
  have e2 := loadLoop ⟨f, some m.center⟩ ts (List.replicate ts.length .none) (-1)
    (fun i t ht => hf i t (r.get ht)) ts.length 0 (List.replicate ts.length Option.none) (by simp) (by omega) (by intro j hj; omega)
  have e3 : FMpo.loadDir (FMpo.fresh ts.length) ⟨f, some m.center⟩ = FMpo.setCenter ⟨ts.map some, List.replicate ts.length .none, m.center⟩ := by
    unfold FMpo.loadDir
    have sz : FMps.size (FMpo.fresh ts.length : FMpo σ K) = ts.length := by simp [FMpo.fresh, FMps.fresh, FMps.size]
    rw [sz, List.range_eq_range']
    rw [show (FMpo.fresh ts.length : FMpo σ K) = ⟨List.replicate ts.length Option.none, List.replicate ts.length .none, -1⟩ from rfl, e2]
    rfl
  rcases cok with hm | ⟨c, hc1, hc2⟩
  · refine ⟨⟨ts.map some, List.replicate ts.length .none, m.center⟩, e1, ?_, r.slots.symm, IsOp.mk' ⟨rfl, by simp, r.link⟩ rfl a1 a2 rfl, rfl, fun _ => rfl,
      fun c h => by omega⟩
    rw [e3]
    unfold FMpo.setCenter
    rw [if_neg (by simp [hm])]
  · refine ⟨⟨ts.map some, mixedFlags ts.length c, m.center⟩, e1, ?_, r.slots.symm, IsOp.mk' ⟨rfl, by simp [mixedFlags], r.link⟩ rfl a1 a2 rfl, rfl, fun h => by omega,
      fun c' h => by rw [show c' = c by omega]⟩
    rw [e3]
    unfold FMpo.setCenter
    have tc : m.center.toNat = c := by omega
    simp only [tc]
    rw [if_pos (by omega), if_neg (by simp; omega)]
    congr 2
    simp only [FMps.size, List.length_map, mixedFlags]
    refine List.map_congr_left fun j _ => ?_
    by_cases h1 : j < c
    · simp [h1]
    · by_cases h2 : j = c
      · simp [h2]
      · simp [h1, h2, show c < j by omega]

/-- **C65 is false after `Load`:** a directory stored with centre −1 leaves the flags of the object as they were, so a loaded tensor can be reported LEFT without being an
isometry. Then `Centralize` keeps it. -/
theorem C65_load_violation {qr svd tsvd : Ten (Unit × Unit) ℝ → Ten (Unit × Unit) ℝ × Mat ℝ} {terr : Ten (Unit × Unit) ℝ → ℝ}
    {nrm : Ten (Unit × Unit) ℝ → ℝ × Ten (Unit × Unit) ℝ} :
    ∃ m, FMpo.history qr svd nrm tsvd terr 2 [.write 0 (oneTen 1), .write 1 (oneTen 2), .centralize 1,
        .loadDir ⟨fun _ => some (oneTen 3), some (-1)⟩, .centralize 1] = .ok m ∧
      m.center = 1 ∧ m.flags = [.left, .none] ∧ m.slots[0]? = some (some (oneTen 3)) ∧ ¬ LeftIso (oneTen (3 : ℝ)) := by
  refine ⟨⟨[some (oneTen 3), some (oneTen 3)], [.left, .none], 1⟩, rfl, rfl, rfl, rfl, ?_⟩
  intro h
  have h1 := h 0 (by simp [oneTen]) 0 (by simp [oneTen])
  simp [oneTen] at h1
  norm_num at h1

/-! ### The hypotheses are met: a two-site operator with a bond of dimension two, over the reals -/

/-- The first site of `X⊗X + 1⊗1` on two spins: bond 0 carries `X`, bond 1 the identity. -/
def exL : Ten (Bool × Bool) ℝ := ⟨1, 2, fun s _ b => if (b = 0) = (s.1 = s.2) then 0 else 1⟩
/-- The second site. -/
def exR : Ten (Bool × Bool) ℝ := ⟨2, 1, fun s a _ => if (a = 0) = (s.1 = s.2) then 0 else 1⟩

/-- The normalisation by the square root. -/
noncomputable def nrmR {τ : Type} [Fintype τ] (t : Ten τ ℝ) : ℝ × Ten τ ℝ :=
  if normSq t = 0 then (1, t) else (Real.sqrt (normSq t), scaleTen (Real.sqrt (normSq t))⁻¹ t)

theorem normSq_nonneg {τ : Type} [Fintype τ] (t : Ten τ ℝ) : 0 ≤ normSq t :=
  sum_nonneg fun _ _ => sum_nonneg fun _ _ => sum_nonneg fun _ _ => by rw [star_trivial]; exact mul_self_nonneg _

theorem nrmR_spec {τ : Type} [Fintype τ] : NormSpec (nrmR (τ := τ)) ∧ NormUnit (nrmR (τ := τ)) := by
  refine ⟨⟨fun t => ?_, fun t s a b => ?_⟩, fun t h => ?_⟩
  · unfold nrmR; split <;> exact ⟨rfl, rfl⟩
  · unfold nrmR
    split
    · simp
    · rename_i h
      have : Real.sqrt (normSq t) ≠ 0 := by rw [Ne, Real.sqrt_eq_zero (normSq_nonneg t)]; exact h
      simp only [scaleTen]
      rw [← mul_assoc, mul_inv_cancel₀ this, one_mul]
  · unfold nrmR
    rw [if_neg h]
    have h1 : Real.sqrt (normSq t) ≠ 0 := by rw [Ne, Real.sqrt_eq_zero (normSq_nonneg t)]; exact h
    have : normSq (scaleTen (Real.sqrt (normSq t))⁻¹ t) = (Real.sqrt (normSq t))⁻¹ * (Real.sqrt (normSq t))⁻¹ * normSq t := by
      unfold normSq
      simp only [mul_sum, scaleTen, star_trivial]
      exact sum_congr rfl fun _ _ => sum_congr rfl fun _ _ => sum_congr rfl fun _ _ => by ring
    show normSq (scaleTen (Real.sqrt (normSq t))⁻¹ t) = 1
    rw [this, ← mul_inv, Real.mul_self_sqrt (normSq_nonneg t), inv_mul_cancel₀ h]

/-- An enumeration of the pairs of spin states. -/
def pairEnum : Bool × Bool ≃ Fin 4 where
  toFun p := ⟨p.1.toNat * 2 + p.2.toNat, by cases p.1 <;> cases p.2 <;> decide⟩
  invFun i := (decide (2 ≤ i.val), decide (i.val % 2 = 1))
  left_inv := by decide
  right_inv := by decide

/-- `X⊗X + 1⊗1` as a two-site object. -/
def exMpo : FMpo Bool ℝ := ⟨[some exL, some exR], [.none, .none], -1⟩

theorem exMpo_op : IsOp (N := 2) exMpo (opMat 2 [exL, exR]) ∧ NoZeroBond exMpo ∧ CenterOk exMpo := by
  refine ⟨⟨[exL, exR], rfl, rfl, linked_mk rfl (List.IsChain.singleton _), rfl, rfl, rfl, rfl⟩, ?_, Or.inl rfl⟩
  intro i t h
  match i with
  | 0 => cases h; exact Nat.one_pos
  | 1 => cases h; exact Nat.two_pos
  | i + 2 => simp [exMpo] at h

/-- The trivial truncation of the reals. -/
def tsvdR (t : Ten (Bool × Bool) ℝ) : Ten (Bool × Bool) ℝ × Mat ℝ := svdE pairEnum t

theorem tsvdR_spec : TruncSpec tsvdR (fun _ => 0) where
  dim := (svdE_spec pairEnum).dim
  iso := (svdE_spec pairEnum).iso
  proj := svd_proj (svdE_spec pairEnum)
  err := fun t => by rw [sub_zero, one_mul]; exact (normSq_svd (svdE_spec pairEnum) t).symm

/-- The operator written site by site, centralised and normalised: the hypotheses of `C65_flags_truthful`, `C65_centralize` and `C65_normalize_unit` hold together. -/
example : ∃ m, FMpo.history (qrE pairEnum) (svdE pairEnum) nrmR tsvdR (fun _ => 0) 2 [.write 0 exL, .write 1 exR, .centralize 1] = .ok m ∧
    m.center = 1 ∧ ∃ m' n O', FMpo.normalize nrmR m = .ok (m', n) ∧ IsOp (N := 2) m' O' ∧ n • O' = opMat 2 [exL, exR] ∧
      Matrix.trace (O' * O'.conjTranspose) = 1 := by
  obtain ⟨m, e, io, hc, -⟩ := C65_centralize (N := 2) (qrE_spec (K := ℝ) pairEnum) (svdE_spec pairEnum) (nrm := nrmR) (tsvd := tsvdR) (terr := fun _ => 0)
    (cs := [.write 0 exL, .write 1 exR]) (m := exMpo) rfl exMpo_op.1 (t := 1) (by omega)
  have hist : FMpo.history (qrE pairEnum) (svdE pairEnum) nrmR tsvdR (fun _ => 0) 2 [.write 0 exL, .write 1 exR, .centralize 1] = .ok m := by
    unfold FMpo.history
    show (FMpo.centralize (qrE pairEnum) (svdE pairEnum) exMpo ((1 : Nat) : Int) >>= pure) = _
    rw [e]; rfl
  refine ⟨m, hist, hc, ?_⟩
  refine C65_normalize_unit (qrE_spec pairEnum) (svdE_spec pairEnum) tsvdR_spec nrmR_spec.1 nrmR_spec.2 hist (by intro c h d; simp at h; rcases h with rfl | rfl | rfl <;> simp)
    (by intro c h d; simp at h; rcases h with rfl | rfl | rfl <;> simp) io (by rw [hc]; decide) ?_
  have := frob_chain [exL, exR]
  have pos : (1 : ℝ) ≤ chainSq [exL, exR] := by
    unfold chainSq
    have e : (1 : ℝ) = amp [exL, exR] (List.ofFn (n := 2) fun _ => (true, true)) 0 0 * star (amp [exL, exR] (List.ofFn (n := 2) fun _ => (true, true)) 0 0) := by
      simp [amp, exL, exR, List.ofFn_succ, sum_range_succ]
    rw [e]
    exact single_le_sum (f := fun s : Fin 2 → Bool × Bool => amp [exL, exR] (List.ofFn s) 0 0 * star (amp [exL, exR] (List.ofFn s) 0 0))
      (fun s _ => by rw [star_trivial]; exact mul_self_nonneg _) (mem_univ _)
  intro h0
  have h1 := this.symm.trans h0
  linarith

end Verif.Props
