import Verif.Mps.MeasureLoop
import Verif.Props.MpsCano
/-
Measurements with the whole MPS in memory: C50, C51. Inner product and sum of two MPS: C48, C49.

Specification vocabulary: `expval ts O` is `∑_{s,s'} ψ(s) ∏_i O_i(s_i,s'_i) conj ψ(s')` written over the
amplitudes of the chain `ts` (Verif/Mps/Xfer.lean); `idOp` is the identity operator.
-/
namespace Verif.Props
open Verif.Mps Finset

/-- An event of a multi-site measurement: physical operators, insertion strings (string `k` follows physical
operator `k`), and the sites of the physical operators. -/
structure Event (σ K : Type) where
  phys : List (Op σ K)
  inst : List (List (Op σ K))
  sites : List Nat

/-- The documented shape of an event on `n` sites: at least two physical operators, one string per gap (and
possibly one behind the last operator), every string exactly fills its gap, and everything fits on the chain. -/
structure Event.Valid {σ K : Type} (n : Nat) (e : Event σ K) : Prop where
  two : 2 ≤ e.sites.length
  phys : e.phys.length = e.sites.length
  inst : e.inst.length + 1 = e.phys.length ∨ e.inst.length = e.phys.length
  gap : ∀ (k x y : Nat) (is : List (Op σ K)), e.sites[k]? = some x → e.sites[k + 1]? = some y →
    e.inst[k]? = some is → y = x + 1 + is.length
  site : ∀ (k x : Nat), e.sites[k]? = some x → x < n
  tail : ∀ (k x : Nat) (is : List (Op σ K)), e.sites[k]? = some x → e.inst[k]? = some is → x + is.length < n

/-- The operator the event puts on each site: physical operators on their sites, strings right behind them, the
identity everywhere else. -/
structure Event.Places {σ K : Type} [CommRing K] [DecidableEq σ] (e : Event σ K) (O : Nat → Op σ K) : Prop where
  phys : ∀ (k x : Nat) (o : Op σ K), e.sites[k]? = some x → e.phys[k]? = some o → O x = o
  inst : ∀ (k x d : Nat) (is : List (Op σ K)) (o : Op σ K), e.sites[k]? = some x → e.inst[k]? = some is →
    is[d]? = some o → O (x + 1 + d) = o
  other : ∀ i, (∀ (k x : Nat), e.sites[k]? = some x → i ≠ x) →
    (∀ (k x : Nat) (is : List (Op σ K)), e.sites[k]? = some x → e.inst[k]? = some is →
      ¬ (x < i ∧ i ≤ x + is.length)) → O i = idOp

section
variable {σ K : Type}

/-- The strings fill the gaps. -/
def Gaps (inst : List (List (Op σ K))) (sites : List Nat) : Prop :=
  ∀ (k x y : Nat) (is : List (Op σ K)), sites[k]? = some x → sites[k + 1]? = some y →
    inst[k]? = some is → y = x + 1 + is.length

theorem gaps_tail {is : List (Op σ K)} {iss : List (List (Op σ K))} {x : Nat} {xs : List Nat}
    (h : Gaps (is :: iss) (x :: xs)) : Gaps iss xs :=
  fun k a b js h1 h2 h3 => h (k + 1) a b js (by simpa using h1) (by simpa using h2) (by simpa using h3)

/-- Every entry of the flattened list sits on the site the event assigns to it. -/
theorem flat_get : ∀ (phys : List (Op σ K)) (inst : List (List (Op σ K))) (sites : List Nat) (h : Nat),
    phys.length = sites.length → (inst.length + 1 = phys.length ∨ inst.length = phys.length) → Gaps inst sites →
    sites.head? = some h → ∀ (j : Nat) (o : Op σ K), (flatOps phys inst)[j]? = some o →
    (∃ k : Nat, sites[k]? = some (h + j) ∧ phys[k]? = some o) ∨
    ∃ (k x d : Nat) (is : List (Op σ K)), sites[k]? = some x ∧ inst[k]? = some is ∧ is[d]? = some o ∧ h + j = x + 1 + d := by
  intro phys
  induction phys with
  | nil => intro inst sites h _ _ _ _ j o hj; simp [flatOps] at hj
  | cons p ps ih =>
    intro inst sites h hl hi hg hh j o hj
    match sites, hl, hh with
    | x :: xs, hl, hh =>
      simp at hh; subst hh
      match ps, inst, ih, hl, hi, hj with
      | [], [], _, hl, hi, hj =>
        cases j with
        | zero => simp [flatOps] at hj; subst hj; exact Or.inl ⟨0, by simp, by simp⟩
        | succ j => simp [flatOps] at hj
      | [], is :: _, _, hl, hi, hj =>
        cases j with
        | zero => simp [flatOps] at hj; subst hj; exact Or.inl ⟨0, by simp, by simp⟩
        | succ j =>
          simp only [flatOps, List.getElem?_cons_succ] at hj
          exact Or.inr ⟨0, x, j, is, by simp, by simp, hj, by omega⟩
      | p' :: ps, [], _, hl, hi, hj => simp at hi
      | p' :: ps, is :: iss, ih, hl, hi, hj =>
        match xs, hl with
        | y :: ys, hl =>
          have hy : y = x + 1 + is.length := hg 0 x y is rfl rfl rfl
          cases j with
          | zero => simp [flatOps] at hj; subst hj; exact Or.inl ⟨0, by simp, by simp⟩
          | succ j =>
            simp only [flatOps, List.cons_append, List.getElem?_cons_succ] at hj
            by_cases c : j < is.length
            · rw [List.getElem?_append_left c] at hj
              exact Or.inr ⟨0, x, j, is, by simp, by simp, hj, by omega⟩
            · rw [List.getElem?_append_right (by omega)] at hj
              rcases ih iss (y :: ys) y (by simpa using hl) (by simpa using hi) (gaps_tail hg) rfl _ o hj with
                ⟨k, h1, h2⟩ | ⟨k, a, d, js, h1, h2, h3, h4⟩
              · exact Or.inl ⟨k + 1, by rw [List.getElem?_cons_succ, h1]; congr 1; omega, by simpa using h2⟩
              · exact Or.inr ⟨k + 1, a, d, js, by simpa using h1, by simpa using h2, h3, by omega⟩

/-- Everything the event assigns lies in the flattened range. -/
theorem flat_range : ∀ (phys : List (Op σ K)) (inst : List (List (Op σ K))) (sites : List Nat) (h : Nat),
    phys.length = sites.length → (inst.length + 1 = phys.length ∨ inst.length = phys.length) → Gaps inst sites →
    sites.head? = some h → ∀ (k x : Nat), sites[k]? = some x →
    (h ≤ x ∧ x < h + (flatOps phys inst).length) ∧
    ∀ (is : List (Op σ K)), inst[k]? = some is → x + is.length < h + (flatOps phys inst).length := by
  intro phys
  induction phys with
  | nil => intro inst sites h hl _ _ hh; cases sites <;> simp_all
  | cons p ps ih =>
    intro inst sites h hl hi hg hh k z hk
    match sites, hl, hh with
    | x :: xs, hl, hh =>
      simp at hh; subst hh
      match ps, inst, ih, hl, hi with
      | [], [], _, hl, hi =>
        cases k with
        | zero => simp at hk; subst hk; simp [flatOps]
        | succ k => simp at hl; subst hl; simp at hk
      | [], is :: iss, _, hl, hi =>
        cases k with
        | zero =>
          simp at hk; subst hk
          simp only [flatOps, List.length_cons]
          exact ⟨by omega, fun js hj => by simp at hj; subst hj; omega⟩
        | succ k => simp at hl; subst hl; simp at hk
      | p' :: ps, [], _, hl, hi => simp at hi
      | p' :: ps, is :: iss, ih, hl, hi =>
        match xs, hl with
        | y :: ys, hl =>
          have hy : y = x + 1 + is.length := hg 0 x y is rfl rfl rfl
          have ihx := ih iss (y :: ys) y (by simpa using hl) (by simpa using hi) (gaps_tail hg) rfl
          have e : (flatOps (p :: p' :: ps) (is :: iss)).length = 1 + is.length + (flatOps (p' :: ps) iss).length := by
            simp [flatOps]; omega
          rw [e]
          cases k with
          | zero =>
            simp at hk; subst hk
            have := (ihx 0 y rfl).1
            exact ⟨by omega, fun js hj => by simp at hj; subst hj; omega⟩
          | succ k =>
            have := ihx k z (by simpa using hk)
            refine ⟨by omega, fun js hj => ?_⟩
            have := this.2 js (by simpa using hj)
            omega

theorem flat_end : ∀ (phys : List (Op σ K)) (inst : List (List (Op σ K))) (sites : List Nat) (h n : Nat),
    phys.length = sites.length → (inst.length + 1 = phys.length ∨ inst.length = phys.length) → Gaps inst sites →
    sites.head? = some h → (∀ (k x : Nat), sites[k]? = some x → x < n) →
    (∀ (k x : Nat) (is : List (Op σ K)), sites[k]? = some x → inst[k]? = some is → x + is.length < n) →
    h + (flatOps phys inst).length ≤ n := by
  intro phys inst sites h n hl hi hg hh h1 h2
  by_cases c : (flatOps phys inst).length = 0
  · rw [c]
    cases sites with
    | nil => simp at hh
    | cons x xs => simp at hh; subst hh; exact Nat.le_of_lt (h1 0 x rfl)
  · obtain ⟨o, ho⟩ : ∃ o, (flatOps phys inst)[(flatOps phys inst).length - 1]? = some o :=
      ⟨(flatOps phys inst)[(flatOps phys inst).length - 1], by simp⟩
    rcases flat_get phys inst sites h hl hi hg hh _ o ho with ⟨k, k1, -⟩ | ⟨k, x, d, is, k1, k2, k3, k4⟩
    · have := h1 k _ k1; omega
    · have := h2 k x is k1 k2
      have := (List.getElem?_eq_some_iff.mp k3).1
      omega

theorem orderKept_gaps : ∀ (inst : List (List (Op σ K))) (sites : List Nat), sites.length ≤ inst.length + 1 →
    Gaps inst sites → isOrderKept sites = true
  | _, [], _, _ => rfl
  | _, [_], _, _ => rfl
  | [], _ :: _ :: _, hl, _ => by simp at hl
  | is :: iss, x :: y :: rest, hl, hg => by
    have hy : y = x + 1 + is.length := hg 0 x y is rfl rfl rfl
    rw [isOrderKept, if_neg (by omega)]
    exact orderKept_gaps iss (y :: rest) (by simpa using hl) (gaps_tail hg)

end

variable {σ K : Type} [CommRing K] [StarRing K] [Fintype σ] [DecidableEq σ]

/-- The assignment read off the flattened operator list. -/
def layout (ops : List (Op σ K)) (h : Nat) (i : Nat) : Op σ K :=
  if h ≤ i then ops[i - h]?.getD idOp else idOp

omit [StarRing K] [Fintype σ] in
theorem places_layout {e : Event σ K} {n : Nat} (hv : e.Valid n) {h : Nat} (hh : e.sites.head? = some h)
    {O : Nat → Op σ K} (hp : e.Places O) : O = layout (flatOps e.phys e.inst) h := by
  funext i
  unfold layout
  by_cases c : h ≤ i ∧ i < h + (flatOps e.phys e.inst).length
  · rw [if_pos c.1]
    obtain ⟨o, ho⟩ : ∃ o, (flatOps e.phys e.inst)[i - h]? = some o :=
      ⟨(flatOps e.phys e.inst)[i - h]'(by omega), by simp⟩
    rw [ho]
    rcases flat_get _ _ _ h hv.phys hv.inst hv.gap hh _ o ho with ⟨k, k1, k2⟩ | ⟨k, x, d, is, k1, k2, k3, k4⟩
    · rw [show h + (i - h) = i by omega] at k1
      exact hp.phys k i o k1 k2
    · rw [show h + (i - h) = i by omega] at k4
      rw [k4]; exact hp.inst k x d is o k1 k2 k3
  · have r := flat_range _ _ _ h hv.phys hv.inst hv.gap hh
    rw [hp.other i]
    · split
      · rename_i h1
        rw [List.getElem?_eq_none (by omega)]; rfl
      · rfl
    · intro k x hk e
      subst e
      exact c (r k i hk).1
    · intro k x is hk his hx
      have := (r k x hk).1
      have := (r k x hk).2 is his
      exact c ⟨by omega, by omega⟩

variable [DecidableEq K] {qr svd : Ten σ K → Ten σ K × Mat K}

omit [DecidableEq K] [DecidableEq σ] in
/-- **Specification**: no flag of the MPS `m` reached by the calls `cs` is stale. Either `LoadTen`, which leaves the flag of the site as it was, is not among them, or every tensor flagged as left
(right) isometric is so. -/
def NoStale (cs : List (Call σ K)) (m : FMps σ K) : Prop :=
  (∀ c ∈ cs, ∀ i u, c ≠ .load i u) ∨
    ∀ (i : Nat) (t : Ten σ K), m.slots[i]? = some (some t) → (m.flags[i]? = some .left → LeftIso t) ∧ (m.flags[i]? = some .right → RightIso t)

omit [DecidableEq K] [DecidableEq σ] in
/-- State of a user's MPS: some history of calls without stale flags, a tensor in every slot, matching bonds. -/
theorem good_of_history (H : QRSpec qr) (H' : SVDSpec svd) {n : Nat} {cs : List (Call σ K)} {m : FMps σ K}
    (hist : FMps.history qr svd n cs = .ok m) (noLoad : NoStale cs m)
    {ts : List (Ten σ K)} (full : m.slots = ts.map some) (link : Linked ts) : Good ts m ∧ ts.length = n := by
  obtain ⟨hi, hs⟩ := history_inv hist
  have hlen : ts.length = n := by rw [← hs]; simp [FMps.size, full]
  refine ⟨⟨⟨ts, ⟨full, by rw [hi.flen, full]; simp, link⟩, Eqv.refl _⟩, hi, ?_⟩, hlen⟩
  intro i t ht
  rcases noLoad with h | h
  · exact C15_flags_truthful H H' hist h i t ht
  · exact h i t ht

omit [DecidableEq K] in
/-- **C50.** `MeasureOneSiteOp` on an MPS of `n` sites in any state reached by API calls (without stale flags)
returns, for every site and every operator, exactly the expectation value in the state the MPS held at the
call, and leaves the MPS representing that same state. -/
theorem C50_one_site_values (H : QRSpec qr) (H' : SVDSpec svd) {n : Nat} {cs : List (Call σ K)} {m : FMps σ K}
    (hist : FMps.history qr svd n cs = .ok m) (noLoad : NoStale cs m)
    {ts : List (Ten σ K)} (full : m.slots = ts.map some) (link : Linked ts) (ops : List (Op σ K)) :
    ∃ m' ts', measureOneSite qr svd m ops = .ok (m', (List.range n).map fun i =>
        ops.map fun op => expval ts (fun k => if k = i then op else idOp)) ∧
      m'.slots = ts'.map some ∧ SameState ts ts' := by
  obtain ⟨g, hlen⟩ := good_of_history H H' hist noLoad full link
  obtain ⟨m', e, ⟨⟨ts', r, q⟩, -, -⟩⟩ := oneSiteLoop_ok H H' ops n 0 m g (by omega)
  refine ⟨m', ts', ?_, r.slots, q.len, q.head, q.last, q.amp⟩
  unfold measureOneSite
  rw [show m.size = n by rw [← hlen]; simp [FMps.size, full], e, List.range_eq_range']

theorem measureMulti_ok (H : QRSpec qr) (H' : SVDSpec svd) {ts : List (Ten σ K)} :
    ∀ (evs : List (Event σ K)) (m : FMps σ K), Good ts m → (∀ e ∈ evs, e.Valid ts.length) →
    ∃ m', measureMulti qr svd m (evs.map fun e => (e.phys, e.inst, e.sites)) =
      .ok (m', evs.map fun e => (e.sites, expval ts (layout (flatOps e.phys e.inst) (e.sites.headD 0)))) ∧ Good ts m'
  | [], m, hg, _ => ⟨m, rfl, hg⟩
  | e :: evs, m, hg, hv => by
    have v := hv e (by simp)
    obtain ⟨h, hh⟩ : ∃ h, e.sites.head? = some h := by
      cases hs : e.sites with
      | nil => have := v.two; rw [hs] at this; simp at this
      | cons x xs => exact ⟨x, rfl⟩
    have hd : e.sites.headD 0 = h := by cases hs : e.sites <;> simp_all
    have r := flat_range _ _ _ h v.phys v.inst v.gap hh
    have ok := orderKept_gaps e.inst e.sites (by have := v.inst; have := v.phys; omega) v.gap
    have e2 := flat_end _ _ _ h ts.length v.phys v.inst v.gap hh v.site v.tail
    have l2 : 2 ≤ (flatOps e.phys e.inst).length := by
      have := v.two
      obtain ⟨x, hx⟩ : ∃ x, e.sites[0]? = some x := ⟨e.sites[0], by simp⟩
      obtain ⟨y, hy⟩ : ∃ y, e.sites[1]? = some y := ⟨e.sites[1], by simp⟩
      obtain ⟨is, hi⟩ : ∃ is, e.inst[0]? = some is :=
        ⟨e.inst[0]'(by have := v.inst; have := v.phys; omega), by simp⟩
      have := v.gap 0 x y is hx hy hi
      have := (r 0 x hx).1
      have := (r 1 y hy).1
      omega
    obtain ⟨m1, e1, g1⟩ := measureEvent_ok H H' hg (sites := e.sites) v.two ok hh (ops := flatOps e.phys e.inst)
      (fun m' => multiSiteAvg m' e.phys e.inst e.sites)
      (by
        intro m' w hw
        have : e.phys.length = e.inst.length + 1 ∨ e.phys.length = e.inst.length := by have := v.inst; omega
        simp only [multiSiteAvg]
        rw [if_pos this]
        cases hs : e.sites with
        | nil => rw [hs] at hh; simp at hh
        | cons x xs =>
          rw [hs] at hh; simp at hh; subst hh
          simp only [hw])
      l2 e2 (layout (flatOps e.phys e.inst) h)
      (by intro i hi; unfold layout; rw [if_neg (by omega)])
      (by intro i hi; unfold layout; rw [if_pos (by omega), List.getElem?_eq_none (by omega)]; rfl)
      (by intro j o hj; unfold layout; rw [if_pos (by omega), show h + j - h = j by omega, hj]; rfl)
    obtain ⟨m2, k2, g2⟩ := measureMulti_ok H H' evs m1 g1 (fun e' he' => hv e' (by simp [he']))
    refine ⟨m2, ?_, g2⟩
    simp only [List.map_cons, measureMulti, e1, k2, hd]

/-- **C51.** `MeasureMultiSiteOp` with explicit insertion strings: for every list of well-formed events, in
every order, the `k`-th result carries the sites of event `k` and the expectation value of the product of its
operators in the state the MPS held at the call; the state is unchanged. -/
theorem C51_multi_site_values (H : QRSpec qr) (H' : SVDSpec svd) {n : Nat} {cs : List (Call σ K)} {m : FMps σ K}
    (hist : FMps.history qr svd n cs = .ok m) (noLoad : NoStale cs m)
    {ts : List (Ten σ K)} (full : m.slots = ts.map some) (link : Linked ts) (evs : List (Event σ K))
    (valid : ∀ e ∈ evs, e.Valid n) :
    ∃ m' ts' rs, measureMulti qr svd m (evs.map fun e => (e.phys, e.inst, e.sites)) = .ok (m', rs) ∧
      m'.slots = ts'.map some ∧ SameState ts ts' ∧ rs.length = evs.length ∧
      ∀ (k : Nat) (e : Event σ K) (O : Nat → Op σ K), evs[k]? = some e → e.Places O →
        rs[k]? = some (e.sites, expval ts O) := by
  obtain ⟨g, hlen⟩ := good_of_history H H' hist noLoad full link
  obtain ⟨m', e, ⟨⟨ts', r, q⟩, -, -⟩⟩ := measureMulti_ok H H' evs m g (by rw [hlen]; exact valid)
  refine ⟨m', ts', _, e, r.slots, ⟨q.len, q.head, q.last, q.amp⟩, by simp, ?_⟩
  intro k ev O hk hp
  have v := valid ev (List.mem_of_getElem? hk)
  obtain ⟨h, hh⟩ : ∃ h, ev.sites.head? = some h := by
    cases hs : ev.sites with
    | nil => have := v.two; rw [hs] at this; simp at this
    | cons x xs => exact ⟨x, rfl⟩
  have hd : ev.sites.headD 0 = h := by cases hs : ev.sites <;> simp_all
  rw [List.getElem?_map, hk, Option.map_some, places_layout v hh hp, hd]

/-- The event with one insertion operator per gap, as documented: ascending sites. -/
structure Event1 (σ K : Type) where
  phys : List (Op σ K)
  inst : List (Op σ K)
  sites : List Nat

/-- At least two physical operators, one insertion operator per gap, strictly ascending sites on the chain. -/
structure Event1.Valid {σ K : Type} (n : Nat) (e : Event1 σ K) : Prop where
  two : 2 ≤ e.sites.length
  phys : e.phys.length = e.sites.length
  inst : e.inst.length + 1 = e.phys.length
  asc : ∀ (k x y : Nat), e.sites[k]? = some x → e.sites[k + 1]? = some y → x < y
  site : ∀ (k x : Nat), e.sites[k]? = some x → x < n

/-- Physical operators on their sites, insertion operator `k` on every site strictly between site `k` and site
`k+1`, the identity before the first and after the last. -/
structure Event1.Places {σ K : Type} [CommRing K] [DecidableEq σ] (e : Event1 σ K) (O : Nat → Op σ K) : Prop where
  phys : ∀ (k x : Nat) (o : Op σ K), e.sites[k]? = some x → e.phys[k]? = some o → O x = o
  between : ∀ (k x y i : Nat) (o : Op σ K), e.sites[k]? = some x → e.sites[k + 1]? = some y →
    e.inst[k]? = some o → x < i → i < y → O i = o
  before : ∀ (x i : Nat), e.sites[0]? = some x → i < x → O i = idOp
  after : ∀ (x i : Nat), e.sites[e.sites.length - 1]? = some x → x < i → O i = idOp

omit [CommRing K] [StarRing K] [Fintype σ] [DecidableEq σ] [DecidableEq K] in
theorem instStrings_ok : ∀ (inst : List (Op σ K)) (sites : List Nat), sites.length = inst.length + 1 →
    (∀ (k x y : Nat), sites[k]? = some x → sites[k + 1]? = some y → x < y) →
    ∃ iss, instStrings inst sites = .ok iss ∧ iss.length = inst.length ∧
      ∀ (k x y : Nat) (o : Op σ K), sites[k]? = some x → sites[k + 1]? = some y → inst[k]? = some o →
        iss[k]? = some (List.replicate (y - x - 1) o)
  | [], sites, _, _ => ⟨[], rfl, rfl, fun _ _ _ _ _ _ h => by simp at h⟩
  | o :: os, x :: y :: rest, hl, ha => by
    obtain ⟨iss, e, l, g⟩ := instStrings_ok os (y :: rest) (by simpa using hl)
      (fun k a b h1 h2 => ha (k + 1) a b (by simpa using h1) (by simpa using h2))
    have hxy : x < y := ha 0 x y rfl rfl
    refine ⟨List.replicate (y - x - 1) o :: iss, ?_, by simp [l], ?_⟩
    · rw [instStrings, if_pos hxy, e]
    · intro k a b o' h1 h2 h3
      cases k with
      | zero => simp at h1 h2 h3; subst h1 h2 h3; rfl
      | succ k => exact g k a b o' (by simpa using h1) (by simpa using h2) (by simpa using h3)

omit [CommRing K] [StarRing K] [Fintype σ] [DecidableEq σ] [DecidableEq K] in
theorem valid_of_valid1 {e : Event1 σ K} {n : Nat} (v : e.Valid n) :
    ∃ iss, instStrings e.inst e.sites = .ok iss ∧ (Event.mk e.phys iss e.sites).Valid n ∧
      iss.length = e.inst.length ∧
      ∀ (k x y : Nat) (o : Op σ K), e.sites[k]? = some x → e.sites[k + 1]? = some y → e.inst[k]? = some o →
        iss[k]? = some (List.replicate (y - x - 1) o) := by
  obtain ⟨iss, h1, h2, h3⟩ := instStrings_ok e.inst e.sites (by have := v.inst; have := v.phys; omega) v.asc
  refine ⟨iss, h1, ⟨v.two, v.phys, Or.inl (by have := v.inst; rw [h2]; exact this), ?_, v.site, ?_⟩, h2, h3⟩
  · intro k x y is hx hy hi
    have hk : k < e.inst.length := by have := (List.getElem?_eq_some_iff.mp hi).1; simp only at this; omega
    have := h3 k x y (e.inst[k]) hx hy (by simp)
    simp only at hi
    rw [this] at hi
    have lt := v.asc k x y hx hy
    simp at hi; subst hi; simp; omega
  · intro k x is hx hi
    have hk : k < e.inst.length := by have := (List.getElem?_eq_some_iff.mp hi).1; simp only at this; omega
    have hl : k + 1 < e.sites.length := by have := v.inst; have := v.phys; omega
    have := h3 k x (e.sites[k + 1]) (e.inst[k]) hx (by simp) (by simp)
    simp only at hi
    rw [this] at hi
    have lt := v.asc k x (e.sites[k + 1]) hx (by simp)
    have := v.site (k + 1) (e.sites[k + 1]) (by simp)
    simp at hi; subst hi; simp; omega

omit [StarRing K] [Fintype σ] [DecidableEq K] in
theorem places_of_places1 {e : Event1 σ K} {n : Nat} (v : e.Valid n) {O : Nat → Op σ K} (hp : e.Places O)
    {iss : List (List (Op σ K))} (hl : iss.length = e.inst.length)
    (h3 : ∀ (k x y : Nat) (o : Op σ K), e.sites[k]? = some x → e.sites[k + 1]? = some y → e.inst[k]? = some o →
        iss[k]? = some (List.replicate (y - x - 1) o)) : (Event.mk e.phys iss e.sites).Places O := by
  have mono : ∀ (d k x y : Nat), e.sites[k]? = some x → e.sites[k + d]? = some y → x ≤ y := by
    intro d
    induction d with
    | zero => intro k x y h1 h2; rw [Nat.add_zero, h1] at h2; simp at h2; omega
    | succ d ih =>
      intro k x y h1 h2
      have hd : k + d < e.sites.length := by have := (List.getElem?_eq_some_iff.mp h2).1; omega
      have := ih k x _ h1 (by rw [List.getElem?_eq_getElem hd])
      have := v.asc (k + d) _ y (by rw [List.getElem?_eq_getElem hd]) h2
      omega
  refine ⟨hp.phys, ?_, ?_⟩
  · intro k x d is o hx hi ho
    simp only at hx hi
    have hk : k < e.inst.length := by have := (List.getElem?_eq_some_iff.mp hi).1; omega
    have hl' : k + 1 < e.sites.length := by have := v.inst; have := v.phys; omega
    have := h3 k x (e.sites[k + 1]) (e.inst[k]) hx (by simp) (by simp)
    rw [this] at hi
    simp at hi; subst hi
    rw [List.getElem?_replicate] at ho
    split at ho
    · simp at ho; subst ho
      exact hp.between k x (e.sites[k + 1]) _ _ hx (by simp) (by simp) (by omega) (by omega)
    · simp at ho
  · intro i h1 h2
    simp only at h1 h2
    have h0 : 0 < e.sites.length := by have := v.two; omega
    by_cases c0 : i < e.sites[0]
    · exact hp.before _ i (by simp) c0
    by_cases c1 : e.sites[e.sites.length - 1] < i
    · exact hp.after _ i (by simp) c1
    -- the last site not beyond `i`
    exfalso
    have key : ∀ k (hk : k < e.sites.length), e.sites[k] < i := by
      intro k
      induction k with
      | zero => intro hk; have := h1 0 _ (List.getElem?_eq_getElem hk); omega
      | succ k ih =>
        intro hk
        have a := ih (by omega)
        have hki : k < e.inst.length := by have := v.inst; have := v.phys; omega
        have b := h2 k _ _ (List.getElem?_eq_getElem (by omega))
          (h3 k _ _ _ (List.getElem?_eq_getElem (by omega)) (List.getElem?_eq_getElem hk) (List.getElem?_eq_getElem hki))
        simp at b
        have c := h1 (k + 1) _ (List.getElem?_eq_getElem hk)
        have d := v.asc k _ _ (List.getElem?_eq_getElem (by omega)) (List.getElem?_eq_getElem hk)
        have := b a
        omega
    have := key (e.sites.length - 1) (by omega)
    omega

theorem measureMulti1_eq : ∀ (evs : List (Event1 σ K)) (n : Nat) (m : FMps σ K), (∀ e ∈ evs, e.Valid n) →
    ∃ evs' : List (Event σ K), measureMulti1 qr svd m (evs.map fun e => (e.phys, e.inst, e.sites)) =
        measureMulti qr svd m (evs'.map fun e => (e.phys, e.inst, e.sites)) ∧ (∀ e ∈ evs', e.Valid n) ∧
      evs'.length = evs.length ∧
      ∀ (k : Nat) (e : Event1 σ K) (O : Nat → Op σ K), evs[k]? = some e → e.Places O →
        ∃ e', evs'[k]? = some e' ∧ e'.sites = e.sites ∧ e'.Places O
  | [], n, m, _ => ⟨[], rfl, by simp, rfl, by intro k e O h; simp at h⟩
  | e :: evs, n, m, hv => by
    have v := hv e (by simp)
    obtain ⟨iss, i1, i2, i3, i4⟩ := valid_of_valid1 v
    have step : ∀ m', multiSiteAvg1 m' e.phys e.inst e.sites = multiSiteAvg m' e.phys iss e.sites := by
      intro m'
      unfold multiSiteAvg1
      rw [if_pos v.inst.symm, i1]
    cases hr : measureEvent qr svd m e.sites (fun m' => multiSiteAvg m' e.phys iss e.sites) with
    | error er =>
      obtain ⟨evs', -, k2, k3, k4⟩ := measureMulti1_eq evs n m (fun e' he' => hv e' (by simp [he']))
      refine ⟨⟨e.phys, iss, e.sites⟩ :: evs', ?_, ?_, by simp [k3], ?_⟩
      · simp only [List.map_cons, measureMulti1, measureMulti, step, hr]
      · intro x hx; simp at hx; rcases hx with rfl | hx; exacts [i2, k2 x hx]
      · intro k x O hk hp
        cases k with
        | zero => simp at hk; subst hk; exact ⟨_, rfl, rfl, places_of_places1 v hp i3 i4⟩
        | succ k => exact k4 k x O (by simpa using hk) hp
    | ok p =>
      obtain ⟨evs', k1, k2, k3, k4⟩ := measureMulti1_eq evs n p.1 (fun e' he' => hv e' (by simp [he']))
      refine ⟨⟨e.phys, iss, e.sites⟩ :: evs', ?_, ?_, by simp [k3], ?_⟩
      · simp only [List.map_cons, measureMulti1, measureMulti, step, hr, k1]
      · intro x hx; simp at hx; rcases hx with rfl | hx; exacts [i2, k2 x hx]
      · intro k x O hk hp
        cases k with
        | zero => simp at hk; subst hk; exact ⟨_, rfl, rfl, places_of_places1 v hp i3 i4⟩
        | succ k => exact k4 k x O (by simpa using hk) hp

/-- **C51.** `MeasureMultiSiteOp` (and `MeasureTwoSiteOp`) with one insertion operator per gap. -/
theorem C51_multi_site_values_uniform (H : QRSpec qr) (H' : SVDSpec svd) {n : Nat} {cs : List (Call σ K)}
    {m : FMps σ K} (hist : FMps.history qr svd n cs = .ok m) (noLoad : NoStale cs m)
    {ts : List (Ten σ K)} (full : m.slots = ts.map some) (link : Linked ts) (evs : List (Event1 σ K))
    (valid : ∀ e ∈ evs, e.Valid n) :
    ∃ m' ts' rs, measureMulti1 qr svd m (evs.map fun e => (e.phys, e.inst, e.sites)) = .ok (m', rs) ∧
      m'.slots = ts'.map some ∧ SameState ts ts' ∧ rs.length = evs.length ∧
      ∀ (k : Nat) (e : Event1 σ K) (O : Nat → Op σ K), evs[k]? = some e → e.Places O →
        rs[k]? = some (e.sites, expval ts O) := by
  obtain ⟨evs', k1, k2, k3, k4⟩ := measureMulti1_eq (qr := qr) (svd := svd) evs n m valid
  obtain ⟨m', ts', rs, e, s, q, l, g⟩ := C51_multi_site_values H H' hist noLoad full link evs' k2
  refine ⟨m', ts', rs, by rw [k1, e], s, q, by rw [l, k3], ?_⟩
  intro k ev O hk hp
  obtain ⟨e', h1, h2, h3⟩ := k4 k ev O hk hp
  rw [← h2]; exact g k e' O h1 h3

/-- **C51.** `MeasureTwoSiteOp` with a string of operators for each pair of sites: `p` on the left site, `q` on the right
one, the string in between, the identity elsewhere. -/
theorem C51_two_site_strings (H : QRSpec qr) (H' : SVDSpec svd) {n : Nat} {cs : List (Call σ K)} {m : FMps σ K}
    (hist : FMps.history qr svd n cs = .ok m) (noLoad : NoStale cs m)
    {ts : List (Ten σ K)} (full : m.slots = ts.map some) (link : Linked ts) (p q : Op σ K)
    (evs : List (Nat × List (Op σ K))) (fits : ∀ e ∈ evs, e.1 + 1 + e.2.length < n) :
    ∃ m' ts', measureTwo qr svd m p q (evs.map (·.2)) (evs.map fun e => [e.1, e.1 + 1 + e.2.length]) = .ok (m',
        evs.map fun e => ([e.1, e.1 + 1 + e.2.length], expval ts (fun i =>
          if i = e.1 then p else if i = e.1 + 1 + e.2.length then q
          else if e.1 < i ∧ i < e.1 + 1 + e.2.length then e.2.getD (i - (e.1 + 1)) idOp else idOp))) ∧
      m'.slots = ts'.map some ∧ SameState ts ts' := by
  let ev : Nat × List (Op σ K) → Event σ K := fun e => ⟨[p, q], [e.2], [e.1, e.1 + 1 + e.2.length]⟩
  obtain ⟨m', ts', rs, e, s, st, l, g⟩ := C51_multi_site_values H H' hist noLoad full link (evs.map ev) (by
    intro e he
    obtain ⟨x, hx, rfl⟩ := List.mem_map.1 he
    have hf := fits x hx
    refine ⟨by simp [ev], by simp [ev], by simp [ev], ?_, ?_, ?_⟩
    · intro k a b is h1 h2 h3
      match k with
      | 0 => simp [ev] at h1 h2 h3; subst h1 h2 h3; rfl
      | k + 1 => simp [ev] at h3
    · intro k a h1
      match k with
      | 0 => simp [ev] at h1; omega
      | 1 => simp [ev] at h1; omega
      | k + 2 => simp [ev] at h1
    · intro k a is h1 h2
      match k with
      | 0 => simp [ev] at h1 h2; subst h1 h2; omega
      | k + 1 => simp [ev] at h2)
  have hrs : rs = evs.map fun e => ([e.1, e.1 + 1 + e.2.length], expval ts (fun i =>
          if i = e.1 then p else if i = e.1 + 1 + e.2.length then q
          else if e.1 < i ∧ i < e.1 + 1 + e.2.length then e.2.getD (i - (e.1 + 1)) idOp else idOp)) := by
    apply List.ext_getElem?
    intro k
    rw [List.getElem?_map]
    cases hk : evs[k]? with
    | none =>
      rw [List.getElem?_eq_none_iff] at hk
      simpa [l] using hk
    | some x =>
      refine (g k (ev x) _ (by rw [List.getElem?_map, hk]; rfl) ?_).trans rfl
      refine ⟨?_, ?_, ?_⟩
      · intro j a o h1 h2
        match j with
        | 0 => simp [ev] at h1 h2; subst h1 h2; simp
        | 1 =>
          simp [ev] at h1 h2; subst h1 h2
          simp only [if_neg (show ¬ x.1 + 1 + x.2.length = x.1 by omega), if_true]
        | j + 2 => simp [ev] at h1
      · intro j a d is o h1 h2 h3
        match j with
        | 0 =>
          simp [ev] at h1 h2; subst h1 h2
          have hd := (List.getElem?_eq_some_iff.1 h3).1
          rw [if_neg (by omega), if_neg (by omega), if_pos (by omega), List.getD_eq_getElem?_getD,
            show x.1 + 1 + d - (x.1 + 1) = d by omega, h3]
          rfl
        | j + 1 => simp [ev] at h2
      · intro i h1 h2
        have a1 := h1 0 x.1 (by simp [ev])
        have a2 := h1 1 (x.1 + 1 + x.2.length) (by simp [ev])
        have a3 := h2 0 x.1 x.2 (by simp [ev]) (by simp [ev])
        rw [if_neg a1, if_neg a2, if_neg (by omega)]
  refine ⟨m', ts', ?_, s, st⟩
  have hz : (evs.map (·.2)).zip (evs.map fun e => [e.1, e.1 + 1 + e.2.length]) =
      evs.map fun e => (e.2, [e.1, e.1 + 1 + e.2.length]) := List.zip_map' ..
  unfold measureTwo
  rw [if_neg (by simp), hz, if_pos, List.map_map, ← hrs, ← e, List.map_map]
  · rfl
  · simp only [List.all_map, List.all_eq_true]
    intro x _
    simp
    omega

/-- **C51 is false for a repeated site.** `IsOrderKept` accepts equal neighbouring sites, but the length of the
string between them wraps around: the call fails for every state. -/
theorem C51_equal_sites_fail (H : QRSpec qr) (H' : SVDSpec svd) {n : Nat} {cs : List (Call σ K)} {m : FMps σ K}
    (hist : FMps.history qr svd n cs = .ok m) (noLoad : NoStale cs m)
    {ts : List (Ten σ K)} (full : m.slots = ts.map some) (link : Linked ts) (p q o : Op σ K) {x : Nat} (hx : x < n) :
    isOrderKept [x, x] = true ∧ measureTwo1 qr svd m p q o [[x, x]] = .error .ub := by
  obtain ⟨g, hlen⟩ := good_of_history H H' hist noLoad full link
  obtain ⟨m1, t1, e, -⟩ := good_centralize H H' g (t := x) (by omega)
  have ok : isOrderKept [x, x] = true := by simp [isOrderKept]
  refine ⟨ok, ?_⟩
  simp only [measureTwo1, List.map_cons, List.map_nil, measureMulti1, measureEvent]
  rw [if_pos ⟨by simp, ok⟩]
  simp only [List.headD_cons, e, multiSiteAvg1, instStrings]
  rw [if_pos (by simp), if_neg (by omega)]

end Verif.Props
