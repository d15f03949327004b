import Verif.Mpo.PropFacts
/-
Property theorems C01–C07, C09, C11–C13 about the MPO generator. The vocabulary is that of `Verif/Mpo/Spec.lean`.
-/
namespace Verif.Props
open Verif.Mpo SparMat NullElem

section
variable {C T : Type} [DecidableEq C] [DecidableEq T] [GenTypes C T]

/-! ### A concrete instance used to show that the hypotheses can be met -/

/-- Demo: integer coefficients; an operator is an integer (its only matrix element) with a quantum-number change. -/
instance demoTypes : GenTypes Int (Int × Int) where
  czero := 0
  cone := 1
  cneg := fun c => -c
  tooSmall := fun _ => false
  tneg := fun t => (-t.1, t.2)
  negFirst := fun t => decide (t.1 < 0)

def demoVals : Vals Int Int (Int × Int) where
  cval := id
  tval := fun _ t => t.1
  one := rfl
  cneg := fun _ => rfl
  tneg := fun _ _ => rfl

/-- Three sites with identity operators. -/
def demoIds : List (Int × Int) := [(1, 0), (1, 0), (1, 0)]

/-- A hopping-like Hamiltonian: `2 a†₀ a₁ + 2 a†₁ a₂ + 3 n₁ + 5 (a†₀ n₁ a₂)`, sites of the last term listed out of
order, one operator with a negative leading element, and one zero-coefficient call. -/
def demoCalls : List (Call Int (Int × Int)) :=
  [⟨2, [(7, 1), (11, -1)], [0, 1]⟩, ⟨2, [(7, 1), (11, -1)], [1, 2]⟩, ⟨3, [(13, 0)], [1]⟩,
   ⟨0, [(13, 0)], [1]⟩, ⟨5, [(11, -1), (-7, 1), (13, 0)], [2, 0, 1]⟩]

theorem demo_valid : ∀ c ∈ demoCalls, c.Valid demoIds.length := by
  intro c hc
  simp only [demoCalls, List.mem_cons, List.not_mem_nil, or_false] at hc
  rcases hc with rfl | rfl | rfl | rfl | rfl <;> exact ⟨by decide, by decide, by decide, by decide⟩

theorem demo_effective : effective demoCalls =
    [⟨2, [(7, 1), (11, -1)], [0, 1]⟩, ⟨2, [(7, 1), (11, -1)], [1, 2]⟩, ⟨3, [(13, 0)], [1]⟩,
     ⟨5, [(11, -1), (-7, 1), (13, 0)], [2, 0, 1]⟩] := rfl

theorem demo_neutral : ∀ c ∈ effective demoCalls, (c.ops.map (fun t : Int × Int => t.2)).sum = 0 := by
  rw [demo_effective]; decide

/-! ### C01 -/

variable {R : Type} [CommRing R]

/-- C01, exact form: after any sequence of valid `AddTerm` calls with at least one non-negligible one, the
uncompressed state machine yields site matrices whose product is the sum of the added terms, where a call is left
out exactly if it collides with earlier ones (see `collides`). -/
theorem C01_generated_mpo_exact (ids : List T) (calls : List (Call C T)) (hv : ∀ c ∈ calls, c.Valid ids.length)
    (hne : effective calls ≠ []) :
    ∃ g ms, history ids calls = .ok g ∧ g.fsm.genMatRepr = .ok ms ∧ ms.length = ids.length ∧
      ∀ v : Vals R C T, mpoVal v g ms = keptSum v ids [] (effective calls) := by
  obtain ⟨g, idO, ts, hg, h⟩ := history_spec ids calls hv
  obtain ⟨raw, _, e1, _, _, _, _, _, e7, _⟩ := h.compressed hne
  exact ⟨g, raw, hg, e1, e7, fun v => value_raw hv hg hne e1 v⟩

/-- C01: without collisions the product is the sum of all added terms. -/
theorem C01_generated_mpo (ids : List T) (calls : List (Call C T)) (hv : ∀ c ∈ calls, c.Valid ids.length)
    (hne : effective calls ≠ []) (hcol : NoCollision (effective calls)) :
    ∃ g ms, history ids calls = .ok g ∧ g.fsm.genMatRepr = .ok ms ∧ ms.length = ids.length ∧
      ∀ v : Vals R C T, mpoVal v g ms = ((effective calls).map (termVal v ids)).sum := by
  obtain ⟨g, ms, h1, h2, h3, h4⟩ := C01_generated_mpo_exact (R := R) ids calls hv hne
  exact ⟨g, ms, h1, h2, h3, fun v => by
    rw [h4 v, keptSum_of_noCollision v ids _ [] (by simpa [NoCollision] using hcol)]⟩

/-- C01 for what `Gen` returns, with or without compression: if moreover the identities have divergence zero and
each term is charge-neutral, `Gen` succeeds and its tensors multiply to the sum of the added terms. -/
theorem C01_gen_returns_sum {Q : Type} [DecidableEq Q] [AddCommGroup Q] (ids : List T) (calls : List (Call C T))
    (hv : ∀ c ∈ calls, c.Valid ids.length) (hne : effective calls ≠ []) (hcol : NoCollision (effective calls))
    (tdiv : T → Q) (hneg : ∀ t, tdiv (GenTypes.tneg C t) = tdiv t) (hid : ∀ t ∈ ids, tdiv t = 0)
    (hneu : ∀ c ∈ effective calls, (c.ops.map tdiv).sum = 0) (compress : Bool) :
    ∃ g l, history ids calls = .ok g ∧ g.gen tdiv 0 compress = .ok l ∧ l.length = ids.length ∧
      ∀ v : Vals R C T, mpoVal v g (l.map (·.mat)) = ((effective calls).map (termVal v ids)).sum := by
  obtain ⟨g, idO, ts, hg, h⟩ := history_spec ids calls hv
  obtain ⟨ms, l, e1, e2, _, e4, e5⟩ := gen_spec hv hg hne tdiv hneg hid hneu compress
  refine ⟨g, l, hg, e2, ?_, fun v => ?_⟩
  · obtain ⟨raw, comp, a1, a2, _, _, _, a6, a7, _⟩ := h.compressed hne
    cases compress with
    | true => simp only [if_true, a2] at e1; cases e1; rw [e4.length_eq, a6.length_eq, a7]
    | false => simp only [a1] at e1; cases e1; rw [e4.length_eq, a7]
  · rw [e5 v, keptSum_of_noCollision v ids _ [] (by simpa [NoCollision] using hcol)]

/-- The hypotheses of the C01 theorems hold for the demo Hamiltonian. -/
example : (∀ c ∈ demoCalls, c.Valid demoIds.length) ∧ effective demoCalls ≠ [] ∧ NoCollision (effective demoCalls) ∧
    (∀ t ∈ demoIds, (fun t : Int × Int => t.2) t = 0) ∧
    (∀ c ∈ effective demoCalls, (c.ops.map (fun t : Int × Int => t.2)).sum = 0) := by
  refine ⟨demo_valid, by rw [demo_effective]; simp, ?_, by decide, demo_neutral⟩
  rintro pre c post h ⟨⟨b, hb, s, h1, h2, _⟩, _⟩
  rw [demo_effective] at h
  rcases pre with _ | ⟨p1, _ | ⟨p2, _ | ⟨p3, _ | ⟨p4, pre⟩⟩⟩⟩
  · simp at hb
  all_goals simp at h
  · obtain ⟨rfl, rfl, _⟩ := h; simp at h2
  · obtain ⟨rfl, rfl, rfl, _⟩ := h; simp at hb; rcases hb with rfl | rfl <;> simp at h1
  · obtain ⟨rfl, rfl, rfl, rfl, _⟩ := h; simp at h2

/-- The value of the demo operator, evaluated on the matrices the model produces, is the sum of the terms. -/
example : (do let g ← history demoIds demoCalls
              let l ← g.gen (fun t : Int × Int => t.2) 0 true
              return mpoVal demoVals g (l.map (·.mat))) = (.ok (2 * 77 + 2 * 77 + 3 * 13 - 5 * 7 * 13 * 11) : Except Err Int) := by
  obtain ⟨g, hg⟩ : ∃ g, history demoIds demoCalls = .ok g := by
    obtain ⟨g, _, _, h, _⟩ := history_spec demoIds demoCalls demo_valid
    exact ⟨g, h⟩
  obtain ⟨_, l, _, e2, _, _, e5⟩ := gen_spec demo_valid hg (by rw [demo_effective]; simp) (fun t : Int × Int => t.2)
    (fun _ => rfl) (by decide) demo_neutral true
  simp only [hg, e2, bind, Except.bind, pure, Except.pure, e5 demoVals]
  rw [keptSum_of_noCollision]
  · rfl
  · rintro pre c post h ⟨⟨b, hb, s, h1, h2, _⟩, _⟩
    rw [demo_effective] at h
    rcases pre with _ | ⟨p1, _ | ⟨p2, _ | ⟨p3, _ | ⟨p4, pre⟩⟩⟩⟩
    · simp at hb
    all_goals simp at h
    · obtain ⟨rfl, rfl, _⟩ := h; simp at h2
    · obtain ⟨rfl, rfl, rfl, _⟩ := h; simp at hb; rcases hb with rfl | rfl <;> simp at h1
    · obtain ⟨rfl, rfl, rfl, rfl, _⟩ := h; simp at h2

/-- C01 fails without the hypothesis: adding the same one-site term `A` twice gives `A`, not `2A`. -/
theorem C01_duplicate_one_site_term_lost :
    ∃ (ids : List (Int × Int)) (calls : List (Call Int (Int × Int))) (g : Generator Int (Int × Int))
      (ms : List (SparMat OpRepr)), (∀ c ∈ calls, c.Valid ids.length) ∧ history ids calls = .ok g ∧
      g.fsm.genMatRepr = .ok ms ∧ mpoVal demoVals g ms ≠ ((effective calls).map (termVal demoVals ids)).sum := by
  have hv : ∀ c ∈ ([⟨2, [(13, 0)], [0]⟩, ⟨2, [(13, 0)], [0]⟩] : List (Call Int (Int × Int))), c.Valid 2 := by
    intro c hc
    simp only [List.mem_cons, List.not_mem_nil, or_false, or_self] at hc
    subst hc
    exact ⟨by decide, by decide, by decide, by decide⟩
  obtain ⟨g, ms, h1, h2, _, h4⟩ := C01_generated_mpo_exact (R := Int) [(1, 0), (1, 0)]
    [⟨2, [(13, 0)], [0]⟩, ⟨2, [(13, 0)], [0]⟩] hv (by decide)
  refine ⟨_, _, g, ms, hv, h1, h2, ?_⟩
  rw [h4]
  have e : effective ([⟨2, [(13, 0)], [0]⟩, ⟨2, [(13, 0)], [0]⟩] : List (Call Int (Int × Int))) =
      [⟨2, [(13, 0)], [0]⟩, ⟨2, [(13, 0)], [0]⟩] := rfl
  rw [e]
  simp only [keptSum]
  rw [if_neg (by rintro ⟨⟨b, hb, _⟩, _⟩; simp at hb), if_pos]
  · decide
  · refine ⟨⟨⟨2, [(13, 0)], [0]⟩, by simp, 0, rfl, rfl, rfl⟩, ?_⟩
    intro b hb _
    simp only [List.nil_append, List.mem_singleton] at hb
    subst hb
    exact ⟨0, rfl, rfl, rfl⟩

/-! ### C02, C03, C04 -/

/-- C02 and C03: for any sequence of valid calls with at least one non-negligible one, compression succeeds (it
reaches no assertion, no `exit(1)`, no out-of-bounds access; in particular the guarded multiplication is never
asked to multiply two non-identity coefficients) and the compressed matrices have the value of the uncompressed. -/
theorem C02_compression_preserves_operator (ids : List T) (calls : List (Call C T))
    (hv : ∀ c ∈ calls, c.Valid ids.length) (hne : effective calls ≠ []) :
    ∃ g raw comp, history ids calls = .ok g ∧ g.fsm.genMatRepr = .ok raw ∧ g.fsm.genCompressed = .ok comp ∧
      ∀ v : Vals R C T, mpoVal v g comp = mpoVal v g raw := by
  obtain ⟨g, idO, ts, hg, h⟩ := history_spec ids calls hv
  obtain ⟨raw, comp, e1, e2, e3, _⟩ := h.compressed hne
  exact ⟨g, raw, comp, hg, e1, e2, fun v => by rw [mpoVal_eq, e3 R _ _ (coefVal_zero h v), ← mpoVal_eq]⟩

/-- C02 for arbitrary meanings of the labels, in any commutative semiring: only the identity coefficient has to
mean one. -/
theorem C02_compression_preserves_operator_any_labels {S : Type} [CommSemiring S] (ids : List T) (calls : List (Call C T))
    (hv : ∀ c ∈ calls, c.Valid ids.length) (hne : effective calls ≠ []) :
    ∃ g raw comp, history ids calls = .ok g ∧ g.fsm.genMatRepr = .ok raw ∧ g.fsm.genCompressed = .ok comp ∧
      ∀ (cv : Label → S) (ov : Nat → Label → S), cv 0 = 1 →
        matChain (comp.zipIdx.map (fun ms => ((fun x y => OpRepr.val cv (ov ms.2) (ms.1.get x y)), ms.1.cols))) 0 =
        matChain (raw.zipIdx.map (fun ms => ((fun x y => OpRepr.val cv (ov ms.2) (ms.1.get x y)), ms.1.cols))) 0 := by
  obtain ⟨g, idO, ts, hg, h⟩ := history_spec ids calls hv
  obtain ⟨raw, comp, e1, e2, e3, _⟩ := h.compressed hne
  refine ⟨g, raw, comp, hg, e1, e2, fun cv ov h0 => ?_⟩
  have key : ∀ (ms : List (SparMat OpRepr)) (i r : Nat), matChain ((ms.zipIdx i).map (fun ms =>
      ((fun x y => OpRepr.val cv (ov ms.2) (ms.1.get x y)), ms.1.cols))) r = chainVal cv ov i ms r := by
    intro ms
    induction ms with
    | nil => intros; rfl
    | cons m ms ih =>
      intro i r
      simp only [List.zipIdx_cons, List.map_cons, matChain, chainVal]
      exact Finset.sum_congr rfl fun c _ => by rw [ih]
  rw [key, key, e3 S cv ov h0]

/-- C03: compression never aborts. -/
theorem C03_compression_never_aborts (ids : List T) (calls : List (Call C T)) (hv : ∀ c ∈ calls, c.Valid ids.length)
    (hne : effective calls ≠ []) :
    ∃ g, history ids calls = .ok g ∧ ∀ e, g.fsm.genCompressed ≠ .error e := by
  obtain ⟨g, idO, ts, hg, h⟩ := history_spec ids calls hv
  obtain ⟨raw, comp, _, e2, _⟩ := h.compressed hne
  exact ⟨g, hg, fun e he => by rw [e2] at he; cases he⟩

/-- C04: after compression there is one matrix per site, neighbouring dimensions agree, no dimension is larger than
without compression, all are positive, and the outer ones are one. -/
theorem C04_bond_dimensions (ids : List T) (calls : List (Call C T)) (hv : ∀ c ∈ calls, c.Valid ids.length)
    (hne : effective calls ≠ []) :
    ∃ g raw comp, history ids calls = .ok g ∧ g.fsm.genMatRepr = .ok raw ∧ g.fsm.genCompressed = .ok comp ∧
      raw.length = ids.length ∧ comp.length = ids.length ∧
      (∀ ms, ms = raw ∨ ms = comp →
        (∀ (i : Nat) (a b : SparMat OpRepr), ms[i]? = some a → ms[i + 1]? = some b → a.cols = b.rows) ∧
        (∀ m ∈ ms, 0 < m.rows ∧ 0 < m.cols) ∧
        (∀ m, ms.head? = some m → m.rows = 1) ∧ (∀ m, ms.getLast? = some m → m.cols = 1)) ∧
      ∀ (i : Nat) (a b : SparMat OpRepr), comp[i]? = some a → raw[i]? = some b → a.rows ≤ b.rows ∧ a.cols ≤ b.cols := by
  obtain ⟨g, idO, ts, hg, h⟩ := history_spec ids calls hv
  obtain ⟨raw, comp, e1, e2, e3, e4, e5, e6, e7, e8, e9, _⟩ := h.compressed hne
  have dim : ∀ ms : List (SparMat OpRepr), DimOK ms →
      (∀ (i : Nat) (a b : SparMat OpRepr), ms[i]? = some a → ms[i + 1]? = some b → a.cols = b.rows) ∧
        (∀ m ∈ ms, 0 < m.rows ∧ 0 < m.cols) ∧ (∀ m, ms.getLast? = some m → m.cols = 1) := by
    intro ms
    induction ms with
    | nil => intro _; simp
    | cons m ms ih =>
      cases ms with
      | nil =>
        rintro ⟨h1, h2⟩
        refine ⟨by intro i a b _ hb; simp at hb, by simpa using ⟨h1.rpos, h1.cpos⟩, by simpa using h2⟩
      | cons m2 ms =>
        rintro ⟨h1, h2, h3⟩
        obtain ⟨i1, i2, i3⟩ := ih h3
        refine ⟨?_, ?_, ?_⟩
        · intro i a b ha hb
          cases i with
          | zero => simp at ha hb; subst ha; subst hb; exact h2
          | succ i => exact i1 i a b (by simpa using ha) (by simpa using hb)
        · intro x hx
          rcases List.mem_cons.1 hx with rfl | hx
          · exact ⟨h1.rpos, h1.cpos⟩
          · exact i2 x hx
        · intro x hx
          exact i3 x (by rw [List.getLast?_cons_cons] at hx; exact hx)
  refine ⟨g, raw, comp, hg, e1, e2, e7, by rw [e6.length_eq, e7], ?_, ?_⟩
  · rintro ms (rfl | rfl)
    · obtain ⟨d1, d2, d3⟩ := dim _ e4; exact ⟨d1, d2, e8, d3⟩
    · obtain ⟨d1, d2, d3⟩ := dim _ e5; exact ⟨d1, d2, e9, d3⟩
  · intro i a b ha hb
    obtain ⟨hi, rfl⟩ := List.getElem?_eq_some_iff.1 ha
    obtain ⟨hi', rfl⟩ := List.getElem?_eq_some_iff.1 hb
    exact (List.forall₂_iff_get.1 e6).2 i hi hi'

/-! ### C05 -/

/-- C05: at every bond the row/column indices which the generator assigns to the terms' states lie in range, two
terms get the same index exactly if they are in the same state, and every index is used. -/
theorem C05_state_numbering (ids : List T) (calls : List (Call C T)) (hv : ∀ c ∈ calls, c.Valid ids.length) :
    ∃ g, history ids calls = .ok g ∧ g.fsm.paths.length = (effective calls).length ∧ ∀ b, b ≤ ids.length →
      (∀ (k : Nat) (p : FPath), g.fsm.paths[k]? = some p → 0 ≤ g.fsm.statIdx b (p.stat b) ∧ g.fsm.statIdx b (p.stat b) < g.fsm.dim b) ∧
      (∀ (j k : Nat) (p q : FPath) (c d : Call C T), g.fsm.paths[j]? = some p → g.fsm.paths[k]? = some q →
        (effective calls)[j]? = some c → (effective calls)[k]? = some d →
        (g.fsm.statIdx b (p.stat b) = g.fsm.statIdx b (q.stat b) ↔ stateAt c.idxs j b = stateAt d.idxs k b)) ∧
      ∀ x : Nat, x < g.fsm.dim b → ∃ (k : Nat) (p : FPath), g.fsm.paths[k]? = some p ∧ g.fsm.statIdx b (p.stat b) = x := by
  obtain ⟨g, idO, ts, hg, h⟩ := history_spec ids calls hv
  have hvt := fun t ht => (h.valid t ht).1
  have hlen := h.terms.length_eq
  have hp := h.fsm.plen
  have stat : ∀ (k : Nat) (p : FPath), g.fsm.paths[k]? = some p → k < ts.length ∧ ∀ b, b ≤ ids.length → p.stat b = statOf ts k b := by
    intro k p hk
    refine ⟨by rw [← hp]; exact (List.getElem?_eq_some_iff.1 hk).1, h.fsm.stat k p hk⟩
  -- first and last site of a term
  have ends : ∀ (k : Nat) (c : Call C T) (hk : k < ts.length), (effective calls)[k]? = some c →
      (∀ b, c.idxs.all (fun s => decide (b ≤ s)) = true ↔ b ≤ ts[k].head) ∧
      (∀ b, c.idxs.all (fun s => decide (s < b)) = true ↔ ts[k].tail < b) := by
    intro k c hk hc
    obtain ⟨hkc, rfl⟩ := List.getElem?_eq_some_iff.1 hc
    have hres := (List.forall₂_iff_get.1 h.terms).2 k hkc hk
    simp only [List.get_eq_getElem] at hres
    have hvk := effective_valid hv _ (List.getElem_mem hkc)
    have hperm := (normCall_sites (effective calls)[k] hvk.len).1
    generalize hl : (normCall (effective calls)[k]).2 = l at hres hperm
    have hmem : ∀ s, s ∈ (effective calls)[k].idxs ↔ ∃ a ∈ l, a.1 = s := by
      intro s; rw [← hperm.mem_iff]; simp
    have hb : ∀ a ∈ l, ts[k].head ≤ a.1 ∧ a.1 ≤ ts[k].tail := by
      have hasc := hres.asc
      have hhd := hres.hd
      have htl := hres.tl
      intro a ha
      constructor
      · cases l with
        | nil => cases ha
        | cons x r =>
          simp at hhd
          rcases List.mem_cons.1 ha with rfl | hr
          · omega
          · have := (List.pairwise_cons.1 hasc).1 a hr; omega
      · rcases List.eq_nil_or_concat l with hl | ⟨r, x, hl⟩
        · rw [hl] at ha; cases ha
        · rw [List.concat_eq_append] at hl
          rw [hl] at htl ha hasc
          simp at htl
          rcases List.mem_append.1 ha with hr | hr
          · have := (List.pairwise_append.1 hasc).2.2 a hr x (by simp); omega
          · simp at hr; subst hr; omega
    have h1 : ∃ a ∈ l, a.1 = ts[k].head := by
      have := hres.hd
      cases l with
      | nil => simp at this
      | cons x r => simp at this; exact ⟨x, by simp, this⟩
    have h2 : ∃ a ∈ l, a.1 = ts[k].tail := by
      have := hres.tl
      cases hx : l.getLast? with
      | none => rw [hx] at this; simp at this
      | some x => rw [hx] at this; simp at this; exact ⟨x, List.mem_of_getLast? hx, this⟩
    constructor
    · intro b
      simp only [List.all_eq_true, decide_eq_true_eq]
      constructor
      · intro hall
        obtain ⟨a, ha, e⟩ := h1
        have := hall a.1 ((hmem _).2 ⟨a, ha, rfl⟩); omega
      · intro hle s hs
        obtain ⟨a, ha, rfl⟩ := (hmem s).1 hs
        have := hb a ha; omega
    · intro b
      simp only [List.all_eq_true, decide_eq_true_eq]
      constructor
      · intro hall
        obtain ⟨a, ha, e⟩ := h2
        have := hall a.1 ((hmem _).2 ⟨a, ha, rfl⟩); omega
      · intro hle s hs
        obtain ⟨a, ha, rfl⟩ := (hmem s).1 hs
        have := hb a ha; omega
  have sidx : ∀ k b, k < ts.length → b ≤ ids.length → g.fsm.statIdx b (statOf ts k b) = (g.fsm.idx ts b k : Nat) := by
    intro k b hk hb
    have := (idx_lt h.fsm hvt hb hk).1
    unfold Fsm.idx; omega
  refine ⟨g, hg, by omega, fun b hb => ⟨?_, ?_, ?_⟩⟩
  · intro k p hk
    obtain ⟨hkt, hs⟩ := stat k p hk
    have := idx_lt h.fsm hvt hb hkt
    rw [hs b hb, sidx k b hkt hb]
    omega
  · intro j k p q c d hj hk hc hd
    obtain ⟨hjt, hsj⟩ := stat j p hj
    obtain ⟨hkt, hsk⟩ := stat k q hk
    rw [hsj b hb, hsk b hb, sidx j b hjt hb, sidx k b hkt hb, Int.natCast_inj, same_iff h.fsm hvt hb hjt hkt]
    obtain ⟨a1, a2⟩ := ends j c hjt hc
    obtain ⟨b1, b2⟩ := ends k d hkt hd
    have vj := (hvt _ (List.getElem_mem hjt)).ht
    have vk := (hvt _ (List.getElem_mem hkt)).ht
    unfold stateAt
    simp only [a1, a2, b1, b2]
    by_cases hjk : j = k
    · subst hjk
      have hcd : c = d := by rw [hc] at hd; exact Option.some.inj hd
      subst hcd
      simp only [iff_true]
      by_cases c1 : b ≤ ts[j].head
      · exact Or.inl ⟨c1, c1⟩
      · by_cases c2 : ts[j].tail < b
        · exact Or.inr (Or.inl ⟨c2, c2⟩)
        · exact Or.inr (Or.inr ⟨trivial, by omega, by omega⟩)
    · by_cases c1 : b ≤ ts[j].head
      · rw [if_pos c1]
        by_cases d1 : b ≤ ts[k].head
        · rw [if_pos d1]; simp [c1, d1]
        · rw [if_neg d1]
          by_cases d2 : ts[k].tail < b
          · rw [if_pos d2]; simp; omega
          · rw [if_neg d2]; simp; omega
      · rw [if_neg c1]
        by_cases c2 : ts[j].tail < b
        · rw [if_pos c2]
          by_cases d1 : b ≤ ts[k].head
          · rw [if_pos d1]; simp; omega
          · rw [if_neg d1]
            by_cases d2 : ts[k].tail < b
            · rw [if_pos d2]; simp; omega
            · rw [if_neg d2]; simp; omega
        · rw [if_neg c2]
          by_cases d1 : b ≤ ts[k].head
          · rw [if_pos d1]; simp; omega
          · rw [if_neg d1]
            by_cases d2 : ts[k].tail < b
            · rw [if_pos d2]; simp; omega
            · rw [if_neg d2]; simp; omega
  · intro x hx
    obtain ⟨k, hk, e⟩ := idx_surj h.fsm hvt hb hx
    have hkp : k < g.fsm.paths.length := by omega
    obtain ⟨_, hs⟩ := stat k _ (List.getElem?_eq_getElem hkp)
    exact ⟨k, _, List.getElem?_eq_getElem hkp, by rw [hs b hb, sidx k b hk hb, e]⟩

/-- At bond 1 of the demo the first term and the last are inside, the second is not started: three different
states. -/
example : stateAt [0, 1] 0 1 = .inside 0 ∧ stateAt [1, 2] 1 1 = .ready ∧ stateAt [2, 0, 1] 3 1 = .inside 3 := by decide

/-! ### C06, C07 -/

/-- C06: `AddTerm` gives the same result for any two listings of the same site/operator pairs on distinct sites. -/
theorem C06_addTerm_order_independent (g : Generator C T) (coef : C) (ops ops' : List T) (idxs idxs' : List Nat)
    (hl : ops.length = idxs.length) (hl' : ops'.length = idxs'.length) (hnd : idxs.Nodup)
    (hp : (idxs.zip ops).Perm (idxs'.zip ops')) :
    g.addTerm coef ops idxs = g.addTerm coef ops' idxs' := by
  have hidx : idxs.Perm idxs' := by
    have := hp.map Prod.fst
    rwa [List.map_fst_zip (by omega), List.map_fst_zip (by omega)] at this
  have hs : sortBySite (idxs.zip ops) = sortBySite (idxs'.zip ops') := by
    refine List.Perm.eq_of_pairwise (le := fun a b => a.1 ≤ b.1) ?_ (sortBySite_sorted _) (sortBySite_sorted _)
      ((sortBySite_perm _).trans (hp.trans (sortBySite_perm _).symm))
    intro a b ha hb h1 h2
    have ha' := (sortBySite_perm _).mem_iff.1 ha
    have hb' := hp.mem_iff.2 ((sortBySite_perm _).mem_iff.1 hb)
    have e : a.1 = b.1 := Nat.le_antisymm h1 h2
    have hnd' : ((idxs.zip ops).map Prod.fst).Nodup := by rw [List.map_fst_zip (by omega)]; exact hnd
    exact List.inj_on_of_nodup_map hnd' ha' hb' e
  have hlen : idxs.length = idxs'.length := hidx.length_eq
  have hany : idxs.any (fun s => decide (g.N ≤ s)) = idxs'.any (fun s => decide (g.N ≤ s)) := by
    rw [Bool.eq_iff_iff, List.any_eq_true, List.any_eq_true]
    constructor
    · rintro ⟨s, h1, h2⟩; exact ⟨s, hidx.mem_iff.1 h1, h2⟩
    · rintro ⟨s, h1, h2⟩; exact ⟨s, hidx.mem_iff.2 h1, h2⟩
  unfold Generator.addTerm
  rw [if_neg (show ¬ ops.length ≠ idxs.length by omega), if_neg (show ¬ ops'.length ≠ idxs'.length by omega), hany, hs]

/-- The three orders of the last demo term register the same term. -/
example (g : Generator Int (Int × Int)) :
    g.addTerm 5 [(11, -1), (-7, 1), (13, 0)] [2, 0, 1] = g.addTerm 5 [(-7, 1), (13, 0), (11, -1)] [0, 1, 2] :=
  C06_addTerm_order_independent g 5 _ _ _ _ rfl rfl (by decide) (by decide)

/-- C07: whatever was added before, adding one more non-negligible term that does not collide adds exactly
coefficient × (the original operators on their sites), whatever the signs of their leading elements. -/
theorem C07_sign_normalisation (ids : List T) (calls : List (Call C T)) (c : Call C T)
    (hv : ∀ c ∈ calls, c.Valid ids.length) (hc : c.Valid ids.length) (hne : effective calls ≠ [])
    (hn : c.negligible = false) (hcol : ¬ collides (effective calls) c) :
    ∃ g ms g' ms', history ids calls = .ok g ∧ g.fsm.genMatRepr = .ok ms ∧
      g.addTerm c.coef c.ops c.idxs = .ok g' ∧ g'.fsm.genMatRepr = .ok ms' ∧
      ∀ v : Vals R C T, mpoVal v g' ms' = mpoVal v g ms + termVal v ids c := by
  obtain ⟨g, ms, h1, h2, _, h4⟩ := C01_generated_mpo_exact (R := R) ids calls hv hne
  have heff : effective (calls ++ [c]) = effective calls ++ [c] := by simp [effective, hn]
  have hv' : ∀ d ∈ calls ++ [c], d.Valid ids.length := by
    intro d hd
    rcases List.mem_append.1 hd with h | h
    · exact hv d h
    · simp at h; subst h; exact hc
  obtain ⟨g', ms', k1, k2, _, k4⟩ := C01_generated_mpo_exact (R := R) ids (calls ++ [c]) hv' (by rw [heff]; simp)
  have hadd : g.addTerm c.coef c.ops c.idxs = .ok g' := by
    unfold history at k1 h1
    rw [List.foldlM_append, h1] at k1
    have k2 : (g.addTerm c.coef c.ops c.idxs >>= pure) = .ok g' := k1
    simpa using k2
  refine ⟨g, ms, g', ms', h1, h2, hadd, k2, fun v => ?_⟩
  rw [h4, k4, heff, keptSum_append]
  simp only [keptSum, List.nil_append, if_neg hcol, add_zero]

/-- C07 for a single term on an empty generator. -/
theorem C07_single_term (ids : List T) (c : Call C T) (hc : c.Valid ids.length) (hn : c.negligible = false) :
    ∃ g ms, history ids [c] = .ok g ∧ g.fsm.genMatRepr = .ok ms ∧
      ∀ v : Vals R C T, mpoVal v g ms = termVal v ids c := by
  have heff : effective [c] = [c] := by simp [effective, hn]
  obtain ⟨g, ms, h1, h2, _, h4⟩ := C01_generated_mpo_exact (R := R) ids [c] (by simpa using hc) (by rw [heff]; simp)
  refine ⟨g, ms, h1, h2, fun v => ?_⟩
  rw [h4, heff]
  simp only [keptSum, add_zero]
  rw [if_neg (by rintro ⟨⟨b, hb, _⟩, _⟩; simp at hb)]

/-- A term with two negative leading elements: `(-2)·(-7)·(-11)` is stored as `(-2)·7·11`. -/
example : termVal demoVals demoIds ⟨-2, [(-7, 1), (-11, -1)], [0, 2]⟩ = -154 ∧
    normalize (T := Int × Int) (-2 : Int) [(-7, 1), (-11, -1)] = (-2, [(7, 1), (11, -1)]) := by decide

/-! ### C09 -/

/-- Labels returned by a sequence of `Convert` calls on a table, and the final table. -/
def convertRun {α : Type} [DecidableEq α] (hub : List α) : List α → List Nat × List α
  | [] => ([], hub)
  | a :: as =>
    let r := convert hub a
    let s := convertRun r.2 as
    (r.1 :: s.1, s.2)

/-- C09: over any history of conversions on a table without repetitions, old entries keep their labels, the `i`-th
returned label denotes the `i`-th object in the final table, equal objects have equal labels and different objects
have different labels. -/
theorem C09_labels_stable_injective {α : Type} [DecidableEq α] (hub as : List α) (hnd : hub.Nodup) :
    (convertRun hub as).1.length = as.length ∧ (convertRun hub as).2.Nodup ∧
    (∀ (l : Nat) (x : α), hub[l]? = some x → (convertRun hub as).2[l]? = some x) ∧
    (∀ (i : Nat) (a : α) (l : Nat), as[i]? = some a → (convertRun hub as).1[i]? = some l → (convertRun hub as).2[l]? = some a) ∧
    ∀ (i j : Nat) (a b : α) (l m : Nat), as[i]? = some a → as[j]? = some b → (convertRun hub as).1[i]? = some l →
      (convertRun hub as).1[j]? = some m → (a = b ↔ l = m) := by
  have main : ∀ (as hub : List α), hub.Nodup → (convertRun hub as).1.length = as.length ∧ (convertRun hub as).2.Nodup ∧
      hub <+: (convertRun hub as).2 ∧
      (∀ (i : Nat) (a : α) (l : Nat), as[i]? = some a → (convertRun hub as).1[i]? = some l → (convertRun hub as).2[l]? = some a) := by
    intro as
    induction as with
    | nil => intro hub h; exact ⟨rfl, h, List.prefix_refl _, by simp⟩
    | cons a as ih =>
      intro hub h
      obtain ⟨c1, c2, c3⟩ := convert_spec hub a
      obtain ⟨i1, i2, i3, i4⟩ := ih (convert hub a).2 (c3 h)
      refine ⟨by simp [convertRun, i1], i2, c2.trans i3, ?_⟩
      intro i x l hx hl
      cases i with
      | zero =>
        simp only [List.getElem?_cons_zero, Option.some.injEq, convertRun] at hx hl
        subst hx; subst hl
        exact prefix_get i3 c1
      | succ i => exact i4 i x l (by simpa using hx) (by simpa [convertRun] using hl)
  obtain ⟨m1, m2, m3, m4⟩ := main as hub hnd
  refine ⟨m1, m2, fun l x h => prefix_get m3 h, m4, ?_⟩
  intro i j a b l m hi hj hl hm
  have e1 := m4 i a l hi hl
  have e2 := m4 j b m hj hm
  constructor
  · rintro rfl
    obtain ⟨h1, f1⟩ := List.getElem?_eq_some_iff.1 e1
    obtain ⟨h2, f2⟩ := List.getElem?_eq_some_iff.1 e2
    exact (List.Nodup.getElem_inj_iff m2).1 (f1.trans f2.symm)
  · rintro rfl
    rw [e1] at e2; exact Option.some.inj e2

/-- C09: label 0 of the coefficient table denotes one, after any history of calls. -/
theorem C09_label_zero_is_one (ids : List T) (calls : List (Call C T)) (hv : ∀ c ∈ calls, c.Valid ids.length) :
    ∃ g, history ids calls = .ok g ∧ g.coefHub[0]? = some (GenTypes.cone T) ∧ g.coefHub.Nodup ∧ g.opHub.Nodup := by
  obtain ⟨g, idO, ts, hg, h⟩ := history_spec ids calls hv
  exact ⟨g, hg, h.c0, h.cnd, h.tnd⟩

example : convertRun [10] [20, 10, 30, 20] = ([1, 0, 2, 1], [10, 20, 30]) := by decide

/-! ### C12, C13 -/

/-- C12: `Gen` groups the columns of every bond by quantum number. For charge-neutral terms it trips none of its
assertions; the result is consistent (sectors non-empty, pairwise different, covering the bond, matching on both
sides, each tensor of divergence zero); dimensions are those of the unsorted matrices; the value is unchanged. -/
theorem C12_column_grouping {Q : Type} [DecidableEq Q] [AddCommGroup Q] (ids : List T) (calls : List (Call C T))
    (hv : ∀ c ∈ calls, c.Valid ids.length) (hne : effective calls ≠ []) (tdiv : T → Q)
    (hneg : ∀ t, tdiv (GenTypes.tneg C t) = tdiv t) (hid : ∀ t ∈ ids, tdiv t = 0)
    (hneu : ∀ c ∈ effective calls, (c.ops.map tdiv).sum = 0) (compress : Bool) :
    ∃ g ms l, history ids calls = .ok g ∧
      (if compress then g.fsm.genCompressed else g.fsm.genMatRepr) = .ok ms ∧ g.gen tdiv 0 compress = .ok l ∧
      Consistent (fun lb => (g.opHub[lb]?).elim 0 tdiv) [(0, 1)] l ∧
      List.Forall₂ (fun (t : SiteTen Q) m => t.mat.rows = m.rows ∧ t.mat.cols = m.cols) l ms ∧
      ∀ v : Vals R C T, mpoVal v g (l.map (·.mat)) = mpoVal v g ms := by
  obtain ⟨g, idO, ts, hg, h⟩ := history_spec ids calls hv
  obtain ⟨ms, l, e1, e2, e3, e4, e5⟩ := gen_spec hv hg hne tdiv hneg hid hneu compress
  refine ⟨g, ms, l, hg, e1, e2, e3, e4, fun v => ?_⟩
  rw [e5 v]
  obtain ⟨raw, comp, a1, a2, a3, _⟩ := h.compressed hne
  cases compress with
  | true =>
    simp only [if_true, a2] at e1; cases e1
    rw [mpoVal_eq, a3 R _ _ (coefVal_zero h v), ← mpoVal_eq]
    exact (value_raw hv hg hne a1 v).symm
  | false =>
    simp only [a1] at e1; cases e1
    exact (value_raw hv hg hne a1 v).symm

/-- C12, one bond: `SortSparOpReprMatColsByQN_` on any matrix without empty columns whose entries have definite
quantum numbers returns a permutation of the columns, sectors of pairwise different quantum number, and column `y` of the
result (the old column `perm[y]`) has the quantum number of the sector which holds `y`. -/
theorem C12_one_bond {Q : Type} [DecidableEq Q] [AddCommGroup Q] (div : Label → Q) (vb : List (Q × Nat))
    (m : SparMat OpRepr) (hm : m.WF) (colq : Nat → Q) (hdim : (expand vb).length = m.rows)
    (hg : ∀ x y ql, y < m.cols → (expand vb)[x]? = some ql → ∀ kc ∈ m.get x y, ql = div kc.1 + colq y)
    (hfull : ∀ y, y < m.cols → ∃ x, x < m.rows ∧ m.get x y ≠ []) :
    ∃ m' ps perm, sortColsByQN div vb m = .ok (m', ps, perm) ∧ perm.Perm (List.range m.cols) ∧
      (ps.map (·.1)).Nodup ∧ (∀ qd ∈ ps, 1 ≤ qd.2) ∧ expand ps = perm.map colq ∧
      m'.rows = m.rows ∧ m'.cols = m.cols ∧
      ∀ x y, x < m.rows → y < m.cols → m'.get x y = m.get x (perm.getD y 0) := by
  have hq : ∀ x, x < m.rows → sectorOf vb x = .ok ((expand vb).getD x 0) := by
    intro x hx
    rw [sectorOf_expand, List.getElem?_eq_getElem (by omega)]; simp [hdim ▸ hx]
  obtain ⟨m', ps, perm, s1, s2, s3, s4, s5, s6, s7, s8⟩ := sortCols_ok (d := div) (vb := vb) (q := fun x => (expand vb).getD x 0)
    (q' := colq) hm hq (by
      rintro x y hx hy l ⟨kc, hk, rfl⟩
      simp only [lines, cross] at hx hy
      have := hg x y ((expand vb).getD x 0) hy (by rw [List.getElem?_eq_getElem (by omega)]; simp [hdim ▸ hx]) kc hk
      show div kc.1 = (expand vb).getD x 0 - colq y
      rw [this]; simp) hfull
  refine ⟨m', ps, perm, s1, s2, s4, aligned_pos s3, ?_, s6, s7, s8⟩
  have hlen : (expand ps).length = perm.length := by rw [expand_length, aligned_dim s3]
  refine List.ext_getElem (by simpa using hlen) fun i h1 h2 => ?_
  have := aligned_sector s3 i (by omega)
  rw [sectorOf_expand, List.getElem?_eq_getElem h1] at this
  simpa using this

/-- The demo operator is charge-neutral and its operators carry non-zero quantum numbers. -/
example : (∀ c ∈ effective demoCalls, (c.ops.map (fun t : Int × Int => t.2)).sum = 0) ∧
    ∃ c ∈ demoCalls, ∃ t ∈ c.ops, t.2 ≠ 0 := ⟨demo_neutral, by decide⟩

/-- C13: on a chain with at least one site, `Gen` succeeds for charge-neutral input if and only if at least one
non-negligible term was added. -/
theorem C13_gen_safe_iff_some_term {Q : Type} [DecidableEq Q] [AddCommGroup Q] (ids : List T) (calls : List (Call C T))
    (hN : ids ≠ []) (hv : ∀ c ∈ calls, c.Valid ids.length) (tdiv : T → Q)
    (hneg : ∀ t, tdiv (GenTypes.tneg C t) = tdiv t) (hid : ∀ t ∈ ids, tdiv t = 0)
    (hneu : ∀ c ∈ effective calls, (c.ops.map tdiv).sum = 0) (compress : Bool) :
    ∃ g, history ids calls = .ok g ∧ ((∃ l, g.gen tdiv 0 compress = .ok l) ↔ effective calls ≠ []) := by
  obtain ⟨g, idO, ts, hg, h⟩ := history_spec ids calls hv
  refine ⟨g, hg, ?_, fun hne => ?_⟩
  · rintro ⟨l, hl⟩ hne
    rw [hne] at h
    have hts : ts = [] := by have := h.terms.length_eq; simpa using this.symm
    subst hts
    have hdim : ∀ b, b ≤ ids.length → g.fsm.dim b = 0 := by
      intro b hb
      unfold Fsm.dim
      rw [h.fsm.mid b hb, h.fsm.hasR b hb, h.fsm.hasF b hb]; simp
    have hp : g.fsm.paths = [] := List.length_eq_zero_iff.1 (by rw [h.fsm.plen]; rfl)
    have hraw : g.fsm.genMatRepr = .ok ((List.range ids.length).map (fun _ => SparMat.mk' 0 0)) := by
      unfold Fsm.genMatRepr
      rw [hp]
      simp only [List.foldlM_nil, bind, Except.bind, pure, Except.pure, h.fsm.hN]
      congr 1
      refine List.map_congr_left fun i hi => ?_
      have hi := List.mem_range.1 hi
      rw [hdim i (by omega), hdim (i + 1) (by omega)]
    obtain ⟨n, hn⟩ : ∃ n, ids.length = n + 1 := ⟨ids.length - 1, by have := List.length_pos_of_ne_nil hN; omega⟩
    have hsort : ∀ d : Label → Q, sortColsByQN d [(0, 1)] (SparMat.mk' 0 0 : SparMat OpRepr) = .ok (SparMat.mk' 0 0, [], []) :=
      fun _ => rfl
    have hcons : (List.range (n + 1)).map (fun _ => (SparMat.mk' 0 0 : SparMat OpRepr)) =
        SparMat.mk' 0 0 :: (List.range n).map (fun _ => (SparMat.mk' 0 0 : SparMat OpRepr)) := by
      rw [List.range_succ_eq_map, List.map_cons, List.map_map]; rfl
    unfold Generator.gen at hl
    cases compress with
    | false =>
      rw [hn, hcons] at hraw
      simp [hraw, bind, Except.bind, genMats, hsort] at hl
    | true =>
      have hcomp : ∀ e, g.fsm.genCompressed = .error e ∨ g.fsm.genCompressed = .ok [SparMat.mk' 0 0] ∨
          ∃ e', g.fsm.genCompressed = .error e' := by
        intro e
        unfold Fsm.genCompressed
        rw [hraw, hn, hcons]
        cases n with
        | zero => exact Or.inr (Or.inl rfl)
        | succ n =>
          rw [List.range_succ_eq_map, List.map_cons]
          have hcmp : ∃ e', compress .col (SparMat.mk' 0 0) (SparMat.mk' 0 0) = .error e' := by
            have hs : sortedIdxs .col (SparMat.mk' 0 0 : SparMat OpRepr) = [] := by
              simp [sortedIdxs, genSortMapping, lines, SparMat.mk']
            unfold Verif.Mpo.compress
            rw [hs]
            exact ⟨_, rfl⟩
          obtain ⟨e', he'⟩ := hcmp
          right; right
          exact ⟨e', by simp [bind, Except.bind, colPass, he']⟩
      rcases hcomp .oob with he | he | ⟨e', he⟩
      · simp [he, bind, Except.bind] at hl
      · simp [he, bind, Except.bind, genMats, hsort] at hl
      · simp [he, bind, Except.bind] at hl
  · obtain ⟨_, l, _, e2, _⟩ := gen_spec hv hg hne tdiv hneg hid hneu compress
    exact ⟨l, e2⟩

example : ∃ g, history demoIds ([⟨0, [(13, 0)], [1]⟩] : List (Call Int (Int × Int))) = .ok g ∧
    ¬ ∃ l, g.gen (fun t : Int × Int => t.2) 0 true = .ok l := by
  obtain ⟨g, h1, h2⟩ := C13_gen_safe_iff_some_term (C := Int) demoIds [⟨0, [(13, 0)], [1]⟩] (by decide)
    (by intro c hc; simp at hc; subst hc; exact ⟨by decide, by decide, by decide, by decide⟩)
    (fun t : Int × Int => t.2) (fun _ => rfl) (by decide) (by intro c hc; simp [effective, Call.negligible, GenTypes.czero] at hc) true
  exact ⟨g, h1, fun h => h2.1 h rfl⟩

end
end Verif.Props
