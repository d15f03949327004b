import Verif.Disk.DmrgFacts
/-
The DMRG executor: initialisation, post-processing, and the loop over the sweeps with signals.
-/
namespace Verif.Disk

variable {T O : Type} {A : Alg T (List O)} {w : Nat → Nat} {N lb rb : Nat} {fl fr : Nat → File (List O)}

/-! ### The updates of a sweep -/

theorem updates_length (lb rb : Nat) : (updates lb rb).length = 2 * (rb - 1 - lb) := by
  simp [updates]; omega

theorem updates_right {p : Nat} (h : p < rb - 1 - lb) : (updates lb rb)[p]? = some (Dir.r, lb + p) := by
  unfold updates
  rw [List.getElem?_append_left (by simpa using h)]
  simp [List.getElem?_range' h]

theorem updates_left {p : Nat} (h : p < rb - 1 - lb) : (updates lb rb)[rb - 1 - lb + p]? = some (Dir.l, rb - p) := by
  unfold updates
  rw [List.getElem?_append_right (by simp)]
  simp only [List.length_map, List.length_range', Nat.add_sub_cancel_left, List.getElem?_map]
  rw [List.getElem?_reverse (by simpa using h), List.getElem?_range' (by simp; omega)]
  simp only [List.length_range', Option.map_some]
  congr 2
  omega

theorem optFirst_succ {p : Nat} {u : Dir × Nat} (h : (updates lb rb)[p]? = some u) (ψ : (Nat → T) × Nat) :
    optFirst A N lb rb (p + 1) ψ = optOne A N (optFirst A N lb rb p ψ) u := by
  unfold optFirst
  rw [List.take_add_one, h, Option.toList_some, List.foldl_append]
  rfl

theorem foldl_optR (ψ : (Nat → T) × Nat) : ∀ is : List Nat, (is.map (Dir.r, ·)).foldl (optOne A N) ψ = is.foldl (optR A N) ψ := by
  intro is; rw [List.foldl_map]; rfl

theorem foldl_optL (ψ : (Nat → T) × Nat) : ∀ is : List Nat, (is.map (Dir.l, ·)).foldl (optOne A N) ψ = is.foldl (optL A N) ψ := by
  intro is; rw [List.foldl_map]; rfl

/-- All updates make up a sweep. -/
theorem optFirst_all (ψ : (Nat → T) × Nat) : optFirst A N lb rb (2 * (rb - 1 - lb)) ψ = optSweep A N lb rb ψ := by
  unfold optFirst optSweep
  rw [← updates_length, List.take_length, updates, List.foldl_append, foldl_optR, foldl_optL]

/-! ### Inside a sweep -/

/-- The state after `p` updates of a sweep that began with `ψ`. -/
def InSweep (A : Alg T (List O)) (N lb rb : Nat) (fl fr : Nat → File (List O)) (ψ : (Nat → T) × Nat) (p : Nat)
    (s : Sys T (List O)) : Prop :=
  if p = 0 then StartD A N lb rb fl fr ψ s
  else if p ≤ rb - 1 - lb then RInvW A (geoD N lb rb) fl fr (optFirst A N lb rb p ψ) (lb + p) s
  else LInvW A (geoD N lb rb) fl fr (optFirst A N lb rb p ψ) (rb - (p - (rb - 1 - lb))) s

theorem inSweep_right (H : A.Legs) (D : A.Dims w N) (h1 : lb + 2 ≤ rb) (h2 : rb < N) {ψ : (Nat → T) × Nat} {p : Nat}
    (hp : p < rb - 1 - lb) {s : Sys T (List O)} (hs : InSweep A N lb rb fl fr ψ p s) :
    Does N N (dStepR A w N lb (lb + p)) s (InSweep A N lb rb fl fr ψ (p + 1)) := by
  have goal : ∀ s, RInvW A (geoD N lb rb) fl fr (optFirst A N lb rb (p + 1) ψ) (lb + (p + 1)) s → InSweep A N lb rb fl fr ψ (p + 1) s :=
    fun s h => by rw [InSweep, if_neg (by omega), if_pos (by omega)]; exact h
  unfold InSweep at hs
  rw [optFirst_succ (updates_right hp)] at goal
  by_cases h0 : p = 0
  · subst h0
    rw [if_pos rfl] at hs
    exact (dStepR_first H D h1 h2 hs).mono goal
  · rw [if_neg h0, if_pos (by omega)] at hs
    exact (dStepR_next H D h1 h2 (by omega) (by omega) hs).mono goal

theorem inSweep_left (H : A.Legs) (D : A.Dims w N) (h1 : lb + 2 ≤ rb) (h2 : rb < N) {ψ : (Nat → T) × Nat} {p : Nat}
    (hp : p < rb - 1 - lb) {s : Sys T (List O)} (hs : InSweep A N lb rb fl fr ψ (rb - 1 - lb + p) s) :
    Does N N (dStepL A w N rb (rb - p)) s (InSweep A N lb rb fl fr ψ (rb - 1 - lb + p + 1)) := by
  have goal : ∀ s, LInvW A (geoD N lb rb) fl fr (optFirst A N lb rb (rb - 1 - lb + p + 1) ψ) (rb - p - 1) s →
      InSweep A N lb rb fl fr ψ (rb - 1 - lb + p + 1) s := fun s h => by
    rw [InSweep, if_neg (by omega), if_neg (by omega), show rb - (rb - 1 - lb + p + 1 - (rb - 1 - lb)) = rb - p - 1 by omega]
    exact h
  unfold InSweep at hs
  rw [optFirst_succ (updates_left hp)] at goal
  rw [if_neg (by omega)] at hs
  by_cases h0 : p = 0
  · subst h0
    rw [if_pos (by omega), show lb + (rb - 1 - lb + 0) = rb - 1 by omega] at hs
    exact (dStepL_first H D h1 h2 hs).mono goal
  · rw [if_neg (by omega), show rb - (rb - 1 - lb + p - (rb - 1 - lb)) = rb - p by omega] at hs
    exact (dStepL_next H D h1 h2 (by omega) (by omega) hs).mono goal

theorem inSweep_end (h1 : lb + 2 ≤ rb) {ψ : (Nat → T) × Nat} {s : Sys T (List O)}
    (hs : InSweep A N lb rb fl fr ψ (2 * (rb - 1 - lb)) s) :
    StartD A N lb rb (trimW (geoD N lb rb) fl) fr (optSweep A N lb rb ψ) s := by
  unfold InSweep at hs
  rw [if_neg (by omega), if_neg (by omega), show rb - (2 * (rb - 1 - lb) - (rb - 1 - lb)) = lb + 1 by omega, optFirst_all] at hs
  refine ⟨hs.m, hs.l, fun j hj => ?_, hs.clk, hs.d⟩
  rw [hs.r]
  exact if_neg (by simp only [geoD]; omega)

/-- After an emergency stop: all tensors are on disk, and of the right block operators in the swept range each group
is missing or is that of the MPS on disk. -/
structure Emerg (A : Alg T (List O)) (N lb rb : Nat) (ψ : (Nat → T) × Nat) (s : Sys T (List O)) : Prop where
  m : OnDisk N ψ.1 s.dsk
  none : s.mem.m = fun _ => none
  clk : s.mem.clk = ψ.2
  r : ∀ k, N ≤ k + 1 + rb → k + lb + 2 ≤ N → s.dsk.r k = .gone ∨ s.dsk.r k = .whole (A.renv N ψ.1 k)

theorem emerg_right (h1 : lb + 2 ≤ rb) (h2 : rb < N) {ψ : (Nat → T) × Nat} {p : Nat}
    (hp : p < rb - 1 - lb) {s : Sys T (List O)} (hs : InSweep A N lb rb fl fr ψ (p + 1) s) :
    Does N N [.dpM (lb + p + 1) true] s (Emerg A N lb rb (optFirst A N lb rb (p + 1) ψ)) := by
  unfold InSweep at hs
  rw [if_neg (by omega), if_pos (by omega)] at hs
  have hm := hs.m
  refine .dpM (by omega) (by rw [hm]; exact wnd_in (by omega) (by simp only [geoD]; omega)) (.nil ⟨fun j hj => ?_, ?_, hs.clk, fun k g1 g2 => ?_⟩)
  · by_cases h : j = lb + p + 1
    · subst h; simp
    · simp only [Function.update_of_ne h]; exact hs.d.m j hj (by simp only [geoD]; omega)
  · rw [hm]
    funext j
    by_cases h : j = lb + p + 1
    · subst h; simp
    · simp only [Function.update_of_ne h]; exact wnd_out (by simp only [geoD]; omega)
  · have := hs.d.r k
    simp only [geoD] at this
    by_cases h : N ≤ k + 1 + rb ∧ k + (lb + (p + 1) + 2) ≤ N
    · exact Or.inr (this.trans (if_pos h))
    · exact Or.inl ((this.trans (if_neg h)).trans (if_pos ⟨g1, g2⟩))

theorem emerg_left (h1 : lb + 2 ≤ rb) (h2 : rb < N) {ψ : (Nat → T) × Nat} {p : Nat}
    (hp : p < rb - 1 - lb) {s : Sys T (List O)} (hs : InSweep A N lb rb fl fr ψ (rb - 1 - lb + p + 1) s) :
    Does N N [.dpM (rb - p - 1) true] s (Emerg A N lb rb (optFirst A N lb rb (rb - 1 - lb + p + 1) ψ)) := by
  unfold InSweep at hs
  rw [if_neg (by omega), if_neg (by omega), show rb - (rb - 1 - lb + p + 1 - (rb - 1 - lb)) = rb - p - 1 by omega] at hs
  have hm := hs.m
  refine .dpM (by omega) (by rw [hm]; exact wnd_in (by simp only [geoD]; omega) (by omega)) (.nil ⟨fun j hj => ?_, ?_, hs.clk, fun k g1 g2 => ?_⟩)
  · by_cases h : j = rb - p - 1
    · subst h; simp
    · simp only [Function.update_of_ne h]; exact hs.d.m j hj (by simp only [geoD]; omega)
  · rw [hm]
    funext j
    by_cases h : j = rb - p - 1
    · subst h; simp
    · simp only [Function.update_of_ne h]; exact wnd_out (by simp only [geoD]; omega)
  · have := hs.d.r k
    simp only [geoD] at this
    by_cases h : N ≤ k + 1 + rb ∧ k + (rb - p - 1 + 1) ≤ N
    · exact Or.inr (this.trans (if_pos h))
    · exact Or.inl ((this.trans (if_neg h)).trans (if_pos ⟨g1, g2⟩))

/-! ### The loops with signals -/

section
variable {step : Nat → List (Op T (List O))} {ed : Nat → Nat} {sg : Nat → Flags} {J : Nat → Sys T (List O) → Prop} {a : Nat}

/-- No emergency is seen. -/
theorem dHalf_none : ∀ (is : List Nat) (p : Nat) {cs : CSys T O},
    (∀ x i, is[x]? = some i → Ty w N a (step i) a ∧ ∀ s, J (p + x) s → Does N N (step i) s (J (p + x + 1))) →
    (∀ x, x < is.length → (sg (p + x)).em = false) → Lift w N a (J p) cs →
    ∃ cs', dHalf w N step ed sg p is cs = .ok (cs', false) ∧ Lift w N a (J (p + is.length)) cs'
  | [], p, cs, _, _, h => ⟨cs, rfl, h⟩
  | i :: is, p, cs, hst, hem, h => by
    obtain ⟨ty, hdo⟩ := hst 0 i rfl
    obtain ⟨c1, e1, l1⟩ := h.step ty hdo
    have h0 := hem 0 (by simp)
    obtain ⟨c2, e2, l2⟩ := dHalf_none is (p + 1) (fun x j hx => by
      have := hst (x + 1) j (by simpa using hx)
      rwa [show p + (x + 1) = p + 1 + x by omega] at this)
      (fun x hx => by rw [show p + 1 + x = p + (x + 1) by omega]; exact hem (x + 1) (by simp; omega)) l1
    refine ⟨c2, ?_, by rw [List.length_cons, show p + (is.length + 1) = p + 1 + is.length by omega]; exact l2⟩
    simp only [dHalf, e1, bind, Except.bind]
    rw [show (sg p).em = false from h0]
    exact e2

/-- The emergency is seen after step `x`. -/
theorem dHalf_em {K : Sys T (List O) → Prop} : ∀ (is : List Nat) (p x0 : Nat) {i0 : Nat} {cs : CSys T O},
    (∀ x i, is[x]? = some i → Ty w N a (step i) a ∧ ∀ s, J (p + x) s → Does N N (step i) s (J (p + x + 1))) →
    is[x0]? = some i0 → (∀ x, x < x0 → (sg (p + x)).em = false) → (sg (p + x0)).em = true →
    (∀ s, J (p + x0 + 1) s → Does N N [.dpM (ed i0) true] s K) → Lift w N a (J p) cs →
    ∃ cs', dHalf w N step ed sg p is cs = .ok (cs', true) ∧ Lift w N a K cs'
  | [], _, _, _, _, _, h, _, _, _, _ => by simp at h
  | i :: is, p, 0, i0, cs, hst, hi, _, hem, hK, h => by
    obtain ⟨ty, hdo⟩ := hst 0 i rfl
    simp only [List.getElem?_cons_zero, Option.some.injEq] at hi
    subst hi
    obtain ⟨c1, e1, l1⟩ := h.step ty hdo
    obtain ⟨c2, e2, l2⟩ := l1.step (.op rfl .nil) hK
    refine ⟨c2, ?_, l2⟩
    simp only [dHalf, e1, bind, Except.bind]
    rw [show (sg p).em = true from hem]
    simp [e2, pure, Except.pure]
  | i :: is, p, x0 + 1, i0, cs, hst, hi, hno, hem, hK, h => by
    obtain ⟨ty, hdo⟩ := hst 0 i rfl
    obtain ⟨c1, e1, l1⟩ := h.step ty hdo
    have h0 := hno 0 (by omega)
    obtain ⟨c2, e2, l2⟩ := dHalf_em is (p + 1) x0 (fun x j hx => by
      have := hst (x + 1) j (by simpa using hx)
      rwa [show p + (x + 1) = p + 1 + x by omega] at this) (by simpa using hi)
      (fun x hx => by rw [show p + 1 + x = p + (x + 1) by omega]; exact hno (x + 1) (by omega))
      (by rw [show p + 1 + x0 = p + (x0 + 1) by omega]; exact hem)
      (by rw [show p + 1 + x0 + 1 = p + (x0 + 1) + 1 by omega]; exact hK) l1
    refine ⟨c2, ?_, l2⟩
    simp only [dHalf, e1, bind, Except.bind]
    rw [show (sg p).em = false from h0]
    exact e2

end

theorem sitesR_get {x i : Nat} (h : (sitesR lb rb)[x]? = some i) : x < rb - 1 - lb ∧ i = lb + x := by
  obtain ⟨hx, e⟩ := List.getElem?_eq_some_iff.mp h
  unfold sitesR at hx e
  simp only [List.length_range'] at hx
  simp only [List.getElem_range', Nat.one_mul] at e
  exact ⟨hx, e.symm⟩

theorem sitesL_get {x i : Nat} (h : (sitesL lb rb)[x]? = some i) : x < rb - 1 - lb ∧ i = rb - x := by
  obtain ⟨hx, e⟩ := List.getElem?_eq_some_iff.mp h
  unfold sitesL at hx e
  simp only [List.length_reverse, List.length_range'] at hx
  simp only [List.getElem_reverse, List.getElem_range', List.length_range', Nat.one_mul] at e
  exact ⟨hx, by omega⟩

theorem sitesR_at {x : Nat} (h : x < rb - 1 - lb) : (sitesR lb rb)[x]? = some (lb + x) := by
  unfold sitesR; simp [List.getElem?_range' h]

theorem sitesL_at {x : Nat} (h : x < rb - 1 - lb) : (sitesL lb rb)[x]? = some (rb - x) := by
  unfold sitesL
  rw [List.getElem?_reverse (by simpa using h), List.getElem?_range' (by simp; omega)]
  simp only [List.length_range']
  congr 1
  omega

section
variable (H : A.Legs) (D : A.Dims w N) (h1 : lb + 2 ≤ rb) (h2 : rb < N)
include H D h1 h2

theorem right_steps {a : Nat} {ψ : (Nat → T) × Nat} : ∀ x i, (sitesR lb rb)[x]? = some i → Ty w N a (dStepR A w N lb i) a ∧
    ∀ s, InSweep A N lb rb fl fr ψ (0 + x) s → Does N N (dStepR A w N lb i) s (InSweep A N lb rb fl fr ψ (0 + x + 1)) := by
  intro x i hx
  obtain ⟨g1, rfl⟩ := sitesR_get hx
  refine ⟨dStepR_ty D, fun s hs => ?_⟩
  rw [Nat.zero_add] at hs ⊢
  exact inSweep_right H D h1 h2 g1 hs

theorem left_steps {a : Nat} {ψ : (Nat → T) × Nat} : ∀ x i, (sitesL lb rb)[x]? = some i → Ty w N a (dStepL A w N rb i) a ∧
    ∀ s, InSweep A N lb rb fl fr ψ (rb - 1 - lb + x) s →
      Does N N (dStepL A w N rb i) s (InSweep A N lb rb fl fr ψ (rb - 1 - lb + x + 1)) := by
  intro x i hx
  obtain ⟨g1, rfl⟩ := sitesL_get hx
  exact ⟨dStepL_ty D (by omega), fun s hs => inSweep_left H D h1 h2 g1 hs⟩

/-- A sweep in which no emergency is seen. -/
theorem dSweep_none {a : Nat} {ψ : (Nat → T) × Nat} {sg : Nat → Flags} (hem : ∀ p, p < 2 * (rb - 1 - lb) → (sg p).em = false)
    {cs : CSys T O} (h : Lift w N a (StartD A N lb rb fl fr ψ) cs) :
    ∃ cs', dSweep A w N lb rb sg cs = .ok cs' ∧
      Lift w N a (StartD A N lb rb (trimW (geoD N lb rb) fl) fr (optSweep A N lb rb ψ)) cs' := by
  have hl : Lift w N a (InSweep A N lb rb fl fr ψ 0) cs := h.mono fun s hs => by rw [InSweep, if_pos rfl]; exact hs
  obtain ⟨c1, e1, l1⟩ := dHalf_none (ed := fun i => i + 1) (sg := sg) (sitesR lb rb) 0 (right_steps H D h1 h2)
    (fun x hx => hem _ (by simp [sitesR] at hx; omega)) hl
  rw [show 0 + (sitesR lb rb).length = rb - 1 - lb by simp [sitesR]] at l1
  obtain ⟨c2, e2, l2⟩ := dHalf_none (ed := fun i => i - 1) (sg := sg) (sitesL lb rb) (rb - 1 - lb) (left_steps H D h1 h2)
    (fun x hx => hem _ (by simp [sitesL] at hx; omega)) l1
  rw [show rb - 1 - lb + (sitesL lb rb).length = 2 * (rb - 1 - lb) by simp [sitesL]; omega] at l2
  refine ⟨c2, ?_, l2.mono fun s hs => inSweep_end h1 hs⟩
  simp [dSweep, e1, e2, bind, Except.bind, pure, Except.pure]

/-- A sweep in which an emergency is seen first after update number `p0`. -/
theorem dSweep_em {a : Nat} {ψ : (Nat → T) × Nat} {sg : Nat → Flags} {p0 : Nat} (hp : p0 < 2 * (rb - 1 - lb))
    (hno : ∀ p, p < p0 → (sg p).em = false) (hem : (sg p0).em = true) {cs : CSys T O} (h : Lift w N a (StartD A N lb rb fl fr ψ) cs) :
    ∃ cs', dSweep A w N lb rb sg cs = .ok cs' ∧ Lift w N a (Emerg A N lb rb (optFirst A N lb rb (p0 + 1) ψ)) cs' := by
  have hl : Lift w N a (InSweep A N lb rb fl fr ψ 0) cs := h.mono fun s hs => by rw [InSweep, if_pos rfl]; exact hs
  by_cases hr : p0 < rb - 1 - lb
  · obtain ⟨c1, e1, l1⟩ := dHalf_em (K := Emerg A N lb rb (optFirst A N lb rb (p0 + 1) ψ)) (ed := fun i => i + 1) (sg := sg)
      (sitesR lb rb) 0 p0 (i0 := lb + p0) (right_steps H D h1 h2) (sitesR_at hr) (fun x hx => by rw [Nat.zero_add]; exact hno x hx)
      (by rw [Nat.zero_add]; exact hem) (fun s hs => by rw [Nat.zero_add] at hs; exact emerg_right h1 h2 hr hs) hl
    exact ⟨c1, by simp [dSweep, e1, bind, Except.bind, pure, Except.pure], l1⟩
  · obtain ⟨c1, e1, l1⟩ := dHalf_none (ed := fun i => i + 1) (sg := sg) (sitesR lb rb) 0 (right_steps H D h1 h2)
      (fun x hx => hno _ (by simp [sitesR] at hx; omega)) hl
    rw [show 0 + (sitesR lb rb).length = rb - 1 - lb by simp [sitesR]] at l1
    obtain ⟨x0, rfl⟩ : ∃ x0, p0 = rb - 1 - lb + x0 := ⟨p0 - (rb - 1 - lb), by omega⟩
    obtain ⟨c2, e2, l2⟩ := dHalf_em (K := Emerg A N lb rb (optFirst A N lb rb (rb - 1 - lb + x0 + 1) ψ)) (ed := fun i => i - 1)
      (sg := sg) (sitesL lb rb) (rb - 1 - lb) x0 (i0 := rb - x0) (left_steps H D h1 h2) (sitesL_at (by omega))
      (fun x hx => hno _ (by omega)) hem (fun s hs => emerg_left h1 h2 (by omega) hs) l1
    exact ⟨c2, by simp [dSweep, e1, e2, bind, Except.bind, pure, Except.pure], l2⟩

end

/-! ### The flags -/

/-- The flags are only ever set, and the handler sets `stop` before `emergency` (dmrg_impl.h:489-502). -/
structure Sig.OK (sg : Sig) : Prop where
  stop : ∀ q p q' p', (q < q' ∨ q = q' ∧ p ≤ p') → (sg.look q p).stop = true → (sg.look q' p').stop = true
  em : ∀ q p q' p', (q < q' ∨ q = q' ∧ p ≤ p') → (sg.look q p).em = true → (sg.look q' p').em = true
  both : ∀ q p, (sg.look q p).em = true → (sg.look q p).stop = true
  finStop : ∀ q p, (sg.look q p).stop = true → sg.fin.stop = true
  finEm : ∀ q p, (sg.look q p).em = true → sg.fin.em = true
  finBoth : sg.fin.em = true → sg.fin.stop = true

section
variable (H : A.Legs) (D : A.Dims w N) (h1 : lb + 2 ≤ rb) (h2 : rb < N)
include H D h1 h2

/-- `n` sweeps in which no emergency is seen, after which the loop ends. -/
theorem dSweeps_run {a : Nat} {sg : Sig} : ∀ (n k q : Nat) {fl : Nat → File (List O)} {ψ : (Nat → T) × Nat} {cs : CSys T O}, n ≤ k →
    (∀ x p, x < n → p < 2 * (rb - 1 - lb) → (sg.look (q + x) p).em = false) →
    (∀ x, x + 1 < n → (sg.look (q + x) (2 * (rb - 1 - lb))).stop = false ∧ (sg.look (q + x) (2 * (rb - 1 - lb) + 1)).em = false) →
    (n = k ∨ 0 < n ∧ ((sg.look (q + (n - 1)) (2 * (rb - 1 - lb))).stop = true ∨
      (sg.look (q + (n - 1)) (2 * (rb - 1 - lb) + 1)).em = true)) →
    Lift w N a (StartD A N lb rb fl fr ψ) cs →
    ∃ cs', dSweeps A w N lb rb sg k q cs = .ok cs' ∧
      Lift w N a (StartD A N lb rb (if n = 0 then fl else trimW (geoD N lb rb) fl) fr (optSweeps A N lb rb n ψ)) cs'
  | 0, k, q, fl, ψ, cs, _, _, _, hend, h => by
    obtain rfl : k = 0 := by omega
    exact ⟨cs, rfl, by simpa [optSweeps] using h⟩
  | n + 1, 0, q, fl, ψ, cs, hk, _, _, _, _ => absurd hk (by omega)
  | n + 1, k + 1, q, fl, ψ, cs, hk, hem, hno, hend, h => by
    obtain ⟨c1, e1, l1⟩ := dSweep_none H D h1 h2 (sg := sg.look q) (fun p hp => hem 0 p (by omega) hp) h
    by_cases hb : ((sg.look q (2 * (rb - 1 - lb))).stop || (sg.look q (2 * (rb - 1 - lb) + 1)).em) = true
    · obtain rfl : n = 0 := by
        by_contra hn
        have := hno 0 (by omega)
        rw [Nat.add_zero] at this
        rw [this.1, this.2] at hb
        simp at hb
      refine ⟨c1, ?_, by simpa [optSweeps] using l1⟩
      simp only [dSweeps, e1, bind, Except.bind, hb, if_true, pure, Except.pure]
    · simp only [Bool.not_eq_true] at hb
      have hend' : n = k ∨ 0 < n ∧ ((sg.look (q + 1 + (n - 1)) (2 * (rb - 1 - lb))).stop = true ∨
          (sg.look (q + 1 + (n - 1)) (2 * (rb - 1 - lb) + 1)).em = true) := by
        rcases hend with hend | ⟨_, hend⟩
        · exact Or.inl (by omega)
        · by_cases hn : n = 0
          · subst hn
            simp only [Nat.zero_add, Nat.sub_self, Nat.add_zero] at hend
            simp only [Bool.or_eq_false_iff] at hb
            rw [hb.1, hb.2] at hend
            simp at hend
          · refine Or.inr ⟨by omega, ?_⟩
            rw [show q + 1 + (n - 1) = q + (n + 1 - 1) by omega]
            exact hend
      obtain ⟨c2, e2, l2⟩ := dSweeps_run n k (q + 1) (by omega)
        (fun x p hx hp => by rw [show q + 1 + x = q + (x + 1) by omega]; exact hem (x + 1) p (by omega) hp)
        (fun x hx => by rw [show q + 1 + x = q + (x + 1) by omega]; exact hno (x + 1) (by omega)) hend' l1
      refine ⟨c2, ?_, ?_⟩
      · simp only [dSweeps, e1, bind, Except.bind, hb]
        exact e2
      · simp only [optSweeps]
        rw [if_neg (by omega)]
        rw [trimW_trimW] at l2
        by_cases hn : n = 0
        · rw [if_pos hn] at l2; exact l2
        · rw [if_neg hn] at l2; exact l2

/-- `n` sweeps without a signal, and then one in which an emergency is seen. -/
theorem dSweeps_em {a : Nat} {sg : Sig} (hs : sg.OK) {p0 : Nat} (hp : p0 < 2 * (rb - 1 - lb)) : ∀ (n k q : Nat)
    {fl : Nat → File (List O)} {ψ : (Nat → T) × Nat} {cs : CSys T O}, n < k →
    (∀ x, x < n → (sg.look (q + x) (2 * (rb - 1 - lb))).stop = false ∧ (sg.look (q + x) (2 * (rb - 1 - lb) + 1)).em = false) →
    (∀ p, p < p0 → (sg.look (q + n) p).em = false) → (sg.look (q + n) p0).em = true →
    Lift w N a (StartD A N lb rb fl fr ψ) cs →
    ∃ cs', dSweeps A w N lb rb sg k q cs = .ok cs' ∧
      Lift w N a (Emerg A N lb rb (optFirst A N lb rb (p0 + 1) (optSweeps A N lb rb n ψ))) cs'
  | _, 0, q, fl, ψ, cs, hk, _, _, _, _ => absurd hk (by omega)
  | 0, k + 1, q, fl, ψ, cs, _, _, hno, hem, h => by
    obtain ⟨c1, e1, l1⟩ := dSweep_em H D h1 h2 (sg := sg.look q) hp hno hem h
    refine ⟨c1, ?_, l1⟩
    have : (sg.look q (2 * (rb - 1 - lb))).stop = true :=
      hs.both _ _ (hs.em q p0 q _ (Or.inr ⟨rfl, by omega⟩) hem)
    simp only [dSweeps, e1, bind, Except.bind, this, Bool.true_or, if_true, pure, Except.pure]
  | n + 1, k + 1, q, fl, ψ, cs, hk, hst, hno, hem, h => by
    obtain ⟨h0, h0'⟩ := hst 0 (by omega)
    rw [Nat.add_zero] at h0 h0'
    have hnem : ∀ p, p ≤ 2 * (rb - 1 - lb) → (sg.look q p).em = false := fun p hp => by
      by_contra hc
      rw [Bool.not_eq_false] at hc
      have := hs.both _ _ (hs.em q p q (2 * (rb - 1 - lb)) (Or.inr ⟨rfl, hp⟩) hc)
      rw [h0] at this
      exact absurd this (by simp)
    obtain ⟨c1, e1, l1⟩ := dSweep_none H D h1 h2 (sg := sg.look q) (fun p hp => hnem p (by omega)) h
    obtain ⟨c2, e2, l2⟩ := dSweeps_em hs hp n k (q + 1) (by omega)
      (fun x hx => by rw [show q + 1 + x = q + (x + 1) by omega]; exact hst (x + 1) (by omega))
      (fun p hp => by rw [show q + 1 + n = q + (n + 1) by omega]; exact hno p hp)
      (by rw [show q + 1 + n = q + (n + 1) by omega]; exact hem) l1
    refine ⟨c2, ?_, l2⟩
    simp only [dSweeps, e1, bind, Except.bind, h0, h0', Bool.or_self]
    exact e2

end

end Verif.Disk
