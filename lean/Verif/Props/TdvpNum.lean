import Verif.Mps.TdvpRun
import Verif.Props.Tdvp
import Verif.Props.Vmps
/-
C73: two-site TDVP evolves unitarily.

`H = opM N P.w` is the operator of the MPO, `stateV N t` the state of the tensors `t` (Verif/Mps/VmpsSpec.lean). The evolutions of a time step in order are
`tdvpSchedule` (C29), their file accesses are the subject of C30.
-/
namespace Verif.Props
open Finset Verif.Mps Verif.Disk Verif.Algo

variable {σ : Type} [Fintype σ] [DecidableEq σ] {N : Nat} {P : TdvpPar σ}

/-! ### The order of the evolutions -/

/-- Every evolution of the list finds the centre where it works. -/
def ActPath (N : Nat) : Nat → List Act → Prop
  | _, [] => True
  | c, a :: as => actIn N c a ∧ ActPath N (actAfter a) as

/-- The centre at the end. -/
def actEnds (c : Nat) (as : List Act) : Nat := as.foldl (fun _ a => actAfter a) c

theorem actPath_append {N : Nat} : ∀ {c : Nat} {as bs : List Act}, ActPath N c (as ++ bs) ↔ ActPath N c as ∧ ActPath N (actEnds c as) bs
  | _, [], _ => by simp [ActPath, actEnds]
  | c, a :: as, bs => by
    rw [List.cons_append, ActPath, actPath_append (as := as), ActPath]
    show _ ↔ _ ∧ ActPath N (actEnds (actAfter a) as) bs
    tauto

theorem actEnds_append (c : Nat) (as bs : List Act) : actEnds c (as ++ bs) = actEnds (actEnds c as) bs := by
  unfold actEnds; rw [List.foldl_append]

theorem actPath_r (N : Nat) (tau : Rat) (m k : Nat) (h : k + m + 1 < N) {c : Nat} (hc : c = k ∨ c = k + 1) :
    ActPath N c ((List.range' k m).flatMap fun i => [.bond .r i (tau / 2), .site (i + 1) (-tau / 2)]) ∧
      (m ≠ 0 → actEnds c ((List.range' k m).flatMap fun i => [.bond .r i (tau / 2), .site (i + 1) (-tau / 2)]) = k + m) := by
  induction m generalizing k c with
  | zero => exact ⟨trivial, fun h => absurd rfl h⟩
  | succ m ih =>
    rw [List.range'_succ, List.flatMap_cons]
    obtain ⟨h1, h2⟩ := ih (k + 1) (by omega) (c := k + 1) (Or.inl rfl)
    refine ⟨⟨⟨by omega, hc⟩, ⟨by show k + 1 + 1 < N; omega, rfl⟩, h1⟩, fun _ => ?_⟩
    show actEnds (k + 1) (List.flatMap (fun i => [Act.bond Dir.r i (tau / 2), Act.site (i + 1) (-tau / 2)]) (List.range' (k + 1) m)) = _
    by_cases hm : m = 0
    · subst hm; rfl
    · rw [h2 hm]; omega

theorem actPath_l (N : Nat) (x : Nat → Rat) (y : Rat) (m : Nat) (h : m + 1 < N) {c : Nat} (hc : c = m ∨ c = m + 1) (hm : m ≠ 0) :
    ActPath N c ((List.range' 2 m).reverse.flatMap fun i => [.bond .l (i - 1) (x i), .site (i - 1) y]) ∧
      actEnds c ((List.range' 2 m).reverse.flatMap fun i => [.bond .l (i - 1) (x i), .site (i - 1) y]) = 1 := by
  induction m generalizing c with
  | zero => exact absurd rfl hm
  | succ m ih =>
    rw [List.range'_concat, List.reverse_append, List.reverse_singleton, List.singleton_append, List.flatMap_cons, Nat.one_mul]
    have e : 2 + m - 1 = m + 1 := by omega
    rw [e]
    by_cases h0 : m = 0
    · subst h0
      exact ⟨⟨⟨by omega, hc⟩, ⟨by omega, rfl⟩, trivial⟩, rfl⟩
    · obtain ⟨h1, h2⟩ := ih (by omega) (c := m + 1) (Or.inr rfl) h0
      exact ⟨⟨⟨by omega, hc⟩, ⟨by omega, rfl⟩, h1⟩, h2⟩

theorem actPath_step (hN : 3 ≤ N) (tau : Rat) {c : Nat} (hc : c = 0 ∨ c = 1) :
    ActPath N c (tdvpSchedule N tau) ∧ actEnds c (tdvpSchedule N tau) = 1 := by
  obtain ⟨a1, a2⟩ := actPath_r N tau (N - 2) 0 (by omega) (c := c) hc
  have a3 := a2 (by omega)
  rw [← List.range_eq_range'] at a1 a3
  obtain ⟨b1, b2⟩ := actPath_l N (fun i => if i = N - 1 then tau else tau / 2) (-tau / 2) (N - 2) (by omega) (c := 0 + (N - 2)) (Or.inl (by omega)) (by omega)
  unfold tdvpSchedule
  rw [actPath_append, actPath_append, actEnds_append, actEnds_append, a3, b2]
  exact ⟨⟨⟨a1, b1⟩, ⟨⟨by omega, Or.inr rfl⟩, trivial⟩⟩, rfl⟩

/-- **Specification**: the evolutions of `k` time steps in order. -/
def tdvpActs (N : Nat) (tau : Rat) (k : Nat) : List Act := (List.replicate k (tdvpSchedule N tau)).flatten

theorem actPath_steps (hN : 3 ≤ N) (tau : Rat) (k : Nat) {c : Nat} (hc : c = 0 ∨ c = 1) :
    ActPath N c (tdvpActs N tau k) ∧ (k ≠ 0 → actEnds c (tdvpActs N tau k) = 1) := by
  induction k generalizing c with
  | zero => exact ⟨trivial, fun h => absurd rfl h⟩
  | succ k ih =>
    obtain ⟨a, b⟩ := actPath_step hN tau hc
    obtain ⟨i1, i2⟩ := ih (c := 1) (Or.inr rfl)
    have e : tdvpActs N tau (k + 1) = tdvpSchedule N tau ++ tdvpActs N tau k := by
      unfold tdvpActs; rw [List.replicate_succ, List.flatten_cons]
    rw [e, actPath_append, actEnds_append, b]
    refine ⟨⟨a, i1⟩, fun _ => ?_⟩
    by_cases hk : k = 0
    · subst hk; rfl
    · exact i2 hk

theorem tdvpSteps_acts (tau : Rat) (k : Nat) (t : Nat → Ten σ ℂ) : tdvpSteps (tdvpAlg N P) (tdvpEvo P) N tau k t = evolve N P t (tdvpActs N tau k) := by
  induction k generalizing t with
  | zero => rfl
  | succ k ih =>
    have e : tdvpActs N tau (k + 1) = tdvpSchedule N tau ++ tdvpActs N tau k := by
      unfold tdvpActs; rw [List.replicate_succ, List.flatten_cons]
    rw [tdvpSteps, ih, e]
    unfold evolve Act.all
    rw [List.foldl_append]

theorem evolve_append (t : Nat → Ten σ ℂ) (as bs : List Act) : evolve N P t (as ++ bs) = evolve N P (evolve N P t as) bs := by
  unfold evolve Act.all; rw [List.foldl_append]

theorem acts_canon (hP : TdvpOK N P) (as : List Act) {t : Nat → Ten σ ℂ} {c : Nat} (hp : ActPath N c as) (h : Canon N c t) (hz : stateV N t ≠ 0) :
    Canon N (actEnds c as) (evolve N P t as) ∧ stateV N (evolve N P t as) ≠ 0 := by
  induction as generalizing t c with
  | nil => exact ⟨h, hz⟩
  | cons a as ih =>
    obtain ⟨-, -, a1, a2, -⟩ := act_ok hP hp.1 h hz
    rw [show a :: as = [a] ++ as from rfl, evolve_append]
    exact ih hp.2 a1 a2

/-! ### C73 -/

omit [DecidableEq σ] in
theorem pyth' {X Y : ChainV σ ℂ N} (h : inner ℂ Y X = ((‖Y‖ ^ 2 : ℝ) : ℂ)) : ‖X - Y‖ ^ 2 = ‖X‖ ^ 2 - ‖Y‖ ^ 2 := by
  have e := norm_sub_sq (𝕜 := ℂ) X Y
  have hi : RCLike.re (inner ℂ X Y) = ‖Y‖ ^ 2 := by rw [inner_re_symm, h]; exact Complex.ofReal_re _
  rw [e, hi]; ring

theorem evolveP_append (t : Nat → Ten σ ℂ) (l l' : List (TdvpPar σ × Act)) : evolveP N t (l ++ l') = evolveP N (evolveP N t l) l' := by
  unfold evolveP; rw [List.foldl_append]

/-- An evolution with its solver. -/
def ItemOK (N : Nat) (x : TdvpPar σ × Act) : Prop := TdvpOK N x.1 ∧ actPar x.1 x.2 = x.1

theorem step_items (hP : TdvpOK N P) (tau : Rat) : ∀ x ∈ tdvpStep N P tau, ItemOK N x := by
  intro x hx
  unfold tdvpStep at hx
  rw [List.mem_append, List.mem_map, List.mem_singleton] at hx
  rcases hx with ⟨a, -, rfl⟩ | rfl
  · cases a
    · exact ⟨hP, rfl⟩
    · exact ⟨hP.serial, rfl⟩
  · exact ⟨hP.serial, rfl⟩

theorem step_acts (N : Nat) (P : TdvpPar σ) (tau : Rat) : (tdvpStep N P tau).map Prod.snd = tdvpSchedule N tau := by
  unfold tdvpStep
  rw [List.map_append, List.map_map, schedule_concat]
  simp only [List.dropLast_concat, List.map_cons, List.map_nil, Function.comp_def, List.map_id']

theorem plan_items (hP : TdvpOK N P) (tau : Rat) (k : Nat) : ∀ x ∈ tdvpPlan N P tau k, ItemOK N x := by
  intro x hx
  unfold tdvpPlan at hx
  obtain ⟨l, hl, hx⟩ := List.mem_flatten.mp hx
  rw [List.mem_replicate] at hl
  exact step_items hP tau x (hl.2 ▸ hx)

theorem plan_acts (N : Nat) (P : TdvpPar σ) (tau : Rat) (k : Nat) : (tdvpPlan N P tau k).map Prod.snd = tdvpActs N tau k := by
  unfold tdvpPlan tdvpActs
  rw [List.map_flatten, List.map_replicate, step_acts]

theorem evolveP_mem {l : List (TdvpPar σ × Act)} (h : ∀ x ∈ l, ∃ a, x = (actPar P a, a)) (t : Nat → Ten σ ℂ) : evolveP N t l = evolve N P t (l.map Prod.snd) := by
  induction l generalizing t with
  | nil => rfl
  | cons x l ih =>
    obtain ⟨a, rfl⟩ := h x (by simp)
    rw [List.map_cons, show a :: l.map Prod.snd = [a] ++ l.map Prod.snd from rfl, evolve_append, show (actPar P a, a) :: l = [(actPar P a, a)] ++ l from rfl,
      evolveP_append, ih fun y hy => h y (by simp [hy])]
    congr 1
    cases a <;> rfl

theorem stepM_plan (tau : Rat) (t : Nat → Ten σ ℂ) : stepM (tdvpAlg N P) (tdvpEvo P) (tdvpEvo P.serial) N tau t = evolveP N t (tdvpStep N P tau) := by
  unfold tdvpStep
  rw [evolveP_append, evolveP_mem (P := P) (l := List.map (fun a => (actPar P a, a)) (tdvpSchedule N tau).dropLast)]
  · rw [List.map_map]
    simp only [Function.comp_def, List.map_id']
    rfl
  · intro x hx
    obtain ⟨a, -, rfl⟩ := List.mem_map.mp hx
    exact ⟨a, rfl⟩

/-- The files hold what the plan says. -/
theorem stepsM_plan (tau : Rat) (k : Nat) (t : Nat → Ten σ ℂ) :
    stepsM (tdvpAlg N P) (tdvpEvo P) (tdvpEvo P.serial) N tau k t = evolveP N t (tdvpPlan N P tau k) := by
  induction k generalizing t with
  | zero => rfl
  | succ k ih =>
    have e : tdvpPlan N P tau (k + 1) = tdvpStep N P tau ++ tdvpPlan N P tau k := by
      unfold tdvpPlan; rw [List.replicate_succ, List.flatten_cons]
    rw [stepsM, ih, e, evolveP_append, stepM_plan]

omit [DecidableEq σ] in
theorem serial_eq (hm : P.mpi = false) : P.serial = P := by
  cases P; simp only at hm; subst hm; rfl

theorem plan_serial (hm : P.mpi = false) (tau : Rat) (k : Nat) (t : Nat → Ten σ ℂ) : evolveP N t (tdvpPlan N P tau k) = evolve N P t (tdvpActs N tau k) := by
  rw [← stepsM_plan, serial_eq hm, stepsM_self, tdvpSteps_acts]

theorem plan_canon (l : List (TdvpPar σ × Act)) (hl : ∀ x ∈ l, ItemOK N x) {t : Nat → Ten σ ℂ} {c : Nat} (hp : ActPath N c (l.map Prod.snd)) (h : Canon N c t)
    (hz : stateV N t ≠ 0) : Canon N (actEnds c (l.map Prod.snd)) (evolveP N t l) ∧ stateV N (evolveP N t l) ≠ 0 := by
  induction l generalizing t c with
  | nil => exact ⟨h, hz⟩
  | cons x l ih =>
    obtain ⟨-, -, a1, a2, -⟩ := act_ok (hl x (by simp)).1 hp.1 h hz
    exact ih (fun y hy => hl y (by simp [hy])) hp.2 a1 a2

/-- **C73** (every evolution). Start from an MPS on at least three sites whose canonical centre is at site 0 or 1, with a Hermitian MPO. Every evolution of every
time step (`tdvpPlan`) takes the state `Ψ` of the MPS to a state `Φ` that differs from it only in the tensors of its bond or site. With the serial solver, which evolves everything in the
serial version and in the MPI version the single sites and the last bond of each step, `Φ` has the norm and the energy of `Ψ`; with the solver of the MPI version it has norm one and the energy of the
normalised `Ψ`. If the solver's tolerance is off and its iteration limit exceeds the number of components of the local tensor, `Φ` is the exact solution, after the time of the schedule, of the Schrödinger
equation with `H` projected on the states that differ only there (`Evolved`). The MPS afterwards is the orthogonal projection of `Φ` on the directions kept by the decomposition, is not zero, and equals `Φ` if
nothing is discarded. -/
theorem C73_evolution (hP : TdvpOK N P) (hN : 3 ≤ N) (tau : Rat) (k : Nat) {t : Nat → Ten σ ℂ} {c : Nat} (hc : c = 0 ∨ c = 1) (h : Canon N c t)
    (hz : stateV N t ≠ 0) {n : Nat} (hn : n < (tdvpPlan N P tau k).length) {Q : TdvpPar σ} {a : Act} (hx : (tdvpPlan N P tau k)[n] = (Q, a)) {s s' : Nat → Ten σ ℂ}
    (hs : s = evolveP N t ((tdvpPlan N P tau k).take n)) (hs' : s' = evolveP N t ((tdvpPlan N P tau k).take (n + 1))) :
    ∃ Φ, Evolved N Q (varSpace N s (actSites a)) (actDim s a) (actTime a) (stateV N s) Φ ∧
      stateV N s ≠ 0 ∧ stateV N s' ≠ 0 ∧ ‖Φ - stateV N s'‖ ^ 2 = ‖Φ‖ ^ 2 - ‖stateV N s'‖ ^ 2 ∧ (P.NoCut → stateV N s' = Φ) := by
  have hp := (actPath_steps hN tau k hc).1
  rw [← plan_acts N P] at hp
  have e : tdvpPlan N P tau k = (tdvpPlan N P tau k).take n ++ (Q, a) :: (tdvpPlan N P tau k).drop (n + 1) := by
    rw [← hx, ← List.drop_eq_getElem_cons hn, List.take_append_drop]
  have hp' := hp
  rw [e, List.map_append, actPath_append] at hp'
  obtain ⟨p1, p2, -⟩ := hp'
  have hi := plan_items hP tau k
  obtain ⟨x, y⟩ := plan_canon _ (fun z hz => hi z (List.mem_of_mem_take hz)) p1 h hz
  have es : s' = evolve N Q s [a] := by
    rw [hs', hs, ← List.take_append_getElem hn, evolveP_append, hx]
    rfl
  have hq : ItemOK N (Q, a) := hi _ (hx ▸ List.getElem_mem hn)
  have hcut : P.NoCut → Q.NoCut := by
    intro hcut
    have hm : (Q, a) ∈ tdvpPlan N P tau k := hx ▸ List.getElem_mem hn
    unfold tdvpPlan at hm
    obtain ⟨l, hl, hm⟩ := List.mem_flatten.mp hm
    rw [(List.mem_replicate.mp hl).2] at hm
    unfold tdvpStep at hm
    rw [List.mem_append, List.mem_map, List.mem_singleton] at hm
    rcases hm with ⟨b, -, hb⟩ | hb
    · obtain ⟨rfl, rfl⟩ := Prod.mk.inj hb
      cases b <;> exact hcut
    · obtain ⟨rfl, -⟩ := Prod.mk.inj hb
      exact hcut
  rw [← hs] at x y
  obtain ⟨Φ, g1, -, g3, g4, g5⟩ := act_ok hq.1 p2 x y
  rw [hq.2] at g1
  rw [← es] at g3 g4 g5
  exact ⟨Φ, g1, y, g3, pyth' g4, fun hh => g5 (hcut hh)⟩

theorem norm_le_of_proj {X Y : ChainV σ ℂ N} (h : inner ℂ Y X = ((‖Y‖ ^ 2 : ℝ) : ℂ)) : ‖Y‖ ≤ ‖X‖ := by
  have := pyth' h
  have h0 : 0 ≤ ‖X - Y‖ ^ 2 := by positivity
  exact (sq_le_sq₀ (norm_nonneg _) (norm_nonneg _)).mp (by linarith)

theorem acts_serial (hP : TdvpOK N P) (hm : P.mpi = false) (as : List Act) {t : Nat → Ten σ ℂ} {c : Nat} (hp : ActPath N c as) (h : Canon N c t) (hz : stateV N t ≠ 0) :
    ‖stateV N (evolve N P t as)‖ ≤ ‖stateV N t‖ ∧ (P.NoCut → ‖stateV N (evolve N P t as)‖ = ‖stateV N t‖ ∧
      inner ℂ (stateV N (evolve N P t as)) (Matrix.toEuclideanLin (opM N P.w) (stateV N (evolve N P t as))) =
        inner ℂ (stateV N t) (Matrix.toEuclideanLin (opM N P.w) (stateV N t))) := by
  induction as generalizing t c with
  | nil => exact ⟨le_refl _, fun _ => ⟨rfl, rfl⟩⟩
  | cons a as ih =>
    obtain ⟨Φ, g1, g2, g3, g4, g5⟩ := act_ok hP hp.1 h hz
    obtain ⟨i1, i2⟩ := ih hp.2 g2 g3
    rw [show a :: as = [a] ++ as from rfl, evolve_append]
    have hm' : (actPar P a).mpi = false := by cases a; exacts [hm, rfl]
    have hw : (actPar P a).w = P.w := by cases a <;> rfl
    have hn : ‖Φ‖ = ‖stateV N t‖ := by rw [g1.norm, TdvpPar.norm, hm']; rfl
    have hE := g1.energy
    rw [hw, TdvpPar.norm, hm'] at hE
    refine ⟨i1.trans ((norm_le_of_proj g4).trans hn.le), fun hx => ?_⟩
    obtain ⟨j1, j2⟩ := i2 hx
    rw [j1, j2, g5 hx, hn, hE]
    refine ⟨rfl, ?_⟩
    rw [if_neg (by decide), div_self (norm_ne_zero_iff.mpr hz)]
    simp

theorem plan_w (tau : Rat) (k : Nat) : ∀ x ∈ tdvpPlan N P tau k, x.1.w = P.w ∧ (P.NoCut → x.1.NoCut) := by
  intro x hx
  unfold tdvpPlan at hx
  obtain ⟨l, hl, hx⟩ := List.mem_flatten.mp hx
  rw [(List.mem_replicate.mp hl).2] at hx
  unfold tdvpStep at hx
  rw [List.mem_append, List.mem_map, List.mem_singleton] at hx
  rcases hx with ⟨b, -, rfl⟩ | rfl
  · cases b <;> exact ⟨rfl, id⟩
  · exact ⟨rfl, id⟩

/-- Evolutions of a state of norm at most one. -/
theorem plan_le (l : List (TdvpPar σ × Act)) (hl : ∀ x ∈ l, ItemOK N x) (hw : ∀ x ∈ l, x.1.w = P.w ∧ (P.NoCut → x.1.NoCut)) {t : Nat → Ten σ ℂ} {c : Nat}
    (hp : ActPath N c (l.map Prod.snd)) (h : Canon N c t) (hz : stateV N t ≠ 0) (h1 : ‖stateV N t‖ ≤ 1) :
    ‖stateV N (evolveP N t l)‖ ≤ 1 ∧ (P.NoCut → ‖stateV N t‖ = 1 → ‖stateV N (evolveP N t l)‖ = 1 ∧
      inner ℂ (stateV N (evolveP N t l)) (Matrix.toEuclideanLin (opM N P.w) (stateV N (evolveP N t l))) =
        inner ℂ (stateV N t) (Matrix.toEuclideanLin (opM N P.w) (stateV N t))) := by
  induction l generalizing t c with
  | nil => exact ⟨h1, fun _ h2 => ⟨h2, rfl⟩⟩
  | cons x l ih =>
    have hx := hl x (by simp)
    obtain ⟨w1, w2⟩ := hw x (by simp)
    obtain ⟨Φ, g1, g2, g3, g4, g5⟩ := act_ok hx.1 hp.1 h hz
    rw [hx.2] at g1
    have hΦ : ‖Φ‖ ≤ 1 := by
      rw [g1.norm, TdvpPar.norm]; split
      · exact le_refl _
      · exact h1
    obtain ⟨i1, i2⟩ := ih (fun y hy => hl y (by simp [hy])) (fun y hy => hw y (by simp [hy])) hp.2 g2 g3 ((norm_le_of_proj g4).trans hΦ)
    refine ⟨i1, fun hc h2 => ?_⟩
    have hn : x.1.norm ‖stateV N t‖ = 1 := by rw [TdvpPar.norm]; split; exacts [rfl, h2]
    have hE := g1.energy
    rw [w1, hn, h2, div_one] at hE
    obtain ⟨j1, j2⟩ := i2 hc (by rw [g5 (w2 hc), g1.norm, hn])
    refine ⟨j1, ?_⟩
    show inner ℂ (stateV N (evolveP N (evolve N x.1 t [x.2]) l)) _ = _
    refine j2.trans ?_
    rw [g5 (w2 hc), hE]
    norm_num

theorem plan_cons (hN : 3 ≤ N) (tau : Rat) {k : Nat} (hk : k ≠ 0) : ∃ l, tdvpPlan N P tau k = (P, .bond .r 0 (tau / 2)) :: l := by
  obtain ⟨k, rfl⟩ := Nat.exists_eq_succ_of_ne_zero hk
  obtain ⟨n, rfl⟩ : ∃ n, N = n + 3 := ⟨N - 3, by omega⟩
  obtain ⟨l, hl⟩ : ∃ l, (tdvpSchedule (n + 3) tau).dropLast = Act.bond .r 0 (tau / 2) :: l := by
    unfold tdvpSchedule
    rw [List.dropLast_concat, show n + 3 - 2 = n + 1 by omega, List.range_succ_eq_map, List.flatMap_cons]
    exact ⟨_, by simp only [List.cons_append]; rfl⟩
  unfold tdvpPlan tdvpStep
  rw [List.replicate_succ, List.flatten_cons, hl, List.map_cons]
  exact ⟨_, rfl⟩

theorem acts_mpi (hP : TdvpOK N P) (hm : P.mpi = true) (hN : 3 ≤ N) (tau : Rat) {k : Nat} (hk : k ≠ 0) {t : Nat → Ten σ ℂ} {c : Nat} (hc : c = 0 ∨ c = 1) (h : Canon N c t)
    (hz : stateV N t ≠ 0) :
    ‖stateV N (evolveP N t (tdvpPlan N P tau k))‖ ≤ 1 ∧ (P.NoCut → ‖stateV N (evolveP N t (tdvpPlan N P tau k))‖ = 1 ∧
      inner ℂ (stateV N (evolveP N t (tdvpPlan N P tau k))) (Matrix.toEuclideanLin (opM N P.w) (stateV N (evolveP N t (tdvpPlan N P tau k)))) =
        ((1 / ‖stateV N t‖) ^ 2 : ℝ) * inner ℂ (stateV N t) (Matrix.toEuclideanLin (opM N P.w) (stateV N t))) := by
  have hp := (actPath_steps hN tau k hc).1
  rw [← plan_acts N P] at hp
  have hi := plan_items hP tau k
  have hw := plan_w (N := N) (P := P) tau k
  obtain ⟨l, e⟩ := plan_cons (P := P) hN tau hk
  rw [e] at hp hi hw ⊢
  obtain ⟨Φ, g1, g2, g3, g4, g5⟩ := act_ok hP hp.1 h hz
  have hn : ‖Φ‖ = 1 := by rw [g1.norm]; show P.norm _ = 1; rw [TdvpPar.norm, hm]; rfl
  obtain ⟨i1, i2⟩ := plan_le l (fun y hy => hi y (by simp [hy])) (fun y hy => hw y (by simp [hy])) hp.2 g2 g3 (hn ▸ norm_le_of_proj g4)
  refine ⟨i1, fun hx => ?_⟩
  obtain ⟨j1, j2⟩ := i2 hx (by rw [g5 hx, hn])
  refine ⟨j1, ?_⟩
  refine j2.trans ?_
  have hE := g1.energy
  rw [show actPar P (Act.bond .r 0 (tau / 2)) = P from rfl, TdvpPar.norm, hm, if_pos rfl] at hE
  rw [g5 hx, hE]

/-- The evolutions keep the outer legs. -/
theorem tdvp_legs (hR : BlkSplitR P.splitR) (hL : BlkSplitL P.splitL) : (tdvpEvo P).Legs (tdvpAlg N P) where
  left := fun d x i e f t u => by
    show unitEnv (tdvpPair P d x i e f t u).1.l (P.w 0).l (tdvpPair P d x i e f t u).1.l = unitEnv t.l (P.w 0).l t.l
    have : (tdvpPair P d x i e f t u).1.l = t.l := by
      unfold tdvpPair
      split
      · rfl
      · cases d
        · exact hR.dimL _
        · exact hL.dimL _
    rw [this]
  right := fun d x i e f t u => by
    show unitEnv (tdvpPair P d x i e f t u).2.r (P.w (N - 1)).r (tdvpPair P d x i e f t u).2.r = unitEnv u.r (P.w (N - 1)).r u.r
    have : (tdvpPair P d x i e f t u).2.r = u.r := by
      unfold tdvpPair
      split
      · rfl
      · cases d
        · exact hR.dimR _
        · exact hL.dimR _
    rw [this]

/-- **C73** (the serial run). `TwoSiteFiniteTDVP` on at least three sites for any number of time steps of any length, from an MPS on disk with its centre at site 0 or 1 and
a Hermitian MPO: the run succeeds and the MPS then on disk is not zero, its norm is not larger than the initial one, and (after at least one step) it is canonical with its centre at
site 1. If nothing was discarded, the norm and the energy `⟨Ψ|H|Ψ⟩` are exactly the initial ones, whatever the tolerance and the iteration limit of the solver. -/
theorem C73_conserved (hP : TdvpOK N P) (hm : P.mpi = false) (hN : 3 ≤ N) (tau : Rat) (k clk : Nat) {t : Nat → Ten σ ℂ} {d : Dsk (Ten σ ℂ) (Env3 ℂ)} (hd : OnDisk N t d)
    {c : Nat} (hc : c = 0 ∨ c = 1) (h : Canon N c t) (hz : stateV N t ≠ 0) :
    ∃ s' t', run N (N - 1) (tdvp (tdvpAlg N P) (tdvpEvo P) N tau k) ⟨Mem.blank clk, d⟩ = .ok s' ∧ OnDisk N t' s'.dsk ∧ stateV N t' ≠ 0 ∧
      (k ≠ 0 → Canon N 1 t') ∧ ‖stateV N t'‖ ≤ ‖stateV N t‖ ∧
      (P.NoCut → ‖stateV N t'‖ = ‖stateV N t‖ ∧
        inner ℂ (stateV N t') (Matrix.toEuclideanLin (opM N P.w) (stateV N t')) = inner ℂ (stateV N t) (Matrix.toEuclideanLin (opM N P.w) (stateV N t))) := by
  obtain ⟨s', r, o, -⟩ := C30_tdvp (tdvp_legs hP.spR hP.spL) hN tau k clk hd
  rw [tdvpSteps_acts] at o
  obtain ⟨p1, p2⟩ := actPath_steps hN tau k hc
  obtain ⟨a, b⟩ := acts_canon hP _ p1 h hz
  obtain ⟨x, y⟩ := acts_serial hP hm _ p1 h hz
  exact ⟨s', _, r, o, b, fun hk => by rw [← p2 hk]; exact a, x, y⟩

/-- **C73** (the MPI run). The MPI version differs in the norm: after at least one time step it is at most one whatever it was before. If nothing was discarded, it is one and the
energy is that of the normalised initial state. The MPS on disk is that of the evolutions of `C73_evolution`. -/
theorem C73_mpi_normalises (hP : TdvpOK N P) (hm : P.mpi = true) (hN : 3 ≤ N) (tau : Rat) {k : Nat} (hk : k ≠ 0) (clk : Nat) {t : Nat → Ten σ ℂ} {d : Dsk (Ten σ ℂ) (Env3 ℂ)}
    (hd : OnDisk N t d) {c : Nat} (hc : c = 0 ∨ c = 1) (h : Canon N c t) (hz : stateV N t ≠ 0) {t' : Nat → Ten σ ℂ} (ht : t' = evolveP N t (tdvpPlan N P tau k)) :
    (∃ s', run N (N - 1) (tdvpM (tdvpAlg N P) (tdvpEvo P) N (tdvpEvo P.serial) tau k) ⟨Mem.blank clk, d⟩ = .ok s' ∧ OnDisk N t' s'.dsk) ∧ stateV N t' ≠ 0 ∧
      Canon N 1 t' ∧ ‖stateV N t'‖ ≤ 1 ∧
      (P.NoCut → ‖stateV N t'‖ = 1 ∧ inner ℂ (stateV N t') (Matrix.toEuclideanLin (opM N P.w) (stateV N t')) =
        ((1 / ‖stateV N t‖) ^ 2 : ℝ) * inner ℂ (stateV N t) (Matrix.toEuclideanLin (opM N P.w) (stateV N t))) := by
  subst ht
  obtain ⟨s', r, o, -⟩ := C30_tdvp_mpi (tdvp_legs (P := P) hP.spR hP.spL) (tdvp_legs (P := P.serial) hP.spR hP.spL) hN tau k clk hd
  rw [stepsM_plan] at o
  obtain ⟨p1, p2⟩ := actPath_steps hN tau k hc
  rw [← plan_acts N P] at p1 p2
  obtain ⟨a, b⟩ := plan_canon _ (plan_items hP tau k) p1 h hz
  obtain ⟨x, y⟩ := acts_mpi hP hm hN tau hk hc h hz
  exact ⟨⟨s', r, o⟩, b, by rw [← p2 hk]; exact a, x, y⟩

/-! ### The hypotheses can be met: an Ising chain in a field along `y` -/

/-- `[[1, 0, 0], [Z, 0, 0], [Y, Z, 1]]`, restricted to the last row at the left end and the first column at the right end. -/
noncomputable def exIsingY (N i : Nat) : Ten (Bool × Bool) ℂ :=
  ⟨if i = 0 then 1 else 3, if i + 1 = N then 1 else 3, fun s a b =>
    let one : ℂ := if s.1 = s.2 then 1 else 0
    let z : ℂ := if s.1 = s.2 then (if s.1 then 1 else -1) else 0
    let y : ℂ := if s.1 = s.2 then 0 else if s.1 then -Complex.I else Complex.I
    match (if i = 0 then 2 else a), b with
    | 0, 0 => one
    | 1, 0 => z
    | 2, 0 => y
    | 2, 1 => z
    | 2, 2 => one
    | _, _ => 0⟩

/-- All spins up, except that the first tensor carries the norm two. -/
noncomputable def exUpC (i : Nat) : Ten Bool ℂ := ⟨1, 1, fun s _ _ => if s then (if i = 0 then 2 else 1) else 0⟩

theorem exIsingY_sym (N i : Nat) (x y : Bool) (a b : Nat) : star ((exIsingY N i).v (x, y) a b) = (exIsingY N i).v (y, x) a b := by
  unfold exIsingY
  simp only
  split <;> cases x <;> cases y <;> simp

theorem exIsingY_closed {N : Nat} (hN : 2 ≤ N) : Closed N (exIsingY N) := by
  refine ⟨by simp [exIsingY], ?_, fun j hj => ?_⟩
  · show (if N - 1 + 1 = N then 1 else 3) = 1
    rw [if_pos (by omega)]
  · show (if j + 1 = N then 1 else 3) = (if j + 1 = 0 then 1 else 3)
    rw [if_neg (by omega), if_neg (by omega)]

theorem exUpC_canon (N : Nat) : Canon N 0 exUpC := by
  refine ⟨⟨rfl, rfl, fun _ _ => rfl⟩, fun j hj => absurd hj (by omega), fun j hj _ => ?_⟩
  intro x hx y hy
  obtain rfl : x = 0 := by simpa [exUpC] using hx
  obtain rfl : y = 0 := by simpa [exUpC] using hy
  simp [exUpC, show j ≠ 0 by omega]

theorem exUpC_amp (N : Nat) (hN : 0 < N) : stateV N exUpC (fun _ => true) = 2 := by
  have key : ∀ n k, amp ((List.range' (k + 1) n).map exUpC) (List.replicate n true) 0 0 = 1 := by
    intro n
    induction n with
    | zero => intro k; simp [amp]
    | succ n ih =>
      intro k
      rw [List.range'_succ, List.map_cons, List.replicate_succ, amp_cons]
      have := ih (k + 1)
      simp [exUpC] at this ⊢
      exact this
  show amp ((List.range N).map exUpC) (List.ofFn fun _ : Fin N => true) 0 0 = 2
  rw [List.ofFn_const]
  obtain ⟨n, rfl⟩ : ∃ n, N = n + 1 := ⟨N - 1, by omega⟩
  rw [List.range_eq_range', List.range'_succ, List.map_cons, List.replicate_succ, amp_cons]
  have := key n 0
  simp [exUpC] at this ⊢
  rw [this]

/-- The run with at most `D` directions kept. -/
noncomputable def exTdvp (N D : Nat) (eig : EigSolver) (mpi : Bool) : TdvpPar Bool :=
  ⟨exIsingY N, fun T => cutNZ D T (fullR upEnum T), fun T => cutNZ D T (fullL upEnum T), eig, 10, 1, mpi⟩

/-- The run without truncation, the tolerance off. -/
noncomputable def exTdvpFull (N : Nat) (eig : EigSolver) (mpi : Bool) : TdvpPar Bool :=
  ⟨exIsingY N, fullR upEnum, fullL upEnum, eig, 100, 0, mpi⟩

theorem exTdvp_ok {N D : Nat} (hN : 2 ≤ N) {eig : EigSolver} (he : Diagonalises eig) (mpi : Bool) : TdvpOK N (exTdvp N D eig mpi) :=
  ⟨exIsingY_closed hN, herm_of_sym (exIsingY_sym N), cutR_spec upEnum D, cutL_spec upEnum D, he, by show 2 ≤ 10; omega⟩

theorem exTdvpFull_ok {N : Nat} (hN : 2 ≤ N) {eig : EigSolver} (he : Diagonalises eig) (mpi : Bool) : TdvpOK N (exTdvpFull N eig mpi) :=
  ⟨exIsingY_closed hN, herm_of_sym (exIsingY_sym N), fullR_spec upEnum, fullL_spec upEnum, he, by show 2 ≤ 100; omega⟩

/-- On chains of any length from three the hypotheses hold for the Ising chain and an MPS that is not normalised; the first evolution meets the conditions of its exact part. -/
example (N : Nat) (hN : 3 ≤ N) (mpi : Bool) : ∃ eig, TdvpOK N (exTdvp N 2 eig mpi) ∧ TdvpOK N (exTdvpFull N eig mpi) ∧ (exTdvpFull N eig mpi).NoCut ∧
    (exTdvpFull N eig mpi).mpi = mpi ∧ Canon N 0 exUpC ∧ stateV N exUpC ≠ 0 ∧
    OnDisk N exUpC (⟨fun j => .whole (exUpC j), fun _ => .gone, fun _ => .gone⟩ : Dsk (Ten Bool ℂ) (Env3 ℂ)) ∧
    (exTdvpFull N eig mpi).err ≤ 0 ∧ actDim exUpC (.bond .r 0 (1 / 2)) < (exTdvpFull N eig mpi).maxIter := by
  obtain ⟨eig, he⟩ := eig_exists
  refine ⟨eig, exTdvp_ok (by omega) he mpi, exTdvpFull_ok (by omega) he mpi, ⟨fun T => fullR_is upEnum T, fun T => fullL_is upEnum T⟩, rfl, exUpC_canon N, ?_,
    fun _ _ => rfl, le_refl _, ?_⟩
  · intro h0
    have := exUpC_amp N (by omega)
    rw [h0] at this
    exact two_ne_zero this.symm
  · show 1 * (Fintype.card Bool * Fintype.card Bool) * 1 < 100
    simp

end Verif.Props
