import Verif.Mpo.SiteVec
import Verif.Props.MpoSymb
import Mathlib.Data.Int.Basic
/-
C94: the vector of local Hilbert spaces; C10: comparison of sparse matrices.
-/
namespace Verif.Props
open Verif.Mpo SparMat NullElem

section
variable {α : Type} [NullElem α]

theorem reps_history (r c : Nat) (hr : 0 < r) (hc : 0 < c) (es : List (Edit α)) (hes : InRangeAll (List.replicate r (List.replicate c (nullelem : α))) es) :
    ∃ m : SparMat α, es.foldlM Edit.run (SparMat.mk' r c) = .ok m ∧ Reps m (es.foldl Edit.spec (List.replicate r (List.replicate c (nullelem : α)))) := by
  have run : ∀ (es : List (Edit α)) (m : SparMat α) (t : Table α), Reps m t → InRangeAll t es → ∃ m', es.foldlM Edit.run m = .ok m' ∧ Reps m' (es.foldl Edit.spec t) := by
    intro es
    induction es with
    | nil => intro m t h _; exact ⟨m, rfl, h⟩
    | cons e es ih =>
      rintro m t h ⟨h1, h2⟩
      obtain ⟨m1, e1, e2⟩ := reps_step h e h1
      obtain ⟨m2, e3, e4⟩ := ih m1 _ e2 h2
      exact ⟨m2, by rw [List.foldlM_cons, e1]; exact e3, e4⟩
  refine run es _ _ ⟨wf_mk' _ _, by simp [SparMat.mk'], by simp [SparMat.mk', Table.width, List.head?_replicate, Nat.ne_of_gt hr], ?_, fun _ => hc, ?_⟩ hes
  · intro x hx; rw [List.eq_of_mem_replicate hx]; simp [SparMat.mk']
  · intro x y hx hy
    simp only [SparMat.mk'] at hx hy
    rw [get_mk', List.getD_eq_getElem?_getD (l := List.replicate r _), List.getElem?_replicate, if_pos hx, Option.getD_some,
      List.getD_eq_getElem?_getD, List.getElem?_replicate, if_pos hy, Option.getD_some]

/-- C10: two matrices, each after its own history of in-range edits, compare equal exactly if the plain tables after the same edits are the same: the order in which entries were stored does not matter. -/
theorem C10_equality [DecidableEq α] (r c r' c' : Nat) (hr : 0 < r) (hc : 0 < c) (hr' : 0 < r') (hc' : 0 < c') (es es' : List (Edit α))
    (h : InRangeAll (List.replicate r (List.replicate c (nullelem : α))) es) (h' : InRangeAll (List.replicate r' (List.replicate c' (nullelem : α))) es') :
    ∃ m m' : SparMat α, es.foldlM Edit.run (SparMat.mk' r c) = .ok m ∧ es'.foldlM Edit.run (SparMat.mk' r' c') = .ok m' ∧
      (m.eqMat m' = true ↔ es.foldl Edit.spec (List.replicate r (List.replicate c nullelem)) = es'.foldl Edit.spec (List.replicate r' (List.replicate c' nullelem))) := by
  obtain ⟨m, e, R⟩ := reps_history r c hr hc es h
  obtain ⟨m', e', R'⟩ := reps_history r' c' hr' hc' es' h'
  refine ⟨m, m', e, e', ?_⟩
  generalize es.foldl Edit.spec (List.replicate r (List.replicate c nullelem)) = t at R
  generalize es'.foldl Edit.spec (List.replicate r' (List.replicate c' nullelem)) = t' at R'
  unfold SparMat.eqMat
  constructor
  · intro he
    split at he
    · simp at he
    · rename_i h1
      split at he
      · simp at he
      · rename_i h2
        rw [not_not] at h1 h2
        simp only [List.all_eq_true, List.mem_range, beq_iff_eq] at he
        apply List.ext_getElem (by rw [← R.rows, ← R'.rows, h1])
        intro x hx hx'
        have l1 := R.rect _ (List.getElem_mem hx)
        have l2 := R'.rect _ (List.getElem_mem hx')
        apply List.ext_getElem (by omega)
        intro y hy hy'
        have h3 := he x (by rw [R.rows]; exact hx) y (by omega)
        rw [R.entry x y (by rw [R.rows]; exact hx) (by omega), R'.entry x y (by rw [R'.rows]; exact hx') (by omega)] at h3
        simpa [List.getD_eq_getElem?_getD, hx, hx', hy, hy'] using h3
  · rintro rfl
    rw [if_neg (by rw [R.rows, R'.rows]; simp), if_neg (by rw [R.cols, R'.cols]; simp)]
    simp only [List.all_eq_true, List.mem_range, beq_iff_eq]
    intro x hx y hy
    rw [R.entry x y hx hy, R'.entry x y (by rw [R'.rows, ← R.rows]; exact hx) (by rw [R'.cols, ← R.cols]; exact hy)]

/-- The entries of a matrix in two orders, one of them with an entry written twice. -/
example : ∃ m m' : SparMat OpRepr, [Edit.set 0 1 [(5, [0])], .set 1 0 [(6, [0])]].foldlM Edit.run (SparMat.mk' 2 2) = .ok m ∧
    [Edit.set 1 0 [(7, [0])], .set 0 1 [(5, [0])], .set 1 0 [(6, [0])]].foldlM Edit.run (SparMat.mk' 2 2) = .ok m' ∧ m.data ≠ m'.data ∧ m.eqMat m' = true := by
  refine ⟨_, _, rfl, rfl, ?_, ?_⟩ <;> decide +kernel

end

/-! ### C94 -/

section
variable {Q K : Type} [Zero K] [One K]

/-- **Specification**: the same local Hilbert spaces: sectors and degeneracies, site by site, whatever the directions. -/
def SameSpaces (l l' : List (SiteIdx Q)) : Prop := l.map (·.sectors) = l'.map (·.sectors)

/-- **Specification**: the identity on the space `i`: the incoming leg first, the outgoing second, 1 on the diagonal and 0 elsewhere. -/
structure IsIdOn (o : SiteOp Q K) (i : List (Q × Nat)) : Prop where
  leg0 : o.leg0 = ⟨i, false⟩
  leg1 : o.leg1 = ⟨i, true⟩
  v : ∀ a b, a < (i.map (·.2)).sum → b < (i.map (·.2)).sum → o.v a b = if a = b then 1 else 0

theorem setDirOut_eq (i : SiteIdx Q) : setDirOut i = ⟨i.sectors, true⟩ := by
  obtain ⟨s, b⟩ := i
  cases b <;> rfl

theorem genIdOp_spec (s : List (Q × Nat)) : IsIdOn (genIdOp ⟨s, true⟩ : SiteOp Q K) s := by
  have h : ∀ (n : Nat) (o : SiteOp Q K), let r := (List.range n).foldl (fun o i => o.set i i 1) o
      r.leg0 = o.leg0 ∧ r.leg1 = o.leg1 ∧ ∀ a b, r.v a b = if a = b ∧ a < n then 1 else o.v a b := by
    intro n o
    induction n with
    | zero => exact ⟨rfl, rfl, fun a b => by simp⟩
    | succ n ih =>
      simp only [List.range_succ, List.foldl_append, List.foldl_cons, List.foldl_nil]
      refine ⟨ih.1, ih.2.1, fun a b => ?_⟩
      show (if a = n ∧ b = n then 1 else _) = _
      rw [ih.2.2]
      by_cases h1 : a = b
      · subst h1
        by_cases h2 : a = n
        · subst h2; simp
        · simp only [h2, false_and, if_false, true_and]
          congr 1
          exact propext (by omega)
      · have : ¬(a = n ∧ b = n) := by omega
        simp [h1, this]
  obtain ⟨h1, h2, h3⟩ := h (SiteIdx.dim ⟨s, true⟩) (⟨SiteIdx.inv ⟨s, true⟩, ⟨s, true⟩, fun _ _ => 0⟩ : SiteOp Q K)
  refine ⟨h1, h2, fun a b ha hb => (h3 a b).trans ?_⟩
  have ha : a < SiteIdx.dim ⟨s, true⟩ := ha
  simp [ha]

/-- **C94**: the constructor from a list of spaces with any directions succeeds exactly if there is a site; then all sites are outgoing, have the given spaces, and each has its identity. -/
theorem C94_sites (l : List (SiteIdx Q)) :
    (l = [] → (SiteVec.ofList l : Except Err (SiteVec Q K)) = .error .assertFail) ∧
    (l ≠ [] → ∃ s : SiteVec Q K, SiteVec.ofList l = .ok s ∧ s.size = l.length ∧ SameSpaces s.sites l ∧ (∀ i ∈ s.sites, i.out = true) ∧ s.idOps.length = l.length ∧
      ∀ (j : Nat) (i : SiteIdx Q), l[j]? = some i → ∃ o, s.idOps[j]? = some o ∧ IsIdOn o i.sectors) := by
  constructor
  · rintro rfl; rfl
  · intro hl
    refine ⟨_, if_neg (by simpa using hl), rfl, ?_, ?_, ?_, ?_⟩
    · show (l.map setDirOut).map (·.sectors) = l.map (·.sectors)
      rw [List.map_map]
      exact List.map_congr_left fun i _ => by simp [setDirOut_eq]
    · intro i hi
      obtain ⟨j, -, rfl⟩ := List.mem_map.mp hi
      rw [setDirOut_eq]
    · simp [genIdOps]
    · intro j i hj
      refine ⟨genIdOp (setDirOut i), ?_, by rw [setDirOut_eq]; exact genIdOp_spec _⟩
      show ((List.take l.length (l.map setDirOut)).map genIdOp)[j]? = _
      rw [List.take_of_length_le (by simp), List.getElem?_map, List.getElem?_map, hj]
      rfl

/-- **C94**: a uniform system is the one made of copies of its space. -/
theorem C94_uniform (n : Nat) (i : SiteIdx Q) : (SiteVec.uniform n i : Except Err (SiteVec Q K)) = SiteVec.ofList (List.replicate n i) := by
  simp [SiteVec.uniform, SiteVec.ofList]

/-- **C94**: two systems compare equal exactly if they have the same spaces, whatever the directions given. -/
theorem C94_equality [DecidableEq Q] {l l' : List (SiteIdx Q)} {s s' : SiteVec Q K} (h : SiteVec.ofList l = .ok s) (h' : SiteVec.ofList l' = .ok s') : s.eqv s' = true ↔ SameSpaces l l' := by
  have key : ∀ {l : List (SiteIdx Q)} {s : SiteVec Q K}, SiteVec.ofList l = .ok s → s.sites = l.map fun i => ⟨i.sectors, true⟩ := by
    intro l s h
    unfold SiteVec.ofList at h
    split at h
    · cases h
    · cases h
      exact List.map_congr_left fun i _ => setDirOut_eq i
  unfold SiteVec.eqv SameSpaces
  rw [key h, key h', beq_iff_eq]
  constructor
  · intro e
    have := congrArg (List.map SiteIdx.sectors) e
    simpa [List.map_map, Function.comp_def] using this
  · intro e
    have := congrArg (List.map fun x => (⟨x, true⟩ : SiteIdx Q)) e
    simpa [List.map_map, Function.comp_def] using this

end

/-- Two sites given with different directions. -/
example : ∃ s s' : SiteVec Int Int, SiteVec.ofList [⟨[(1, 1), (-1, 1)], true⟩, ⟨[(0, 2)], false⟩] = .ok s ∧ SiteVec.ofList [⟨[(1, 1), (-1, 1)], false⟩, ⟨[(0, 2)], false⟩] = .ok s' ∧
    s.eqv s' = true ∧ SiteVec.ofList [⟨[(1, 1)], true⟩] ≠ .ok s := by
  refine ⟨_, _, rfl, rfl, by decide +kernel, fun h => ?_⟩
  injection h with h
  have := congrArg SiteVec.size h
  simp at this

end Verif.Props
