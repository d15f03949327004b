import Verif.Mpo.Compress
/- Axis-generic read-after-write facts for `SparMat`. -/
namespace Verif.Mpo
open SparMat NullElem

variable {α : Type} [NullElem α]

@[simp] theorem other_other (ax : Axis) : ax.other.other = ax := by cases ax <;> rfl
theorem lines_other (ax : Axis) (m : SparMat α) : lines ax.other m = cross ax m := by cases ax <;> rfl
theorem cross_other (ax : Axis) (m : SparMat α) : cross ax.other m = lines ax m := by cases ax <;> rfl
theorem atL_other (ax : Axis) (m : SparMat α) (i x : Nat) : atL ax.other m i x = atL ax m x i := by
  cases ax <;> rfl

theorem nullL_iff {m : SparMat α} (hm : WF m) (ax : Axis) (i x : Nat) :
    nullL ax m i x = true ↔ atL ax m i x = nullelem := by
  cases ax <;> exact isNullAt_iff hm _ _

theorem setL_spec {m : SparMat α} (hm : WF m) (ax : Axis) {i x : Nat} (hi : i < lines ax m) (hx : x < cross ax m)
    (e : α) :
    ∃ m', setL ax m i x e = .ok m' ∧ WF m' ∧ lines ax m' = lines ax m ∧ cross ax m' = cross ax m ∧
      ∀ i' x', i' < lines ax m → x' < cross ax m →
        atL ax m' i' x' = if i' = i ∧ x' = x then (if isNull e then atL ax m i x else e) else atL ax m i' x' := by
  cases ax with
  | row =>
    obtain ⟨m', h1, h2, h3, h4, h5⟩ := setElem_spec hm hi hx e
    exact ⟨m', h1, h2, h3, h4, fun i' x' _ hx' => h5 i' x' hx'⟩
  | col =>
    obtain ⟨m', h1, h2, h3, h4, h5⟩ := setElem_spec hm hx hi e
    refine ⟨m', h1, h2, h4, h3, fun i' x' hi' _ => ?_⟩
    have := h5 x' i' hi'
    simp only [atL]
    rw [this]
    by_cases h : i' = i ∧ x' = x
    · rw [if_pos h, if_pos ⟨h.2, h.1⟩]
    · rw [if_neg h, if_neg (fun h' => h ⟨h'.2, h'.1⟩)]

theorem removeLine_spec {m : SparMat α} (hm : WF m) (ax : Axis) {i : Nat} (hi : i < lines ax m)
    (h1 : lines ax m ≠ 1) (hx : 0 < cross ax m) :
    ∃ m', removeLine ax m i = .ok m' ∧ WF m' ∧ lines ax m' = lines ax m - 1 ∧ cross ax m' = cross ax m ∧
      ∀ t x, t < lines ax m - 1 → x < cross ax m → atL ax m' t x = atL ax m (if t < i then t else t + 1) x := by
  cases ax with
  | row =>
    obtain ⟨m', h1, h2, h3, h4, h5⟩ := removeRow_spec hm hi h1
    exact ⟨m', h1, h2, h3, h4, h5⟩
  | col =>
    obtain ⟨m', h1, h2, h3, h4, h5⟩ := removeCol_spec hm hi h1 hx
    exact ⟨m', h1, h2, h4, h3, fun t x ht hx => h5 x t hx ht⟩

theorem transposeLines_spec {m : SparMat α} (hm : WF m) (ax : Axis) {perm : List Nat}
    (hp : perm.Perm (List.range (lines ax m))) :
    ∃ m', transposeLines ax m perm = .ok m' ∧ WF m' ∧ lines ax m' = lines ax m ∧ cross ax m' = cross ax m ∧
      ∀ i x, i < lines ax m → x < cross ax m → atL ax m' i x = atL ax m (perm.getD i 0) x := by
  cases ax with
  | row =>
    obtain ⟨m', h1, h2, h3, h4, h5⟩ := transposeRows_spec hm hp
    exact ⟨m', h1, h2, h3, h4, h5⟩
  | col =>
    obtain ⟨m', h1, h2, h3, h4, h5⟩ := transposeCols_spec hm hp
    exact ⟨m', h1, h2, h4, h3, fun i x hi hx => h5 x i hx hi⟩

theorem mkL_spec (ax : Axis) (l x : Nat) :
    WF (mkL ax l x : SparMat α) ∧ lines ax (mkL ax l x : SparMat α) = l ∧ cross ax (mkL ax l x : SparMat α) = x ∧
      ∀ i y, atL ax (mkL ax l x : SparMat α) i y = nullelem := by
  cases ax
  · exact ⟨wf_mk' _ _, rfl, rfl, fun i y => get_mk' _ _ _ _⟩
  · exact ⟨wf_mk' _ _, rfl, rfl, fun i y => get_mk' _ _ _ _⟩

theorem getLine_eq (ax : Axis) (m : SparMat α) (i : Nat) :
    getLine ax m i = (List.range (cross ax m)).map (fun x => atL ax m i x) := by
  cases ax <;> rfl

theorem sortedIdxs_perm (ax : Axis) (m : SparMat α) : (sortedIdxs ax m).Perm (List.range (lines ax m)) := by
  unfold sortedIdxs
  refine ((List.mergeSort_perm _ _).map _).trans ?_
  unfold genSortMapping
  rw [List.map_map]
  have : ((·.2) ∘ fun i => (((List.range (cross ax m)).filter (fun x => !nullL ax m i x)).length, i)) =
      (id : Nat → Nat) := rfl
  rw [this, List.map_id]

theorem vecEqv_map {l : List Nat} {f g : Nat → OpRepr} :
    vecEqv (l.map f) (l.map g) = true ↔ ∀ x ∈ l, OpRepr.eqv (f x) (g x) = true := by
  induction l with
  | nil => simp [vecEqv]
  | cons a l ih => simp [vecEqv, ih]

end Verif.Mpo
