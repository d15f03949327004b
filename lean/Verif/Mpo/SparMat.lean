import Verif.Mpo.Alg
/-
Model of the sparse symbolic matrix.
Source: /repo/include/qlmps/one_dim_tn/mpo/mpogen/symb_alg/sparse_mat.h
-/
namespace Verif.Mpo

/-- Element types of `SparMat` with their default-constructed `nullelem` (sparse_mat.h, member `nullelem`)
and the test `elem == nullelem` (sparse_mat.h:70). -/
class NullElem (α : Type) where
  nullelem : α
  isNull : α → Bool
  isNull_iff : ∀ a, isNull a = true ↔ a = nullelem

/-- `CoefRepr`/`OpRepr` compare equal to the default-constructed element iff they are empty. -/
instance {β : Type} : NullElem (List β) := ⟨[], List.isEmpty, by intro a; cases a <;> simp⟩

open NullElem

/-- `class SparMat` (sparse_mat.h:18-): row-major array of indices into `data`; the C++ marker `-1` is `none`. -/
structure SparMat (α : Type) where
  rows : Nat
  cols : Nat
  data : List α
  indexes : List (Option Nat)
deriving Repr

namespace SparMat
variable {α : Type}

/-- `SparMat(row_num, col_num)` (sparse_mat.h:24-26). -/
def mk' (r c : Nat) : SparMat α := ⟨r, c, [], List.replicate (r * c) none⟩

/-- `SparMat(void)` (sparse_mat.h:22): the empty matrix. -/
def empty : SparMat α := ⟨0, 0, [], []⟩

/-- `CalcOffset` (sparse_mat.h:208-210). -/
def off (m : SparMat α) (x y : Nat) : Nat := x * m.cols + y

/-- `operator()` (sparse_mat.h:47-54). Total here: an offset outside `indexes` reads as null; all uses
below are inside loops bounded by `rows`/`cols`, and `WF` fixes the length of `indexes`. -/
def get [NullElem α] (m : SparMat α) (x y : Nat) : α :=
  match m.indexes[m.off x y]? with
  | some (some k) => m.data.getD k nullelem
  | _ => nullelem

/-- `IsNull` (sparse_mat.h:60-67). -/
def isNullAt (m : SparMat α) (x y : Nat) : Bool :=
  match m.indexes[m.off x y]? with
  | some (some _) => false
  | _ => true

/-- `SetElem` (sparse_mat.h:69-79). Storing the null element does nothing. -/
def setElem [NullElem α] (m : SparMat α) (x y : Nat) (e : α) : Except Err (SparMat α) :=
  if isNull e then .ok m
  else match m.indexes[m.off x y]? with
    | none => .error .oob
    | some none => .ok { m with data := m.data ++ [e], indexes := m.indexes.set (m.off x y) (some m.data.length) }
    | some (some k) =>
      if k < m.data.length then .ok { m with data := m.data.set k e } else .error .oob

/-- `GetRow` (sparse_mat.h:82-90). -/
def getRow [NullElem α] (m : SparMat α) (x : Nat) : List α := (List.range m.cols).map (fun y => m.get x y)

/-- `GetCol` (sparse_mat.h:92-100). -/
def getCol [NullElem α] (m : SparMat α) (y : Nat) : List α := (List.range m.rows).map (fun x => m.get x y)

/-- `RemoveRow` (sparse_mat.h:124-134): erase the index range of the row. -/
def removeRow (m : SparMat α) (r : Nat) : Except Err (SparMat α) :=
  if m.rows ≤ r then .error .assertFail
  else if m.rows = 1 then .ok empty
  else .ok { m with rows := m.rows - 1,
                    indexes := m.indexes.take (m.off r 0) ++ m.indexes.drop (m.off (r + 1) 0) }

/-- Inner loop of `RemoveCol` (sparse_mat.h:147-149, 154-156):
`for i < len: indexes[start + i] = indexes[start + i + shift]`. -/
def copyDown {β : Type} (l : List β) (start shift len : Nat) : Except Err (List β) :=
  (List.range len).foldlM (fun l i =>
    match l[start + i + shift]? with
    | some v => if start + i < l.length then .ok (l.set (start + i) v) else .error .oob
    | none => .error .oob) l

/-- `RemoveCol` (sparse_mat.h:136-158), including its in-place compaction. -/
def removeCol (m : SparMat α) (c : Nat) : Except Err (SparMat α) :=
  if m.cols ≤ c then .error .assertFail
  else if m.cols = 1 then .ok empty
  else if m.rows = 0 then .error .oob   -- `rows - 1` wraps around
  else do
    let nc := m.cols - 1
    let idx ← (List.range (m.rows - 1)).foldlM (fun l x => copyDown l (x * nc + c) (x + 1) nc) m.indexes
    let start := (m.rows - 1) * nc + c
    let idx ← copyDown idx start m.rows (nc * m.rows - start)
    return { m with cols := nc, indexes := idx.take (nc * m.rows) }

/-- `std::swap(v[i], v[j])`. -/
def swapAt {β : Type} (l : List β) (i j : Nat) : List β :=
  match l[i]?, l[j]? with
  | some a, some b => (l.set i b).set j a
  | _, _ => l

/-- `SwapTwoRows` (sparse_mat.h:161-169). -/
def swapTwoRows (m : SparMat α) (r1 r2 : Nat) : Except Err (SparMat α) :=
  if m.rows ≤ r1 ∨ m.rows ≤ r2 then .error .assertFail
  else if r1 = r2 then .ok m
  else .ok { m with indexes := (List.range m.cols).foldl (fun l y => swapAt l (m.off r1 y) (m.off r2 y)) m.indexes }

/-- `SwapTwoCols` (sparse_mat.h:171-179). -/
def swapTwoCols (m : SparMat α) (c1 c2 : Nat) : Except Err (SparMat α) :=
  if m.cols ≤ c1 ∨ m.cols ≤ c2 then .error .assertFail
  else if c1 = c2 then .ok m
  else .ok { m with indexes := (List.range m.rows).foldl (fun l x => swapAt l (m.off x c1) (m.off x c2)) m.indexes }

/-- `TransposeRows` (sparse_mat.h:182-193): new row `i` is old row `perm[i]`. The nested assignment loop
fills every position `p = i * cols + y` of `new_indexes` exactly once, hence the `map`. -/
def transposeRows (m : SparMat α) (perm : List Nat) : Except Err (SparMat α) :=
  if perm.length ≠ m.rows then .error .assertFail
  else if perm.any (fun r => m.rows ≤ r) then .error .oob
  else .ok { m with indexes := (List.range (m.rows * m.cols)).map (fun p =>
      (m.indexes[m.off (perm.getD (p / m.cols) 0) (p % m.cols)]?).join) }

/-- `TransposeCols` (sparse_mat.h:195-206): new column `i` is old column `perm[i]`. -/
def transposeCols (m : SparMat α) (perm : List Nat) : Except Err (SparMat α) :=
  if perm.length ≠ m.cols then .error .assertFail
  else if perm.any (fun c => m.cols ≤ c) then .error .oob
  else .ok { m with indexes := (List.range (m.rows * m.cols)).map (fun p =>
      (m.indexes[m.off (p / m.cols) (perm.getD (p % m.cols) 0)]?).join) }

/-! ### Well-formedness and read-after-write facts -/

/-- Representation invariant: the index array has the right length, every index points into `data`,
no two entries share storage, and no null element is stored. -/
structure WF [NullElem α] (m : SparMat α) : Prop where
  len : m.indexes.length = m.rows * m.cols
  bound : ∀ (p k : Nat), m.indexes[p]? = some (some k) → k < m.data.length
  inj : ∀ (p q k : Nat), m.indexes[p]? = some (some k) → m.indexes[q]? = some (some k) → p = q
  nonnull : ∀ (k : Nat) (h : k < m.data.length), m.data[k] ≠ nullelem

theorem off_lt {m : SparMat α} {x y : Nat} (hx : x < m.rows) (hy : y < m.cols) :
    m.off x y < m.rows * m.cols := by
  unfold off
  calc x * m.cols + y < x * m.cols + m.cols := by omega
    _ = (x + 1) * m.cols := by rw [Nat.add_mul, Nat.one_mul]
    _ ≤ m.rows * m.cols := Nat.mul_le_mul_right _ hx

theorem flat_inj {c x y x' y' : Nat} (hy : y < c) (hy' : y' < c) (h : x * c + y = x' * c + y') :
    x = x' ∧ y = y' := by
  have h1 : (x * c + y) / c = x := by
    rw [Nat.mul_comm, Nat.mul_add_div (by omega)]; simp [Nat.div_eq_of_lt hy]
  have h2 : (x' * c + y') / c = x' := by
    rw [Nat.mul_comm, Nat.mul_add_div (by omega)]; simp [Nat.div_eq_of_lt hy']
  have h3 : x = x' := by rw [← h1, ← h2, h]
  subst h3
  exact ⟨rfl, by omega⟩

theorem flat_div {c x y : Nat} (hy : y < c) : (x * c + y) / c = x := by
  rw [Nat.mul_comm, Nat.mul_add_div (by omega)]; simp [Nat.div_eq_of_lt hy]

theorem flat_mod {c x y : Nat} (hy : y < c) : (x * c + y) % c = y := by
  rw [Nat.mul_comm, Nat.mul_add_mod, Nat.mod_eq_of_lt hy]

variable [NullElem α]

theorem wf_mk' (r c : Nat) : WF (mk' r c : SparMat α) := by
  refine ⟨by simp [mk'], ?_, ?_, ?_⟩
  · intro p k h
    simp only [mk', List.getElem?_replicate] at h
    split at h <;> simp at h
  · intro p q k h
    simp only [mk', List.getElem?_replicate] at h
    split at h <;> simp at h
  · intro k h; simp [mk'] at h

theorem get_mk' (r c x y : Nat) : (mk' r c : SparMat α).get x y = nullelem := by
  unfold get
  simp only [mk', List.getElem?_replicate]
  split
  · rename_i h; split at h <;> simp at h
  · rfl

theorem wf_empty : WF (empty : SparMat α) := by
  refine ⟨rfl, ?_, ?_, ?_⟩ <;> simp [empty]

theorem isNullAt_iff {m : SparMat α} (hm : WF m) (x y : Nat) :
    m.isNullAt x y = true ↔ m.get x y = nullelem := by
  unfold isNullAt get
  split
  · rename_i k h
    have hk := hm.bound _ _ h
    have := hm.nonnull k hk
    simp only [Bool.false_eq_true, false_iff]
    rw [List.getD_eq_getElem?_getD, List.getElem?_eq_getElem hk]
    simpa using this
  · simp

theorem setElem_spec {m : SparMat α} (hm : WF m) {x y : Nat} (hx : x < m.rows) (hy : y < m.cols) (e : α) :
    ∃ m', m.setElem x y e = .ok m' ∧ WF m' ∧ m'.rows = m.rows ∧ m'.cols = m.cols ∧
      ∀ x' y', y' < m.cols →
        m'.get x' y' = if x' = x ∧ y' = y then (if isNull e then m.get x y else e) else m.get x' y' := by
  unfold setElem
  by_cases he : isNull e = true
  · rw [if_pos he]
    refine ⟨m, rfl, hm, rfl, rfl, ?_⟩
    intro x' y' _
    simp only [he, if_true]
    split
    · rename_i h; rw [h.1, h.2]
    · rfl
  · rw [if_neg he]
    have hlt : m.off x y < m.indexes.length := by rw [hm.len]; exact off_lt hx hy
    have hne : e ≠ nullelem := fun h => he ((isNull_iff e).2 h)
    rw [List.getElem?_eq_getElem hlt]
    cases hidx : m.indexes[m.off x y] with
    | none =>
      refine ⟨_, rfl, ?_, rfl, rfl, ?_⟩
      · refine ⟨?_, ?_, ?_, ?_⟩
        · simp [hm.len]
        · intro p k h
          simp only [List.getElem?_set] at h
          simp only [List.length_append, List.length_cons, List.length_nil]
          split at h
          · simp only [Option.some.injEq] at h; omega
          · have := hm.bound p k h; omega
        · intro p q k hp hq
          simp only [List.getElem?_set] at hp hq
          split at hp
          · simp only [Option.some.injEq] at hp
            split at hq
            · omega
            · have := hm.bound q k hq; omega
          · split at hq
            · simp only [Option.some.injEq] at hq
              have := hm.bound p k hp; omega
            · exact hm.inj p q k hp hq
        · intro k hk
          simp only [List.length_append, List.length_cons, List.length_nil] at hk
          rw [List.getElem_append]
          split
          · exact hm.nonnull _ _
          · simpa using hne
      · intro x' y' hy'
        simp only [he]
        by_cases hxy : x' = x ∧ y' = y
        · obtain ⟨rfl, rfl⟩ := hxy
          simp only [and_self, if_true]
          have h0 : (m.indexes.set (m.off x' y') (some m.data.length))[m.off x' y']? =
              some (some m.data.length) := by rw [List.getElem?_set, if_pos rfl, if_pos hlt]
          unfold get
          simp only [off] at h0 ⊢
          simp [h0]
        · rw [if_neg hxy]
          have hoff : m.off x y ≠ m.off x' y' := by
            intro h
            have := flat_inj hy hy' h
            exact hxy ⟨this.1.symm, this.2.symm⟩
          unfold get
          simp only [off] at *
          rw [List.getElem?_set_ne hoff]
          split
          · rename_i k h
            have := hm.bound _ _ h
            simp only [List.getD_eq_getElem?_getD]
            rw [List.getElem?_append_left this]
          · rfl
    | some k =>
      have hk : k < m.data.length := hm.bound (m.off x y) k (by rw [List.getElem?_eq_getElem hlt, hidx])
      simp only [hk, if_true]
      refine ⟨_, rfl, ?_, rfl, rfl, ?_⟩
      · refine ⟨hm.len, ?_, hm.inj, ?_⟩
        · intro p k' h; simpa using hm.bound p k' h
        · intro k' hk'
          simp only [List.length_set] at hk'
          rw [List.getElem_set]
          split
          · exact hne
          · exact hm.nonnull _ _
      · intro x' y' hy'
        simp only [he]
        by_cases hxy : x' = x ∧ y' = y
        · obtain ⟨rfl, rfl⟩ := hxy
          simp only [and_self, if_true]
          have h0 : m.indexes[m.off x' y']? = some (some k) := by
            rw [List.getElem?_eq_getElem hlt, hidx]
          unfold get
          simp only [off] at h0 ⊢
          simp [h0, hk]
        · rw [if_neg hxy]
          have hoff : m.off x y ≠ m.off x' y' := by
            intro h
            have := flat_inj hy hy' h
            exact hxy ⟨this.1.symm, this.2.symm⟩
          have h0 : m.indexes[m.off x y]? = some (some k) := by
            rw [List.getElem?_eq_getElem hlt, hidx]
          unfold get
          simp only [off] at h0 hoff ⊢
          split
          · rename_i k' h
            have hne' : k ≠ k' := by
              intro hkk; subst hkk
              exact hoff (hm.inj _ _ k h0 h)
            simp only [List.getD_eq_getElem?_getD]
            rw [List.getElem?_set_ne hne']
          · rfl

/-- Re-indexing: a matrix over the same data whose index array is an injective selection of the old one. -/
theorem wf_reindex {m : SparMat α} (hm : WF m) (r c : Nat) (idx : List (Option Nat)) (φ : Nat → Nat)
    (hlen : idx.length = r * c)
    (hget : ∀ p, p < r * c → idx[p]? = some ((m.indexes[φ p]?).join))
    (hφ : ∀ p q, p < r * c → q < r * c → φ p = φ q → p = q) :
    WF (⟨r, c, m.data, idx⟩ : SparMat α) := by
  have key : ∀ p k, idx[p]? = some (some k) → p < r * c ∧ m.indexes[φ p]? = some (some k) := by
    intro p k h
    have hp : p < r * c := by
      refine Nat.lt_of_not_le fun hcon => ?_
      rw [List.getElem?_eq_none (by omega)] at h
      simp at h
    refine ⟨hp, ?_⟩
    rw [hget p hp] at h
    simp only [Option.some.injEq] at h
    cases hq : m.indexes[φ p]? with
    | none => rw [hq] at h; simp at h
    | some o => rw [hq] at h; simp at h; rw [h]
  refine ⟨hlen, ?_, ?_, hm.nonnull⟩
  · intro p k h; exact hm.bound _ _ (key p k h).2
  · intro p q k hp hq
    exact hφ p q (key p k hp).1 (key q k hq).1 (hm.inj _ _ k (key p k hp).2 (key q k hq).2)

theorem get_reindex {m : SparMat α} (r c : Nat) (idx : List (Option Nat)) {x y p' : Nat}
    (hp : idx[x * c + y]? = some ((m.indexes[p']?).join)) :
    (⟨r, c, m.data, idx⟩ : SparMat α).get x y =
      (match m.indexes[p']? with | some (some k) => m.data.getD k nullelem | _ => nullelem) := by
  unfold get off
  simp only [hp]
  cases hq : m.indexes[p']? with
  | none => simp
  | some o => cases o <;> simp

theorem removeRow_spec {m : SparMat α} (hm : WF m) {r : Nat} (hr : r < m.rows) (h1 : m.rows ≠ 1) :
    ∃ m', m.removeRow r = .ok m' ∧ WF m' ∧ m'.rows = m.rows - 1 ∧ m'.cols = m.cols ∧
      ∀ x y, x < m.rows - 1 → y < m.cols → m'.get x y = m.get (if x < r then x else x + 1) y := by
  unfold removeRow
  rw [if_neg (by omega), if_neg h1]
  have hc : m.off r 0 ≤ m.rows * m.cols := by
    simp only [off, Nat.add_zero]; exact Nat.mul_le_mul_right _ (by omega)
  have hc1 : m.off (r + 1) 0 = m.off r 0 + m.cols := by
    simp only [off, Nat.add_zero, Nat.add_mul, Nat.one_mul]
  have hc2 : m.off (r + 1) 0 ≤ m.rows * m.cols := by
    simp only [off, Nat.add_zero]; exact Nat.mul_le_mul_right _ (by omega)
  have hlen : (m.indexes.take (m.off r 0) ++ m.indexes.drop (m.off (r + 1) 0)).length =
      (m.rows - 1) * m.cols := by
    rw [List.length_append, List.length_take, List.length_drop, hm.len, Nat.sub_mul, Nat.one_mul]
    omega
  have hget : ∀ p, p < (m.rows - 1) * m.cols →
      (m.indexes.take (m.off r 0) ++ m.indexes.drop (m.off (r + 1) 0))[p]? =
        some ((m.indexes[(if p < m.off r 0 then p else p + m.cols)]?).join) := by
    intro p hp
    have hp' : p < m.rows * m.cols - m.cols := by rwa [Nat.sub_mul, Nat.one_mul] at hp
    rw [List.getElem?_append, List.length_take, hm.len, Nat.min_eq_left hc]
    split
    · rename_i hlt
      rw [List.getElem?_take_of_lt hlt, List.getElem?_eq_getElem (by rw [hm.len]; omega)]
      simp
    · rename_i hge
      rw [List.getElem?_drop]
      have : m.off (r + 1) 0 + (p - m.off r 0) = p + m.cols := by omega
      rw [this, List.getElem?_eq_getElem (by rw [hm.len]; omega)]
      simp
  refine ⟨_, rfl, ?_, rfl, rfl, ?_⟩
  · refine wf_reindex hm _ _ _ _ hlen hget ?_
    intro p q _ _ h
    split at h <;> split at h <;> omega
  · intro x y hx hy
    have hp : x * m.cols + y < (m.rows - 1) * m.cols :=
      off_lt (m := ⟨m.rows - 1, m.cols, m.data, []⟩) hx hy
    rw [get_reindex (m := m) _ _ _ (hget _ hp)]
    unfold get
    have : (if x * m.cols + y < m.off r 0 then x * m.cols + y else x * m.cols + y + m.cols) =
        m.off (if x < r then x else x + 1) y := by
      unfold off
      simp only [Nat.add_zero]
      by_cases hxr : x < r
      · have : x * m.cols + y < r * m.cols := off_lt (m := ⟨r, m.cols, m.data, []⟩) hxr hy
        simp [hxr, this]
      · have : ¬ (x * m.cols + y < r * m.cols) := by
          have := Nat.mul_le_mul_right m.cols (Nat.le_of_not_lt hxr)
          omega
        simp only [hxr, this, if_false, Nat.add_mul]; omega
    rw [this]

theorem copyDown_spec {β : Type} (l : List β) (start shift len : Nat) (hs : 1 ≤ shift)
    (h : start + len + shift ≤ l.length) :
    ∃ l', copyDown l start shift len = .ok l' ∧ l'.length = l.length ∧
      ∀ p, l'[p]? = if start ≤ p ∧ p < start + len then l[p + shift]? else l[p]? := by
  induction len with
  | zero =>
    refine ⟨l, rfl, rfl, ?_⟩
    intro p; rw [if_neg (by omega)]
  | succ len ih =>
    obtain ⟨l', h1, h2, h3⟩ := ih (by omega)
    unfold copyDown at h1 ⊢
    rw [List.range_succ, List.foldlM_append, h1]
    have hr : l'[start + len + shift]? = some (l[start + len + shift]'(by omega)) := by
      rw [h3, if_neg (by omega)]
      exact List.getElem?_eq_getElem (by omega)
    simp only [List.foldlM_cons, List.foldlM_nil, bind, Except.bind, pure, Except.pure, hr]
    rw [if_pos (by omega)]
    refine ⟨_, rfl, by simp [h2], ?_⟩
    intro p
    rw [List.getElem?_set, h3]
    by_cases hp : start + len = p
    · subst hp
      rw [if_pos rfl, if_pos (by omega), if_pos (by omega), List.getElem?_eq_getElem (by omega)]
    · rw [if_neg hp]
      by_cases hq : start ≤ p ∧ p < start + len
      · rw [if_pos hq, if_pos (by omega)]
      · rw [if_neg hq, if_neg (by omega)]

theorem removeCol_spec {m : SparMat α} (hm : WF m) {c : Nat} (hc : c < m.cols) (h1 : m.cols ≠ 1)
    (hr : 0 < m.rows) :
    ∃ m', m.removeCol c = .ok m' ∧ WF m' ∧ m'.rows = m.rows ∧ m'.cols = m.cols - 1 ∧
      ∀ x y, x < m.rows → y < m.cols - 1 → m'.get x y = m.get x (if y < c then y else y + 1) := by
  obtain ⟨nc, hnc⟩ : ∃ nc, m.cols = nc + 1 := ⟨m.cols - 1, by omega⟩
  obtain ⟨nr, hnr⟩ : ∃ nr, m.rows = nr + 1 := ⟨m.rows - 1, by omega⟩
  have hlen := hm.len
  -- position map: new flat position p = x * nc + y comes from old position
  let φ : Nat → Nat := fun p => (p / nc) * (nc + 1) + (if p % nc < c then p % nc else p % nc + 1)
  have hnc0 : 0 < nc := by omega
  have hφadd : ∀ x y, y < nc → φ (x * nc + y) = x * nc + y + (if y < c then x else x + 1) := by
    intro x y hy
    simp only [φ, flat_div hy, flat_mod hy, Nat.mul_add]
    split <;> omega
  -- the shift applied to position p after the first k rows have been moved
  have loop : ∀ k, k ≤ nr → ∃ l, (List.range k).foldlM (fun l x => copyDown l (x * nc + c) (x + 1) nc) m.indexes
      = .ok l ∧ l.length = m.indexes.length ∧
      (∀ p, p < k * nc + c → l[p]? = m.indexes[φ p]?) ∧ (∀ p, k * nc + c ≤ p → l[p]? = m.indexes[p]?) := by
    intro k
    induction k with
    | zero =>
      intro _
      refine ⟨m.indexes, rfl, rfl, ?_, fun _ _ => rfl⟩
      intro p hp
      have h2 : φ p = p := by
        have hpnc : p < nc ∨ p = nc := by omega
        rcases hpnc with h | h
        · have := hφadd 0 p h
          simp only [Nat.zero_mul, Nat.zero_add, if_pos (show p < c by omega)] at this
          omega
        · omega
      rw [h2]
    | succ k ih =>
      intro hk
      obtain ⟨l, h1, h2, h3, h4⟩ := ih (by omega)
      rw [List.range_succ, List.foldlM_append, h1]
      simp only [List.foldlM_cons, List.foldlM_nil, bind, Except.bind, pure, Except.pure]
      have hb : k * nc + c + nc + (k + 1) ≤ l.length := by
        rw [h2, hlen, hnr, hnc]
        have : (k + 2) * (nc + 1) ≤ (nr + 1) * (nc + 1) := Nat.mul_le_mul_right _ (by omega)
        simp only [Nat.add_mul, Nat.mul_add, Nat.one_mul, Nat.mul_one] at this ⊢
        omega
      obtain ⟨l', e1, e2, e3⟩ := copyDown_spec l (k * nc + c) (k + 1) nc (by omega) hb
      rw [e1]
      refine ⟨l', rfl, by omega, ?_, ?_⟩
      · intro p hp
        rw [e3]
        have hexp : (k + 1) * nc = k * nc + nc := by rw [Nat.add_mul, Nat.one_mul]
        by_cases hlt : p < k * nc + c
        · rw [if_neg (by omega), h3 p hlt]
        · rw [if_pos (by omega), h4 _ (by omega)]
          congr 1
          -- p = k*nc + y with c ≤ y < nc, or p = (k+1)*nc + y with y < c
          by_cases hy : p - k * nc < nc
          · have := hφadd k (p - k * nc) hy
            rw [if_neg (by omega)] at this
            rw [show k * nc + (p - k * nc) = p by omega] at this
            omega
          · have := hφadd (k + 1) (p - (k + 1) * nc) (by omega)
            rw [if_pos (by omega)] at this
            rw [show (k + 1) * nc + (p - (k + 1) * nc) = p by omega] at this
            omega
      · intro p hp
        have hexp : (k + 1) * nc = k * nc + nc := by rw [Nat.add_mul, Nat.one_mul]
        rw [e3, if_neg (by omega), h4 p (by omega)]
  obtain ⟨l, h2, h3, h4, h5⟩ := loop nr (Nat.le_refl _)
  have hN : m.indexes.length = nr * nc + nc + nr + 1 := by
    rw [hlen, hnr, hnc]; simp only [Nat.add_mul, Nat.mul_add, Nat.one_mul, Nat.mul_one]; omega
  have hM : nc * (nr + 1) = nr * nc + nc := by rw [Nat.mul_add, Nat.mul_one, Nat.mul_comm]
  obtain ⟨l', e1, e2, e3⟩ := copyDown_spec l (nr * nc + c) (nr + 1) (nc * (nr + 1) - (nr * nc + c))
    (by omega) (by omega)
  have hres : m.removeCol c = .ok ⟨nr + 1, nc, m.data, l'.take (nc * (nr + 1))⟩ := by
    unfold removeCol
    rw [if_neg (by omega), if_neg h1, if_neg (by omega)]
    have a1 : m.cols - 1 = nc := by omega
    simp only [a1, hnr, Nat.add_sub_cancel, h2, bind, Except.bind, pure, Except.pure, e1]
  have hget : ∀ p, p < (nr + 1) * nc → (l'.take (nc * (nr + 1)))[p]? = some ((m.indexes[φ p]?).join) := by
    intro p hp
    have hp' : p < nc * (nr + 1) := by rwa [Nat.mul_comm] at hp
    have hval : l'[p]? = m.indexes[φ p]? := by
      rw [e3]
      by_cases hlt : p < nr * nc + c
      · rw [if_neg (by omega), h4 p hlt]
      · rw [if_pos (by omega), h5 _ (by omega)]
        congr 1
        have := hφadd nr (p - nr * nc) (by omega)
        rw [if_neg (by omega), show nr * nc + (p - nr * nc) = p by omega] at this
        omega
    rw [List.getElem?_take_of_lt hp', hval]
    have : p < l'.length := by omega
    rw [List.getElem?_eq_getElem this] at hval
    rw [← hval]; simp
  refine ⟨_, hres, ?_, by simp [hnr], by simp [hnc], ?_⟩
  · refine wf_reindex hm _ _ _ φ ?_ hget ?_
    · rw [List.length_take, e2, h3, Nat.mul_comm (nr + 1) nc]; omega
    · intro p q _ _ hpq
      have hp := Nat.div_add_mod p nc
      have hq := Nat.div_add_mod q nc
      have hp2 := Nat.mod_lt p hnc0
      have hq2 := Nat.mod_lt q hnc0
      have := flat_inj (c := nc + 1) (by split <;> omega) (by split <;> omega) hpq
      obtain ⟨t1, t2⟩ := this
      have t3 : p % nc = q % nc := by
        split at t2 <;> split at t2 <;> omega
      rw [← hp, ← hq, t1, t3]
  · intro x y hx hy
    have hy' : y < nc := by omega
    have hp : x * nc + y < (nr + 1) * nc :=
      off_lt (m := ⟨nr + 1, nc, m.data, []⟩) (by simp only; omega) hy'
    rw [get_reindex (m := m) _ _ _ (hget _ hp)]
    unfold get off
    rw [hφadd x y hy', hnc]
    have : x * nc + y + (if y < c then x else x + 1) = x * (nc + 1) + (if y < c then y else y + 1) := by
      rw [Nat.mul_add]; split <;> omega
    rw [this]

theorem transposeRows_spec {m : SparMat α} (hm : WF m) {perm : List Nat}
    (hp : perm.Perm (List.range m.rows)) :
    ∃ m', m.transposeRows perm = .ok m' ∧ WF m' ∧ m'.rows = m.rows ∧ m'.cols = m.cols ∧
      ∀ x y, x < m.rows → y < m.cols → m'.get x y = m.get (perm.getD x 0) y := by
  have hlen : perm.length = m.rows := by simpa using hp.length_eq
  have hmem : ∀ r ∈ perm, r < m.rows := fun r hr => by simpa using hp.mem_iff.1 hr
  have hnd : perm.Nodup := hp.nodup_iff.2 List.nodup_range
  unfold transposeRows
  rw [if_neg (by simpa using hlen), if_neg (by
    simp only [Bool.not_eq_true, List.any_eq_false]
    intro r hr; have := hmem r hr; simpa using this)]
  have hget : ∀ p, p < m.rows * m.cols →
      ((List.range (m.rows * m.cols)).map (fun p =>
      (m.indexes[m.off (perm.getD (p / m.cols) 0) (p % m.cols)]?).join))[p]? =
        some ((m.indexes[m.off (perm.getD (p / m.cols) 0) (p % m.cols)]?).join) := by
    intro p hp
    rw [List.getElem?_map, List.getElem?_range hp]; rfl
  refine ⟨_, rfl, ?_, rfl, rfl, ?_⟩
  · refine wf_reindex hm _ _ _ _ (by simp) hget ?_
    intro p q hp hq hpq
    by_cases hc0 : m.cols = 0
    · rw [hc0] at hp; omega
    have hc : 0 < m.cols := by omega
    have t := flat_inj (Nat.mod_lt p hc) (Nat.mod_lt q hc) hpq
    have hp1 : p / m.cols < perm.length := by
      rw [hlen]; exact (Nat.div_lt_iff_lt_mul hc).2 hp
    have hq1 : q / m.cols < perm.length := by
      rw [hlen]; exact (Nat.div_lt_iff_lt_mul hc).2 hq
    have t1 := t.1
    simp only [List.getD_eq_getElem?_getD, List.getElem?_eq_getElem hp1, List.getElem?_eq_getElem hq1,
      Option.getD_some] at t1
    have := (List.getElem_inj hnd).1 t1
    rw [← Nat.div_add_mod p m.cols, ← Nat.div_add_mod q m.cols, this, t.2]
  · intro x y hx hy
    rw [get_reindex (m := m) _ _ _ (hget _ (off_lt hx hy))]
    rw [flat_div hy, flat_mod hy]
    rfl

theorem transposeCols_spec {m : SparMat α} (hm : WF m) {perm : List Nat}
    (hp : perm.Perm (List.range m.cols)) :
    ∃ m', m.transposeCols perm = .ok m' ∧ WF m' ∧ m'.rows = m.rows ∧ m'.cols = m.cols ∧
      ∀ x y, x < m.rows → y < m.cols → m'.get x y = m.get x (perm.getD y 0) := by
  have hlen : perm.length = m.cols := by simpa using hp.length_eq
  have hmem : ∀ r ∈ perm, r < m.cols := fun r hr => by simpa using hp.mem_iff.1 hr
  have hnd : perm.Nodup := hp.nodup_iff.2 List.nodup_range
  unfold transposeCols
  rw [if_neg (by simpa using hlen), if_neg (by
    simp only [Bool.not_eq_true, List.any_eq_false]
    intro r hr; have := hmem r hr; simpa using this)]
  have hget : ∀ p, p < m.rows * m.cols →
      ((List.range (m.rows * m.cols)).map (fun p =>
      (m.indexes[m.off (p / m.cols) (perm.getD (p % m.cols) 0)]?).join))[p]? =
        some ((m.indexes[m.off (p / m.cols) (perm.getD (p % m.cols) 0)]?).join) := by
    intro p hp
    rw [List.getElem?_map, List.getElem?_range hp]; rfl
  have hpl : ∀ y, y < m.cols → perm.getD y 0 < m.cols := by
    intro y hy
    have h : y < perm.length := by omega
    rw [List.getD_eq_getElem?_getD, List.getElem?_eq_getElem h]
    exact hmem _ (List.getElem_mem h)
  refine ⟨_, rfl, ?_, rfl, rfl, ?_⟩
  · refine wf_reindex hm _ _ _ _ (by simp) hget ?_
    intro p q hp hq hpq
    by_cases hc0 : m.cols = 0
    · rw [hc0] at hp; omega
    have hc : 0 < m.cols := by omega
    have t := flat_inj (hpl _ (Nat.mod_lt p hc)) (hpl _ (Nat.mod_lt q hc)) hpq
    have hp1 : p % m.cols < perm.length := by rw [hlen]; exact Nat.mod_lt p hc
    have hq1 : q % m.cols < perm.length := by rw [hlen]; exact Nat.mod_lt q hc
    have t1 := t.2
    simp only [List.getD_eq_getElem?_getD, List.getElem?_eq_getElem hp1, List.getElem?_eq_getElem hq1,
      Option.getD_some] at t1
    have := (List.getElem_inj hnd).1 t1
    rw [← Nat.div_add_mod p m.cols, ← Nat.div_add_mod q m.cols, this, t.1]
  · intro x y hx hy
    rw [get_reindex (m := m) _ _ _ (hget _ (off_lt hx hy))]
    rw [flat_div hy, flat_mod hy]
    rfl

theorem swapAt_getElem? {β : Type} (l : List β) {i j : Nat} (hi : i < l.length) (hj : j < l.length) (p : Nat) :
    (swapAt l i j)[p]? = l[if p = i then j else if p = j then i else p]? := by
  unfold swapAt
  rw [List.getElem?_eq_getElem hi, List.getElem?_eq_getElem hj]
  simp only [List.getElem?_set]
  by_cases h1 : p = i
  · subst h1
    rw [if_pos rfl]
    by_cases h2 : j = p
    · subst h2; simp [hj]
    · simp [h2, hi, hj]
  · rw [if_neg h1]
    by_cases h2 : p = j
    · subst h2; simp [hi, hj]
    · simp [h2, Ne.symm h1, Ne.symm h2]

theorem swapAt_length {β : Type} (l : List β) (i j : Nat) : (swapAt l i j).length = l.length := by
  unfold swapAt
  split <;> simp

/-- A sequence of swaps at disjoint positions `f t`, `g t`. -/
theorem swapLoop {β : Type} (l : List β) (f g : Nat → Nat) (n : Nat)
    (hf : ∀ t, t < n → f t < l.length) (hg : ∀ t, t < n → g t < l.length)
    (hfi : ∀ t u, t < n → u < n → f t = f u → t = u) (hgi : ∀ t u, t < n → u < n → g t = g u → t = u)
    (hfg : ∀ t u, t < n → u < n → f t ≠ g u) :
    ((List.range n).foldl (fun l t => swapAt l (f t) (g t)) l).length = l.length ∧
    (∀ t, t < n → ((List.range n).foldl (fun l t => swapAt l (f t) (g t)) l)[f t]? = l[g t]?) ∧
    (∀ t, t < n → ((List.range n).foldl (fun l t => swapAt l (f t) (g t)) l)[g t]? = l[f t]?) ∧
    (∀ p, (∀ t, t < n → p ≠ f t ∧ p ≠ g t) →
      ((List.range n).foldl (fun l t => swapAt l (f t) (g t)) l)[p]? = l[p]?) := by
  induction n with
  | zero => exact ⟨rfl, by omega, by omega, fun _ _ => rfl⟩
  | succ n ih =>
    obtain ⟨h1, h2, h3, h4⟩ := ih (fun t ht => hf t (by omega)) (fun t ht => hg t (by omega))
      (fun t u ht hu => hfi t u (by omega) (by omega)) (fun t u ht hu => hgi t u (by omega) (by omega))
      (fun t u ht hu => hfg t u (by omega) (by omega))
    have hfn := hf n (by omega)
    have hgn := hg n (by omega)
    rw [List.range_succ, List.foldl_append]
    simp only [List.foldl_cons, List.foldl_nil]
    have sw := swapAt_getElem? ((List.range n).foldl (fun l t => swapAt l (f t) (g t)) l)
      (i := f n) (j := g n) (by omega) (by omega)
    have hnf : ((List.range n).foldl (fun l t => swapAt l (f t) (g t)) l)[f n]? = l[f n]? :=
      h4 _ (fun t ht => ⟨fun h => by have := hfi n t (by omega) (by omega) h; omega,
        hfg n t (by omega) (by omega)⟩)
    have hng : ((List.range n).foldl (fun l t => swapAt l (f t) (g t)) l)[g n]? = l[g n]? :=
      h4 _ (fun t ht => ⟨fun h => hfg t n (by omega) (by omega) h.symm,
        fun h => by have := hgi n t (by omega) (by omega) h; omega⟩)
    refine ⟨by rw [swapAt_length, h1], ?_, ?_, ?_⟩
    · intro t ht
      rw [sw]
      by_cases htn : t = n
      · subst htn; rw [if_pos rfl, hng]
      · rw [if_neg (fun h => htn (hfi t n ht (by omega) h)), if_neg (hfg t n ht (by omega)), h2 t (by omega)]
    · intro t ht
      rw [sw]
      by_cases htn : t = n
      · subst htn; rw [if_neg (fun h => hfg t t ht ht h.symm), if_pos rfl, hnf]
      · rw [if_neg (fun h => hfg n t (by omega) ht h.symm), if_neg (fun h => htn (hgi t n ht (by omega) h)),
          h3 t (by omega)]
    · intro p hp
      have := hp n (by omega)
      rw [sw, if_neg this.1, if_neg this.2, h4 p (fun t ht => hp t (by omega))]

/-- Exchange two indices. -/
def exch (a b x : Nat) : Nat := if x = a then b else if x = b then a else x

theorem wf_of_perm {m : SparMat α} (hm : WF m) (idx : List (Option Nat)) (φ : Nat → Nat)
    (hlen : idx.length = m.indexes.length)
    (hget : ∀ p, p < m.indexes.length → idx[p]? = m.indexes[φ p]? ∧ φ p < m.indexes.length)
    (hφ : ∀ p q, p < m.indexes.length → q < m.indexes.length → φ p = φ q → p = q) :
    WF ({ m with indexes := idx } : SparMat α) := by
  refine wf_reindex hm m.rows m.cols idx φ (by rw [hlen, hm.len]) ?_ ?_
  · intro p hp
    rw [← hm.len] at hp
    have := hget p hp
    rw [this.1, List.getElem?_eq_getElem this.2]; simp
  · intro p q hp hq
    rw [← hm.len] at hp hq
    exact hφ p q hp hq

theorem flat_decomp {p r c : Nat} (h : p < r * c) : ∃ x y, x < r ∧ y < c ∧ p = x * c + y := by
  have hc : 0 < c := by
    rcases Nat.eq_zero_or_pos c with h0 | h0
    · subst h0; omega
    · exact h0
  refine ⟨p / c, p % c, (Nat.div_lt_iff_lt_mul hc).2 h, Nat.mod_lt _ hc, ?_⟩
  rw [Nat.mul_comm, Nat.div_add_mod]

theorem exch_lt {a b n x : Nat} (ha : a < n) (hb : b < n) (hx : x < n) : exch a b x < n := by
  unfold exch; split <;> (try split) <;> omega

theorem exch_inj {a b x y : Nat} (h : exch a b x = exch a b y) : x = y := by
  unfold exch at h
  split at h <;> split at h <;> (try split at h) <;> (try split at h) <;> omega

theorem swapTwoRows_spec {m : SparMat α} (hm : WF m) {r1 r2 : Nat} (h1 : r1 < m.rows) (h2 : r2 < m.rows) :
    ∃ m', m.swapTwoRows r1 r2 = .ok m' ∧ WF m' ∧ m'.rows = m.rows ∧ m'.cols = m.cols ∧
      ∀ x y, x < m.rows → y < m.cols → m'.get x y = m.get (exch r1 r2 x) y := by
  unfold swapTwoRows
  rw [if_neg (by omega)]
  by_cases he : r1 = r2
  · rw [if_pos he]
    refine ⟨m, rfl, hm, rfl, rfl, ?_⟩
    intro x y _ _
    subst he
    unfold exch
    split
    · rename_i h; rw [h]
    · rfl
  · rw [if_neg he]
    obtain ⟨l1, l2, l3, l4⟩ := swapLoop m.indexes (fun y => m.off r1 y) (fun y => m.off r2 y) m.cols
      (fun t ht => by rw [hm.len]; exact off_lt h1 ht) (fun t ht => by rw [hm.len]; exact off_lt h2 ht)
      (fun t u ht hu h => (flat_inj ht hu h).2) (fun t u ht hu h => (flat_inj ht hu h).2)
      (fun t u ht hu h => he (flat_inj ht hu h).1)
    have key : ∀ x y, x < m.rows → y < m.cols →
        ((List.range m.cols).foldl (fun l y => swapAt l (m.off r1 y) (m.off r2 y)) m.indexes)[m.off x y]? =
          m.indexes[m.off (exch r1 r2 x) y]? := by
      intro x y hx hy
      unfold exch
      by_cases e1 : x = r1
      · subst e1; rw [if_pos rfl]; exact l2 y hy
      · rw [if_neg e1]
        by_cases e2 : x = r2
        · subst e2; rw [if_pos rfl]; exact l3 y hy
        · rw [if_neg e2]
          exact l4 _ (fun t ht => ⟨fun h => e1 (flat_inj hy ht h).1, fun h => e2 (flat_inj hy ht h).1⟩)
    refine ⟨_, rfl, ?_, rfl, rfl, ?_⟩
    · refine wf_of_perm hm _ (fun p => m.off (exch r1 r2 (p / m.cols)) (p % m.cols)) l1 ?_ ?_
      · intro p hp
        rw [hm.len] at hp
        obtain ⟨x, y, hx, hy, rfl⟩ := flat_decomp hp
        simp only [flat_div hy, flat_mod hy]
        exact ⟨key x y hx hy, by rw [hm.len]; exact off_lt (exch_lt h1 h2 hx) hy⟩
      · intro p q hp hq h
        rw [hm.len] at hp hq
        obtain ⟨x, y, hx, hy, rfl⟩ := flat_decomp hp
        obtain ⟨x', y', hx', hy', rfl⟩ := flat_decomp hq
        simp only [flat_div hy, flat_mod hy, flat_div hy', flat_mod hy'] at h
        have t := flat_inj hy hy' h
        rw [exch_inj t.1, t.2]
    · intro x y hx hy
      unfold get
      have := key x y hx hy
      unfold off at this ⊢
      simp only [this]

theorem swapTwoCols_spec {m : SparMat α} (hm : WF m) {r1 r2 : Nat} (h1 : r1 < m.cols) (h2 : r2 < m.cols) :
    ∃ m', m.swapTwoCols r1 r2 = .ok m' ∧ WF m' ∧ m'.rows = m.rows ∧ m'.cols = m.cols ∧
      ∀ x y, x < m.rows → y < m.cols → m'.get x y = m.get x (exch r1 r2 y) := by
  unfold swapTwoCols
  rw [if_neg (by omega)]
  by_cases he : r1 = r2
  · rw [if_pos he]
    refine ⟨m, rfl, hm, rfl, rfl, ?_⟩
    intro x y _ _
    subst he
    unfold exch
    split
    · rename_i h; rw [h]
    · rfl
  · rw [if_neg he]
    obtain ⟨l1, l2, l3, l4⟩ := swapLoop m.indexes (fun x => m.off x r1) (fun x => m.off x r2) m.rows
      (fun t ht => by rw [hm.len]; exact off_lt ht h1) (fun t ht => by rw [hm.len]; exact off_lt ht h2)
      (fun t u ht hu h => (flat_inj h1 h1 h).1) (fun t u ht hu h => (flat_inj h2 h2 h).1)
      (fun t u ht hu h => he (flat_inj h1 h2 h).2)
    have key : ∀ x y, x < m.rows → y < m.cols →
        ((List.range m.rows).foldl (fun l x => swapAt l (m.off x r1) (m.off x r2)) m.indexes)[m.off x y]? =
          m.indexes[m.off x (exch r1 r2 y)]? := by
      intro x y hx hy
      unfold exch
      by_cases e1 : y = r1
      · subst e1; rw [if_pos rfl]; exact l2 x hx
      · rw [if_neg e1]
        by_cases e2 : y = r2
        · subst e2; rw [if_pos rfl]; exact l3 x hx
        · rw [if_neg e2]
          exact l4 _ (fun t ht => ⟨fun h => e1 (flat_inj hy h1 h).2, fun h => e2 (flat_inj hy h2 h).2⟩)
    refine ⟨_, rfl, ?_, rfl, rfl, ?_⟩
    · refine wf_of_perm hm _ (fun p => m.off (p / m.cols) (exch r1 r2 (p % m.cols))) l1 ?_ ?_
      · intro p hp
        rw [hm.len] at hp
        obtain ⟨x, y, hx, hy, rfl⟩ := flat_decomp hp
        simp only [flat_div hy, flat_mod hy]
        exact ⟨key x y hx hy, by rw [hm.len]; exact off_lt hx (exch_lt h1 h2 hy)⟩
      · intro p q hp hq h
        rw [hm.len] at hp hq
        obtain ⟨x, y, hx, hy, rfl⟩ := flat_decomp hp
        obtain ⟨x', y', hx', hy', rfl⟩ := flat_decomp hq
        simp only [flat_div hy, flat_mod hy, flat_div hy', flat_mod hy'] at h
        have t := flat_inj (exch_lt h1 h2 hy) (exch_lt h1 h2 hy') h
        rw [exch_inj t.2, t.1]
    · intro x y hx hy
      unfold get
      have := key x y hx hy
      unfold off at this ⊢
      simp only [this]

end SparMat
end Verif.Mpo
