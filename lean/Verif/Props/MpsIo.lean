import Verif.Mps.MpsIo
import Verif.Mps.Inst
import Verif.Mps.Measure
import Verif.Props.Measure
/-
`MPS::Dump` and `MPS::Load`: C91.
-/
namespace Verif.Props
open Verif.Mps Verif.Disk

section
variable {σ K : Type} [CommRing K]

/-- The MPS of `n` sites just constructed into which the user then writes the tensors `ts` in order. -/
def writes (ts : List (Ten σ K)) : List (Mps.Call σ K) := ts.mapIdx fun i t => .write i t

/-- What a slot leaves in its file: the tensor, or a file that is none. -/
def slotFile : Option (Ten σ K) → File (Ten σ K)
  | some t => .whole t
  | Option.none => .junk

/-- What is in a slot after dumping it. -/
def slotAfter (rel : Bool) (s : Option (Ten σ K)) : Option (Ten σ K) := if rel then Option.none else some (s.getD noTen)

theorem dump_prefix (rel : Bool) (m : FMps σ K) (dir : MpsDir σ K) : ∀ k, k ≤ m.size →
    ∃ m' dir', (List.range k).foldlM (FMps.dumpTen rel) (m, dir) = .ok (m', dir') ∧ m'.flags = m.flags ∧ m'.center = m.center ∧
      m'.slots = (m.slots.take k).map (slotAfter rel) ++ m.slots.drop k ∧
      (∀ i s, i < k → m.slots[i]? = some s → dir' i = slotFile s) ∧ ∀ i, k ≤ i → dir' i = dir i
  | 0, _ => ⟨m, dir, rfl, rfl, rfl, by simp, by simp, fun _ _ => rfl⟩
  | k + 1, hk => by
    obtain ⟨m', dir', e, f, c, s, d1, d2⟩ := dump_prefix rel m dir k (by omega)
    have hk' : k < m.slots.length := hk
    have hs : m'.slots[k]? = some m.slots[k] := by
      rw [s, List.getElem?_append_right (by simp)]
      simp [Nat.min_eq_left (Nat.le_of_lt hk'), hk']
    have hset : ∀ x, m'.slots.set k x = (m.slots.take k).map (slotAfter rel) ++ x :: m.slots.drop (k + 1) := by
      intro x
      rw [s, List.set_append_right _ _ (by simp)]
      rw [show k - ((m.slots.take k).map (slotAfter rel)).length = 0 by simp [Nat.min_eq_left (Nat.le_of_lt hk')], List.drop_eq_getElem_cons hk']
      rfl
    have htake : (m.slots.take (k + 1)).map (slotAfter rel) = (m.slots.take k).map (slotAfter rel) ++ [slotAfter rel m.slots[k]] := by
      rw [List.take_add_one, List.map_append]; simp [hk']
    have step : FMps.dumpTen rel (m', dir') k =
        .ok ({ m' with slots := m'.slots.set k (slotAfter rel m.slots[k]) }, Function.update dir' k (slotFile m.slots[k])) := by
      unfold FMps.dumpTen
      rw [hs]
      cases m.slots[k] <;> rfl
    refine ⟨{ m' with slots := m'.slots.set k (slotAfter rel m.slots[k]) }, Function.update dir' k (slotFile m.slots[k]), ?_, f, c, ?_, ?_, ?_⟩
    · rw [List.range_succ, List.foldlM_append, e]
      show ([k].foldlM (FMps.dumpTen rel) (m', dir')) = _
      rw [List.foldlM_cons, step]; rfl
    · show m'.slots.set k _ = _
      rw [hset, htake]; simp
    · intro i x hi hx
      by_cases h : i = k
      · subst h
        rw [Function.update_self]
        rw [List.getElem?_eq_getElem hk'] at hx
        cases hx; rfl
      · rw [Function.update_of_ne h]; exact d1 i x (by omega) hx
    · intro i hi
      rw [Function.update_of_ne (by omega)]; exact d2 i (by omega)

/-- **C91.** `Dump(path, release)` of an MPS with a tensor in every slot: the file of every site holds that site's tensor, every other file is as before, the canonical flags and the centre are kept. Without
`release` the MPS in memory is as before; with it all its slots are empty. -/
theorem C91_dump (rel : Bool) {m : FMps σ K} {ts : List (Ten σ K)} (full : m.slots = ts.map some) (dir : MpsDir σ K) :
    ∃ m' dir', m.dump rel dir = .ok (m', dir') ∧ (∀ i t, ts[i]? = some t → dir' i = .whole t) ∧ (∀ i, ts.length ≤ i → dir' i = dir i) ∧
      m'.flags = m.flags ∧ m'.center = m.center ∧ m'.slots = if rel then List.replicate ts.length Option.none else ts.map some := by
  have hsz : m.size = ts.length := by simp [FMps.size, full]
  obtain ⟨m', dir', e, f, c, s, d1, d2⟩ := dump_prefix rel m dir m.size le_rfl
  refine ⟨m', dir', e, fun i t ht => ?_, fun i hi => d2 i (by omega), f, c, ?_⟩
  · exact d1 i (some t) (by rw [hsz]; exact (List.getElem?_eq_some_iff.mp ht).1) (by rw [full, List.getElem?_map, ht]; rfl)
  · rw [s, hsz, full, List.take_of_length_le (by simp), List.drop_of_length_le (by simp), List.append_nil, List.map_map]
    cases rel
    · exact List.map_congr_left fun t _ => rfl
    · exact List.map_const

/-- **C91.** The const `Dump` writes the same files if every slot holds a tensor; otherwise it dereferences a null pointer. -/
theorem C91_dump_const (m : FMps σ K) (dir : MpsDir σ K) :
    (∀ ts : List (Ten σ K), m.slots = ts.map some → ∃ dir', m.dumpConst dir = .ok dir' ∧ (∀ i t, ts[i]? = some t → dir' i = .whole t) ∧ ∀ i, ts.length ≤ i → dir' i = dir i) ∧
      (Option.none ∈ m.slots → m.dumpConst dir = .error .ub) := by
  have pre : ∀ k, k ≤ m.size → (∀ j, j < k → ∃ t, m.slots[j]? = some (some t)) →
      ∃ dir', (List.range k).foldlM m.dumpTenConst dir = .ok dir' ∧ (∀ i t, i < k → m.slots[i]? = some (some t) → dir' i = .whole t) ∧ ∀ i, k ≤ i → dir' i = dir i := by
    intro k
    induction k with
    | zero => exact fun _ _ => ⟨dir, rfl, by simp, fun _ _ => rfl⟩
    | succ k ih =>
      intro hk hf
      obtain ⟨dir', e, d1, d2⟩ := ih (by omega) fun j hj => hf j (by omega)
      obtain ⟨t, ht⟩ := hf k (by omega)
      refine ⟨Function.update dir' k (.whole t), ?_, ?_, ?_⟩
      · rw [List.range_succ, List.foldlM_append, e]
        show [k].foldlM m.dumpTenConst dir' = _
        rw [List.foldlM_cons, show m.dumpTenConst dir' k = .ok (Function.update dir' k (.whole t)) by unfold FMps.dumpTenConst; rw [ht]]; rfl
      · intro i x hi hx
        by_cases h : i = k
        · subst h
          rw [Function.update_self]
          rw [ht] at hx; cases hx; rfl
        · rw [Function.update_of_ne h]; exact d1 i x (by omega) hx
      · intro i hi
        rw [Function.update_of_ne (by omega)]; exact d2 i (by omega)
  constructor
  · intro ts full
    have hsz : m.size = ts.length := by simp [FMps.size, full]
    obtain ⟨dir', e, d1, d2⟩ := pre m.size le_rfl fun j hj => ⟨ts[j]'(by omega), by rw [full, List.getElem?_map, List.getElem?_eq_getElem (by omega)]; rfl⟩
    exact ⟨dir', e, fun i t ht => d1 i t (by rw [hsz]; exact (List.getElem?_eq_some_iff.mp ht).1) (by rw [full, List.getElem?_map, ht]; rfl), fun i hi => d2 i (by omega)⟩
  · intro hn
    classical
    obtain ⟨j, hj⟩ := List.mem_iff_getElem?.mp hn
    have hex : ∃ k, m.slots[k]? = some Option.none := ⟨j, hj⟩
    have h0 := Nat.find_spec hex
    have hmin := fun k => Nat.find_min hex (m := k)
    generalize Nat.find hex = k at h0 hmin
    have hk : k < m.size := (List.getElem?_eq_some_iff.mp h0).1
    obtain ⟨dir', e, -, -⟩ := pre k (by omega) fun i hi => by
      have := hmin i hi
      have hi' : i < m.slots.length := lt_trans hi hk
      rw [List.getElem?_eq_getElem hi'] at this ⊢
      cases hc : m.slots[i] with
      | none => rw [hc] at this; exact absurd rfl this
      | some t => exact ⟨t, rfl⟩
    unfold FMps.dumpConst
    obtain ⟨r, hr⟩ : ∃ r, List.range m.size = List.range k ++ k :: r := by
      refine ⟨(List.range (m.size - k - 1)).map (k + 1 + ·), ?_⟩
      rw [show m.size = k + (1 + (m.size - k - 1)) by omega, List.range_add, List.range_add]
      simp [List.map_map, Function.comp_def, add_assoc]
    rw [hr, List.foldlM_append, e]
    show (k :: r).foldlM m.dumpTenConst dir' = _
    rw [List.foldlM_cons, show m.dumpTenConst dir' k = .error .ub by unfold FMps.dumpTenConst; rw [h0]]; rfl

theorem load_prefix (m : FMps σ K) (dir : MpsDir σ K) : ∀ k, k ≤ m.size → (∀ i, i < k → ∃ t, dir i = .whole t) →
    ∃ ts : List (Ten σ K), ts.length = k ∧ (∀ i t, ts[i]? = some t → dir i = .whole t) ∧
      (List.range k).foldlM (FMps.loadFile dir) m = .ok { m with slots := ts.map some ++ m.slots.drop k }
  | 0, _, _ => ⟨[], rfl, by simp, by simp; rfl⟩
  | k + 1, hk, h => by
    obtain ⟨ts, l, d, e⟩ := load_prefix m dir k (by omega) fun i hi => h i (by omega)
    obtain ⟨t, ht⟩ := h k (by omega)
    have hk' : k < m.slots.length := hk
    refine ⟨ts ++ [t], by simp [l], ?_, ?_⟩
    · intro i x hx
      by_cases hi : i < k
      · rw [List.getElem?_append_left (by omega)] at hx; exact d i x hx
      · have : i < (ts ++ [t]).length := (List.getElem?_eq_some_iff.mp hx).1
        have hik : i = k := by simp [l] at this; omega
        subst hik
        rw [List.getElem?_append_right (by omega)] at hx
        simp [l] at hx
        subst hx; exact ht
    · rw [List.range_succ, List.foldlM_append, e]
      show [k].foldlM (FMps.loadFile dir) { m with slots := ts.map some ++ m.slots.drop k } = _
      rw [List.foldlM_cons]
      have : FMps.loadFile dir { m with slots := ts.map some ++ m.slots.drop k } k = .ok { m with slots := (ts ++ [t]).map some ++ m.slots.drop (k + 1) } := by
        unfold FMps.loadFile
        rw [ht]
        have hs : k < FMps.size { m with slots := ts.map some ++ m.slots.drop k } := by simp [FMps.size, l]; omega
        simp only [hs, if_true]
        rw [List.set_append_right _ _ (by simp [l]), show k - (ts.map some).length = 0 by simp [l], List.drop_eq_getElem_cons hk', List.map_append, List.append_assoc]
        rfl
      rw [this]; rfl

/-- **C91.** `Load(path)` when the file of every site holds a tensor: slot `i` holds the tensor of file `i`, whatever was in memory; flags and centre are those from before. -/
theorem C91_load (m : FMps σ K) {dir : MpsDir σ K} {ts : List (Ten σ K)} (hl : ts.length = m.size) (h : ∀ i t, ts[i]? = some t → dir i = .whole t) :
    m.loadDir dir = .ok ⟨ts.map some, m.flags, m.center⟩ := by
  obtain ⟨ts', l, d, e⟩ := load_prefix m dir m.size le_rfl fun i hi => ⟨ts[i]'(by omega), h i _ (List.getElem?_eq_getElem (by omega))⟩
  have : ts' = ts := by
    apply List.ext_getElem (by omega)
    intro i h1 h2
    have a := d i _ (List.getElem?_eq_getElem h1)
    have b := h i _ (List.getElem?_eq_getElem h2)
    rw [a] at b; exact (File.whole.inj b)
  subst this
  unfold FMps.loadDir
  rw [e, List.drop_of_length_le (by simp [FMps.size])]; simp

/-- **C91.** If the file of some site is missing or holds no tensor, `Load` throws. -/
theorem C91_load_throws (m : FMps σ K) {dir : MpsDir σ K} (h : ∃ i, i < m.size ∧ ∀ t, dir i ≠ .whole t) :
    m.loadDir dir = .error .noFile ∨ m.loadDir dir = .error .badFile := by
  classical
  have hs := Nat.find_spec h
  have hmin := fun k => Nat.find_min h (m := k)
  generalize Nat.find h = k at hs hmin
  obtain ⟨hk, hw⟩ := hs
  obtain ⟨ts, l, d, e⟩ := load_prefix m dir k (by omega) fun i hi => by
    by_contra hc
    exact hmin i hi ⟨by omega, fun t ht => hc ⟨t, ht⟩⟩
  obtain ⟨r, hr⟩ : ∃ r, List.range m.size = List.range k ++ k :: r := by
    refine ⟨(List.range (m.size - k - 1)).map (k + 1 + ·), ?_⟩
    rw [show m.size = k + (1 + (m.size - k - 1)) by omega, List.range_add, List.range_add]
    simp [List.map_map, Function.comp_def, add_assoc]
  unfold FMps.loadDir
  rw [hr, List.foldlM_append, e]
  show (k :: r).foldlM (FMps.loadFile dir) { m with slots := ts.map some ++ m.slots.drop k } = _ ∨ (k :: r).foldlM (FMps.loadFile dir) { m with slots := ts.map some ++ m.slots.drop k } = _
  rw [List.foldlM_cons]
  unfold FMps.loadFile
  cases hd : dir k with
  | gone => exact .inl rfl
  | junk => exact .inr rfl
  | whole t => exact absurd hd (hw t)

theorem writes_prefix (qr svd : Ten σ K → Ten σ K × Mat K) : ∀ (ts : List (Ten σ K)) (n : Nat), ts.length ≤ n →
    FMps.history qr svd n (writes ts) = .ok ⟨ts.map some ++ List.replicate (n - ts.length) Option.none, List.replicate n .none, -1⟩ := by
  intro ts
  induction ts using List.reverseRecOn with
  | nil => intro n _; simp [writes, FMps.history, FMps.fresh]; rfl
  | append_singleton ts t ih =>
    intro n hn
    simp at hn
    have e := ih n (by omega)
    unfold FMps.history at e ⊢
    rw [show writes (ts ++ [t]) = writes ts ++ [.write ts.length t] by simp [writes, List.mapIdx_append]]
    rw [List.foldlM_append, e]
    show [Mps.Call.write ts.length t].foldlM (FMps.call qr svd) _ = _
    rw [List.foldlM_cons]
    have : FMps.call qr svd ⟨ts.map some ++ List.replicate (n - ts.length) Option.none, List.replicate n .none, -1⟩ (.write ts.length t) =
        .ok ⟨(ts ++ [t]).map some ++ List.replicate (n - (ts ++ [t]).length) Option.none, List.replicate n .none, -1⟩ := by
      show FMps.write _ _ _ = _
      unfold FMps.write
      rw [if_pos (by simp [FMps.size]; omega)]
      simp only [Except.ok.injEq, FMps.mk.injEq, and_true]
      constructor
      · rw [List.set_append_right _ _ (by simp), show n - ts.length = (n - (ts ++ [t]).length) + 1 by simp; omega, List.replicate_succ]
        simp
      · simp
    rw [this]; rfl

/-- **C91.** `Dump` and then `Load` into an MPS just constructed: the object is exactly the one the user would have got by writing the tensors one by one. All that is proved of histories of calls without
`LoadTen` (canonical forms C14/C15, measurements C50/C51/C90, …) therefore applies to it. -/
theorem C91_round_trip (qr svd : Ten σ K → Ten σ K × Mat K) (rel : Bool) {m : FMps σ K} {ts : List (Ten σ K)} (full : m.slots = ts.map some) (dir : MpsDir σ K) :
    ∃ m' dir' r, m.dump rel dir = .ok (m', dir') ∧ (FMps.fresh ts.length).loadDir dir' = .ok r ∧ r.slots = ts.map some ∧
      FMps.history qr svd ts.length (writes ts) = .ok r ∧ ∀ c ∈ writes ts, ∀ i u, c ≠ .load i u := by
  obtain ⟨m', dir', e, d, -⟩ := C91_dump rel full dir
  refine ⟨m', dir', ⟨ts.map some, List.replicate ts.length .none, -1⟩, e, ?_, rfl, ?_, ?_⟩
  · rw [C91_load (FMps.fresh ts.length) (ts := ts) (by simp [FMps.fresh, FMps.size]) d]; rfl
  · rw [writes_prefix qr svd ts ts.length le_rfl]; simp
  · intro c hc i u
    simp only [writes, List.mem_mapIdx] at hc
    obtain ⟨j, hj, rfl⟩ := hc
    simp

/-- **C91.** `Dump(path, true)` and then `Load(path)` on the same object gives back exactly the same object: tensors, flags and centre. -/
theorem C91_swap_out {m : FMps σ K} {ts : List (Ten σ K)} (full : m.slots = ts.map some) (dir : MpsDir σ K) :
    ∃ m' dir', m.dump true dir = .ok (m', dir') ∧ m'.loadDir dir' = .ok m := by
  obtain ⟨m', dir', e, d, -, f, c, s⟩ := C91_dump true full dir
  refine ⟨m', dir', e, ?_⟩
  rw [C91_load m' (ts := ts) (by simp [FMps.size, s]) d, f, c, ← full]

/-- The tensors `ts` loaded in order. -/
def loads (ts : List (Ten σ K)) : List (Mps.Call σ K) := ts.mapIdx fun i t => .load i t

theorem loads_prefix (qr svd : Ten σ K → Ten σ K × Mat K) (m : FMps σ K) : ∀ ts : List (Ten σ K), ts.length ≤ m.size →
    (loads ts).foldlM (FMps.call qr svd) m = .ok { m with slots := ts.map some ++ m.slots.drop ts.length } := by
  intro ts
  induction ts using List.reverseRecOn with
  | nil => intro _; simp [loads]; rfl
  | append_singleton ts t ih =>
    intro hn
    simp at hn
    rw [show loads (ts ++ [t]) = loads ts ++ [.load ts.length t] by simp [loads, List.mapIdx_append], List.foldlM_append, ih (by omega)]
    show [Mps.Call.load ts.length t].foldlM (FMps.call qr svd) { m with slots := ts.map some ++ m.slots.drop ts.length } = _
    rw [List.foldlM_cons]
    have hk' : ts.length < m.slots.length := hn
    have : FMps.call qr svd { m with slots := ts.map some ++ m.slots.drop ts.length } (.load ts.length t) =
        .ok { m with slots := (ts ++ [t]).map some ++ m.slots.drop (ts ++ [t]).length } := by
      show FMps.load _ _ _ = _
      unfold FMps.load
      rw [if_pos (by simp [FMps.size]; omega)]
      rw [List.set_append_right _ _ (by simp), show ts.length - (ts.map some).length = 0 by simp, List.drop_eq_getElem_cons hk', List.map_append, List.append_assoc,
        show (ts ++ [t]).length = ts.length + 1 by simp]
      rfl
    rw [this]; rfl

/-- **C91.** `Load` into an MPS that was used before, in any state: if its flags are true of the tensors in the files, then no flag is stale, and measurements (C50, C51, C90) of the loaded MPS
return values in the loaded state. -/
theorem C91_reload [StarRing K] [Fintype σ] {qr svd : Ten σ K → Ten σ K × Mat K} {n : Nat} {cs : List (Mps.Call σ K)} {m : FMps σ K} (hist : FMps.history qr svd n cs = .ok m) {dir : MpsDir σ K} {ts : List (Ten σ K)}
    (hl : ts.length = n) (h : ∀ i t, ts[i]? = some t → dir i = .whole t)
    (fit : ∀ (i : Nat) (t : Ten σ K), ts[i]? = some t → (m.flags[i]? = some .left → LeftIso t) ∧ (m.flags[i]? = some .right → RightIso t)) :
    ∃ r, m.loadDir dir = .ok r ∧ r.slots = ts.map some ∧ FMps.history qr svd n (cs ++ loads ts) = .ok r ∧ NoStale (cs ++ loads ts) r := by
  have hs : m.size = n := (history_inv hist).2
  refine ⟨⟨ts.map some, m.flags, m.center⟩, C91_load m (by omega) h, rfl, ?_, .inr fun i t ht => fit i t ?_⟩
  · unfold FMps.history at hist ⊢
    rw [List.foldlM_append, hist]
    show (loads ts).foldlM (FMps.call qr svd) m = _
    rw [loads_prefix qr svd m ts (by omega), List.drop_of_length_le (by show m.size ≤ _; omega), List.append_nil]
  · have ht : (ts.map some)[i]? = some (some t) := ht
    rw [List.getElem?_map] at ht
    cases hc : ts[i]? with
    | none => rw [hc] at ht; cases ht
    | some u => rw [hc] at ht; cases ht; rfl

/-- **C91.** A slot that is empty when `Dump` is called leaves a file that no later `Load` accepts. -/
theorem C91_empty_slot (rel : Bool) {m : FMps σ K} (he : Option.none ∈ m.slots) (dir : MpsDir σ K) {n : Nat} (hn : n = m.size) :
    ∃ m' dir', m.dump rel dir = .ok (m', dir') ∧ ((FMps.fresh n : FMps σ K).loadDir dir' = .error .noFile ∨ (FMps.fresh n : FMps σ K).loadDir dir' = .error .badFile) := by
  subst hn
  obtain ⟨m', dir', e, -, -, -, d, -⟩ := dump_prefix rel m dir m.size le_rfl
  obtain ⟨j, hj⟩ := List.mem_iff_getElem?.mp he
  have hj' : j < m.size := (List.getElem?_eq_some_iff.mp hj).1
  refine ⟨m', dir', e, C91_load_throws _ ⟨j, by simpa [FMps.fresh, FMps.size] using hj', fun t => ?_⟩⟩
  rw [d j _ hj' hj]; simp [slotFile]

/-- **C91** (crash points). If the process dies during `Dump` into a directory that held another MPS `old` of the same length, after `k` files: if a file is cut short then every later `Load` throws, but
if the process dies between two files then `Load` succeeds and gives the first `k` tensors of the new MPS and the others of the old one. -/
theorem C91_crash {m : FMps σ K} {ts old : List (Ten σ K)} (full : m.slots = ts.map some) (hl : old.length = ts.length) {dir : MpsDir σ K}
    (hd : ∀ i t, old[i]? = some t → dir i = .whole t) {k : Nat} (hk : k < ts.length) :
    (∃ dir', m.dumpCrash dir k true = .ok dir' ∧ ((FMps.fresh ts.length : FMps σ K).loadDir dir' = .error .noFile ∨ (FMps.fresh ts.length : FMps σ K).loadDir dir' = .error .badFile)) ∧
    ∃ dir', m.dumpCrash dir k false = .ok dir' ∧ (FMps.fresh ts.length : FMps σ K).loadDir dir' = .ok ⟨(ts.take k ++ old.drop k).map some, List.replicate ts.length .none, -1⟩ := by
  have hsz : m.size = ts.length := by simp [FMps.size, full]
  obtain ⟨m', dir', e, -, -, -, d1, d2⟩ := dump_prefix false m dir k (by omega)
  constructor
  · refine ⟨Function.update dir' k .junk, ?_, C91_load_throws _ ⟨k, by simpa [FMps.fresh, FMps.size] using hk, fun t => by rw [Function.update_self]; simp⟩⟩
    unfold FMps.dumpCrash; rw [e]; rfl
  · refine ⟨dir', by unfold FMps.dumpCrash; rw [e]; rfl, ?_⟩
    rw [C91_load (FMps.fresh ts.length) (ts := ts.take k ++ old.drop k) (by simp [FMps.fresh, FMps.size]; omega)]
    · rfl
    · intro i t ht
      by_cases hi : i < k
      · rw [List.getElem?_append_left (by simp; omega), List.getElem?_take_of_lt hi] at ht
        exact d1 i (some t) hi (by rw [full, List.getElem?_map, ht]; rfl)
      · rw [List.getElem?_append_right (by simp; omega)] at ht
        simp [Nat.min_eq_left (le_of_lt hk)] at ht
        rw [d2 i (by omega)]
        exact hd i t (by rw [← ht]; congr 1; omega)
end

/-- Tensors of a two-site state of norm 2, not canonical. -/
def ioA : Ten Bool Int := ⟨1, 2, fun s _ b => if (s = false ↔ b = 0) then 1 else 0⟩
def ioB : Ten Bool Int := ⟨2, 1, fun s a _ => if (s = false ↔ a = 0) then 1 else 0⟩

/-- The hypotheses of the round trip hold for a state in mixed canonical form. -/
example : ∃ m' dir' r, (⟨[some ioA, some ioB], [.left, .none], 1⟩ : FMps Bool Int).dump true (fun _ => .gone) = .ok (m', dir') ∧
    (FMps.fresh 2).loadDir dir' = .ok r ∧ r.slots = [some ioA, some ioB] ∧ r.flags = [.none, .none] ∧ r.center = -1 := by
  obtain ⟨m', dir', r, e1, e2, e3, e4, -⟩ := C91_round_trip qr0 svd0 true (m := ⟨[some ioA, some ioB], [.left, .none], 1⟩) (ts := [ioA, ioB]) rfl (fun _ => .gone)
  refine ⟨m', dir', r, e1, e2, e3, ?_⟩
  have : FMps.history qr0 svd0 2 (writes [ioA, ioB]) = .ok ⟨[some ioA, some ioB], [.none, .none], -1⟩ := rfl
  rw [show [ioA, ioB].length = 2 from rfl, this] at e4; cases e4; exact ⟨rfl, rfl⟩

/-- The three times larger second tensor of the state whose files are loaded. -/
def ioC : Ten Bool Int := ⟨2, 1, fun s a _ => if (s = false ↔ a = 0) then 3 else 0⟩

/-- **C91 violated by `Load` into an MPS that was used before.** An MPS is centralised at site 0, then the files of another state are loaded into it. The old flags and centre are kept, so
`MeasureOneSiteOp` does not bring the loaded tensors into canonical form: for the identity it returns 2 at site 0 although the loaded state has `⟨Ψ|Ψ⟩ = 18`; the same files loaded into an MPS
just constructed give 18. -/
theorem C91_reload_violation :
    ∃ m r r' : FMps Bool Int, FMps.history qr0 svd0 2 [.write 0 ioA, .write 1 ioB, .centralize 0] = .ok m ∧
      ∃ dir : MpsDir Bool Int, (∀ i t, [ioA, ioC][i]? = some t → dir i = .whole t) ∧
      m.loadDir dir = .ok r ∧ r.slots = [some ioA, some ioC] ∧ (FMps.fresh 2).loadDir dir = .ok r' ∧ r'.slots = [some ioA, some ioC] ∧
      (measureOneSite qr0 svd0 r [fun x y => if x = y then 1 else 0]).toOption.map (·.2) = some [[2], [18]] ∧
      (measureOneSite qr0 svd0 r' [fun x y => if x = y then 1 else 0]).toOption.map (·.2) = some [[18], [18]] := by
  obtain ⟨m, hm⟩ : ∃ m, FMps.history qr0 svd0 2 [.write 0 ioA, .write 1 ioB, .centralize 0] = .ok m := ⟨_, rfl⟩
  have hf : m.flags = [.none, .right] ∧ m.center = 0 ∧ m.size = 2 := by
    cases hm; decide +kernel
  let dir : MpsDir Bool Int := fun i => if i = 0 then .whole ioA else .whole ioC
  have hd : ∀ i t, [ioA, ioC][i]? = some t → dir i = .whole t := by
    intro i t h
    match i with
    | 0 => cases h; rfl
    | 1 => cases h; rfl
    | i + 2 => simp at h
  refine ⟨m, ⟨[some ioA, some ioC], [.none, .right], 0⟩, ⟨[some ioA, some ioC], [.none, .none], -1⟩, hm, dir, hd, ?_, rfl, ?_, rfl, ?_, ?_⟩
  · rw [C91_load m (ts := [ioA, ioC]) hf.2.2.symm hd, hf.1, hf.2.1]; rfl
  · rw [C91_load (FMps.fresh 2) (ts := [ioA, ioC]) rfl hd]; rfl
  · decide +kernel
  · decide +kernel

end Verif.Props
