import Verif.Mps.Duo
/-
Helper lemmas for the ownership model of `DuoVector`.
-/
namespace Verif.Duo
variable {V : Type}

theorem vals_some {s : St V} {c : Nat} {M : List (Option V)} (h : s.vals c = some M) :
    ∃ l, s.vecs c = some l ∧ M = l.map (fun p => p.bind s.heap.live) := by
  unfold St.vals at h
  cases e : s.vecs c with
  | none => simp [e] at h
  | some l => simp [e] at h; exact ⟨l, rfl, h.symm⟩

theorem vals_none {s : St V} {c : Nat} : s.vals c = none ↔ s.vecs c = none := by
  unfold St.vals; simp

/-- Two states with the same heap contents on the pointers of each container have the same values. -/
theorem vals_update {s s' : St V} {c : Nat} {M : List (Option V)} {l : List (Option Nat)}
    (hv : s'.vecs = Function.update s.vecs c (some l)) (hl : l.map (fun p => p.bind s'.heap.live) = M)
    (ho : ∀ d m, d ≠ c → s.vecs d = some m → ∀ p ∈ m, p.bind s'.heap.live = p.bind s.heap.live) :
    s'.vals = Function.update s.vals c (some M) := by
  funext d
  by_cases hd : d = c
  · subst hd; simp [St.vals, hv, hl]
  · simp only [St.vals, hv, Function.update_of_ne hd]
    cases e : s.vecs d with
    | none => rfl
    | some m =>
      simp only [Option.map_some, Option.some.injEq]
      exact List.map_congr_left (ho d m hd e)

theorem owns_of_mem {s : St V} {d a : Nat} {m : List (Option Nat)} (e : s.vecs d = some m) (h : some a ∈ m) :
    ∃ i, s.Owns d i a := by
  obtain ⟨i, hi⟩ := List.mem_iff_getElem?.mp h
  exact ⟨i, m, e, hi⟩

theorem Inv.live_slot {s : St V} (h : Inv s) {c i : Nat} {l : List (Option Nat)} {a : Nat} (e : s.vecs c = some l)
    (hi : l[i]? = some (some a)) : ∃ v, s.heap.live a = some v :=
  Option.isSome_iff_exists.mp (h.live c i a ⟨l, e, hi⟩)

/-- A null value under the invariant is a null pointer. -/
theorem Inv.null_slot {s : St V} (h : Inv s) {c i : Nat} {l : List (Option Nat)} (e : s.vecs c = some l)
    (hi : (l.map (fun p => p.bind s.heap.live))[i]? = some none) : l[i]? = some none := by
  rw [List.getElem?_map] at hi
  cases e' : l[i]? with
  | none => simp [e'] at hi
  | some p =>
    cases p with
    | none => rfl
    | some a =>
      obtain ⟨v, hv⟩ := h.live_slot e e'
      simp [e', hv] at hi

/-- Storing a fresh object in a null slot. -/
theorem putNew {s : St V} (h : Inv s) {c i : Nat} {l : List (Option Nat)} (v : V) (e : s.vecs c = some l)
    (hi : l[i]? = some none) :
    let s' : St V := ⟨(s.heap.new v).1, Function.update s.vecs c (some (l.set i (some (s.heap.new v).2)))⟩
    Inv s' ∧ s'.vals = Function.update s.vals c
      (some ((l.map (fun p => p.bind s.heap.live)).set i (some v))) := by
  intro s'
  have hil : i < l.length := (List.getElem?_eq_some_iff.mp hi).1
  have hdead : s.heap.live s.heap.next = none := by
    cases e' : s.heap.live s.heap.next with
    | none => rfl
    | some v => exact absurd (h.fresh s.heap.next (by rw [e']; rfl)) (Nat.lt_irrefl _)
  have hlive : ∀ a, s'.heap.live a = if a = s.heap.next then some v else s.heap.live a := by
    intro a; simp [s', Heap.new, Function.update_apply]
  have hown : ∀ d j a, s'.Owns d j a ↔ (d = c ∧ j = i ∧ a = s.heap.next) ∨ s.Owns d j a := by
    intro d j a
    constructor
    · rintro ⟨m, hm, hj⟩
      by_cases hd : d = c
      · subst hd
        simp only [s', Function.update_self, Option.some.injEq] at hm
        subst hm
        by_cases hji : j = i
        · subst hji
          rw [List.getElem?_set_self hil] at hj
          left; simp only [Option.some.injEq, Heap.new] at hj; exact ⟨rfl, rfl, hj.symm⟩
        · rw [List.getElem?_set_ne (by omega)] at hj
          exact .inr ⟨l, e, hj⟩
      · simp only [s', Function.update_of_ne hd] at hm
        exact .inr ⟨m, hm, hj⟩
    · rintro (⟨rfl, rfl, rfl⟩ | ⟨m, hm, hj⟩)
      · exact ⟨_, Function.update_self .., by rw [List.getElem?_set_self hil]; rfl⟩
      · by_cases hd : d = c
        · subst hd
          have : m = l := by rw [hm] at e; exact Option.some.inj e
          subst this
          refine ⟨_, Function.update_self .., ?_⟩
          rw [List.getElem?_set_ne]
          · exact hj
          · rintro rfl; rw [hj] at hi; simp at hi
        · exact ⟨m, by simp [s', Function.update_of_ne hd, hm], hj⟩
  have hnotown : ∀ d j, ¬ s.Owns d j s.heap.next := by
    intro d j ho; have := h.live _ _ _ ho; simp [hdead] at this
  refine ⟨⟨?_, ?_, ?_, ?_, h.nodup, ?_⟩, ?_⟩
  · intro d j a ho
    rw [hlive]
    rcases (hown d j a).mp ho with ⟨-, -, rfl⟩ | ho
    · simp
    · split
      · simp
      · exact h.live _ _ _ ho
  · intro d j d' j' a h1 h2
    rcases (hown _ _ _).mp h1 with ⟨rfl, rfl, rfl⟩ | h1' <;> rcases (hown _ _ _).mp h2 with ⟨rfl, rfl, h3⟩ | h2'
    · exact ⟨rfl, rfl⟩
    · exact absurd h2' (hnotown _ _)
    · subst h3; exact absurd h1' (hnotown _ _)
    · exact h.uniq _ _ _ _ _ h1' h2'
  · intro a ha
    rw [hlive] at ha
    by_cases hae : a = s.heap.next
    · exact ⟨c, i, (hown _ _ _).mpr (.inl ⟨rfl, rfl, hae⟩)⟩
    · rw [if_neg hae] at ha
      obtain ⟨d, j, ho⟩ := h.owned a ha
      exact ⟨d, j, (hown _ _ _).mpr (.inr ho)⟩
  · intro a ha
    rw [hlive] at ha
    show a < s.heap.next + 1
    split at ha
    · omega
    · have := h.fresh a ha; omega
  · intro a
    show a ∈ s.heap.freed ↔ a < s.heap.next + 1 ∧ s'.heap.live a = none
    rw [h.freed, hlive]
    by_cases hae : a = s.heap.next
    · simp [hae]
    · simp only [if_neg hae]; constructor <;> rintro ⟨h1, h2⟩ <;> exact ⟨by omega, h2⟩
  · refine vals_update rfl ?_ ?_
    · rw [List.map_set]
      have : ((some (s.heap.new v).2).bind s'.heap.live) = some v := by
        simp [Heap.new, hlive]
      rw [this]
      congr 1
      apply List.map_congr_left
      intro p hp
      cases p with
      | none => rfl
      | some a =>
        simp only [Option.bind_some, hlive]
        rw [if_neg]; rintro rfl
        obtain ⟨j, hj⟩ := owns_of_mem e hp
        exact hnotown _ _ hj
    · intro d m hd hm p hp
      cases p with
      | none => rfl
      | some a =>
        simp only [Option.bind_some, hlive]
        rw [if_neg]; rintro rfl
        obtain ⟨j, hj⟩ := owns_of_mem hm hp
        exact hnotown _ _ hj

theorem nodup_addrs : ∀ (l : List (Option Nat)),
    (∀ (i j a : Nat), l[i]? = some (some a) → l[j]? = some (some a) → i = j) → (l.filterMap id).Nodup
  | [], _ => by simp
  | none :: l, h => by
    simp only [List.filterMap_cons, id]
    exact nodup_addrs l fun i j a hi hj => by have := h (i + 1) (j + 1) a hi hj; omega
  | some a :: l, h => by
    simp only [List.filterMap_cons, id, List.nodup_cons]
    refine ⟨fun hm => ?_, nodup_addrs l fun i j a hi hj => by have := h (i + 1) (j + 1) a hi hj; omega⟩
    obtain ⟨p, hp, hpa⟩ := List.mem_filterMap.mp hm
    obtain ⟨i, hi⟩ := List.mem_iff_getElem?.mp hp
    change p = some a at hpa; subst hpa
    have := h 0 (i + 1) a rfl hi
    omega

theorem deleteAll_ok : ∀ (l : List (Option Nat)) (h : Heap V), (∀ a, some a ∈ l → (h.live a).isSome) →
    (l.filterMap id).Nodup →
    ∃ h', h.deleteAll l = .ok h' ∧ h'.next = h.next ∧
      (∀ a, h'.live a = if some a ∈ l then none else h.live a) ∧ h'.freed = (l.filterMap id).reverse ++ h.freed
  | [], h, _, _ => ⟨h, rfl, rfl, fun a => by simp, by simp⟩
  | none :: l, h, hl, hn => by
    obtain ⟨h', e, n, lv, f⟩ := deleteAll_ok l h (fun a ha => hl a (by simp [ha])) (by simpa using hn)
    exact ⟨h', e, n, fun a => by rw [lv]; simp, by simpa using f⟩
  | some b :: l, h, hl, hn => by
    simp only [List.filterMap_cons, id, List.nodup_cons] at hn
    obtain ⟨v, hv⟩ := Option.isSome_iff_exists.mp (hl b (by simp))
    have hb : some b ∉ l := fun hb => hn.1 (List.mem_filterMap.mpr ⟨_, hb, rfl⟩)
    obtain ⟨h', e, n, lv, f⟩ := deleteAll_ok l (⟨h.next, Function.update h.live b none, b :: h.freed⟩ : Heap V)
      (fun a ha => by
        have : a ≠ b := by rintro rfl; exact hb ha
        simp only [Function.update_of_ne this]; exact hl a (by simp [ha])) hn.2
    refine ⟨h', ?_, n, fun a => ?_, ?_⟩
    · show (h.delete b >>= fun h => h.deleteAll l) = _
      have : h.delete b = .ok ⟨h.next, Function.update h.live b none, b :: h.freed⟩ := by
        unfold Heap.delete; rw [hv]
      rw [this]; exact e
    · rw [lv]
      by_cases hab : a = b
      · subst hab; simp
      · simp [hab, Function.update_of_ne hab]
    · rw [f]; simp

/-- Deleting everything a container owns and then dropping its pointers (`x` holds none). -/
theorem dropAll {s : St V} (h : Inv s) {c : Nat} {l : List (Option Nat)} (e : s.vecs c = some l) :
    ∃ h', s.heap.deleteAll l = .ok h' ∧ ∀ x : Option (List (Option Nat)), (∀ m, x = some m → ∀ p ∈ m, p = none) →
      Inv (⟨h', Function.update s.vecs c x⟩ : St V) ∧
      (⟨h', Function.update s.vecs c x⟩ : St V).vals =
        Function.update s.vals c (x.map (List.map (fun _ => none))) := by
  obtain ⟨h', e', n, lv, f⟩ := deleteAll_ok l s.heap
    (fun a ha => by obtain ⟨i, hi⟩ := owns_of_mem e ha; exact h.live _ _ _ hi)
    (nodup_addrs l fun i j a hi hj => (h.uniq c i c j a ⟨l, e, hi⟩ ⟨l, e, hj⟩).2)
  refine ⟨h', e', fun x hx => ?_⟩
  have hown : ∀ d j a, (⟨h', Function.update s.vecs c x⟩ : St V).Owns d j a ↔ d ≠ c ∧ s.Owns d j a := by
    intro d j a
    constructor
    · rintro ⟨m, hm, hj⟩
      by_cases hd : d = c
      · subst hd
        simp only [Function.update_self] at hm
        have := hx m hm _ (List.mem_of_getElem? hj)
        simp at this
      · simp only [Function.update_of_ne hd] at hm
        exact ⟨hd, m, hm, hj⟩
    · rintro ⟨hd, m, hm, hj⟩
      exact ⟨m, by simp [Function.update_of_ne hd, hm], hj⟩
  have hnot : ∀ d j a, d ≠ c → s.Owns d j a → some a ∉ l := by
    intro d j a hd ho ha
    obtain ⟨i, hi⟩ := owns_of_mem e ha
    exact hd (h.uniq _ _ _ _ _ ho hi).1
  refine ⟨⟨?_, ?_, ?_, ?_, ?_, ?_⟩, ?_⟩
  · intro d j a ho
    obtain ⟨hd, ho⟩ := (hown _ _ _).mp ho
    show (h'.live a).isSome
    rw [lv, if_neg (hnot _ _ _ hd ho)]; exact h.live _ _ _ ho
  · intro d j d' j' a h1 h2
    exact h.uniq _ _ _ _ _ ((hown _ _ _).mp h1).2 ((hown _ _ _).mp h2).2
  · intro a ha
    change (h'.live a).isSome at ha
    rw [lv] at ha
    split at ha
    · simp at ha
    · rename_i hal
      obtain ⟨d, j, ho⟩ := h.owned a ha
      refine ⟨d, j, (hown _ _ _).mpr ⟨?_, ho⟩⟩
      rintro rfl
      obtain ⟨m, hm, hj⟩ := ho
      rw [e] at hm; cases hm
      exact hal (List.mem_of_getElem? hj)
  · intro a ha
    change (h'.live a).isSome at ha
    rw [lv] at ha
    show a < h'.next
    rw [n]
    split at ha
    · simp at ha
    · exact h.fresh a ha
  · show h'.freed.Nodup
    rw [f, List.nodup_append]
    refine ⟨List.nodup_reverse.mpr (nodup_addrs l fun i j a hi hj => (h.uniq c i c j a ⟨l, e, hi⟩ ⟨l, e, hj⟩).2),
      h.nodup, ?_⟩
    intro a ha b hb
    rintro rfl
    rw [List.mem_reverse, List.mem_filterMap] at ha
    obtain ⟨p, hp, hpa⟩ := ha
    simp only [id] at hpa; subst hpa
    obtain ⟨i, hi⟩ := owns_of_mem e hp
    have := h.live _ _ _ hi
    rw [((h.freed a).mp hb).2] at this; simp at this
  · intro a
    show a ∈ h'.freed ↔ a < h'.next ∧ h'.live a = none
    rw [f, n, lv, List.mem_append, List.mem_reverse, List.mem_filterMap, h.freed]
    constructor
    · rintro (⟨p, hp, hpa⟩ | ⟨h1, h2⟩)
      · simp only [id] at hpa; subst hpa
        obtain ⟨i, hi⟩ := owns_of_mem e hp
        exact ⟨h.fresh a (h.live _ _ _ hi), by simp [hp]⟩
      · exact ⟨h1, by simp [h2]⟩
    · rintro ⟨h1, h2⟩
      split at h2
      · rename_i hal; exact .inl ⟨_, hal, rfl⟩
      · exact .inr ⟨h1, h2⟩
  · funext d
    by_cases hd : d = c
    · subst hd
      simp only [St.vals, Function.update_self]
      cases x with
      | none => rfl
      | some m =>
        simp only [Option.map_some, Option.some.injEq]
        apply List.map_congr_left
        intro p hp; rw [hx m rfl p hp]; rfl
    · simp only [St.vals, Function.update_of_ne hd]
      cases e2 : s.vecs d with
      | none => rfl
      | some m =>
        simp only [Option.map_some, Option.some.injEq]
        apply List.map_congr_left
        intro p hp
        cases p with
        | none => rfl
        | some a =>
          obtain ⟨i, hi⟩ := owns_of_mem e2 hp
          simp only [Option.bind_some, lv, if_neg (hnot _ _ _ hd hi)]

/-- Deleting one slot and nulling it. -/
theorem dropOne {s : St V} (h : Inv s) {c i a : Nat} {l : List (Option Nat)} (e : s.vecs c = some l)
    (hi : l[i]? = some (some a)) :
    ∃ h', s.heap.delete a = .ok h' ∧
      Inv (⟨h', Function.update s.vecs c (some (l.set i none))⟩ : St V) ∧
      (⟨h', Function.update s.vecs c (some (l.set i none))⟩ : St V).vals =
        Function.update s.vals c (some ((l.map (fun p => p.bind s.heap.live)).set i none)) ∧
      ∀ p ∈ l.set i none, p.bind h'.live = p.bind s.heap.live := by
  obtain ⟨v, hv⟩ := h.live_slot e hi
  have hil : i < l.length := (List.getElem?_eq_some_iff.mp hi).1
  refine ⟨⟨s.heap.next, Function.update s.heap.live a none, a :: s.heap.freed⟩, by unfold Heap.delete; rw [hv], ?_⟩
  set s' : St V := ⟨⟨s.heap.next, Function.update s.heap.live a none, a :: s.heap.freed⟩,
    Function.update s.vecs c (some (l.set i none))⟩ with hs'
  have hown : ∀ d j b, s'.Owns d j b ↔ s.Owns d j b ∧ b ≠ a := by
    intro d j b
    constructor
    · rintro ⟨m, hm, hj⟩
      by_cases hd : d = c
      · subst hd
        simp only [hs', Function.update_self, Option.some.injEq] at hm
        subst hm
        by_cases hji : j = i
        · subst hji; rw [List.getElem?_set_self hil] at hj; simp at hj
        · rw [List.getElem?_set_ne (by omega)] at hj
          refine ⟨⟨l, e, hj⟩, ?_⟩
          rintro rfl
          exact hji (h.uniq _ _ _ _ _ ⟨l, e, hj⟩ ⟨l, e, hi⟩).2
      · simp only [hs', Function.update_of_ne hd] at hm
        refine ⟨⟨m, hm, hj⟩, ?_⟩
        rintro rfl
        exact hd (h.uniq _ _ _ _ _ ⟨m, hm, hj⟩ ⟨l, e, hi⟩).1
    · rintro ⟨⟨m, hm, hj⟩, hba⟩
      by_cases hd : d = c
      · subst hd
        rw [e] at hm; cases hm
        refine ⟨_, Function.update_self .., ?_⟩
        rw [List.getElem?_set_ne]
        · exact hj
        · rintro rfl; rw [hi] at hj; simp at hj; exact hba hj.symm
      · exact ⟨m, by simp [hs', Function.update_of_ne hd, hm], hj⟩
  have hlive : ∀ b, s'.heap.live b = if b = a then none else s.heap.live b := by
    intro b; simp [hs', Function.update_apply]
  have hpl : ∀ p ∈ l.set i none, p.bind s'.heap.live = p.bind s.heap.live := by
    intro p hp
    cases p with
    | none => rfl
    | some b =>
      obtain ⟨j, hj⟩ := owns_of_mem (s := s') (d := c) (Function.update_self ..) hp
      simp only [Option.bind_some, hlive, if_neg ((hown _ _ _).mp hj).2]
  refine ⟨⟨?_, ?_, ?_, ?_, ?_, ?_⟩, ?_, hpl⟩
  · intro d j b ho
    obtain ⟨ho, hb⟩ := (hown _ _ _).mp ho
    rw [hlive, if_neg hb]; exact h.live _ _ _ ho
  · intro d j d' j' b h1 h2
    exact h.uniq _ _ _ _ _ ((hown _ _ _).mp h1).1 ((hown _ _ _).mp h2).1
  · intro b hb
    rw [hlive] at hb
    split at hb
    · simp at hb
    · rename_i hba
      obtain ⟨d, j, ho⟩ := h.owned b hb
      exact ⟨d, j, (hown _ _ _).mpr ⟨ho, hba⟩⟩
  · intro b hb
    rw [hlive] at hb
    split at hb
    · simp at hb
    · exact h.fresh b hb
  · show (a :: s.heap.freed).Nodup
    rw [List.nodup_cons]
    refine ⟨fun ha => ?_, h.nodup⟩
    rw [((h.freed a).mp ha).2] at hv; simp at hv
  · intro b
    show b ∈ a :: s.heap.freed ↔ b < s.heap.next ∧ _
    rw [List.mem_cons, h.freed, hlive]
    have := h.fresh a (by simp [hv])
    by_cases hba : b = a
    · subst hba; simp [this]
    · simp [hba]
  · refine vals_update rfl ?_ ?_
    · rw [List.map_congr_left hpl, List.map_set]; rfl
    · intro d m hd hm p hp
      cases p with
      | none => rfl
      | some b =>
        obtain ⟨j, hj⟩ := owns_of_mem hm hp
        simp only [Option.bind_some, hlive]
        rw [if_neg]; rintro rfl
        exact hd (h.uniq _ _ _ _ _ hj ⟨l, e, hi⟩).1

/-- Rearranging pointers without touching the heap. -/
theorem inv_rearrange {s s' : St V} (h : Inv s) (hh : s'.heap = s.heap)
    (f : Nat → Nat → Nat × Nat)
    (h1 : ∀ c i a, s'.Owns c i a → s.Owns (f c i).1 (f c i).2 a)
    (h2 : ∀ c i d j a, s'.Owns c i a → s'.Owns d j a → f c i = f d j → c = d ∧ i = j)
    (h3 : ∀ c i a, s.Owns c i a → ∃ d j, s'.Owns d j a) : Inv s' := by
  refine ⟨?_, ?_, ?_, ?_, ?_, ?_⟩
  · intro c i a ho; rw [hh]; exact h.live _ _ _ (h1 _ _ _ ho)
  · intro c i d j a ho ho'
    have := h.uniq _ _ _ _ _ (h1 _ _ _ ho) (h1 _ _ _ ho')
    exact h2 c i d j a ho ho' (Prod.ext this.1 this.2)
  · intro a ha
    rw [hh] at ha
    obtain ⟨c, i, ho⟩ := h.owned a ha
    exact h3 c i a ho
  · rw [hh]; exact h.fresh
  · rw [hh]; exact h.nodup
  · rw [hh]; exact h.freed

/-- Moving the pointers of `c` to `d`, which owns nothing. -/
theorem moveVec {s : St V} (h : Inv s) {c d : Nat} (hcd : c ≠ d) {l : List (Option Nat)} (e : s.vecs c = some l)
    (hd : ∀ m, s.vecs d = some m → ∀ p ∈ m, p = none) :
    let s' := (s.setVec d (some l)).setVec c (some [])
    Inv s' ∧ s'.vals = Function.update (Function.update s.vals d (s.vals c)) c (some []) := by
  intro s'
  have v1 : s'.vecs c = some [] := by simp [s', St.setVec]
  have v2 : s'.vecs d = some l := by
    simp [s', St.setVec, Function.update_of_ne (Ne.symm hcd)]
  have v3 : ∀ x, x ≠ c → x ≠ d → s'.vecs x = s.vecs x := by
    intro x hx hx'; simp [s', St.setVec, Function.update_of_ne hx, Function.update_of_ne hx']
  refine ⟨inv_rearrange h rfl (fun x i => (if x = d then c else x, i)) ?_ ?_ ?_, ?_⟩
  · rintro x i a ⟨m, hm, hi⟩
    by_cases hx : x = d
    · subst hx; rw [v2] at hm; cases hm; simp only [if_true]; exact ⟨_, e, hi⟩
    · simp only [if_neg hx]
      by_cases hx' : x = c
      · subst hx'; rw [v1] at hm; cases hm; simp at hi
      · rw [v3 x hx' hx] at hm; exact ⟨m, hm, hi⟩
  · rintro x i y j a ⟨m, hm, hi⟩ ⟨m', hm', hi'⟩ he
    have hxc : x ≠ c := by rintro rfl; rw [v1] at hm; cases hm; simp at hi
    have hyc : y ≠ c := by rintro rfl; rw [v1] at hm'; cases hm'; simp at hi'
    simp only [Prod.mk.injEq] at he
    refine ⟨?_, he.2⟩
    have h1 := he.1
    by_cases hx : x = d <;> by_cases hy : y = d
    · rw [hx, hy]
    · rw [if_pos hx, if_neg hy] at h1; exact absurd h1.symm hyc
    · rw [if_neg hx, if_pos hy] at h1; exact absurd h1 hxc
    · rwa [if_neg hx, if_neg hy] at h1
  · rintro x i a ⟨m, hm, hi⟩
    by_cases hx : x = c
    · subst hx; rw [e] at hm; cases hm; exact ⟨d, i, _, v2, hi⟩
    · have hxd : x ≠ d := by
        rintro rfl
        have := hd m hm _ (List.mem_of_getElem? hi)
        simp at this
      exact ⟨x, i, m, by rw [v3 x hx hxd]; exact hm, hi⟩
  · funext x
    by_cases hx : x = c
    · subst hx; simp [St.vals, v1]
    · rw [Function.update_of_ne hx]
      by_cases hxd : x = d
      · subst hxd; simp only [Function.update_self, St.vals, v2, e]; rfl
      · rw [Function.update_of_ne hxd]; simp only [St.vals, v3 x hx hxd]; rfl

theorem slot_ok {s : St V} {c i : Nat} {l : List (Option Nat)} {p : Option Nat} (e : s.vecs c = some l)
    (hi : l[i]? = some p) : s.slot c i = .ok p := by
  unfold St.slot St.vec
  simp only [e]
  show (match l[i]? with | none => _ | some p => _) = _
  rw [hi]

theorem vec_ok {s : St V} {c : Nat} {l : List (Option Nat)} (e : s.vecs c = some l) : s.vec c = .ok l := by
  unfold St.vec; rw [e]

theorem get_map_vals {s : St V} {l : List (Option Nat)} {i : Nat} {x : Option V}
    (h : (l.map (fun p => p.bind s.heap.live))[i]? = some x) : ∃ p, l[i]? = some p ∧ p.bind s.heap.live = x := by
  rw [List.getElem?_map] at h
  cases e : l[i]? with
  | none => simp [e] at h
  | some p => exact ⟨p, rfl, by simpa [e] using h⟩

/-- One turn of the copy loop between different containers. -/
theorem copySlot_ok {s : St V} (h : Inv s) {d c i : Nat} {L M : List (Option V)} {x : Option V}
    (hL : s.vals c = some L) (hx : L[i]? = some x) (hM : s.vals d = some M) (hi : M[i]? = some none) :
    ∃ s', s.copySlot d c i = .ok s' ∧ Inv s' ∧ s'.vals = Function.update s.vals d (some (M.set i x)) := by
  obtain ⟨l, el, rfl⟩ := vals_some hL
  obtain ⟨m, em, rfl⟩ := vals_some hM
  obtain ⟨p, hp, hpx⟩ := get_map_vals hx
  have hm := h.null_slot em hi
  unfold St.copySlot
  rw [slot_ok el hp]
  cases p with
  | none =>
    refine ⟨s, rfl, h, ?_⟩
    simp only [Option.bind_none] at hpx
    subst hpx
    rw [show (m.map (fun p => p.bind s.heap.live)).set i none = m.map (fun p => p.bind s.heap.live) from ?_, ← hM,
      Function.update_eq_self]
    apply List.ext_getElem?
    intro k
    by_cases hk : k = i
    · subst hk
      rw [List.getElem?_set_self (List.getElem?_eq_some_iff.mp hi).1, hi]
    · rw [List.getElem?_set_ne (by omega)]
  | some a =>
    obtain ⟨v, hv⟩ := h.live_slot el hp
    have := putNew h v em hm
    simp only [Option.bind_some, hv] at hpx
    subst hpx
    refine ⟨_, ?_, this⟩
    show ((s.heap.read a) >>= _) = _
    have hr : s.heap.read a = .ok v := by unfold Heap.read; rw [hv]
    rw [hr]
    show ((s.vec d) >>= _) = _
    rw [vec_ok em]
    rfl

/-- The copy loop between different containers. -/
theorem copyLoop {s : St V} (h : Inv s) {d c : Nat} (hdc : c ≠ d) {L : List (Option V)}
    (hL : s.vals c = some L) (hM : s.vals d = some (List.replicate L.length none)) :
    ∃ s', (List.range L.length).foldlM (St.copySlot d c) s = .ok s' ∧ Inv s' ∧
      s'.vals = Function.update s.vals d (some L) := by
  have key : ∀ k, k ≤ L.length → ∃ s', (List.range k).foldlM (St.copySlot d c) s = .ok s' ∧ Inv s' ∧
      s'.vals = Function.update s.vals d (some (L.take k ++ List.replicate (L.length - k) none)) := by
    intro k
    induction k with
    | zero =>
      intro _
      refine ⟨s, rfl, h, ?_⟩
      simp only [List.take_zero, List.nil_append, Nat.sub_zero]
      rw [← hM, Function.update_eq_self]
    | succ k ih =>
      intro hk
      obtain ⟨s', e, h', v⟩ := ih (by omega)
      obtain ⟨x, hx⟩ : ∃ x, L[k]? = some x := ⟨L[k], List.getElem?_eq_getElem (by omega)⟩
      have hlen : (L.take k).length = k := by simp; omega
      obtain ⟨s'', e2, h2, v2⟩ := copySlot_ok h' (d := d) (c := c) (i := k) (L := L) (x := x)
        (M := L.take k ++ List.replicate (L.length - k) none)
        (by rw [v, Function.update_of_ne hdc]; exact hL) hx (by rw [v, Function.update_self])
        (by rw [List.getElem?_append_right (by omega), hlen, Nat.sub_self, List.getElem?_replicate]; simp; omega)
      refine ⟨s'', ?_, h2, ?_⟩
      · rw [List.range_succ, List.foldlM_append, e]
        have : (s'.copySlot d c k >>= pure) = .ok s'' := by rw [e2]; rfl
        exact this
      · rw [v2, v, Function.update_idem]
        congr 2
        rw [List.set_append_right _ _ (by omega), hlen, Nat.sub_self]
        obtain ⟨r, hr⟩ : ∃ r, L.length - k = r + 1 := ⟨L.length - k - 1, by omega⟩
        rw [hr, List.replicate_succ, List.set_cons_zero, List.take_add_one, hx, show L.length - (k + 1) = r by omega]
        simp
  obtain ⟨s', e, h', v⟩ := key L.length (Nat.le_refl _)
  exact ⟨s', e, h', by rw [v]; simp⟩

/-- The copy loop of a container of null pointers onto itself does nothing. -/
theorem copyLoop_self {s : St V} {c n : Nat} (e : s.vecs c = some (List.replicate n none)) :
    (List.range n).foldlM (St.copySlot c c) s = .ok s := by
  have key : ∀ k, k ≤ n → (List.range k).foldlM (St.copySlot c c) s = .ok s := by
    intro k
    induction k with
    | zero => intro _; rfl
    | succ k ih =>
      intro hk
      rw [List.range_succ, List.foldlM_append, ih (by omega)]
      show (s.copySlot c c k >>= pure) = _
      have : s.copySlot c c k = .ok s := by
        unfold St.copySlot
        rw [slot_ok e (p := none) (by rw [List.getElem?_replicate]; simp; omega)]; rfl
      rw [this]; rfl
  exact key n (Nat.le_refl _)

theorem construct_ok {s : St V} (h : Inv s) {c : Nat} (hc : s.vecs c = none) (n : Nat) :
    s.construct c n = .ok (s.setVec c (some (List.replicate n none))) ∧
    Inv (s.setVec c (some (List.replicate n none))) ∧
    (s.setVec c (some (List.replicate n none))).vals = Function.update s.vals c (some (List.replicate n none)) := by
  refine ⟨by unfold St.construct; rw [hc], ?_, ?_⟩
  · have ho : ∀ d j a, (s.setVec c (some (List.replicate n none))).Owns d j a ↔ s.Owns d j a := by
      intro d j a
      unfold St.Owns St.setVec
      by_cases hd : d = c
      · subst hd
        simp only [Function.update_self, hc]
        constructor
        · rintro ⟨l, hl, hj⟩
          cases hl
          rw [List.getElem?_replicate] at hj
          split at hj <;> simp at hj
        · rintro ⟨l, hl, -⟩; simp at hl
      · simp only [Function.update_of_ne hd]
    exact inv_rearrange h rfl (fun x i => (x, i)) (fun _ _ _ => (ho _ _ _).mp)
      (fun _ _ _ _ _ _ _ he => by simpa using he) (fun x i a ho' => ⟨x, i, (ho _ _ _).mpr ho'⟩)
  · exact vals_update (s' := s.setVec c (some (List.replicate n none))) rfl (by simp) (fun _ _ _ _ _ _ => rfl)

theorem dealloc_ok {s : St V} (h : Inv s) {c i : Nat} {L : List (Option V)} (hL : s.vals c = some L)
    (hi : i < L.length) : ∃ s', s.dealloc c i = .ok s' ∧ Inv s' ∧
      s'.vals = Function.update s.vals c (some (L.set i none)) := by
  obtain ⟨l, el, rfl⟩ := vals_some hL
  have hil : i < l.length := by simpa using hi
  unfold St.dealloc
  obtain ⟨p, hp⟩ : ∃ p, l[i]? = some p := ⟨l[i], List.getElem?_eq_getElem hil⟩
  rw [slot_ok el hp]
  cases p with
  | none =>
    refine ⟨s, rfl, h, ?_⟩
    rw [show (l.map (fun p => p.bind s.heap.live)).set i none = l.map (fun p => p.bind s.heap.live) from ?_, ← hL,
      Function.update_eq_self]
    apply List.ext_getElem?
    intro k
    by_cases hk : k = i
    · subst hk
      rw [List.getElem?_set_self hi, List.getElem?_map, hp]; rfl
    · rw [List.getElem?_set_ne (by omega)]
  | some a =>
    obtain ⟨h', e, i1, v1, -⟩ := dropOne h el hp
    refine ⟨_, ?_, i1, v1⟩
    show (s.heap.delete a >>= _) = _
    rw [e]
    show (s.vec c >>= _) = _
    rw [vec_ok el]; rfl

theorem replace_ok {s : St V} (h : Inv s) {c i : Nat} {L : List (Option V)} (v : V) (hL : s.vals c = some L)
    (hi : i < L.length) : ∃ s', s.replace c i v = .ok s' ∧ Inv s' ∧
      s'.vals = Function.update s.vals c (some (L.set i (some v))) := by
  obtain ⟨l, el, rfl⟩ := vals_some hL
  have hil : i < l.length := by simpa using hi
  unfold St.replace
  obtain ⟨p, hp⟩ : ∃ p, l[i]? = some p := ⟨l[i], List.getElem?_eq_getElem hil⟩
  rw [slot_ok el hp]
  cases p with
  | none =>
    refine ⟨_, ?_, putNew h v el hp⟩
    show (s.vec c >>= _) = _
    rw [vec_ok el]; rfl
  | some a =>
    obtain ⟨h', e, i1, v1, hpl⟩ := dropOne h el hp
    have := putNew i1 (c := c) (i := i) (l := l.set i none) v (by simp) (by rw [List.getElem?_set_self hil])
    simp only [Function.update_idem, List.set_set] at this
    refine ⟨_, ?_, this.1, ?_⟩
    · show (s.heap.delete a >>= _) = _
      rw [e]
      show (s.vec c >>= _) = _
      rw [vec_ok el]; rfl
    · rw [this.2, v1, Function.update_idem, List.map_congr_left hpl, List.map_set, List.set_set]

theorem clear_ok {s : St V} (h : Inv s) {c : Nat} {L : List (Option V)} (hL : s.vals c = some L) :
    ∃ s', s.clear c = .ok s' ∧ Inv s' ∧ s'.vals = Function.update s.vals c (some (L.map (fun _ => none))) := by
  have key : ∀ k, k ≤ L.length → ∃ s', (List.range k).foldlM (fun s i => s.dealloc c i) s = .ok s' ∧ Inv s' ∧
      s'.vals = Function.update s.vals c (some (List.replicate k none ++ L.drop k)) := by
    intro k
    induction k with
    | zero =>
      intro _
      refine ⟨s, rfl, h, ?_⟩
      simp only [List.replicate_zero, List.nil_append, List.drop_zero]
      rw [← hL, Function.update_eq_self]
    | succ k ih =>
      intro hk
      obtain ⟨s', e, h', v⟩ := ih (by omega)
      obtain ⟨s'', e2, h2, v2⟩ := dealloc_ok h' (c := c) (i := k) (L := List.replicate k none ++ L.drop k)
        (by rw [v, Function.update_self]) (by simp; omega)
      refine ⟨s'', ?_, h2, ?_⟩
      · rw [List.range_succ, List.foldlM_append, e]
        have : (s'.dealloc c k >>= pure) = .ok s'' := by rw [e2]; rfl
        exact this
      · rw [v2, v, Function.update_idem]
        congr 2
        rw [List.set_append_right _ _ (by simp), List.length_replicate, Nat.sub_self,
          List.drop_eq_getElem_cons (by omega), List.set_cons_zero, List.replicate_succ']
        simp
  obtain ⟨s', e, h', v⟩ := key L.length (Nat.le_refl _)
  refine ⟨s', ?_, h', ?_⟩
  · obtain ⟨l, el, rfl⟩ := vals_some hL
    unfold St.clear
    rw [vec_ok el]
    rw [List.length_map] at e
    exact e
  · rw [v]; simp [List.map_const']

theorem write_live {s : St V} (h : Inv s) {c i a : Nat} {l : List (Option Nat)} (v : V) (e : s.vecs c = some l)
    (hi : l[i]? = some (some a)) :
    Inv (⟨{ s.heap with live := Function.update s.heap.live a (some v) }, s.vecs⟩ : St V) ∧
    (⟨{ s.heap with live := Function.update s.heap.live a (some v) }, s.vecs⟩ : St V).vals =
      Function.update s.vals c (some ((l.map (fun p => p.bind s.heap.live)).set i (some v))) := by
  have hil : i < l.length := (List.getElem?_eq_some_iff.mp hi).1
  obtain ⟨w, hw⟩ := h.live_slot e hi
  have hiso : ∀ b, (Function.update s.heap.live a (some v) b).isSome = (s.heap.live b).isSome := by
    intro b
    by_cases hb : b = a
    · subst hb; simp [hw]
    · rw [Function.update_of_ne hb]
  refine ⟨⟨fun d j b ho => ?_, h.uniq, fun b hb => h.owned b ?_, fun b hb => h.fresh b ?_, h.nodup, fun b => ?_⟩, ?_⟩
  · exact (hiso b).trans (h.live d j b ho)
  · exact (hiso b).symm.trans hb
  · exact (hiso b).symm.trans hb
  · show b ∈ s.heap.freed ↔ b < s.heap.next ∧ Function.update s.heap.live a (some v) b = none
    rw [h.freed, ← Option.isSome_eq_false_iff.trans Option.isNone_iff_eq_none,
      ← Option.isSome_eq_false_iff.trans Option.isNone_iff_eq_none, hiso]
  · refine vals_update (s := s) (c := c) (l := l) ?_ ?_ ?_
    · rw [← e, Function.update_eq_self]
    · apply List.ext_getElem?
      intro k
      by_cases hk : k = i
      · subst hk
        rw [List.getElem?_set_self (by simpa using hil), List.getElem?_map, hi]; simp
      · rw [List.getElem?_set_ne (by omega), List.getElem?_map, List.getElem?_map]
        cases e' : l[k]? with
        | none => rfl
        | some p =>
          cases p with
          | none => rfl
          | some b =>
            have : b ≠ a := by
              rintro rfl
              exact hk (h.uniq _ _ _ _ _ ⟨l, e, e'⟩ ⟨l, e, hi⟩).2
            simp [Function.update_of_ne this]
    · intro d m hd hm p hp
      cases p with
      | none => rfl
      | some b =>
        obtain ⟨j, hj⟩ := owns_of_mem hm hp
        have : b ≠ a := by
          rintro rfl
          exact hd (h.uniq _ _ _ _ _ hj ⟨l, e, hi⟩).1
        simp [Function.update_of_ne this]

theorem access_ok [Inhabited V] {s : St V} (h : Inv s) {c i : Nat} {L : List (Option V)} {x : Option V}
    (hL : s.vals c = some L) (hi : L[i]? = some x) :
    ∃ s' a l, s.access c i = .ok (s', a) ∧ Inv s' ∧
      s'.vals = Function.update s.vals c (some (L.set i (some (x.getD default)))) ∧
      s'.vecs c = some l ∧ l[i]? = some (some a) ∧ s'.heap.live a = some (x.getD default) := by
  obtain ⟨l, el, rfl⟩ := vals_some hL
  obtain ⟨p, hp, hpx⟩ := get_map_vals hi
  have hil : i < l.length := (List.getElem?_eq_some_iff.mp hp).1
  unfold St.access
  rw [slot_ok el hp]
  cases p with
  | some a =>
    obtain ⟨v, hv⟩ := h.live_slot el hp
    simp only [Option.bind_some, hv] at hpx
    subst hpx
    refine ⟨s, a, l, rfl, h, ?_, el, hp, hv⟩
    rw [Option.getD_some]
    rw [show (l.map (fun p => p.bind s.heap.live)).set i (some v) = l.map (fun p => p.bind s.heap.live) from ?_, ← hL,
      Function.update_eq_self]
    apply List.ext_getElem?
    intro k
    by_cases hk : k = i
    · subst hk
      rw [List.getElem?_set_self (by simpa using hil), hi]
    · rw [List.getElem?_set_ne (by omega)]
  | none =>
    simp only [Option.bind_none] at hpx
    subst hpx
    have := putNew h (default : V) el hp
    refine ⟨_, _, l.set i (some (s.heap.new default).2), ?_, this.1, this.2, by simp, List.getElem?_set_self hil, ?_⟩
    · show (s.vec c >>= _) = _
      rw [vec_ok el]; rfl
    · simp [Heap.new]

theorem write_ok [Inhabited V] {s : St V} (h : Inv s) {c i : Nat} {L : List (Option V)} (v : V)
    (hL : s.vals c = some L) (hi : i < L.length) : ∃ s', s.write c i v = .ok s' ∧ Inv s' ∧
      s'.vals = Function.update s.vals c (some (L.set i (some v))) := by
  obtain ⟨s1, a, l, e1, i1, v1, el, hl, hlive⟩ := access_ok h hL (List.getElem?_eq_getElem hi)
  have := write_live i1 v el hl
  refine ⟨_, ?_, this.1, ?_⟩
  · unfold St.write
    rw [e1]
    show (match s1.heap.live a with | none => _ | some _ => _) = _
    rw [hlive]
  · have hv : l.map (fun p => p.bind s1.heap.live) = L.set i (some (L[i].getD default)) := by
      have := congrFun v1 c
      simpa [St.vals, el] using this
    rw [this.2, v1, Function.update_idem, hv, List.set_set]

theorem get_ok [Inhabited V] {s : St V} (h : Inv s) {c i : Nat} {L : List (Option V)} {x : Option V}
    (hL : s.vals c = some L) (hi : L[i]? = some x) : ∃ s', s.get c i = .ok (s', x.getD default) ∧ Inv s' ∧
      s'.vals = Function.update s.vals c (some (L.set i (some (x.getD default)))) := by
  obtain ⟨s1, a, l, e1, i1, v1, el, hl, hlive⟩ := access_ok h hL hi
  refine ⟨s1, ?_, i1, v1⟩
  unfold St.get
  rw [e1]
  show (s1.heap.read a >>= _) = _
  have : s1.heap.read a = .ok (x.getD default) := by unfold Heap.read; rw [hlive]
  rw [this]; rfl

theorem swap_ok {s : St V} (h : Inv s) {c i d j : Nat} {L M : List (Option V)} {x y : Option V}
    (hL : s.vals c = some L) (hM : s.vals d = some M) (hi : L[i]? = some x) (hj : M[j]? = some y) :
    ∃ s', s.swap c i d j = .ok s' ∧ Inv s' ∧
      s'.vals = Function.update (Function.update s.vals c (some (L.set i y))) d
          (some ((if c = d then L.set i y else M).set j x)) := by
  obtain ⟨l, el, rfl⟩ := vals_some hL
  obtain ⟨m, em, rfl⟩ := vals_some hM
  obtain ⟨p, hp, hpx⟩ := get_map_vals hi
  obtain ⟨q, hq, hqy⟩ := get_map_vals hj
  have hil : i < l.length := (List.getElem?_eq_some_iff.mp hp).1
  have hjm : j < m.length := (List.getElem?_eq_some_iff.mp hq).1
  by_cases hcd : c = d
  · subst hcd
    have : m = l := by rw [el] at em; exact (Option.some.inj em).symm
    subst this
    set s' : St V := ⟨s.heap, Function.update s.vecs c (some ((m.set i q).set j p))⟩ with hs'
    have hget : ∀ k : Nat, ((m.set i q).set j p)[k]? = m[if k = j then i else if k = i then j else k]? := by
      intro k
      by_cases hk : k = j
      · subst hk; rw [List.getElem?_set_self (by simpa using hjm), if_pos rfl, hp]
      · rw [List.getElem?_set_ne (by omega), if_neg hk]
        by_cases hki : k = i
        · subst hki; rw [List.getElem?_set_self hil, if_pos rfl, hq]
        · rw [List.getElem?_set_ne (by omega), if_neg hki]
    refine ⟨s', ?_, ?_, ?_⟩
    · unfold St.swap
      rw [slot_ok el hp]
      show (s.slot c j >>= _) = _
      rw [slot_ok el hq]
      show (s.vec c >>= _) = _
      rw [vec_ok el]
      show ((s.setVec c (some (m.set i q))).vec c >>= _) = _
      rw [vec_ok (l := m.set i q) (by simp [St.setVec])]
      show Except.ok _ = _
      simp [St.setVec, hs']
    · refine inv_rearrange h rfl (fun x k => (x, if x = c then (if k = j then i else if k = i then j else k) else k)) ?_ ?_ ?_
      · rintro x k a ⟨l', hl', hk⟩
        by_cases hx : x = c
        · subst hx
          simp only [hs', Function.update_self, Option.some.injEq] at hl'
          subst hl'
          rw [hget] at hk
          exact ⟨m, el, by simpa using hk⟩
        · simp only [hs', Function.update_of_ne hx] at hl'
          exact ⟨l', hl', by simpa [hx] using hk⟩
      · rintro x k x' k' a - - he
        simp only [Prod.mk.injEq] at he
        obtain ⟨rfl, he⟩ := he
        refine ⟨rfl, ?_⟩
        split_ifs at he <;> omega
      · rintro x k a ⟨l', hl', hk⟩
        by_cases hx : x = c
        · subst hx
          rw [el] at hl'; cases hl'
          refine ⟨x, if k = j then i else if k = i then j else k, _, Function.update_self .., ?_⟩
          rw [hget]
          rw [← hk]; congr 1
          split_ifs <;> omega
        · exact ⟨x, k, l', by simp [hs', Function.update_of_ne hx, hl'], hk⟩
    · rw [if_pos rfl, Function.update_idem]
      refine vals_update (s := s) (s' := s') rfl ?_ (fun _ _ _ _ _ _ => rfl)
      rw [List.map_set, List.map_set, ← hpx, ← hqy]
  · set s' : St V := ⟨s.heap, Function.update (Function.update s.vecs c (some (l.set i q))) d (some (m.set j p))⟩ with hs'
    have v1 : s'.vecs c = some (l.set i q) := by simp [hs', Function.update_of_ne hcd]
    have v2 : s'.vecs d = some (m.set j p) := by simp [hs']
    have v3 : ∀ x, x ≠ c → x ≠ d → s'.vecs x = s.vecs x := by
      intro x hx hx'; simp [hs', Function.update_of_ne hx, Function.update_of_ne hx']
    refine ⟨s', ?_, ?_, ?_⟩
    · unfold St.swap
      rw [slot_ok el hp]
      show (s.slot d j >>= _) = _
      rw [slot_ok em hq]
      show (s.vec c >>= _) = _
      rw [vec_ok el]
      show ((s.setVec c (some (l.set i q))).vec d >>= _) = _
      rw [vec_ok (l := m) (by simp [St.setVec, Function.update_of_ne (Ne.symm hcd), em])]
      rfl
    · let f : Nat → Nat → Nat × Nat := fun x k =>
        if x = c ∧ k = i then (d, j) else if x = d ∧ k = j then (c, i) else (x, k)
      have hf : ∀ x k, f (f x k).1 (f x k).2 = (x, k) := by
        intro x k
        by_cases h1 : x = c ∧ k = i
        · obtain ⟨rfl, rfl⟩ := h1; simp [f, Ne.symm hcd]
        · by_cases h2 : x = d ∧ k = j
          · obtain ⟨rfl, rfl⟩ := h2
            have hc' : ¬ (x = c ∧ k = i) := h1
            simp [f, h1]
          · simp [f, h1, h2]
      have hown : ∀ x k a, s'.Owns x k a ↔ s.Owns (f x k).1 (f x k).2 a := by
        intro x k a
        unfold St.Owns
        by_cases hxc : x = c
        · subst hxc
          rw [v1]
          by_cases hk : k = i
          · subst hk
            simp only [f, and_self, if_true, Option.some.injEq, exists_eq_left', em]
            rw [List.getElem?_set_self hil, hq]
          · simp only [f, hk, hcd, and_false, false_and, if_false, Option.some.injEq, exists_eq_left', el]
            rw [List.getElem?_set_ne (by omega)]
        · by_cases hxd : x = d
          · subst hxd
            rw [v2]
            by_cases hk : k = j
            · subst hk
              simp only [f, hxc, false_and, and_self, if_true, if_false, Option.some.injEq, exists_eq_left', el]
              rw [List.getElem?_set_self hjm, hp]
            · simp only [f, hk, hxc, and_false, false_and, if_false, Option.some.injEq, exists_eq_left', em]
              rw [List.getElem?_set_ne (by omega)]
          · rw [v3 x hxc hxd]; simp [f, hxc, hxd]
      refine inv_rearrange h rfl f (fun _ _ _ => (hown _ _ _).mp) ?_ ?_
      · intro x k x' k' a _ _ he
        have := hf x k
        rw [he, hf] at this
        simp only [Prod.mk.injEq] at this
        exact ⟨this.1.symm, this.2.symm⟩
      · intro x k a ho
        refine ⟨(f x k).1, (f x k).2, (hown _ _ _).mpr ?_⟩
        rw [hf]; exact ho
    · rw [if_neg hcd]
      funext x
      by_cases hxd : x = d
      · subst hxd
        simp only [Function.update_self, St.vals, v2, Option.map_some, List.map_set]
        rw [show s'.heap = s.heap from rfl, hpx]
      · rw [Function.update_of_ne hxd]
        by_cases hxc : x = c
        · subst hxc
          simp only [Function.update_self, St.vals, v1, Option.map_some, List.map_set]
          rw [show s'.heap = s.heap from rfl, hqy]
        · rw [Function.update_of_ne hxc]; simp only [St.vals, v3 x hxc hxd]; rfl

/-- Every legal operation runs without undefined behaviour, keeps ownership, and has the specified effect. -/
theorem exec_ok [Inhabited V] {s : St V} (h : Inv s) (op : Op V) {f : Vals V}
    (hs : specStep false s.vals op = some f) : ∃ s', s.exec op = .ok s' ∧ Inv s' ∧ s'.vals = f := by
  cases op with
  | construct c n =>
    simp only [specStep] at hs
    cases e : s.vals c with
    | some l => simp [e] at hs
    | none =>
      simp only [e, Option.some.injEq] at hs
      obtain ⟨a, b, c'⟩ := construct_ok h (vals_none.mp e) n
      exact ⟨_, a, b, c'.trans hs⟩
  | copyCtor d c =>
    simp only [specStep] at hs
    cases e : s.vals c with
    | none => simp [e] at hs
    | some L =>
      cases e2 : s.vals d with
      | some M => simp [e, e2] at hs
      | none =>
        simp only [e, e2, Option.some.injEq] at hs
        have hcd : c ≠ d := by rintro rfl; rw [e] at e2; simp at e2
        obtain ⟨l, el, hl⟩ := vals_some e
        have hlen : L.length = l.length := by rw [hl]; simp
        obtain ⟨a1, a2, a3⟩ := construct_ok h (vals_none.mp e2) L.length
        obtain ⟨s', b1, b2, b3⟩ := copyLoop a2 hcd (L := L) (by rw [a3, Function.update_of_ne hcd, e])
          (by rw [a3, Function.update_self])
        refine ⟨s', ?_, b2, by rw [b3, a3, Function.update_idem, hs]⟩
        show s.copyCtor d c = _
        unfold St.copyCtor
        rw [vec_ok el]
        show (s.construct d l.length >>= fun s1 => (List.range l.length).foldlM (St.copySlot d c) s1) = _
        rw [← hlen, a1]
        exact b1
  | copyAssign d c =>
    simp only [specStep] at hs
    cases e : s.vals c with
    | none => simp [e] at hs
    | some L =>
      cases e2 : s.vals d with
      | none => simp [e, e2] at hs
      | some M =>
        simp only [e, e2, Option.some.injEq, and_true] at hs
        obtain ⟨l, el, hl⟩ := vals_some e
        obtain ⟨m, em, hm⟩ := vals_some e2
        have hlen : L.length = l.length := by rw [hl]; simp
        obtain ⟨h', d1, d2⟩ := dropAll h em
        obtain ⟨i1, v1⟩ := d2 (some (List.replicate L.length none))
          (by rintro m hm p hp; cases hm; exact (List.mem_replicate.mp hp).2)
        have run : s.copyAssign d c = (List.range L.length).foldlM (St.copySlot d c)
            (⟨h', Function.update s.vecs d (some (List.replicate L.length none))⟩ : St V) := by
          unfold St.copyAssign
          rw [vec_ok em]
          show (s.heap.deleteAll m >>= _) = _
          rw [d1]
          show ((⟨h', s.vecs⟩ : St V).vec c >>= _) = _
          rw [vec_ok (s := ⟨h', s.vecs⟩) el, hlen]
          rfl
        by_cases hcd : c = d
        · subst hcd
          rw [if_pos rfl] at hs
          refine ⟨_, ?_, i1, ?_⟩
          · show s.copyAssign c c = _
            rw [run]
            exact copyLoop_self (by simp)
          · rw [v1, ← hs]
            congr 1
            simp [List.map_const']
        · rw [if_neg hcd] at hs
          obtain ⟨s', b1, b2, b3⟩ := copyLoop i1 hcd (L := L) (by rw [v1, Function.update_of_ne hcd, e])
            (by rw [v1, Function.update_self]; simp)
          exact ⟨s', run.trans b1, b2, by rw [b3, v1, Function.update_idem, hs]⟩
  | moveCtor d c =>
    simp only [specStep] at hs
    cases e : s.vals c with
    | none => simp [e] at hs
    | some L =>
      cases e2 : s.vals d with
      | some M => simp [e, e2] at hs
      | none =>
        simp only [e, e2, Option.some.injEq] at hs
        have hcd : c ≠ d := by rintro rfl; rw [e] at e2; simp at e2
        obtain ⟨l, el, hl⟩ := vals_some e
        have ed := vals_none.mp e2
        obtain ⟨a1, a2⟩ := moveVec h hcd el (by intro m hm; rw [ed] at hm; cases hm)
        refine ⟨_, ?_, a1, by rw [a2, e, hs]⟩
        show s.moveCtor d c = _
        unfold St.moveCtor
        rw [vec_ok el]
        show (match s.vecs d with | some _ => _ | none => _) = _
        rw [ed]
  | moveAssign d c =>
    simp only [specStep] at hs
    cases e : s.vals c with
    | none => simp [e] at hs
    | some L =>
      cases e2 : s.vals d with
      | none => simp [e, e2] at hs
      | some M =>
        simp only [e, e2, Option.some.injEq] at hs
        obtain ⟨l, el, hl⟩ := vals_some e
        obtain ⟨m, em, hm⟩ := vals_some e2
        obtain ⟨h', d1, d2⟩ := dropAll h em
        obtain ⟨i1, v1⟩ := d2 (some []) (by rintro m hm p hp; cases hm; simp at hp)
        have run : s.moveAssign d c = .ok (((⟨h', s.vecs⟩ : St V).setVec d (some l)).setVec c (some [])) := by
          unfold St.moveAssign
          rw [vec_ok em]
          show (s.heap.deleteAll m >>= _) = _
          rw [d1]
          show ((⟨h', s.vecs⟩ : St V).vec c >>= _) = _
          rw [vec_ok (s := ⟨h', s.vecs⟩) el]
          rfl
        by_cases hcd : c = d
        · subst hcd
          refine ⟨_, run, ?_, ?_⟩
          · simpa [St.setVec, Function.update_idem] using i1
          · rw [← hs]
            simpa [St.setVec, Function.update_idem] using v1
        · obtain ⟨a1, a2⟩ := moveVec i1 hcd (l := l) (by simp [Function.update_of_ne hcd, el])
            (by intro m hm; simp at hm; subst hm; simp)
          have hst : ((⟨h', Function.update s.vecs d (some [])⟩ : St V).setVec d (some l)).setVec c (some []) =
              ((⟨h', s.vecs⟩ : St V).setVec d (some l)).setVec c (some []) := by
            simp [St.setVec, Function.update_idem]
          rw [hst] at a1 a2
          refine ⟨_, run, a1, ?_⟩
          rw [a2, v1, Function.update_idem, Function.update_of_ne hcd, e, hs]
  | destroy c =>
    simp only [specStep] at hs
    cases e : s.vals c with
    | none => simp [e] at hs
    | some L =>
      simp only [e, Option.some.injEq] at hs
      obtain ⟨l, el, hl⟩ := vals_some e
      obtain ⟨h', d1, d2⟩ := dropAll h el
      obtain ⟨i1, v1⟩ := d2 none (by rintro m hm; cases hm)
      refine ⟨_, ?_, i1, by rw [v1, ← hs]; rfl⟩
      show s.destroy c = _
      unfold St.destroy
      rw [vec_ok el]
      show (s.heap.deleteAll l >>= _) = _
      rw [d1]; rfl
  | write c i v =>
    simp only [specStep] at hs
    cases e : s.vals c with
    | none => simp [e] at hs
    | some L =>
      simp only [e] at hs
      split at hs
      · rename_i hi; cases hs; exact write_ok h v e hi
      · simp at hs
  | replace c i v =>
    simp only [specStep] at hs
    cases e : s.vals c with
    | none => simp [e] at hs
    | some L =>
      simp only [e] at hs
      split at hs
      · rename_i hi; cases hs; exact replace_ok h v e hi
      · simp at hs
  | get c i =>
    simp only [specStep] at hs
    cases e : s.vals c with
    | none => simp [e] at hs
    | some L =>
      simp only [e] at hs
      cases e2 : L[i]? with
      | none => simp [e2] at hs
      | some x =>
        simp only [e2, Option.some.injEq] at hs
        obtain ⟨s', a, b, v⟩ := get_ok h e e2
        refine ⟨s', ?_, b, v.trans hs⟩
        show (s.get c i >>= _) = _
        rw [a]; rfl
  | alloc c i =>
    simp only [specStep] at hs
    cases e : s.vals c with
    | none => simp [e] at hs
    | some L =>
      simp only [e] at hs
      split at hs
      · rename_i hi; cases hs; exact replace_ok h default e hi
      · simp at hs
  | dealloc c i =>
    simp only [specStep] at hs
    cases e : s.vals c with
    | none => simp [e] at hs
    | some L =>
      simp only [e] at hs
      split at hs
      · rename_i hi; cases hs; exact dealloc_ok h e hi
      · simp at hs
  | clear c =>
    simp only [specStep] at hs
    cases e : s.vals c with
    | none => simp [e] at hs
    | some L =>
      simp only [e, Option.some.injEq] at hs
      subst hs; exact clear_ok h e
  | swap c i d j =>
    simp only [specStep] at hs
    cases e : s.vals c with
    | none => simp [e] at hs
    | some L =>
      cases e2 : s.vals d with
      | none => simp [e, e2] at hs
      | some M =>
        cases e3 : L[i]? with
        | none => simp [e, e2, e3] at hs
        | some x =>
          cases e4 : M[j]? with
          | none => simp [e, e2, e3, e4] at hs
          | some y =>
            simp only [e, e2, e3, e4, Option.some.injEq] at hs
            subst hs
            exact swap_ok h e e2 e3 e4

theorem inv_init : Inv (St.init : St V) :=
  ⟨fun c i a ⟨l, h, _⟩ => by simp [St.init] at h, fun c i d j a ⟨l, h, _⟩ => by simp [St.init] at h,
    fun a h => by simp [St.init] at h, fun a h => by simp [St.init] at h, by simp [St.init],
    fun a => by simp [St.init]⟩

theorem run_ok [Inhabited V] (ops : List (Op V)) {f : Vals V} (hf : specRun false ops = some f) :
    ∃ s, run ops = .ok s ∧ Inv s ∧ s.vals = f := by
  have key : ∀ (ops : List (Op V)) (s : St V), Inv s → ∀ f, ops.foldlM (specStep false) s.vals = some f →
      ∃ s', ops.foldlM St.exec s = .ok s' ∧ Inv s' ∧ s'.vals = f := by
    intro ops
    induction ops with
    | nil => intro s h f hf; simp only [List.foldlM_nil] at hf; exact ⟨s, rfl, h, by cases hf; rfl⟩
    | cons op ops ih =>
      intro s h f hf
      rw [List.foldlM_cons] at hf
      cases e : specStep false s.vals op with
      | none => rw [e] at hf; simp at hf
      | some g =>
        rw [e] at hf
        obtain ⟨s1, e1, i1, v1⟩ := exec_ok h op e
        subst v1
        obtain ⟨s2, e2, r⟩ := ih s1 i1 f hf
        refine ⟨s2, ?_, r⟩
        rw [List.foldlM_cons, e1]; exact e2
  exact key ops St.init inv_init f hf

end Verif.Duo
