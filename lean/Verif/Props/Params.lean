import Verif.Misc.Params
import Mathlib.Tactic.Linarith

/-!
# C45: lookups of simulation parameters
-/
namespace Verif.Props
open Verif.Misc

/-! ### Specification: which values a lookup should accept -/

/-- The parameters are an object that has this value under the key. -/
def HasValue (p : Json) (key : String) (v : Json) : Prop := ∃ l, p = .obj l ∧ l.lookup key = some v

/-- There is no such key (or the parameters are not an object). -/
def NoKey (p : Json) (key : String) : Prop := ∀ v, ¬ HasValue p key v

/-- An integer, a nonnegative integer, a number. -/
inductive IsInt : Json → Int → Prop
  | uint (n : Nat) : IsInt (.uint n) n
  | int (z : Int) : IsInt (.int z) z

inductive IsSize : Json → Nat → Prop
  | uint (n : Nat) : IsSize (.uint n) n
  | int (n : Nat) : IsSize (.int n) n

def IsNumber : Json → Prop
  | .uint _ => True
  | .int _ => True
  | .float _ => True
  | _ => False

def IsBool (v : Json) : Prop := ∃ b, v = .bool b
def IsStr (v : Json) : Prop := ∃ s, v = .str s

/-- The values of an array, one by one. -/
def IsArray {A : Type} (is : Json → A → Prop) (v : Json) (as : List A) : Prop := ∃ l, v = .arr l ∧ List.Forall₂ is l as

/-! ### Facts about the model -/

theorem find_some {p : Json} {key : String} {v : Json} : find p key = some v ↔ HasValue p key v := by
  unfold find HasValue
  cases p <;> simp

theorem find_none {p : Json} {key : String} : find p key = none ↔ NoKey p key := by
  unfold NoKey
  rw [Option.eq_none_iff_forall_ne_some]
  simp only [ne_eq, find_some]

theorem strict_missing {A : Type} {g : Get A} {p : Json} {key : String} (h : NoKey p key) : strictParse g p key = .exit := by
  unfold strictParse
  rw [find_none.mpr h]

theorem strict_some {A : Type} {g : Get A} {p : Json} {key : String} {v : Json} (h : HasValue p key v) :
    strictParse g p key = match g v with
      | .ok a => .ret a
      | .error .throw => .exit
      | .error .ub => .ub := by
  unfold strictParse
  rw [find_some.mpr h]
  rfl

theorem or_missing {A : Type} {f : Json → String → Out A} {p : Json} {key : String} (d : A) (h : NoKey p key) : parseOr f p key d = .ret d := by
  unfold parseOr has
  rw [find_none.mpr h]
  rfl

theorem or_some {A : Type} {f : Json → String → Out A} {p : Json} {key : String} {v : Json} (d : A) (h : HasValue p key v) : parseOr f p key d = f p key := by
  unfold parseOr has
  rw [find_some.mpr h]
  rfl

theorem try_missing {A : Type} {g : Get A} {p : Json} {key : String} (out : A) (h : NoKey p key) : tryStrict g p key out = .ret (false, out) := by
  unfold tryStrict
  rw [find_none.mpr h]

theorem try_some {A : Type} {g : Get A} {p : Json} {key : String} {v : Json} (out : A) (h : HasValue p key v) :
    tryStrict g p key out = match g v with
      | .ok a => .ret (true, a)
      | .error .throw => .ret (false, out)
      | .error .ub => .ub := by
  unfold tryStrict
  rw [find_some.mpr h]
  rfl

theorem getAll_ok {A : Type} {g : Get A} {l : List Json} {as : List A} (h : List.Forall₂ (fun v a => g v = .ok a) l as) : getAll g l = .ok as := by
  induction h with
  | nil => rfl
  | cons h _ ih => simp only [getAll, h, ih]

theorem sizeLoop_iff {l : List Json} {as : List Nat} : sizeLoop l = some as ↔ List.Forall₂ IsSize l as := by
  induction l generalizing as with
  | nil =>
    simp only [sizeLoop, Option.some.injEq]
    constructor
    · rintro rfl; exact .nil
    · intro h; cases h; rfl
  | cons v l ih =>
    constructor
    · intro h
      cases v with
      | uint n =>
        simp only [sizeLoop, Option.map_eq_some_iff] at h
        obtain ⟨bs, hb, rfl⟩ := h
        exact .cons (.uint n) (ih.mp hb)
      | int z =>
        simp only [sizeLoop] at h
        split at h
        · cases h
        · rename_i hz
          rw [Option.map_eq_some_iff] at h
          obtain ⟨bs, hb, rfl⟩ := h
          obtain ⟨n, rfl⟩ := Int.eq_ofNat_of_zero_le (by omega : 0 ≤ z)
          exact .cons (.int n) (ih.mp hb)
      | _ => simp [sizeLoop] at h
    · intro h
      cases h with
      | cons h1 h2 =>
        have := ih.mpr h2
        cases h1 with
        | uint n => simp [sizeLoop, this]
        | int n => simp [sizeLoop, this]

theorem wrap32_of {z : Int} (h1 : -2 ^ 31 ≤ z) (h2 : z < 2 ^ 31) : wrap32 z = z := by
  unfold wrap32
  rw [Int.emod_eq_of_lt (by omega) (by omega)]
  omega

theorem firstChar_nil : firstChar "" = '\x00' := rfl

/-! ### C45 -/

/-- **C45, missing keys.** Without the key every lookup with default returns the default, every lookup without default ends the program with a message, and every
`TryParse` returns `false` and leaves its output as it was. -/
theorem C45_missing (round : Int → Rat) {p : Json} {key : String} (h : NoKey p key) :
    ((∀ d, parseOr parseInt p key d = .ret d) ∧ (∀ d, parseOr (parseDouble round) p key d = .ret d) ∧ (∀ d, parseOr parseChar p key d = .ret d) ∧
      (∀ d, parseOr parseStr p key d = .ret d) ∧ (∀ d, parseOr parseBool p key d = .ret d) ∧ (∀ d, parseOr parseIntVec p key d = .ret d) ∧
      (∀ d, parseOr parseSizeTVec p key d = .ret d) ∧ ∀ d, parseOr (parseDoubleVec round) p key d = .ret d) ∧
    (parseInt p key = .exit ∧ parseDouble round p key = .exit ∧ parseChar p key = .exit ∧ parseStr p key = .exit ∧ parseBool p key = .exit ∧
      parseIntVec p key = .exit ∧ parseSizeTVec p key = .exit ∧ parseDoubleVec round p key = .exit) ∧
    ((∀ o, tryStrict getInt p key o = .ret (false, o)) ∧ (∀ o, tryStrict (getDouble round) p key o = .ret (false, o)) ∧ (∀ o, tryChar p key o = .ret (false, o)) ∧
      (∀ o, tryStrict getStr p key o = .ret (false, o)) ∧ (∀ o, tryStrict getBool p key o = .ret (false, o)) ∧ (∀ o, tryStrict (getVec getInt) p key o = .ret (false, o)) ∧
      (∀ o, trySizeTVec p key o = .ret (false, o)) ∧ ∀ o, tryStrict (getVec (getDouble round)) p key o = .ret (false, o)) := by
  refine ⟨⟨fun d => or_missing d h, fun d => or_missing d h, fun d => or_missing d h, fun d => or_missing d h, fun d => or_missing d h, fun d => or_missing d h,
    fun d => or_missing d h, fun d => or_missing d h⟩, ⟨strict_missing h, strict_missing h, ?_, strict_missing h, strict_missing h, strict_missing h,
    strict_missing h, strict_missing h⟩, fun o => try_missing o h, fun o => try_missing o h, fun o => ?_, fun o => try_missing o h, fun o => try_missing o h, fun o => try_missing o h,
    fun o => ?_, fun o => try_missing o h⟩
  · unfold parseChar; rw [strict_missing h]; rfl
  · unfold tryChar; rw [try_missing _ h]
  · unfold trySizeTVec; rw [find_none.mpr h]

/-- **C45, wrong types.** A present key is never replaced by the default: with a value that is not a number (for `Int` also not a boolean), not a string, not a boolean,
not an array, every lookup with or without default ends the program with a message. -/
theorem C45_wrong_type (round : Int → Rat) {p : Json} {key : String} {v : Json} (h : HasValue p key v) :
    (¬ IsNumber v → ¬ IsBool v → parseInt p key = .exit ∧ ∀ d, parseOr parseInt p key d = .exit) ∧
    (¬ IsNumber v → parseDouble round p key = .exit ∧ ∀ d, parseOr (parseDouble round) p key d = .exit) ∧
    (¬ IsStr v → parseStr p key = .exit ∧ (∀ d, parseOr parseStr p key d = .exit) ∧ parseChar p key = .exit ∧ ∀ d, parseOr parseChar p key d = .exit) ∧
    (¬ IsBool v → parseBool p key = .exit ∧ ∀ d, parseOr parseBool p key d = .exit) ∧
    ((∀ l, v ≠ .arr l) → (parseIntVec p key = .exit ∧ ∀ d, parseOr parseIntVec p key d = .exit) ∧
      (parseSizeTVec p key = .exit ∧ ∀ d, parseOr parseSizeTVec p key d = .exit) ∧
      parseDoubleVec round p key = .exit ∧ ∀ d, parseOr (parseDoubleVec round) p key d = .exit) := by
  have key' : ∀ {A : Type} {g : Get A}, g v = .error .throw → strictParse g p key = .exit ∧ ∀ d, parseOr (strictParse g) p key d = .exit := fun {A g} hg => by
    have : strictParse g p key = .exit := by rw [strict_some h, hg]
    exact ⟨this, fun d => by rw [or_some d h, this]⟩
  refine ⟨fun h1 h2 => key' ?_, fun h1 => key' ?_, fun h1 => ?_, fun h1 => key' ?_, fun h1 => ⟨key' ?_, key' ?_, key' ?_⟩⟩
  · cases v <;> simp_all [IsNumber, IsBool, getInt]
  · cases v <;> simp_all [IsNumber, getDouble]
  · obtain ⟨a, b⟩ := key' (g := getStr) (by cases v <;> simp_all [IsStr, getStr])
    have c : parseChar p key = .exit := by unfold parseChar; rw [a]; rfl
    exact ⟨a, b, c, fun d => by rw [or_some d h, c]⟩
  · cases v <;> simp_all [IsBool, getBool]
  all_goals cases v <;> simp_all [getVec]

/-- **C45, right types.** With a value of the expected type the lookups return it, whatever the default. -/
theorem C45_right_type (round : Int → Rat) {p : Json} {key : String} {v : Json} (h : HasValue p key v) :
    (∀ z, IsInt v z → -2 ^ 31 ≤ z → z < 2 ^ 31 → parseInt p key = .ret z ∧ (∀ d, parseOr parseInt p key d = .ret z) ∧ ∀ o, tryStrict getInt p key o = .ret (true, z)) ∧
    (∀ q, v = .float q → parseDouble round p key = .ret q ∧ (∀ d, parseOr (parseDouble round) p key d = .ret q) ∧
      ∀ o, tryStrict (getDouble round) p key o = .ret (true, q)) ∧
    (∀ z, IsInt v z → parseDouble round p key = .ret (round z) ∧ (∀ d, parseOr (parseDouble round) p key d = .ret (round z)) ∧
      ∀ o, tryStrict (getDouble round) p key o = .ret (true, round z)) ∧
    (∀ s, v = .str s → parseStr p key = .ret s ∧ (∀ d, parseOr parseStr p key d = .ret s) ∧ ∀ o, tryStrict getStr p key o = .ret (true, s)) ∧
    (∀ c cs, v = .str (String.ofList (c :: cs)) → parseChar p key = .ret c ∧ (∀ d, parseOr parseChar p key d = .ret c) ∧ ∀ o, tryChar p key o = .ret (true, c)) ∧
    (v = .str "" → parseChar p key = .ret '\x00' ∧ (∀ d, parseOr parseChar p key d = .ret '\x00') ∧ ∀ o, tryChar p key o = .ret (true, '\x00')) ∧
    (∀ b, v = .bool b → parseBool p key = .ret b ∧ (∀ d, parseOr parseBool p key d = .ret b) ∧ ∀ o, tryStrict getBool p key o = .ret (true, b)) ∧
    (∀ zs, IsArray (fun v z => IsInt v z ∧ -2 ^ 31 ≤ z ∧ z < 2 ^ 31) v zs → parseIntVec p key = .ret zs ∧ (∀ d, parseOr parseIntVec p key d = .ret zs) ∧
      ∀ o, tryStrict (getVec getInt) p key o = .ret (true, zs)) ∧
    (∀ ns, IsArray (fun v n => IsSize v n ∧ n < 2 ^ 64) v ns → parseSizeTVec p key = .ret ns ∧ ∀ d, parseOr parseSizeTVec p key d = .ret ns) ∧
    (∀ qs, IsArray (fun v q => v = .float q ∨ ∃ z, IsInt v z ∧ q = round z) v qs → parseDoubleVec round p key = .ret qs ∧
      (∀ d, parseOr (parseDoubleVec round) p key d = .ret qs) ∧ ∀ o, tryStrict (getVec (getDouble round)) p key o = .ret (true, qs)) := by
  have key' : ∀ {A : Type} {g : Get A} {a : A}, g v = .ok a →
      strictParse g p key = .ret a ∧ (∀ d, parseOr (strictParse g) p key d = .ret a) ∧ ∀ o, tryStrict g p key o = .ret (true, a) := fun {A g a} hg => by
    have : strictParse g p key = .ret a := by rw [strict_some h, hg]
    exact ⟨this, fun d => by rw [or_some d h, this], fun o => by rw [try_some o h, hg]⟩
  have char' : ∀ {s : String}, v = .str s →
      parseChar p key = .ret (firstChar s) ∧ (∀ d, parseOr parseChar p key d = .ret (firstChar s)) ∧ ∀ o, tryChar p key o = .ret (true, firstChar s) := fun {s} hs => by
    have : parseChar p key = .ret (firstChar s) := by unfold parseChar; rw [strict_some h, hs]; rfl
    exact ⟨this, fun d => by rw [or_some d h, this], fun o => by unfold tryChar; rw [try_some _ h, hs]; rfl⟩
  have int1 : ∀ {v z}, IsInt v z → -2 ^ 31 ≤ z → z < 2 ^ 31 → getInt v = .ok z := fun hz h1 h2 => by
    cases hz <;> simp only [getInt] <;> rw [wrap32_of h1 h2]
  have dbl1 : ∀ {v z}, IsInt v z → getDouble round v = .ok (round z) := fun hz => by cases hz <;> rfl
  refine ⟨fun z hz h1 h2 => key' (int1 hz h1 h2), fun q hq => key' (by subst hq; rfl), fun z hz => key' (dbl1 hz), fun s hs => key' (by subst hs; rfl),
    fun c cs hs => ?_, fun hs => char' hs, fun b hb => key' (by subst hb; rfl), fun zs hzs => key' ?_, fun ns hns => ?_, fun qs hqs => key' ?_⟩
  · have := char' hs
    simp only [firstChar, String.toList_ofList, List.headD_cons] at this
    exact this
  · obtain ⟨l, rfl, hl⟩ := hzs
    exact getAll_ok (hl.imp fun v z h => int1 h.1 h.2.1 h.2.2)
  · obtain ⟨a, b, -⟩ := key' (g := getVec getSize) (a := ns) (by
      obtain ⟨l, rfl, hl⟩ := hns
      refine getAll_ok (hl.imp fun v n h => ?_)
      obtain ⟨h1, h2⟩ := h
      cases h1 with
      | uint n => rfl
      | int n =>
        simp only [getSize]
        rw [Int.emod_eq_of_lt (by omega) (by omega)]
        rfl)
    exact ⟨a, b⟩
  · obtain ⟨l, rfl, hl⟩ := hqs
    refine getAll_ok (hl.imp fun v q h => ?_)
    rcases h with rfl | ⟨z, hz, rfl⟩
    · rfl
    · exact dbl1 hz

/-- **C45, `TryParse`.** Whatever the parameters: no `TryParse` ends the program, and one that returns `false` has left its output as it was. -/
theorem C45_try (round : Int → Rat) (p : Json) (key : String) :
    (∀ o, tryStrict getInt p key o ≠ .exit ∧ ∀ o', tryStrict getInt p key o = .ret (false, o') → o' = o) ∧
    (∀ o, tryStrict (getDouble round) p key o ≠ .exit ∧ ∀ o', tryStrict (getDouble round) p key o = .ret (false, o') → o' = o) ∧
    (∀ o, tryChar p key o ≠ .exit ∧ ∀ o', tryChar p key o = .ret (false, o') → o' = o) ∧
    (∀ o, tryStrict getStr p key o ≠ .exit ∧ ∀ o', tryStrict getStr p key o = .ret (false, o') → o' = o) ∧
    (∀ o, tryStrict getBool p key o ≠ .exit ∧ ∀ o', tryStrict getBool p key o = .ret (false, o') → o' = o) ∧
    (∀ o, tryStrict (getVec getInt) p key o ≠ .exit ∧ ∀ o', tryStrict (getVec getInt) p key o = .ret (false, o') → o' = o) ∧
    (∀ o, trySizeTVec p key o ≠ .exit ∧ ∀ o', trySizeTVec p key o = .ret (false, o') → o' = o) ∧
    (∀ o, tryStrict (getVec (getDouble round)) p key o ≠ .exit ∧ ∀ o', tryStrict (getVec (getDouble round)) p key o = .ret (false, o') → o' = o) := by
  have key' : ∀ {A : Type} {g : Get A} (o : A), tryStrict g p key o ≠ .exit ∧ ∀ o', tryStrict g p key o = .ret (false, o') → o' = o := fun {A g} o => by
    unfold tryStrict
    split
    · exact ⟨by simp, fun o' h => by simp at h; exact h.symm⟩
    · split
      · exact ⟨by simp, fun o' h => by simp at h⟩
      · exact ⟨by simp, fun o' h => by simp at h; exact h.symm⟩
      · exact ⟨by simp, fun o' h => by simp at h⟩
  refine ⟨key', key', fun o => ?_, key', key', key', fun o => ?_, key'⟩
  · have := (key' (g := getStr) "").1
    unfold tryChar
    split
    · exact ⟨by simp, fun o' h => by simp at h⟩
    · exact ⟨by simp, fun o' h => by simp at h; exact h.symm⟩
    · rename_i h; exact absurd h this
    · exact ⟨by simp, fun o' h => by simp at h⟩
  · unfold trySizeTVec
    split
    · exact ⟨by simp, fun o' h => by simp at h; exact h.symm⟩
    · split
      · exact ⟨by simp, fun o' h => by simp at h⟩
      · exact ⟨by simp, fun o' h => by simp at h; exact h.symm⟩
    · exact ⟨by simp, fun o' h => by simp at h; exact h.symm⟩

/-- **C45, `TryParseSizeTVec`** accepts exactly the arrays of nonnegative integers: negative numbers, fractions and everything else make it return `false`. -/
theorem C45_try_sizes (p : Json) (key : String) (out : List Nat) :
    (∀ ns, trySizeTVec p key out = .ret (true, ns) ↔ ∃ v, HasValue p key v ∧ IsArray IsSize v ns) ∧
    ((∀ v ns, HasValue p key v → ¬ IsArray IsSize v ns) → trySizeTVec p key out = .ret (false, out)) := by
  have hex : ∀ l, HasValue p key (.arr l) → trySizeTVec p key out = match sizeLoop l with
      | some parsed => .ret (true, parsed)
      | none => .ret (false, out) := fun l h => by
    unfold trySizeTVec
    rw [find_some.mpr h]
    rfl
  constructor
  · intro ns
    constructor
    · intro h
      unfold trySizeTVec at h
      split at h
      · simp at h
      · rename_i l hf
        split at h
        · rename_i parsed hp
          simp only [Out.ret.injEq, Prod.mk.injEq, true_and] at h
          subst h
          exact ⟨.arr l, find_some.mp hf, l, rfl, sizeLoop_iff.mp hp⟩
        · simp at h
      · simp at h
    · rintro ⟨v, hv, l, rfl, hl⟩
      rw [hex l hv, sizeLoop_iff.mpr hl]
  · intro h
    unfold trySizeTVec
    split
    · rfl
    · rename_i l hf
      split
      · rename_i parsed hp
        exact absurd ⟨l, rfl, sizeLoop_iff.mp hp⟩ (h _ parsed (find_some.mp hf))
      · rfl
    · rfl

/-- **C45 is violated by `ParseSizeTVec`:** the unchanged code turns a negative entry into a huge number and drops the fraction of another instead of rejecting them
(`TryParseSizeTVec` rejects both). -/
theorem C45_sizes_violation :
    parseSizeTVec (.obj [("n", .arr [.int (-1)])]) "n" = .ret [18446744073709551615] ∧
    parseSizeTVec (.obj [("n", .arr [.float (5 / 2)])]) "n" = .ret [2] ∧
    trySizeTVec (.obj [("n", .arr [.int (-1)])]) "n" [] = .ret (false, []) ∧
    trySizeTVec (.obj [("n", .arr [.float (5 / 2)])]) "n" [] = .ret (false, []) := by
  refine ⟨by decide +kernel, by decide +kernel, by decide +kernel, by decide +kernel⟩

/-- **C45 is violated by `ParseInt`:** a fraction is truncated, a boolean and an integer out of range are converted, and a large floating-point number such as `1e10` leads to undefined
behaviour, also in `TryParseInt`. -/
theorem C45_int_violation :
    parseInt (.obj [("n", .float (5 / 2))]) "n" = .ret 2 ∧
    parseInt (.obj [("n", .bool true)]) "n" = .ret 1 ∧
    parseInt (.obj [("n", .uint (2 ^ 32 + 5))]) "n" = .ret 5 ∧
    parseInt (.obj [("n", .float (10 ^ 10))]) "n" = .ub ∧
    tryStrict getInt (.obj [("n", .float (10 ^ 10))]) "n" 0 = .ub := by
  refine ⟨by decide +kernel, by decide +kernel, by decide +kernel, by decide +kernel, by decide +kernel⟩

/-- **What `ParseInt` and `ParseSizeTVec` make of floating-point numbers:** every number that lies strictly between the bounds of the type extended by one is cut towards zero
(to the integer `z` whose distance from it is less than one and which is not further from zero); any other number is undefined behaviour. -/
theorem C45_floats {p : Json} {key : String} {q : Rat} (h : HasValue p key (.float q)) :
    ((-2 ^ 31 - 1 < q ∧ q < 2 ^ 31) → ∃ z : Int, parseInt p key = .ret z ∧ |q - z| < 1 ∧ (0 ≤ q → 0 ≤ z ∧ (z : Rat) ≤ q) ∧ (q ≤ 0 → z ≤ 0 ∧ q ≤ (z : Rat))) ∧
    (¬ (-2 ^ 31 - 1 < q ∧ q < 2 ^ 31) → parseInt p key = .ub) ∧
    ((-1 < q ∧ q < 2 ^ 64) → ∃ n : Nat, getSize (.float q) = .ok n ∧ |q - n| < 1 ∧ (0 ≤ q → (n : Rat) ≤ q) ∧ (q ≤ 0 → n = 0)) ∧
    (¬ (-1 < q ∧ q < 2 ^ 64) → getSize (.float q) = .error .ub) := by
  obtain ⟨z, hz⟩ : ∃ z : Int, z = if 0 ≤ q then ⌊q⌋ else ⌈q⌉ := ⟨_, rfl⟩
  have near : |q - z| < 1 ∧ (0 ≤ q → 0 ≤ z ∧ (z : Rat) ≤ q) ∧ (q ≤ 0 → z ≤ 0 ∧ q ≤ (z : Rat)) := by
    by_cases hq : 0 ≤ q
    · rw [if_pos hq] at hz
      have h1 := Int.floor_le q
      have h2 := Int.lt_floor_add_one q
      rw [← hz] at h1 h2
      have h0 : 0 ≤ z := by rw [hz]; exact Int.floor_nonneg.mpr hq
      refine ⟨by rw [abs_lt]; constructor <;> linarith, fun _ => ⟨h0, h1⟩, fun hq' => ?_⟩
      have e : q = 0 := le_antisymm hq' hq
      subst e
      simp at hz
      simp [hz]
    · rw [if_neg hq] at hz
      have h1 := Int.le_ceil q
      have h2 := Int.ceil_lt_add_one q
      rw [← hz] at h1 h2
      refine ⟨by rw [abs_lt]; constructor <;> linarith, fun hq' => absurd hq' hq, fun hq' => ⟨?_, h1⟩⟩
      rw [hz]
      exact Int.ceil_le.mpr (by simpa using hq')
  have tr : ∀ lo hi, truncTo lo hi q = if lo ≤ z ∧ z ≤ hi then .ok z else .error .ub := fun lo hi => by
    unfold truncTo
    simp only [← hz]
  obtain ⟨n1, n2, n3⟩ := near
  rw [abs_lt] at n1
  have rng : ∀ lo hi : Int, lo ≤ 0 → 0 ≤ hi → ((lo ≤ z ∧ z ≤ hi) ↔ ((lo : Rat) - 1 < q ∧ q < hi + 1)) := by
    intro lo hi hlo hhi
    have hlo' : (lo : Rat) ≤ 0 := by exact_mod_cast hlo
    have hhi' : (0 : Rat) ≤ hi := by exact_mod_cast hhi
    constructor
    · rintro ⟨a, b⟩
      have a' : (lo : Rat) ≤ z := by exact_mod_cast a
      have b' : (z : Rat) ≤ hi := by exact_mod_cast b
      constructor <;> linarith
    · rintro ⟨a, b⟩
      rcases le_total 0 q with hq | hq
      · obtain ⟨p1, p2⟩ := n2 hq
        refine ⟨by omega, ?_⟩
        have : (z : Rat) < hi + 1 := by linarith
        have : z < hi + 1 := by exact_mod_cast this
        omega
      · obtain ⟨p1, p2⟩ := n3 hq
        refine ⟨?_, by omega⟩
        have : (lo : Rat) - 1 < z := by linarith
        have : lo - 1 < z := by exact_mod_cast this
        omega
  have r1 := rng (-2 ^ 31) (2 ^ 31 - 1) (by norm_num) (by norm_num)
  have r2 := rng 0 (2 ^ 64 - 1) (by norm_num) (by norm_num)
  have e1 : parseInt p key = _ := strict_some (g := getInt) h
  have g1 : getInt (.float q) = if -2 ^ 31 ≤ z ∧ z ≤ 2 ^ 31 - 1 then .ok z else .error .ub := tr _ _
  have g2 : getSize (.float q) = (if 0 ≤ z ∧ z ≤ 2 ^ 64 - 1 then (.ok z : Except GetErr Int) else .error .ub).map Int.toNat := by
    rw [← tr]
    rfl
  refine ⟨fun hq => ?_, fun hq => ?_, fun hq => ?_, fun hq => ?_⟩
  · have : -2 ^ 31 ≤ z ∧ z ≤ 2 ^ 31 - 1 := r1.mpr ⟨by push_cast; linarith [hq.1], by push_cast; linarith [hq.2]⟩
    exact ⟨z, by rw [e1, g1, if_pos this], abs_lt.mpr n1, n2, n3⟩
  · have : ¬ (-2 ^ 31 ≤ z ∧ z ≤ 2 ^ 31 - 1) := fun hz' => hq (by
      have := r1.mp hz'
      push_cast at this
      exact ⟨by linarith [this.1], by linarith [this.2]⟩)
    rw [e1, g1, if_neg this]
  · have hz' : 0 ≤ z ∧ z ≤ 2 ^ 64 - 1 := r2.mpr ⟨by push_cast; linarith [hq.1], by push_cast; linarith [hq.2]⟩
    have hc : ((z.toNat : Nat) : Rat) = z := by
      have : ((z.toNat : Nat) : Int) = z := Int.toNat_of_nonneg hz'.1
      exact_mod_cast this
    refine ⟨z.toNat, by rw [g2, if_pos hz']; rfl, by rw [hc]; exact abs_lt.mpr n1, fun h0 => by rw [hc]; exact (n2 h0).2, fun h0 => ?_⟩
    have := (n3 h0).1
    omega
  · have : ¬ (0 ≤ z ∧ z ≤ 2 ^ 64 - 1) := fun hz' => hq (by
      have := r2.mp hz'
      push_cast at this
      exact ⟨by linarith [this.1], by linarith [this.2]⟩)
    rw [g2, if_neg this]
    rfl

/-! ### The hypotheses are met -/

example : HasValue (.obj [("x", .float (5 / 2))]) "x" (.float (5 / 2)) ∧ ((-2 ^ 31 - 1 : Rat) < 5 / 2 ∧ (5 / 2 : Rat) < 2 ^ 31) := by
  refine ⟨⟨_, rfl, rfl⟩, by norm_num, by norm_num⟩

example : HasValue (.obj [("L", .uint 8), ("D", .arr [.uint 10, .uint 20])]) "D" (.arr [.uint 10, .uint 20]) := ⟨_, rfl, rfl⟩
example : NoKey (.obj [("L", .uint 8)]) "D" := find_none.mp rfl
example : IsArray (fun v n => IsSize v n ∧ n < 2 ^ 64) (.arr [.uint 10, .uint 20]) [10, 20] :=
  ⟨_, rfl, .cons ⟨.uint 10, by omega⟩ (.cons ⟨.uint 20, by omega⟩ .nil)⟩
example : parser (.obj [("CaseParams", .obj [("L", .uint 8)])]) = .ret (.obj [("L", .uint 8)]) := rfl

end Verif.Props
