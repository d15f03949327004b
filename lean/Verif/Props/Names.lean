import Verif.Mps.Names
import Mathlib.Tactic.Ring
import Mathlib.Tactic.Linarith
import Mathlib.Tactic.NormNum
import Mathlib.Tactic.FieldSimp
import Mathlib.Tactic.Positivity
/-
C87: the names of the files.
-/
namespace Verif.Props
open Verif.Mps.Names

/-- The two ends of the chain, `"l"` and `"r"`. -/
inductive Side | left | right
  deriving DecidableEq

/-- The letter of a side. -/
def Side.text : Side → List Char
  | .left => ['l']
  | .right => ['r']

/-- What the programs keep in files: the tensor of a site of a state, the tensor of a site of an operator and its centre, the environment
of a block, a component of the operators of a block. -/
inductive Item
  | mps (i : Nat)
  | mpo (i : Nat)
  | center
  | env (s : Side) (len : Int)
  | op (s : Side) (len comp : Nat)
  deriving DecidableEq

/-- The name the library gives the file of an item in a directory. -/
def fileOf (suf path : List Char) : Item → List Char
  | .mps i => mpsTen suf path i
  | .mpo i => mpoTen suf path i
  | .center => mpoCenter path
  | .env s len => envTen suf s.text len path
  | .op s len comp => opFile suf s.text len comp path

/-- A use of the file system: a file is written or removed. -/
inductive Use (V : Type)
  | write (path : List Char) (it : Item) (v : V)
  | remove (path : List Char) (it : Item)

/-- The file system after uses in order; files are found by name. -/
def run {V : Type} (suf : List Char) : List (Use V) → (List Char → Option V) → List Char → Option V
  | [], fs => fs
  | .write p it v :: us, fs => run suf us fun f => if f = fileOf suf p it then some v else fs f
  | .remove p it :: us, fs => run suf us fun f => if f = fileOf suf p it then none else fs f

/-- What a reader of an item expects: the value written last, nothing after a removal, the old content if the item was not touched. -/
def latest {V : Type} (path : List Char) (it : Item) (old : Option V) : List (Use V) → Option V
  | [] => old
  | .write p i v :: us => latest path it (if p = path ∧ i = it then some v else old) us
  | .remove p i :: us => latest path it (if p = path ∧ i = it then none else old) us

theorem dec_digit (n : Nat) : ∀ c ∈ dec n, c.isDigit = true := fun _ hc =>
  Nat.isDigit_of_mem_toDigits (by decide) (by decide) hc

theorem dec_inj {n m : Nat} (h : dec n = dec m) : n = m := by
  have := congrArg (fun l => Nat.ofDigitChars 10 l 0) h
  simpa [dec, Nat.ofDigitChars_toDigits] using this

theorem dec_head {n : Nat} {r s : List Char} : dec n ++ r ≠ '-' :: s := by
  intro h
  cases e : dec n with
  | nil => exact Nat.toDigits_ne_nil e
  | cons c cs =>
    rw [e] at h
    have : c = '-' := by simpa using (List.cons.inj h).1
    exact absurd (dec_digit n c (by rw [e]; simp)) (by rw [this]; decide)

theorem decI_inj {z w : Int} (h : decI z = decI w) : z = w := by
  cases z with
  | ofNat n =>
    cases w with
    | ofNat m => rw [dec_inj h]
    | negSucc m => exact absurd (by simpa [decI] using h : dec n ++ [] = '-' :: dec (m + 1)) dec_head
  | negSucc n =>
    cases w with
    | ofNat m => exact absurd (by simpa [decI] using h.symm : dec m ++ [] = '-' :: dec (n + 1)) dec_head
    | negSucc m =>
      have := dec_inj (List.cons.inj h).2
      rw [Nat.succ.inj this]

/-- Splitting at the first occurrence of a character. -/
theorem sep_left {α : Type} {c : α} : ∀ {a a' r r' : List α}, c ∉ a → c ∉ a' → a ++ c :: r = a' ++ c :: r' → a = a' ∧ r = r'
  | [], [], _, _, _, _, h => ⟨rfl, by simpa using h⟩
  | [], x :: a', _, _, _, h', h => by
    have := (List.cons.inj h).1; subst this; simp at h'
  | x :: a, [], _, _, h', _, h => by
    have := (List.cons.inj h).1; subst this; simp at h'
  | x :: a, y :: a', _, _, h1, h2, h => by
    obtain ⟨e, t⟩ := List.cons.inj h
    subst e
    obtain ⟨ha, hr⟩ := sep_left (fun m => h1 (List.mem_cons_of_mem _ m)) (fun m => h2 (List.mem_cons_of_mem _ m)) t
    exact ⟨by rw [ha], hr⟩

/-- Splitting at the last occurrence of a character. -/
theorem sep_right {α : Type} {c : α} {a a' r r' : List α} (h1 : c ∉ a) (h2 : c ∉ a') (h : r ++ c :: a = r' ++ c :: a') : r = r' ∧ a = a' := by
  have := congrArg List.reverse h
  simp only [List.reverse_append, List.reverse_cons, List.append_assoc, List.singleton_append] at this
  obtain ⟨x, y⟩ := sep_left (by simpa using h1) (by simpa using h2) this
  exact ⟨List.reverse_injective y, List.reverse_injective x⟩

theorem not_mem_dec {c : Char} (h : c.isDigit = false) (n : Nat) : c ∉ dec n := fun m => by
  have := dec_digit n c m; rw [h] at this; exact absurd this (by decide)

theorem not_mem_decI {c : Char} (h : c.isDigit = false) (h' : c ≠ '-') (z : Int) : c ∉ decI z := by
  cases z with
  | ofNat n => exact not_mem_dec h n
  | negSucc n => simp [decI, h', not_mem_dec h]

/-- The part of a name behind the directory. -/
def baseOf (suf : List Char) : Item → List Char
  | .mps i => ['m', 'p', 's', '_', 't', 'e', 'n'] ++ dec i ++ ['.'] ++ suf
  | .mpo i => ['m', 'p', 'o'] ++ dec i ++ ['.'] ++ suf
  | .center => ['c', 'e', 'n', 't', 'e', 'r']
  | .env s len => s.text ++ ['e', 'n', 'v'] ++ decI len ++ ['.'] ++ suf
  | .op s len comp => s.text ++ ['o', 'p'] ++ dec len ++ ['C', 'o', 'm', 'p'] ++ dec comp ++ ['.'] ++ suf

theorem fileOf_eq (suf path : List Char) (it : Item) : fileOf suf path it = path ++ '/' :: baseOf suf it := by
  cases it <;> simp [fileOf, baseOf, mpsTen, mpoTen, mpoCenter, envTen, opFile]

theorem slash_base {suf : List Char} (h : '/' ∉ suf) (it : Item) : '/' ∉ baseOf suf it := by
  have d : ∀ n, '/' ∉ dec n := not_mem_dec (by decide)
  have z : ∀ n, '/' ∉ decI n := not_mem_decI (by decide) (by decide)
  rcases it with i | i | _ | ⟨s | s, len⟩ | ⟨s | s, len, comp⟩ <;> simp [baseOf, Side.text, h, d, z]

theorem base_inj {suf : List Char} {i j : Item} (h : baseOf suf i = baseOf suf j) : i = j := by
  rcases i with i | i | _ | ⟨_ | _, i⟩ | ⟨_ | _, i, k⟩ <;> rcases j with j | j | _ | ⟨_ | _, j⟩ | ⟨_ | _, j, l⟩ <;>
    simp [baseOf, Side.text] at h <;> try rfl
  all_goals first
    | rw [dec_inj h]
    | rw [decI_inj h]
    | (obtain ⟨e, t⟩ := sep_left (not_mem_dec (by decide) _) (not_mem_dec (by decide) _) h
       simp at t
       rw [dec_inj e, dec_inj t])

/-- **C87.** The names of two files are equal only if they are in the same directory and hold the same item: no tensor, environment or block operator ever takes the place of another one,
whatever the number of sites, the lengths of the blocks and the number of components. -/
theorem C87_distinct {suf : List Char} (hs : '/' ∉ suf) {p q : List Char} {i j : Item} : fileOf suf p i = fileOf suf q j ↔ p = q ∧ i = j := by
  constructor
  · intro h
    rw [fileOf_eq, fileOf_eq] at h
    obtain ⟨a, b⟩ := sep_right (slash_base hs i) (slash_base hs j) h
    exact ⟨a, base_inj b⟩
  · rintro ⟨rfl, rfl⟩; rfl

/-- **C87, histories.** After any sequence of writes and removals, in any directories, a reader finds under the name of an item what was written last for this item. -/
theorem C87_history {V : Type} {suf : List Char} (hs : '/' ∉ suf) (p : List Char) (it : Item) : ∀ (us : List (Use V)) (fs : List Char → Option V),
    run suf us fs (fileOf suf p it) = latest p it (fs (fileOf suf p it)) us := by
  intro us
  induction us with
  | nil => intro fs; rfl
  | cons u us ih =>
    intro fs
    cases u with
    | write q i v =>
      rw [run, ih, latest]
      simp only [C87_distinct hs]
      congr 1
      simp only [eq_comm]
    | remove q i =>
      rw [run, ih, latest]
      simp only [C87_distinct hs]
      congr 1
      simp only [eq_comm]

/-- Two directories, and two blocks whose digits run together. -/
example : run "qlten".toList [.write ".temp".toList (.op .left 1 11) (1 : Nat), .write ".temp".toList (.op .left 11 1) 2,
    .write "mps".toList (.mps 1) 3, .remove "mps".toList (.mps 11)] (fun _ => none) ".temp/lop1Comp11.qlten".toList = some 1 := by decide +kernel
example : fileOf "qlten".toList "mps".toList (.mps 12) = "mps/mps_ten12.qlten".toList := by decide +kernel
example : fileOf "qlten".toList ".temp".toList (.env .right 3) = ".temp/renv3.qlten".toList := by decide +kernel

theorem pad0_inj {w m n : Nat} (h : pad0 w (dec m) = pad0 w (dec n)) : m = n := by
  have := congrArg (fun l => Nat.ofDigitChars 10 l 0) h
  simpa [pad0, dec, Nat.ofDigitChars_append, Nat.ofDigitChars_toDigits] using this

theorem decF_inj {s t : ℚ} : decF s = decF t ↔ ((s < 0 ↔ t < 0) ∧ roundEven (|s| * 10 ^ 6) = roundEven (|t| * 10 ^ 6)) := by
  have key : ∀ m n : Nat, dec (m / 10 ^ 6) ++ '.' :: pad0 6 (dec (m % 10 ^ 6)) = dec (n / 10 ^ 6) ++ '.' :: pad0 6 (dec (n % 10 ^ 6)) → m = n := by
    intro m n h
    obtain ⟨a, b⟩ := sep_left (not_mem_dec (by decide) _) (not_mem_dec (by decide) _) h
    have a := dec_inj a
    have b := pad0_inj b
    omega
  constructor
  · intro h
    unfold decF at h
    by_cases hs : s < 0 <;> by_cases ht : t < 0
    · simp only [hs, ht, if_true, List.cons_append] at h
      exact ⟨by simp [hs, ht], key _ _ (List.cons.inj h).2⟩
    · simp only [hs, ht, if_true, if_false, List.cons_append, List.nil_append] at h
      exact absurd h.symm dec_head
    · simp only [hs, ht, if_true, if_false, List.cons_append, List.nil_append] at h
      exact absurd h dec_head
    · simp only [hs, ht, if_false, List.nil_append] at h
      exact ⟨by simp [hs, ht], key _ _ h⟩
  · rintro ⟨a, b⟩
    unfold decF
    rw [b]
    by_cases hs : s < 0
    · simp [hs, a.1 hs]
    · have ht : ¬ t < 0 := fun h => hs (a.2 h)
      simp [hs, ht]

theorem u_decF (t : ℚ) : 'u' ∉ decF t := by
  have d : ∀ n, 'u' ∉ dec n := not_mem_dec (by decide)
  unfold decF
  by_cases h : t < 0 <;> simp [h, d, pad0]

theorem hnPath_inj {p q : List Char} {m n : Nat} {s t : ℚ} : hnPath p m s = hnPath q n t ↔ p = q ∧ m = n ∧ decF s = decF t := by
  constructor
  · intro h
    have h' : (p ++ ['_', 'H'] ++ dec m ++ ['_', 't', 'a']) ++ 'u' :: decF s = (q ++ ['_', 'H'] ++ dec n ++ ['_', 't', 'a']) ++ 'u' :: decF t := by
      simpa [hnPath] using h
    obtain ⟨a, b⟩ := sep_right (u_decF s) (u_decF t) h'
    have a' := List.append_cancel_right a
    have a'' : (p ++ ['_']) ++ 'H' :: dec m = (q ++ ['_']) ++ 'H' :: dec n := by simpa using a'
    obtain ⟨c, d⟩ := sep_right (not_mem_dec (by decide) _) (not_mem_dec (by decide) _) a''
    exact ⟨List.append_cancel_right c, dec_inj d, b⟩
  · rintro ⟨rfl, rfl, h⟩; simp [hnPath, h]

theorem roundEven_near {x : ℚ} (h : 0 ≤ x) : |(roundEven x : ℚ) - x| ≤ 1 / 2 := by
  have f0 : 0 ≤ ⌊x⌋ := Int.floor_nonneg.2 h
  have fc : ((⌊x⌋.toNat : Nat) : ℚ) = (⌊x⌋ : ℚ) := by
    have : ((⌊x⌋.toNat : Nat) : ℤ) = ⌊x⌋ := Int.toNat_of_nonneg f0
    exact_mod_cast congrArg (Int.cast (R := ℚ)) this
  have l := Int.floor_le x
  have u := Int.lt_floor_add_one x
  unfold roundEven
  dsimp only
  rw [← fc] at l u
  split_ifs with a b c
  · rw [abs_le]; constructor <;> linarith
  · rw [abs_le]; push_cast; constructor <;> linarith
  · rw [abs_le]; constructor <;> linarith
  · rw [abs_le]; push_cast; constructor <;> linarith

/-- **C87, powers.** The directories in which `ExpFiniteMPO` keeps the terms of different orders, of different prefixes, or of values of `tau` of the same sign more than 1e-6 apart
are different. -/
theorem C87_powers {p q : List Char} {m n : Nat} {s t : ℚ} (h : p ≠ q ∨ m ≠ n ∨ (s < 0 ∧ 0 ≤ t) ∨ (0 ≤ s ∧ t < 0) ∨ 1 / 10 ^ 6 < |s - t|) : hnPath p m s ≠ hnPath q n t := by
  intro e
  obtain ⟨rfl, rfl, d⟩ := hnPath_inj.1 e
  obtain ⟨sg, r⟩ := decF_inj.1 d
  rcases h with h | h | ⟨h, h'⟩ | ⟨h, h'⟩ | h
  · exact h rfl
  · exact h rfl
  · exact absurd (sg.1 h) (not_lt.2 h')
  · exact absurd (sg.2 h') (not_lt.2 h)
  · have a := roundEven_near (x := |s| * 10 ^ 6) (by positivity)
    have b := roundEven_near (x := |t| * 10 ^ 6) (by positivity)
    rw [r] at a
    rw [abs_le] at a b
    have : |s - t| = |(|s|) - (|t|)| := by
      by_cases hs : s < 0
      · rw [abs_of_neg hs, abs_of_neg (sg.1 hs), ← abs_neg]; congr 1; ring
      · have ht : ¬ t < 0 := fun h => hs (sg.2 h)
        rw [abs_of_nonneg (not_lt.1 hs), abs_of_nonneg (not_lt.1 ht)]
    rw [this, lt_abs] at h
    rcases h with h | h <;> norm_num at h a b <;> linarith [a.1, a.2, b.1, b.2]

/-- **C87, violation.** All non-negative values of `tau` below 5e-7 share their directories, so `ExpFiniteMPO` for one of them overwrites the saved terms of another one and starts its compressing
products from them. -/
theorem C87_small_tau_violation {p : List Char} {n : Nat} {s t : ℚ} (hs : 0 ≤ s) (hs' : s < 1 / (2 * 10 ^ 6)) (ht : 0 ≤ t) (ht' : t < 1 / (2 * 10 ^ 6)) :
    hnPath p n s = hnPath p n t := by
  have z : ∀ x : ℚ, 0 ≤ x → x < 1 / (2 * 10 ^ 6) → roundEven (|x| * 10 ^ 6) = 0 := by
    intro x h h'
    rw [abs_of_nonneg h]
    have hf : ⌊x * 10 ^ 6⌋ = 0 := by
      rw [Int.floor_eq_zero_iff]
      constructor
      · positivity
      · norm_num at h' ⊢; linarith
    unfold roundEven
    dsimp only
    rw [hf]
    have : x * 10 ^ 6 - ((0 : ℤ).toNat : ℚ) < 1 / 2 := by
      norm_num at h' ⊢; linarith
    rw [if_pos this]; rfl
  refine hnPath_inj.2 ⟨rfl, rfl, decF_inj.2 ⟨?_, ?_⟩⟩
  · simp [not_lt.2 hs, not_lt.2 ht]
  · rw [z s hs hs', z t ht ht']

example : hnPath "rho".toList 2 (1 / 10) = "rho_H2_tau0.100000".toList := by decide +kernel
example : hnPath "rho".toList 2 (-25 / 2) = "rho_H2_tau-12.500000".toList := by decide +kernel
example : hnPath "rho".toList 2 (1 / 10 ^ 7) = hnPath "rho".toList 2 (4 / 10 ^ 7) := by decide +kernel
example : hnPath "rho".toList 2 (1 / 10 ^ 5) ≠ hnPath "rho".toList 2 (1 / 10 ^ 4) := by decide +kernel

end Verif.Props
