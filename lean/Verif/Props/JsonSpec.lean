import Mathlib.Data.Rat.Defs
import Mathlib.Algebra.Order.Field.Rat
/-
Specification for C86: a reader of JSON texts made of numbers and arrays (RFC 8259), independent of the code.
-/
namespace Verif.Props

/-- Values: numbers and arrays. -/
inductive Json where
  | num (q : ℚ)
  | arr (l : List Json)

/-- The characters of numbers. -/
def numChar (c : Char) : Bool := c.isDigit || c == '-' || c == '+' || c == '.' || c == 'e' || c == 'E'

/-- `int`: digits without a superfluous leading zero. -/
def jsonInt (ds : List Char) : Option ℚ :=
  if ds = [] ∨ (ds.head? = some '0' ∧ ds.length ≠ 1) then none else some (Nat.ofDigitChars 10 ds 0 : ℚ)

/-- `[ exp ]`: `e` or `E`, an optional sign, digits. -/
def jsonExp : List Char → Option ℚ
  | [] => some 1
  | c :: s =>
    if c = 'e' ∨ c = 'E' then
      match s with
      | '-' :: ds => if ds ≠ [] ∧ ds.all Char.isDigit then some ((10 : ℚ) ^ (-(Nat.ofDigitChars 10 ds 0 : ℤ))) else none
      | '+' :: ds => if ds ≠ [] ∧ ds.all Char.isDigit then some ((10 : ℚ) ^ (Nat.ofDigitChars 10 ds 0)) else none
      | ds => if ds ≠ [] ∧ ds.all Char.isDigit then some ((10 : ℚ) ^ (Nat.ofDigitChars 10 ds 0)) else none
    else none

/-- `[ frac ] [ exp ]` after the integer part `q`. -/
def jsonFrac (q : ℚ) : List Char → Option ℚ
  | '.' :: s =>
    let ds := s.takeWhile Char.isDigit
    if ds = [] then none
    else (jsonExp (s.dropWhile Char.isDigit)).map
      ((q + (Nat.ofDigitChars 10 ds 0 : ℚ) / (10 : ℚ) ^ ds.length) * ·)
  | s => (jsonExp s).map (q * ·)

/-- `int [ frac ] [ exp ]`. -/
def jsonUnsigned (s : List Char) : Option ℚ :=
  (jsonInt (s.takeWhile Char.isDigit)).bind fun q => jsonFrac q (s.dropWhile Char.isDigit)

/-- `number = [ minus ] int [ frac ] [ exp ]`: the value, `none` if the text is no number. -/
def jsonNumber : List Char → Option ℚ
  | '-' :: s => (jsonUnsigned s).map (- ·)
  | s => jsonUnsigned s

inductive Tok where
  | open_ | close | comma
  | num (s : List Char)

/-- The number read so far, if any. -/
def flush (acc : List Char) : List Tok := if acc = [] then [] else [.num acc]

/-- White space. -/
def jsonSpace (c : Char) : Bool := c == ' ' || c == '\n' || c == '\r' || c == '\t'

/-- Division into tokens; `acc` is the number being read. -/
def tokens : List Char → List Char → Option (List Tok)
  | acc, [] => some (flush acc)
  | acc, c :: cs =>
    if c = '[' then (tokens [] cs).map (flush acc ++ .open_ :: ·)
    else if c = ']' then (tokens [] cs).map (flush acc ++ .close :: ·)
    else if c = ',' then (tokens [] cs).map (flush acc ++ .comma :: ·)
    else if jsonSpace c then (tokens [] cs).map (flush acc ++ ·)
    else if numChar c then tokens (acc ++ [c]) cs
    else none

/-- What may come next: a value; a value or the end of the array just opened; a comma or the end of the array. -/
inductive Expect where
  | value | first | after

/-- The value of a token sequence. `st` are the elements read so far of the open arrays, innermost first. -/
def parse : List (List Json) → Expect → List Tok → Option Json
  | st, .value, .open_ :: ts => parse ([] :: st) .first ts
  | st, .first, .open_ :: ts => parse ([] :: st) .first ts
  | top :: st, .value, .num s :: ts => (jsonNumber s).bind fun q => parse ((top ++ [.num q]) :: st) .after ts
  | top :: st, .first, .num s :: ts => (jsonNumber s).bind fun q => parse ((top ++ [.num q]) :: st) .after ts
  | [], .value, [.num s] => (jsonNumber s).map .num
  | top :: st, .after, .comma :: ts => parse (top :: st) .value ts
  | top :: up :: st, .first, .close :: ts => parse ((up ++ [.arr top]) :: st) .after ts
  | top :: up :: st, .after, .close :: ts => parse ((up ++ [.arr top]) :: st) .after ts
  | [top], .first, [.close] => some (.arr top)
  | [top], .after, [.close] => some (.arr top)
  | _, _, _ => none

/-- Reading a JSON text. -/
def readJson (s : List Char) : Option Json := (tokens [] s).bind (parse [] .value)

end Verif.Props
