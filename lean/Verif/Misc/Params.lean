import Mathlib.Data.Rat.Floor

/-!
# The parser of simulation parameters

`case_params_parser.h`, on top of the copy of nlohmann/json 3.7.0 in `third_party`.
Simplification: the text of the file is already a JSON value; a floating-point number is the rational number it stands for (JSON has no infinities);
`round` is the conversion of an integer to `double`.
-/
namespace Verif.Misc

/-- A JSON value.  The lexer makes `uint` of a number without sign and `int` of one with sign, if they fit, and `float` otherwise
(`third_party/nlohmann/json.hpp:8178-8214`). An object has each key at most once. -/
inductive Json where
  | null
  | bool (b : Bool)
  | uint (n : Nat)
  | int (z : Int)
  | float (q : Rat)
  | str (s : String)
  | arr (l : List Json)
  | obj (l : List (String × Json))

/-- The ways in which `get<T>()` can fail: an exception, or a conversion of a floating-point number that is out of range, which is undefined behaviour. -/
inductive GetErr where
  | throw
  | ub
deriving DecidableEq

abbrev Get (A : Type) := Json → Except GetErr A

/-- `double` to an integer type: truncation, undefined outside the range. -/
def truncTo (lo hi : Int) (q : Rat) : Except GetErr Int :=
  let z := if 0 ≤ q then ⌊q⌋ else ⌈q⌉
  if lo ≤ z ∧ z ≤ hi then .ok z else .error .ub

/-- An integer to `int` (two's complement). -/
def wrap32 (z : Int) : Int := (z + 2 ^ 31) % 2 ^ 32 - 2 ^ 31

/-- `get<int>()` (`json.hpp:3050-3078`). -/
def getInt : Get Int
  | .uint n => .ok (wrap32 n)
  | .int z => .ok (wrap32 z)
  | .float q => truncTo (-2 ^ 31) (2 ^ 31 - 1) q
  | .bool b => .ok (if b then 1 else 0)
  | _ => .error .throw

/-- `get<size_t>()` (`json.hpp:2878-2881, 2809-2832`). -/
def getSize : Get Nat
  | .uint n => .ok n
  | .int z => .ok (z % 2 ^ 64).toNat
  | .float q => (truncTo 0 (2 ^ 64 - 1) q).map Int.toNat
  | _ => .error .throw

/-- `get<double>()` (`json.hpp:2872-2875, 2809-2832`). -/
def getDouble (round : Int → Rat) : Get Rat
  | .uint n => .ok (round n)
  | .int z => .ok (round z)
  | .float q => .ok q
  | _ => .error .throw

/-- `get<bool>()`, `get<std::string>()` (`json.hpp:2835-2852`). -/
def getBool : Get Bool
  | .bool b => .ok b
  | _ => .error .throw
def getStr : Get String
  | .str s => .ok s
  | _ => .error .throw

/-- All elements in order, up to the first failure. -/
def getAll {A : Type} (g : Get A) : List Json → Except GetErr (List A)
  | [] => .ok []
  | x :: l =>
    match g x with
    | .error e => .error e
    | .ok a =>
      match getAll g l with
      | .error e => .error e
      | .ok as => .ok (a :: as)

/-- `get<std::vector<A>>()` (`json.hpp:2953-3014`). -/
def getVec {A : Type} (g : Get A) : Get (List A)
  | .arr l => getAll g l
  | _ => .error .throw

/-- What a call does: it returns, ends the program with an error message, or its behaviour is undefined. -/
inductive Out (A : Type) where
  | ret (a : A)
  | exit
  | ub
deriving DecidableEq

/-- `find` (`json.hpp:18353-18363`): nothing is found in a value that is not an object. -/
def find (j : Json) (key : String) : Option Json :=
  match j with
  | .obj l => l.lookup key
  | _ => none

/-- The constructor (`case_params_parser.h:43-62`) on the value in the file. -/
def parser (raw : Json) : Out Json :=
  match find raw "CaseParams" with
  | some p => .ret p
  | none => .exit

/-- `StrictParse` (`case_params_parser.h:253-265`). -/
def strictParse {A : Type} (g : Get A) (params : Json) (key : String) : Out A :=
  match find params key with
  | none => .exit
  | some v =>
    match g v with
    | .ok a => .ret a
    | .error .throw => .exit
    | .error .ub => .ub

/-- The first character of a string, or the null character (`case_params_parser.h:82-84`, `:206`). -/
def firstChar (s : String) : Char := s.toList.headD '\x00'

def Out.map {A B : Type} (f : A → B) : Out A → Out B
  | .ret a => .ret (f a)
  | .exit => .exit
  | .ub => .ub

/-- `Has` (`case_params_parser.h:122-127`). -/
def has (params : Json) (key : String) : Bool := (find params key).isSome

/-- `ParseInt`, …, `ParseDoubleVec` (`case_params_parser.h:64-120`). -/
def parseInt : Json → String → Out Int := strictParse getInt
def parseDouble (round : Int → Rat) : Json → String → Out Rat := strictParse (getDouble round)
def parseChar (p : Json) (key : String) : Out Char := (strictParse getStr p key).map firstChar
def parseStr : Json → String → Out String := strictParse getStr
def parseBool : Json → String → Out Bool := strictParse getBool
def parseIntVec : Json → String → Out (List Int) := strictParse (getVec getInt)
def parseSizeTVec : Json → String → Out (List Nat) := strictParse (getVec getSize)
def parseDoubleVec (round : Int → Rat) : Json → String → Out (List Rat) := strictParse (getVec (getDouble round))

/-- `ParseIntOr`, …, `ParseDoubleVecOr` (`case_params_parser.h:129-192`): all eight have this form. -/
def parseOr {A : Type} (parse : Json → String → Out A) (p : Json) (key : String) (default : A) : Out A :=
  if !has p key then .ret default else parse p key

/-- `TryParseStrict` (`case_params_parser.h:267-276`): the flag returned and the output variable afterwards. -/
def tryStrict {A : Type} (g : Get A) (p : Json) (key : String) (out : A) : Out (Bool × A) :=
  match find p key with
  | none => .ret (false, out)
  | some v =>
    match g v with
    | .ok a => .ret (true, a)
    | .error .throw => .ret (false, out)
    | .error .ub => .ub

/-- `TryParseChar` (`case_params_parser.h:203-208`). -/
def tryChar (p : Json) (key : String) (out : Char) : Out (Bool × Char) :=
  match tryStrict getStr p key "" with
  | .ret (true, s) => .ret (true, firstChar s)
  | .ret (false, _) => .ret (false, out)
  | .exit => .exit
  | .ub => .ub

/-- The loop of `TryParseSizeTVec` (`case_params_parser.h:230-242`). -/
def sizeLoop : List Json → Option (List Nat)
  | [] => some []
  | .uint n :: l => (sizeLoop l).map (n :: ·)
  | .int z :: l => if z < 0 then none else (sizeLoop l).map (z.toNat :: ·)
  | _ :: _ => none

/-- `TryParseSizeTVec` (`case_params_parser.h:222-248`). -/
def trySizeTVec (p : Json) (key : String) (out : List Nat) : Out (Bool × List Nat) :=
  match find p key with
  | none => .ret (false, out)
  | some (.arr l) =>
    match sizeLoop l with
    | some parsed => .ret (true, parsed)
    | none => .ret (false, out)
  | some _ => .ret (false, out)

end Verif.Misc
