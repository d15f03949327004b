import Mathlib.Data.Nat.Notation
/-
Model of the writers of measurement results.
Sources: /repo/include/qlmps/one_dim_tn/mps/finite_mps/finite_mps_measu_memory.h,
/repo/include/qlmps/algorithm/tdvp/two_site_update_finite_tdvp_impl.h
-/
namespace Verif.Mps.Dump

/-- A file stream: what has been written and the precision for floating-point numbers, which stays as set. The
field width only holds for the next output and is applied there. Failures of the file system are not modelled. -/
structure Out where
  text : List Char
  prec : Nat

/-- A fresh `std::ofstream`: the file is truncated, the precision is 6. -/
def Out.new : Out := ⟨[], 6⟩

/-- `ofs << s` for a string. -/
def Out.put (o : Out) (s : List Char) : Out := { o with text := o.text ++ s }

/-- `std::setw(w)` applied to an item: padded with spaces on the left. -/
def pad (w : Nat) (s : List Char) : List Char := List.replicate (w - s.length) ' ' ++ s

/-- `ofs << x` for a `size_t`. -/
def showNat (_ : Nat) (n : Nat) : List Char := Nat.toDigits 10 n

/-- The loop of `DumpSites` (finite_mps_measu_memory.h:110-112). -/
def dumpInit {α : Type} (sh : Nat → α → List Char) (o : Out) : List α → Out
  | [] => o
  | x :: xs => dumpInit sh ((o.put (sh o.prec x)).put ", ".toList) xs

/-- `DumpSites` (finite_mps_measu_memory.h:107-115) with the elements printed by `sh`. `none`: undefined behaviour,
`end() - 1` and `back()` of an empty vector. -/
def dumpSites {α : Type} (sh : Nat → α → List Char) (o : Out) (l : List α) : Option Out :=
  match l.getLast? with
  | none => none
  | some x =>
    let o := dumpInit sh (o.put "[".toList) l.dropLast
    some ((o.put (sh o.prec x)).put "], ".toList)

variable {R : Type}

/-- `ofs << std::setw(14) << std::setprecision(12) << x` for a `double`; `fmt p x` is the library's text of `x` with
`p` significant digits. -/
def putReal (fmt : Nat → R → List Char) (o : Out) (x : R) : Out := { o with prec := 12 }.put (pad 14 (fmt 12 x))

/-- `DumpAvgVal` for a real average (finite_mps_measu_memory.h:117-119). -/
def dumpAvgR (fmt : Nat → R → List Char) (o : Out) (x : R) : Out := putReal fmt o x

/-- `DumpAvgVal` for a complex average (finite_mps_measu_memory.h:121-127). -/
def dumpAvgC (fmt : Nat → R → List Char) (o : Out) (z : R × R) : Out :=
  (putReal fmt ((putReal fmt (o.put "[".toList) z.1).put ", ".toList) z.2).put "]".toList

variable {A : Type}

/-- The end of a record: `it == res.end() - 1` (finite_mps_measu_memory.h:570-574, two_site_update_finite_tdvp_impl.h:650-654). -/
def recordEnd (last : Bool) : List Char := if last then "]\n".toList else "],\n".toList

/-- The loop of `DumpMeasuRes` (finite_mps_measu_memory.h:562-575). -/
def dumpLoop (avg : Out → A → Out) (o : Out) : List (List Nat × A) → Option Out
  | [] => some o
  | r :: rs =>
    match dumpSites showNat (o.put "  [".toList) r.1 with
    | none => none
    | some o => dumpLoop avg ((avg o r.2).put (recordEnd rs.isEmpty)) rs

/-- `DumpMeasuRes` (finite_mps_measu_memory.h:552-580): the text of the file. -/
def dumpRes (avg : Out → A → Out) (res : List (List Nat × A)) : Option (List Char) :=
  (dumpLoop avg (Out.new.put "[\n".toList) res).map fun o => (o.put "]".toList).text

/-- The loop of `DumpMeasuRes` for dynamical correlations (two_site_update_finite_tdvp_impl.h:643-655). -/
def dumpLoopT (fmt : Nat → R → List Char) (avg : Out → A → Out) (o : Out) : List (List Nat × List R × A) → Option Out
  | [] => some o
  | r :: rs =>
    match dumpSites showNat (o.put "  [".toList) r.1 with
    | none => none
    | some o =>
      match dumpSites fmt o r.2.1 with
      | none => none
      | some o => dumpLoopT fmt avg ((avg o r.2.2).put (recordEnd rs.isEmpty)) rs

/-- `DumpMeasuRes` for dynamical correlations (two_site_update_finite_tdvp_impl.h:633-660). -/
def dumpResT (fmt : Nat → R → List Char) (avg : Out → A → Out) (res : List (List Nat × List R × A)) :
    Option (List Char) :=
  (dumpLoopT fmt avg (Out.new.put "[\n".toList) res).map fun o => (o.put "]".toList).text

/-- The results of `MeasureOneSiteOp` for operator `j` (finite_mps_measu_memory.h:151, 183, 374): record `i` has the one
site `i` and the average `rows[i][j]`. -/
def oneSiteRes (dflt : A) (rows : List (List A)) (j : Nat) : List (List Nat × A) :=
  rows.zipIdx.map fun x => ([x.2], x.1.getD j dflt)

end Verif.Mps.Dump
