import Mathlib.Algebra.Order.Field.Rat
import Mathlib.Algebra.Order.Floor.Defs
import Mathlib.Data.Rat.Floor
/-
Model of the functions that make the names of files and directories.
Sources: /repo/include/qlmps/one_dim_tn/mps/mps.h, one_dim_tn/mpo/finite_mpo/finite_mpo.h,
one_dim_tn/mpo/finite_mpo/exp_finite_mpo.h, algorithm/vmps/two_site_update_finite_vmps_impl.h,
algorithm/dmrg/operator_io.h, consts.h

Strings are lists of characters. The suffix `kQLTenFileSuffix` belongs to the tensor library and is the parameter
`suf`.
-/
namespace Verif.Mps.Names

/-- `std::to_string` of a `size_t`. -/
def dec (n : Nat) : List Char := Nat.toDigits 10 n

/-- `std::to_string` of a `long`. -/
def decI : Int → List Char
  | .ofNat n => dec n
  | .negSucc n => '-' :: dec (n + 1)

/-- The nearest integer of a non-negative number, the even one of two (the default rounding mode). -/
def roundEven (x : ℚ) : Nat :=
  let f := ⌊x⌋.toNat
  let r := x - (f : ℚ)
  if r < 1 / 2 then f else if 1 / 2 < r then f + 1 else if f % 2 = 0 then f else f + 1

/-- A decimal padded with zeros on the left. -/
def pad0 (w : Nat) (s : List Char) : List Char := List.replicate (w - s.length) '0' ++ s

/-- `std::to_string` of a `double`, that is `%f`: six digits behind the point. The value is the exact one of the
`double`; the negative zero and the values that are no numbers are not modelled. -/
def decF (q : ℚ) : List Char :=
  let m := roundEven (|q| * 10 ^ 6)
  (if q < 0 then ['-'] else []) ++ dec (m / 10 ^ 6) ++ '.' :: pad0 6 (dec (m % 10 ^ 6))

/-- `GenMPSTenName` (mps.h:31-34; consts.h:36). -/
def mpsTen (suf path : List Char) (i : Nat) : List Char :=
  path ++ ['/'] ++ ['m', 'p', 's', '_', 't', 'e', 'n'] ++ dec i ++ ['.'] ++ suf

/-- `GenMPOTenName` (finite_mpo.h:72-75; consts.h:37). -/
def mpoTen (suf path : List Char) (i : Nat) : List Char :=
  path ++ ['/'] ++ ['m', 'p', 'o'] ++ dec i ++ ['.'] ++ suf

/-- The file of the centre (finite_mpo.h:232, 249). -/
def mpoCenter (path : List Char) : List Char := path ++ ['/', 'c', 'e', 'n', 't', 'e', 'r']

/-- `GenEnvTenName` (two_site_update_finite_vmps_impl.h:51-57; consts.h:35). The blocks of the compressing
`MpoProduct` have the same names (finite_mpo_utility.h:33-35). -/
def envTen (suf dir : List Char) (len : Int) (path : List Char) : List Char :=
  path ++ ['/'] ++ dir ++ ['e', 'n', 'v'] ++ decI len ++ ['.'] ++ suf

/-- `GenOpFileName` (operator_io.h:21-31; consts.h:38). -/
def opFile (suf dir : List Char) (len comp : Nat) (path : List Char) : List Char :=
  path ++ ['/'] ++ dir ++ ['o', 'p'] ++ dec len ++ ['C', 'o', 'm', 'p'] ++ dec comp ++ ['.'] ++ suf

/-- `GenHnMpoPath` (exp_finite_mpo.h:128-134). -/
def hnPath (pre : List Char) (n : Nat) (tau : ℚ) : List Char :=
  pre ++ ['_', 'H'] ++ dec n ++ ['_', 't', 'a', 'u'] ++ decF tau

end Verif.Mps.Names
