import Mathlib.Data.Rat.Defs
import Mathlib.Algebra.Order.Field.Basic
import Mathlib.Algebra.Field.Rat
/-
Reading a decimal number such as "0.125", "3e-12" or "1.5e+06": what a reader (or a spreadsheet) takes a printed number to mean.
-/
namespace TFR.Spec

/-- The value of one decimal digit. -/
def digitValue (c : Char) : Option Nat := if '0' ≤ c ∧ c ≤ '9' then some (c.toNat - '0'.toNat) else none

/-- The digits of a text, if there is nothing else in it. -/
def digitsOf : List Char → Option (List Nat)
  | [] => some []
  | c :: cs => (digitValue c).bind fun d => (digitsOf cs).map (d :: ·)

/-- The number written with these digits, most significant first. -/
def ofDigits (ds : List Nat) : Nat := ds.foldl (fun n d => 10 * n + d) 0

/-- Digits with an optional decimal point after at least one digit. -/
def readMantissa (s : List Char) : Option ℚ :=
  match digitsOf (s.takeWhile (· ≠ '.')), digitsOf ((s.dropWhile (· ≠ '.')).drop 1) with
  | some (d :: ds), some fs => some ((ofDigits (d :: ds ++ fs) : ℚ) / 10 ^ fs.length)
  | _, _ => none

/-- A signed exponent. -/
def readExponent : List Char → Option ℤ
  | '+' :: ds => (digitsOf ds).map fun l => (ofDigits l : ℤ)
  | '-' :: ds => (digitsOf ds).map fun l => -(ofDigits l : ℤ)
  | _ => none

/-- The number a text denotes: a mantissa, and behind an `e` the power of ten it is multiplied by. -/
def readDecimal (s : List Char) : Option ℚ :=
  match s.dropWhile (· ≠ 'e') with
  | [] => readMantissa s
  | _ :: ex =>
    match readMantissa (s.takeWhile (· ≠ 'e')), readExponent ex with
    | some m, some e => some (m * 10 ^ e)
    | _, _ => none

end TFR.Spec
