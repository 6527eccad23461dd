import Verif.Spec.Decimal
/-
What the lines of C code printed for a mixer mean to somebody who copies them into a function of an unsigned word `x` of `w` bits.
-/
namespace TFR.Spec

/-- Is the character a decimal digit? -/
def isDecimalDigit (c : Char) : Bool := (digitValue c).isSome

/-- An integer literal at the start of a text, and what follows it. -/
def readLiteral (s : List Char) : Option (Nat × List Char) :=
  match digitsOf (s.takeWhile isDecimalDigit) with
  | some (d :: ds) => some (ofDigits (d :: ds), s.dropWhile isDecimalDigit)
  | _ => none

/-- The text without the given beginning. -/
def afterPrefix (p s : List Char) : Option (List Char) := if p.isPrefixOf s then some (s.drop p.length) else none

/-- One statement: `x ^= x >> N;` with `N` below the width, or `x *= N;` with or without the suffix `ull`. -/
def statement (w : Nat) (line : List Char) : Option (BitVec w → BitVec w) :=
  match afterPrefix "    x ^= x >> ".toList line with
  | some rest =>
    match readLiteral rest with
    | some (n, e) => if e = ";".toList ∧ n < w then some fun x => x ^^^ (x >>> n) else none
    | none => none
  | none =>
    match afterPrefix "    x *= ".toList line with
    | some rest =>
      match readLiteral rest with
      | some (n, e) => if e = ";".toList ∨ e = "ull;".toList then some fun x => x * BitVec.ofNat w n else none
      | none => none
    | none => none

/-- The lines of a text, each ended by a line feed. -/
def linesOf (s : List Char) : Option (List (List Char)) :=
  (s.foldl (fun (a : List (List Char) × List Char) c => if c = '\n' then (a.1 ++ [a.2], []) else (a.1, a.2 ++ [c])) ([], [])) |>
    fun a => if a.2 = [] then some a.1 else none

/-- The function computed by the statements of a text, executed one after the other. -/
def codeMeaning (w : Nat) (s : List Char) : Option (BitVec w → BitVec w) :=
  (linesOf s).bind fun lines => (lines.mapM (statement w)).map fun fs => fun x => fs.foldl (fun y f => f y) x

/-- The numbers in a text: the maximal sequences of decimal digits. -/
def numbersIn (s : List Char) : List Nat :=
  (s.foldl (fun (a : List Nat × Option Nat) c =>
    match digitValue c with
    | some d => (a.1, some (10 * a.2.getD 0 + d))
    | none => (a.1 ++ a.2.toList, none)) ([], none)) |> fun a => a.1 ++ a.2.toList

end TFR.Spec
