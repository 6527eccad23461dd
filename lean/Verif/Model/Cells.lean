import Verif.Model.Files
import Verif.Model.Console
/-
Typed cells of tables, core/src/util/table.h:17-56 and 121-123.
-/
namespace TFR

/-- `std::to_string` of an integer. -/
def intText (i : Int) : List Char := if i < 0 then '-' :: Nat.toDigits 10 i.natAbs else Nat.toDigits 10 i.natAbs

/-- What can be passed to `app` and `col`: the overloads of table.h:17-46. -/
inductive CellArg where
  | text (s : List Char)
  | int (i : BitVec 32)
  | uint (i : BitVec 32)
  | int64 (i : BitVec 64)
  | uint64 (i : BitVec 64)
  | dbl (x : ℝ)

/-- The text each overload appends, table.h:17-46. -/
noncomputable def CellArg.str : CellArg → List Char
  | .text s => s
  | .int i => intText i.toInt
  | .uint i => intText i.toNat
  | .int64 i => intText i.toInt
  | .uint64 i => intText i.toNat
  | .dbl x => formatDouble x

/-- `app_bool`, table.h:48-50. -/
def boolText (b : Bool) : List Char := if b then "true".toList else "false".toList

/-- `col(x)`, table.h:52-56, as calls of the underlying operations. -/
noncomputable def colArg (x : CellArg) : List TableOp := [.app x.str, .col]

/-- `get_column_size`, table.h:121-123. -/
def Table.getColumnSize (t : Table) (col : Nat) : R Nat :=
  match t.spaces[col]? with
  | some n => .ok n
  | none => .error .oobIndex

end TFR
