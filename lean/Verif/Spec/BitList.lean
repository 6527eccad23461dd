import Verif.Spec.Seq
import Verif.Model.BitVector
/-
What a bit vector is supposed to be: a list of booleans.
-/
namespace TFR.Spec.BitList
open TFR.BitVector (Op Out)

/-- The calls that stay in bounds. -/
def Allowed (l : List Bool) : Op → Prop
  | .add _ n => n ≤ 64
  | .setBit i _ => i < l.length
  | .getBit i => i < l.length
  | .get w f n => f + n ≤ l.length ∧ n ≤ w.bits
  | .count => True
  | .size => True
  | .toStr => True

def step (l : List Bool) : Op → List Bool × Out
  | .add x n => (l ++ (List.range n).map (fun i => x.getLsbD i), .unit)
  | .setBit i b => (l.set i b, .unit)
  | .getBit i => (l, .bit (l.getD i false))
  | .get _ f n => (l, .num (ofBits ((l.drop f).take n)))
  | .count => (l, .num (l.count true))
  | .size => (l, .num l.length)
  | .toStr => (l, .str (l.map fun b => if b then '1' else '0'))

def AllAllowed (l : List Bool) : List Op → Prop
  | [] => True
  | op :: ops => Allowed l op ∧ AllAllowed (step l op).1 ops

def run (l : List Bool) : List Op → List Bool × List Out
  | [] => (l, [])
  | op :: ops =>
    let (l, o) := step l op
    let (l, os) := run l ops
    (l, o :: os)

end TFR.Spec.BitList
