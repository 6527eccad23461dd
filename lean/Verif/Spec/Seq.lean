/-
Small specification vocabulary for sequences, independent of the model.
-/
namespace TFR.Spec

/-- All bits of a list of words, word after word, least significant bit first. -/
def bitsOf {w : Nat} (data : List (BitVec w)) : List Bool :=
  data.flatMap fun v => (List.range w).map fun b => v.getLsbD b

/-- The `⌊length / k⌋` complete consecutive blocks of length `k`; block `j` starts at index `j * k`. -/
def chunks {α : Type} (k : Nat) (l : List α) : List (List α) :=
  (List.range (l.length / k)).map fun j => (l.drop (j * k)).take k

/-- The number with the given binary digits, least significant first. -/
def ofBits : List Bool → Nat
  | [] => 0
  | b :: bs => (if b then 1 else 0) + 2 * ofBits bs

end TFR.Spec
