import Verif.Props.Results
/-
C39: the names of the tests, as reports print them.
-/
namespace TFR

namespace Spec

/-- The names the reports use for the twelve tests. -/
def testName : TestType → String
  | .mean => "mean"
  | .uniform => "uniform"
  | .runs => "runs"
  | .serialAvalanche => "serial-avalanche"
  | .gap => "gap"
  | .coupon => "coupon"
  | .divisibility => "divisibility"
  | .permutation => "permutation"
  | .binaryRank => "binary-rank"
  | .linearComplexity => "linear-complexity"
  | .sac => "sac"
  | .bic => "bic"

/-- The order in which batteries and tables list them. -/
def testOrder : List TestType :=
  [.mean, .uniform, .runs, .serialAvalanche, .gap, .coupon, .divisibility, .permutation, .binaryRank, .linearComplexity, .sac, .bic]

end Spec

/-- C39. The catalogue lists the tests in this order under these names. -/
theorem C39_names :
    getTests.map (fun row => (row.type, row.name)) = Spec.testOrder.map (fun t => (t, Spec.testName t)) ∧
    defaultTestTypes = Spec.testOrder ∧ ∀ t, getTestName t = Spec.testName t := by
  refine ⟨by decide, by decide, ?_⟩
  intro t
  cases t <;> decide

/-- C39. A printed key is the name of the test, followed for a sub-test by a colon and its name; what stands before the first colon
is the name of the test, since no name contains one. -/
theorem C39_key_text (key : TestKey) :
    (key.sub = "" → key.toStr = Spec.testName key.type) ∧
    (key.sub ≠ "" → key.toStr = Spec.testName key.type ++ ":" ++ key.sub) ∧
    key.toStr.toList.takeWhile (· ≠ ':') = (Spec.testName key.type).toList := by
  have hn := C39_names.2.2 key.type
  have hc : (Spec.testName key.type).toList.takeWhile (· ≠ ':') = (Spec.testName key.type).toList ∧
      ∀ x ∈ (Spec.testName key.type).toList, x ≠ ':' := by
    generalize key.type = t
    cases t <;> decide
  have h1 : key.sub = "" → key.toStr = Spec.testName key.type := by
    intro h
    unfold TestKey.toStr
    rw [hn, h]
    simp
  have h2 : key.sub ≠ "" → key.toStr = Spec.testName key.type ++ ":" ++ key.sub := by
    intro h
    unfold TestKey.toStr
    rw [hn]
    have : key.sub.isEmpty = false := by
      rw [Bool.eq_false_iff, Ne, String.isEmpty_iff]
      exact h
    rw [this]
    simp [String.append_assoc]
  refine ⟨h1, h2, ?_⟩
  by_cases h : key.sub = ""
  · rw [h1 h]; exact hc.1
  · rw [h2 h, String.toList_append, String.toList_append, List.append_assoc, List.takeWhile_append_of_pos]
    · have : (":".toList ++ key.sub.toList).takeWhile (fun x => decide (x ≠ ':')) = [] := by
        show List.takeWhile _ (':' :: key.sub.toList) = []
        simp
      rw [this, List.append_nil]
    · intro x hx
      simpa using hc.2 x hx

example : (TestKey.mk .serialAvalanche "x").toStr = "serial-avalanche:x" := (C39_key_text ⟨.serialAvalanche, "x"⟩).2.1 (by decide)

end TFR
