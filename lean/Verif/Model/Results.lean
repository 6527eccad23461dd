import Verif.Model.Streams
/-
core/src/types.h: test types, keys, results, the battery map; core/src/test_definitions.h: the catalogue;
core/src/format_result.h:34-36: the printed key.
-/
namespace TFR

/-- `enum class statistic_type`, types.h:27-32. -/
inductive StatType where
  | zScore | chi2 | kolmogorovSmirnovD | andersonDarlingA2
  deriving DecidableEq, Repr

/-- `enum class test_type`, types.h:34-49. -/
inductive TestType where
  | mean | uniform | runs | serialAvalanche | gap | coupon | divisibility | permutation | binaryRank
  | linearComplexity | sac | bic
  deriving DecidableEq, Repr

/-- The enumerator value. -/
def TestType.val : TestType → Nat
  | .mean => 0 | .uniform => 1 | .runs => 2 | .serialAvalanche => 3 | .gap => 4 | .coupon => 5 | .divisibility => 6
  | .permutation => 7 | .binaryRank => 8 | .linearComplexity => 9 | .sac => 10 | .bic => 11

/-- `struct statistic`, types.h:51-63; `K` stands for `double`. -/
structure Statistic (K : Type) where
  type : StatType
  value : K
  pValue : K
  df : K
  deriving DecidableEq

/-- `struct sub_test`, types.h:70-73. -/
structure SubTest (K : Type) where
  name : String
  stats : Option (Statistic K)
  deriving DecidableEq

/-- `operator<` of `std::string`: lexicographic. -/
def strLt : List Char → List Char → Bool
  | [], [] => false
  | [], _ :: _ => true
  | _ :: _, [] => false
  | a :: as, b :: bs => if a.toNat < b.toNat then true else if b.toNat < a.toNat then false else strLt as bs

/-- `struct test_key`, types.h:81-83. -/
structure TestKey where
  type : TestType
  sub : String
  deriving DecidableEq

/-- `test_key::operator<`, types.h:85-93. -/
def TestKey.lt (a b : TestKey) : Bool :=
  if a.type ≠ b.type then decide (a.type.val < b.type.val)
  else if a.sub ≠ b.sub then strLt a.sub.toList b.sub.toList
  else false

/-- `struct test_result`, types.h:96-102. -/
structure TestResult (K : Type) where
  streamName : String
  mixerName : String
  n : BitVec 64
  key : TestKey
  stats : Statistic K
  deriving DecidableEq

/-- `std::map<test_key, std::vector<test_result>>`, types.h:105: an association list in map order. -/
abbrev ResultMap (K : Type) := List (TestKey × List (TestResult K))

/-- `struct test_battery_result` (without the run time), types.h:104-112. -/
structure Battery (K : Type) where
  subject : String
  n : BitVec 64
  samples : Nat
  bits : Nat
  results : ResultMap K

/-- `results[key].push_back(r)` using only the map's ordering: skip the smaller keys; insert a new entry if the next
key is greater, otherwise append to the equivalent entry. -/
def mapPush {K : Type} (key : TestKey) (r : TestResult K) : ResultMap K → ResultMap K
  | [] => [(key, [r])]
  | (k, rs) :: rest =>
    if k.lt key then (k, rs) :: mapPush key r rest
    else if key.lt k then (key, [r]) :: (k, rs) :: rest
    else (k, rs ++ [r]) :: rest

/-- `test_battery_result::add`, types.h:114-116. -/
def Battery.add {K : Type} (b : Battery K) (r : TestResult K) : Battery K := { b with results := mapPush r.key r b.results }

/-- `results.find(key)` through the map's ordering. -/
def mapFind {K : Type} (key : TestKey) : ResultMap K → Option (List (TestResult K))
  | [] => none
  | (k, rs) :: rest => if k.lt key then mapFind key rest else if key.lt k then none else some rs

/-- `test_battery_result::operator[]`, types.h:118-122. -/
def Battery.get {K : Type} (b : Battery K) (key : TestKey) : List (TestResult K) := (mapFind key b.results).getD []

/-! #### catalogue -/

/-- Which wrapper limits `n`, test_definitions.h:28-45. -/
inductive Limiter where
  | none | to (maxN : Nat) | slow | slower
  deriving DecidableEq, Repr

/-- One row of `get_tests`, test_definitions.h:17-23: the functions themselves are represented by their presence. -/
structure TestRow where
  type : TestType
  hasStream : Bool
  hasMixer : Bool
  limiter : Limiter
  name : String
  deriving DecidableEq

/-- `get_tests<T>()`, test_definitions.h:25-45. -/
def getTests : List TestRow := [
  ⟨.mean, true, false, .to (2 ^ 20), "mean"⟩,
  ⟨.uniform, true, false, .none, "uniform"⟩,
  ⟨.runs, true, false, .none, "runs"⟩,
  ⟨.serialAvalanche, true, false, .none, "serial-avalanche"⟩,
  ⟨.gap, true, false, .slow, "gap"⟩,
  ⟨.coupon, true, false, .slower, "coupon"⟩,
  ⟨.divisibility, true, false, .slow, "divisibility"⟩,
  ⟨.permutation, true, false, .slow, "permutation"⟩,
  ⟨.binaryRank, true, false, .slower, "binary-rank"⟩,
  ⟨.linearComplexity, true, false, .slower, "linear-complexity"⟩,
  ⟨.sac, false, true, .slow, "sac"⟩,
  ⟨.bic, false, true, .slower, "bic"⟩]

/-- `get_test_definition`, test_definitions.h:47-56: the first row with that type, or (after a printed assertion) the
empty definition, whose value-initialised type is `mean`. -/
def getTestDefinition (type : TestType) : TestRow :=
  (getTests.find? (fun d => d.type = type)).getD ⟨.mean, false, false, .none, ""⟩

/-- `get_test_name`, test_definitions.h:58-60. -/
def getTestName (type : TestType) : String := (getTestDefinition type).name

/-- `default_test_types`, test_definitions.h:62-68. -/
def defaultTestTypes : List TestType := getTests.map TestRow.type

/-- `to_string(const test_key&)`, format_result.h:34-36. -/
def TestKey.toStr (key : TestKey) : String :=
  getTestName key.type ++ (if key.sub.isEmpty then "" else ":" ++ key.sub)

end TFR
