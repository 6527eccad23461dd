import Verif.Props.SelfCheckCoupon
import Verif.Props.ToolText
import Verif.Props.SelfCheckLinear
import Verif.Props.SelfCheckRuns
/-
C136. The whole first part of `-inspect-test`, and its whole text when there are no data files.
-/
namespace TFR
open Spec

/-- C136. The self-check on the sources every test should reject prints exactly twelve lines, `PASS` for each test, for every word size, under every schedule
of the threads. -/
theorem C136_first_part (t : WT) (hw : BitVec 32) (analyse : Battery ℝ → List ResultAnalysis) (ha : Analyses analyse)
    (eval : TestRow → Stream (BitVec t.bits) → BitVec 64 → Battery ℝ) (h : SelfCheckRuns t hw eval) :
    ∃ sources, createFailSources t = .ok sources ∧ inspectTests t analyse eval sources false = .ok [.pass "mean", .pass "uniform", .pass "runs",
      .pass "serial-avalanche", .pass "gap", .pass "coupon", .pass "divisibility", .pass "permutation", .pass "binary-rank", .pass "linear-complexity",
      .pass "sac", .pass "bic"] := by
  obtain ⟨c, s0, s1, s2, s3, hs, -⟩ := C97_fail_sources t
  have e := (C97_inspect chi2DistributionCdf t hw analyse ha eval h [s0, s1, s2, s3]).1
  refine ⟨_, hs, ?_⟩
  generalize [s0, s1, s2, s3] = sources at hs e
  have hall : ∀ test ∈ getTests, shouldFailLines t (fun test s k => eval test s (BitVec.ofNat 64 (2 ^ k))) sources test = [.pass test.name] := by
    intro test htest
    rw [← lines_about t hw analyse ha eval h sources _ e test htest]
    have h1 := C126_mean t hw analyse ha eval h sources _ e
    have h2 := C132_self_check t hw analyse ha eval h sources hs _ e
    have h3 := C126_runs t hw analyse ha eval h sources hs _ e
    have h4 := C133_self_check t hw analyse ha eval h sources hs _ e
    obtain ⟨h5, h7⟩ := C129_self_check t hw analyse ha eval h sources hs _ e
    have h6 := C135_self_check t hw analyse ha eval h sources hs _ e
    have h8 := C134_self_check t hw analyse ha eval h sources hs _ e
    obtain ⟨h9, h10⟩ := C129_self_check_linear t hw analyse ha eval h sources hs _ e
    obtain ⟨h11, h12⟩ := C126_mixer_tests t hw analyse ha eval h sources _ e
    clear e
    generalize List.flatMap (shouldFailLines t _ sources) getTests = lines at *
    unfold getTests at htest
    simp only [List.mem_cons, List.not_mem_nil, or_false] at htest
    rcases htest with rfl | rfl | rfl | rfl | rfl | rfl | rfl | rfl | rfl | rfl | rfl | rfl
    · exact h1
    · exact h2
    · exact h3
    · exact h4
    · exact h5
    · exact h6
    · exact h7
    · exact h8
    · exact h9
    · exact h10
    · exact h11
    · exact h12
  rw [e]
  generalize shouldFailLines t _ sources = f at hall
  have : getTests.flatMap f = getTests.flatMap fun test => [.pass test.name] := List.flatMap_congr hall
  rw [this]
  rfl

/-- The text of the first part of `-inspect-test`. -/
def Spec.firstPart (bits : Nat) : String :=
  heading "Fail sources" bits ++
  "PASS: mean\nPASS: uniform\nPASS: runs\nPASS: serial-avalanche\nPASS: gap\nPASS: coupon\nPASS: divisibility\nPASS: permutation\nPASS: binary-rank\n" ++
  "PASS: linear-complexity\nPASS: sac\nPASS: bic\n" ++ heading "Pass sources" bits

/-- The text of the second part when there are no data files. -/
def Spec.secondPartWithoutFiles : String :=
  "Warning: No passable trng/drng sources was found\n" ++
  "PASS: mean\nPASS: uniform\nPASS: runs\nPASS: serial-avalanche\nPASS: gap\nPASS: coupon\nPASS: divisibility\nPASS: permutation\nPASS: binary-rank\n" ++
  "PASS: linear-complexity\n"

theorem lines_text : ([.pass "mean", .pass "uniform", .pass "runs", .pass "serial-avalanche", .pass "gap", .pass "coupon", .pass "divisibility",
    .pass "permutation", .pass "binary-rank", .pass "linear-complexity", .pass "sac", .pass "bic"] : List InspectLine).flatMap (fun l => (lineText l).toList) =
  ("PASS: mean\nPASS: uniform\nPASS: runs\nPASS: serial-avalanche\nPASS: gap\nPASS: coupon\nPASS: divisibility\nPASS: permutation\nPASS: binary-rank\n" ++
    "PASS: linear-complexity\nPASS: sac\nPASS: bic\n").toList := by decide +kernel

theorem lines_text_pass : (getTests.flatMap fun test => if test.type = .sac ∨ test.type = .bic then [] else [InspectLine.pass test.name]).flatMap
      (fun l => (lineText l).toList) =
  ("PASS: mean\nPASS: uniform\nPASS: runs\nPASS: serial-avalanche\nPASS: gap\nPASS: coupon\nPASS: divisibility\nPASS: permutation\nPASS: binary-rank\n" ++
    "PASS: linear-complexity\n").toList := by decide +kernel

/-- C136. Whatever the data files are, the text of `-inspect-test` begins with the same first part; without data files the whole text is determined. -/
theorem C136_text (t : WT) (hw : BitVec 32) (analyse : Battery ℝ → List ResultAnalysis) (ha : Analyses analyse)
    (trng drng : Option (List (BitVec t.bits))) (h1 : trng ≠ some []) (h2 : drng ≠ some [])
    (fails passes : TestRow → Stream (BitVec t.bits) → BitVec 64 → Battery ℝ) (hf : SelfCheckRuns t hw fails) (hp : SelfCheckRuns t hw passes) :
    ∃ rest, inspectCommandText t analyse trng drng fails passes = .ok ((firstPart t.bits).toList ++ rest) ∧
      (trng = none → drng = none → rest = secondPartWithoutFiles.toList) := by
  obtain ⟨bad, good, g1, g2, g3⟩ := C131_inspect chi2DistributionCdf t hw analyse ha trng drng h1 h2 fails passes hf hp
  obtain ⟨sources, e1, e2⟩ := C136_first_part t hw analyse ha fails hf
  obtain rfl : bad = sources := Except.ok.inj (g1.symm.trans e1)
  have e3 := (C97_inspect chi2DistributionCdf t hw analyse ha fails hf bad).1
  have e4 := Except.ok.inj (e3.symm.trans e2)
  rw [e4] at g3
  rw [g3]
  refine ⟨(if trng = none ∧ drng = none then "Warning: No passable trng/drng sources was found\n".toList else []) ++
        (getTests.flatMap (shouldPassLines t (fun test s k => passes test s (BitVec.ofNat 64 (2 ^ k))) good)).flatMap (fun l => (lineText l).toList), congrArg Except.ok ?_, ?_⟩
  · unfold firstPart
    rw [lines_text]
    simp only [String.toList_append, List.append_assoc]
  · rintro rfl rfl
    have hg : good = [] := by
      cases g2
      rfl
    subst hg
    rw [if_pos ⟨rfl, rfl⟩]
    have : getTests.flatMap (shouldPassLines t (fun test s k => passes test s (BitVec.ofNat 64 (2 ^ k))) []) =
        getTests.flatMap fun test => if test.type = .sac ∨ test.type = .bic then [] else [.pass test.name] := by
      refine List.flatMap_congr fun test _ => ?_
      unfold shouldPassLines
      dsimp only
      have : (if test.type = .mean then ([] : List (Stream (BitVec t.bits))) else createRrcSources t []) = [] := by split <;> rfl
      rw [this]
      simp
    rw [this, lines_text_pass]
    unfold secondPartWithoutFiles
    simp only [String.toList_append, List.append_assoc]

-- C136, non-vacuity: runs of the self-check exist, for every word size and number of threads.
example (t : WT) (hw : BitVec 32) : ∃ eval : TestRow → Stream (BitVec t.bits) → BitVec 64 → Battery ℝ, SelfCheckRuns t hw eval := by
  choose f hf using fun (test : TestRow) (s : Stream (BitVec t.bits)) n =>
    C35_terminates (suiteDef chi2DistributionCdf) n (inspectSetup (defaultMaxThreads hw) test s)
  exact ⟨f, fun test s k _ _ => hf test s _⟩

end TFR
