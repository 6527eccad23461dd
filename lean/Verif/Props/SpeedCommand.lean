import Verif.Model.SpeedCommand
import Verif.Props.PerTestCommand
import Verif.Props.InspectCommand
import Verif.Props.ToolText
/-
C138: the table of times of `-inspect-test`.
-/
namespace TFR
open Spec
variable {w : Nat}

private theorem hbindS {α β : Type} (x : α) (f : α → R β) : ((Except.ok x : R α) >>= f) = f x := rfl

open Classical in
/-- The cell of one test: the time of the evaluation that ended the passes (the first rejection, or the last size), not the sum of the times
of the passes; nothing if that evaluation had no results. -/
noncomputable def Spec.timeCell (e : TestRow × EvalRun w × (BitVec 64 → BitVec 64)) : Option String :=
  let battery := fun k => e.2.1.2 (BitVec.ofNat 64 (2 ^ k))
  let k := reached battery e.2.1.1.startPower.toNat e.2.1.1.stopPower.toNat
  if keys (battery k) = [] then none else some (toString (e.2.2 (BitVec.ofNat 64 (2 ^ k))).toNat)

/-- The assignments to the table for one test. -/
noncomputable def Spec.timeOps (e : TestRow × EvalRun w × (BitVec 64 → BitVec 64)) : List (String × String × String) :=
  (timeCell e).toList.map fun v => (e.2.1.1.subject, e.1.name, v)

private def recordT (extract : Unit → Battery ℝ → R (String × Unit)) (s : R (PerTestResult × Unit)) (br : Battery ℝ) :
    R (PerTestResult × Unit) :=
  match br.results with
  | [] => s
  | e :: _ => do
    let st ← s
    let r ← extract st.2 br
    .ok (st.1.assign br.subject (getTestName e.1.type) r.1, r.2)

private theorem callback_eq (worst : Battery ℝ → Option Bool) (extract : Unit → Battery ℝ → R (String × Unit)) :
    perTestCallback worst extract = resultCallbackDo worst (some fun s br _ => recordT extract s br) := by
  funext s br last
  rw [resultCallbackDo_eq]
  unfold perTestCallback passes recordT
  rcases worst br with _ | a
  · cases last <;> simp <;> rfl
  · cases last <;> cases a <;> simp <;> rfl

private theorem key_typeS (defs : TestType → TestDef w ℝ) (n : BitVec 64) (setup : TestSetup w) (r : TestResult ℝ)
    (hr : r ∈ expectedResults defs n setup) : ∃ ty ∈ setup.tests, r.key.type = (defs ty).type := by
  unfold expectedResults at hr
  obtain ⟨ty, hty, hr⟩ := List.mem_flatMap.1 hr
  obtain ⟨s, _, hr⟩ := List.mem_flatMap.1 hr
  have hfm : ∀ (l : List (SubTest ℝ)) (a b : String), 
      r ∈ l.filterMap (fun sub => sub.stats.map fun stat => (⟨a, b, n, ⟨(defs ty).type, sub.name⟩, stat⟩ : TestResult ℝ)) →
      r.key.type = (defs ty).type := by
    intro l a b hr
    obtain ⟨x, hx, hr⟩ := List.mem_filterMap.1 hr
    obtain ⟨st, hst, rfl⟩ := Option.map_eq_some_iff.1 hr
    rfl
  refine ⟨ty, hty, ?_⟩
  rcases List.mem_append.1 hr with hr | hr
  · cases hm : (defs ty).testMixer with
    | none => simp [hm] at hr
    | some f =>
      cases hx : setup.mix with
      | none => simp [hm, hx] at hr
      | some m => simp only [hm, hx] at hr; exact hfm _ _ _ hr
  · cases hm : (defs ty).testStream with
    | none => simp [hm] at hr
    | some f =>
      cases hx : setup.mix with
      | none => simp only [hm, hx] at hr; exact hfm _ _ _ hr
      | some m => simp only [hm, hx] at hr; exact hfm _ _ _ hr

private theorem speed_one (defs : TestType → TestDef w ℝ) (analyse : Battery ℝ → List ResultAnalysis) (ha : Analyses analyse)
    (e : TestRow × EvalRun w × (BitVec 64 → BitVec 64)) (hmem : e.1 ∈ getTests) (hdef : (defs e.1.type).type = e.1.type)
    (h : PossibleRun defs e.2.1) (htests : e.2.1.1.tests = [e.1.type]) (st : PerTestResult) :
    (do let r ← evaluateMultiPass e.2.1.2 (perTestCallback (worstPass analyse) (extractTime e.2.2)) emptyBattery
          e.2.1.1.startPower e.2.1.1.stopPower (.ok (st, ()))
        r.2) = (.ok ((timeOps e).foldl (fun (r : PerTestResult) o => r.assign o.1 o.2.1 o.2.2) st, ()) : R (PerTestResult × Unit)) := by
  classical
  have hname : ∀ e ∈ getTests, getTestName e.type = e.name := by decide
  have hv := possible_valid h
  obtain ⟨hth, h0, h1, h2, hout⟩ := h
  obtain ⟨a, hapow⟩ := Int.eq_ofNat_of_zero_le h0
  obtain ⟨b, hbpow⟩ := Int.eq_ofNat_of_zero_le (h0.trans h1)
  rw [hapow, hbpow] at h1
  rw [hbpow] at h2
  rw [callback_eq]
  obtain ⟨k, hk1, hk2, hj, hlast, he⟩ := multiPass_do e.2.1.2 (worstPass analyse)
    (some fun s br _ => recordT (extractTime e.2.2) s br) emptyBattery a b (by omega) (by omega) (.ok (st, ()))
  rw [hapow, hbpow, he, hbindS]
  have hpk : ∀ j, a ≤ j → j ≤ b → (passes (worstPass analyse) (e.2.1.2 (BitVec.ofNat 64 (2 ^ j))) = true ↔
      BatteryPasses (e.2.1.2 (BitVec.ofNat 64 (2 ^ j)))) := by
    intro j hj1 hj2
    obtain ⟨hwf', hvp', _⟩ := hv j (by omega) (by omega)
    exact (worstPass_spec analyse ha _ hwf' hvp').2
  have hreach : reached (fun k => e.2.1.2 (BitVec.ofNat 64 (2 ^ k))) a b = k := by
    refine reached_eq _ a b k hk1 hk2 (fun j hj1 hj2 => (hpk j hj1 (by omega)).1 (hj j hj1 hj2)) ?_
    rcases hlast with h | h
    · exact Or.inl h
    · refine Or.inr fun hc => ?_
      have := (hpk k hk1 hk2).2 hc
      rw [show passes (worstPass analyse) (e.2.1.2 (BitVec.ofNat 64 (2 ^ k))) = false from h] at this
      cases this
  unfold timeOps timeCell
  dsimp only
  rw [hapow, hbpow, Int.toNat_natCast, Int.toNat_natCast, hreach]
  obtain ⟨hwf, hvp, hsub, hn⟩ := hv k (by omega) (by omega)
  have hb := (hout k (by omega) (by omega)).1
  have hkeytype : ∀ x ∈ (e.2.1.2 (BitVec.ofNat 64 (2 ^ k))).results, x.1.type = e.1.type := by
    intro y hemem
    obtain ⟨x, hx⟩ := List.exists_mem_of_ne_nil _ (hwf.2 y hemem)
    have hget : (e.2.1.2 (BitVec.ofNat 64 (2 ^ k))).get y.1 = y.2 := by
      unfold Battery.get
      rw [mapFind_of_mem _ hwf.1 y hemem]; rfl
    have hs := (C35_schedule_independent defs _ e.2.1.1 hth _ hb).2.2.2.2 y.1
    rw [hget] at hs
    have hx2 := List.mem_filter.1 (hs.mem_iff.1 hx)
    obtain ⟨ty, hty, hxt⟩ := key_typeS defs _ _ x hx2.1
    rw [htests, List.mem_singleton] at hty
    subst hty
    have : x.key = y.1 := by simpa using hx2.2
    rw [← this, hxt, hdef]
  clear hj hlast he hpk hreach hout hv
  beta_reduce
  generalize hbk : e.2.1.2 (BitVec.ofNat 64 (2 ^ k)) = bk at *
  unfold recordT
  cases hres : bk.results with
  | nil =>
    have hkeys : keys bk = [] := by unfold keys; rw [hres]; rfl
    rw [if_pos hkeys]
    rfl
  | cons x rest =>
    have hkeys : keys bk ≠ [] := by unfold keys; rw [hres]; simp
    rw [if_neg hkeys]
    dsimp only
    rw [hbindS]
    unfold extractTime
    rw [hbindS, hkeytype x (by rw [hres]; exact List.mem_cons_self), hname e.1 hmem, show bk.subject = e.2.1.1.subject from hsub,
      show bk.n = BitVec.ofNat 64 (2 ^ k) from hn]
    rfl

/-- C138. The command, for any batteries that the evaluations can produce and any times: it ends, and the file holds the table (`C98_table`)
of exactly one cell per test with results - the milliseconds of the evaluation with which the passes of that test ended.  Other files
are not touched. -/
theorem C138_command (defs : TestType → TestDef w ℝ) (hdefs : ∀ type, (defs type).type = type)
    (analyse : Battery ℝ → List ResultAnalysis) (ha : Analyses analyse) (path : String)
    (tests : List (TestRow × EvalRun w × (BitVec 64 → BitVec 64))) (hne : tests ≠ []) (hmem : ∀ e ∈ tests, e.1 ∈ getTests)
    (hruns : ∀ e ∈ tests, PossibleRun defs e.2.1 ∧ e.2.1.1.tests = [e.1.type]) (fs : TextFiles) :
    ∃ result fs', inspectTestSpeedCommand analyse path tests fs = .ok (result, fs') ∧
      result = (tests.flatMap timeOps).foldl (fun (r : PerTestResult) o => r.assign o.1 o.2.1 o.2.2) [] ∧
      fs' path = some (perTestText result) ∧ ∀ p, p ≠ path → fs' p = fs p := by
  have gen : ∀ (l : List (TestRow × EvalRun w × (BitVec 64 → BitVec 64))), (∀ e ∈ l, e ∈ tests) → l ≠ [] →
      ∀ (st : PerTestResult × TextFiles),
      ∃ fs', l.foldlM (fun (st : PerTestResult × TextFiles) e => do
        let r ← evaluateMultiPass e.2.1.2 (perTestCallback (worstPass analyse) (extractTime e.2.2)) emptyBattery
          e.2.1.1.startPower e.2.1.1.stopPower (.ok (st.1, ()))
        let r ← r.2
        .ok (r.1, writeText st.2 path (perTestText r.1) false)) st =
        (.ok ((l.flatMap timeOps).foldl (fun (r : PerTestResult) o => r.assign o.1 o.2.1 o.2.2) st.1, fs') : R _) ∧
        fs' path = some (perTestText ((l.flatMap timeOps).foldl (fun (r : PerTestResult) o => r.assign o.1 o.2.1 o.2.2) st.1)) ∧
        ∀ p, p ≠ path → fs' p = st.2 p := by
    intro l
    induction l with
    | nil => intro _ h; exact absurd rfl h
    | cons e l ih =>
      intro hl _ st
      have he := hl e List.mem_cons_self
      have h1 := speed_one defs analyse ha e (hmem e he) (hdefs _) (hruns e he).1 (hruns e he).2 st.1
      have hstep : (do
          let r ← evaluateMultiPass e.2.1.2 (perTestCallback (worstPass analyse) (extractTime e.2.2)) emptyBattery
            e.2.1.1.startPower e.2.1.1.stopPower (.ok (st.1, ()))
          let r ← r.2
          .ok (r.1, writeText st.2 path (perTestText r.1) false) : R (PerTestResult × TextFiles)) =
          .ok ((timeOps e).foldl (fun (r : PerTestResult) o => r.assign o.1 o.2.1 o.2.2) st.1,
            writeText st.2 path (perTestText ((timeOps e).foldl (fun (r : PerTestResult) o => r.assign o.1 o.2.1 o.2.2) st.1)) false) := by
        revert h1
        generalize evaluateMultiPass e.2.1.2 (perTestCallback (worstPass analyse) (extractTime e.2.2)) emptyBattery
            e.2.1.1.startPower e.2.1.1.stopPower (.ok (st.1, ())) = m
        intro h1
        cases m with
        | error f => cases h1
        | ok v =>
          rw [hbindS] at h1 ⊢
          rw [h1, hbindS]
      rw [List.foldlM_cons, hstep, hbindS, List.flatMap_cons, List.foldl_append]
      by_cases hnil : l = []
      · subst hnil
        exact ⟨_, rfl, by simp [writeText], fun p hp => by simp [writeText, hp]⟩
      · obtain ⟨fs', g1, g2, g3⟩ := ih (fun x hx => hl x (List.mem_cons_of_mem _ hx)) hnil
          ((timeOps e).foldl (fun (r : PerTestResult) o => r.assign o.1 o.2.1 o.2.2) st.1,
            writeText st.2 path (perTestText ((timeOps e).foldl (fun (r : PerTestResult) o => r.assign o.1 o.2.1 o.2.2) st.1)) false)
        refine ⟨fs', g1, g2, fun p hp => ?_⟩
        rw [g3 p hp]; simp [writeText, hp]
  obtain ⟨fs', h1, h2, h3⟩ := gen tests (fun _ h => h) hne ([], fs)
  exact ⟨_, fs', h1, rfl, h2, h3⟩

/-- The tests of `inspect_test_speed_command<T>()` for the default mixer `m`: the setups, with any batteries and times. -/
def Spec.speedTests (t : WT) (hw : BitVec 32) (m : Mixer t.bits) (eval : TestRow → BitVec 64 → Battery ℝ)
    (ms : TestRow → BitVec 64 → BitVec 64) : List (TestRow × EvalRun t.bits × (BitVec 64 → BitVec 64)) :=
  getTests.map fun row => (row, (speedSetup t (defaultMaxThreads hw) m row.type, eval row), ms row)

private theorem lastValue_cells (name : String) (cell : TestRow → Option String) (l : List TestRow) (hnd : (l.map TestRow.name).Nodup)
    (row : TestRow) (hrow : row ∈ l) :
    lastValue (l.flatMap fun r => (cell r).toList.map fun v => (name, r.name, v)) name row.name = cell row := by
  induction l with
  | nil => cases hrow
  | cons r l ih =>
    rw [List.map_cons, List.nodup_cons] at hnd
    rw [List.flatMap_cons]
    unfold lastValue
    rw [List.reverse_append, List.find?_append]
    rcases List.mem_cons.1 hrow with rfl | hmem
    · have hno : (l.flatMap fun r => (cell r).toList.map fun v => (name, r.name, v)).reverse.find?
          (fun o => o.1 = name ∧ o.2.1 = row.name) = none := by
        rw [List.find?_eq_none]
        intro x hx
        rw [List.mem_reverse] at hx
        obtain ⟨r', hr', hx⟩ := List.mem_flatMap.1 hx
        obtain ⟨v, _, rfl⟩ := List.mem_map.1 hx
        simp only [decide_eq_true_eq, true_and]
        intro e
        exact hnd.1 (e ▸ List.mem_map_of_mem hr')
      rw [hno]
      cases cell row with
      | none => rfl
      | some v => simp
    · have hi := ih hnd.2 hmem
      unfold lastValue at hi
      rcases hf : (l.flatMap fun r => (cell r).toList.map fun v => (name, r.name, v)).reverse.find?
          (fun o => o.1 = name ∧ o.2.1 = row.name) with _ | x
      · rw [hf] at hi
        rw [← hi, hf, Option.none_or]
        have hne : r.name ≠ row.name := fun e => hnd.1 (e ▸ List.mem_map_of_mem hmem)
        have : ((cell r).toList.map fun v => (name, r.name, v)).reverse.find? (fun o => o.1 = name ∧ o.2.1 = row.name) = none := by
          rw [List.find?_eq_none]
          intro x hx
          rw [List.mem_reverse] at hx
          obtain ⟨v, _, rfl⟩ := List.mem_map.1 hx
          simp [hne]
        rw [this]
      · rw [hf] at hi
        rw [← hi, hf]; rfl

open Classical in
/-- C138. The file `speed_per_test..`: the header and, if any test gave results, a single row with the name of the mixer and one cell
per test in the order of the header. -/
theorem C138_file (cdf : ℝ → ℝ → ℝ) (t : WT) (hw : BitVec 32) (m : Mixer t.bits) (eval : TestRow → BitVec 64 → Battery ℝ)
    (ms : TestRow → BitVec 64 → BitVec 64) (analyse : Battery ℝ → List ResultAnalysis) (ha : Analyses analyse) (path : String)
    (hruns : ∀ row ∈ getTests, PossibleRun (suiteDef cdf) (speedSetup t (defaultMaxThreads hw) m row.type, eval row))
    (fs : TextFiles) :
    ∃ result fs', inspectTestSpeedCommand analyse path (speedTests t hw m eval ms) fs = .ok (result, fs') ∧
      (∀ p, p ≠ path → fs' p = fs p) ∧
      fs' path = some ("name|mean|uniform|runs|serial-avalanche|gap|coupon|divisibility|permutation|binary-rank|linear-complexity|sac|bic|\n-|-|-|-|-|-|-|-|-|-|-|-|-\n" ++
        (if ∀ e ∈ speedTests t hw m eval ms, timeCell e = none then ""
         else m.name ++ "|" ++ String.join ((speedTests t hw m eval ms).map fun e => (timeCell e).getD "" ++ "|") ++ "\n")) := by
  have hmem : ∀ e ∈ speedTests t hw m eval ms, ∃ row ∈ getTests, e = (row, (speedSetup t (defaultMaxThreads hw) m row.type, eval row), ms row) := by
    intro e he
    obtain ⟨row, hrow, rfl⟩ := List.mem_map.1 he
    exact ⟨row, hrow, rfl⟩
  obtain ⟨result, fs', h1, h2, h3, h4⟩ := C138_command (suiteDef cdf)
    (fun type => (C89_kind (w := t.bits) cdf type).2.2.2) analyse ha path (speedTests t hw m eval ms)
    (by unfold speedTests getTests; simp)
    (fun e he => by obtain ⟨row, hrow, rfl⟩ := hmem e he; exact hrow)
    (fun e he => by obtain ⟨row, hrow, rfl⟩ := hmem e he; exact ⟨hruns row hrow, rfl⟩) fs
  refine ⟨result, fs', h1, h4, ?_⟩
  rw [h3, h2]
  refine congrArg some ?_
  have hops : (speedTests t hw m eval ms).flatMap timeOps = getTests.flatMap fun row =>
      (timeCell (row, (speedSetup t (defaultMaxThreads hw) m row.type, eval row), ms row)).toList.map fun v => (m.name, row.name, v) := by
    unfold speedTests
    rw [List.flatMap_map]
    rfl
  obtain ⟨subjects, s1, s2, s3⟩ := C98_table ((speedTests t hw m eval ms).flatMap timeOps)
  rw [s3]
  refine congrArg (_ ++ ·) ?_
  set cell : TestRow → Option String := fun row =>
    timeCell (row, (speedSetup t (defaultMaxThreads hw) m row.type, eval row), ms row) with hcell
  have hall : (∀ e ∈ speedTests t hw m eval ms, timeCell e = none) ↔ ∀ row ∈ getTests, cell row = none := by
    unfold speedTests
    constructor
    · intro h row hrow; exact h _ (List.mem_map_of_mem hrow)
    · intro h e he
      obtain ⟨row, hrow, rfl⟩ := List.mem_map.1 he
      exact h row hrow
  have hsub : ∀ s, s ∈ subjects ↔ s = m.name ∧ ∃ row ∈ getTests, cell row ≠ none := by
    intro s
    rw [s2 s, hops]
    constructor
    · rintro ⟨o, ho, rfl⟩
      obtain ⟨row, hrow, ho⟩ := List.mem_flatMap.1 ho
      obtain ⟨v, hv, rfl⟩ := List.mem_map.1 ho
      refine ⟨rfl, row, hrow, ?_⟩
      intro h0
      rw [show timeCell (row, (speedSetup t (defaultMaxThreads hw) m row.type, eval row), ms row) = cell row from rfl, h0] at hv
      cases hv
    · rintro ⟨rfl, row, hrow, hne⟩
      obtain ⟨v, hv⟩ := Option.ne_none_iff_exists'.1 hne
      refine ⟨(m.name, row.name, v), List.mem_flatMap.2 ⟨row, hrow, List.mem_map.2 ⟨v, ?_, rfl⟩⟩, rfl⟩
      rw [show timeCell (row, (speedSetup t (defaultMaxThreads hw) m row.type, eval row), ms row) = cell row from rfl, hv]
      simp
  by_cases hc : ∀ e ∈ speedTests t hw m eval ms, timeCell e = none
  · rw [if_pos hc]
    have : subjects = [] := by
      apply List.eq_nil_iff_forall_not_mem.2
      intro s hs
      obtain ⟨_, row, hrow, hne⟩ := (hsub s).1 hs
      exact hne (hall.1 hc row hrow)
    rw [this]; rfl
  · rw [if_neg hc]
    have hex : ∃ row ∈ getTests, cell row ≠ none := by
      by_contra hcon
      push Not at hcon
      exact hc (hall.2 hcon)
    have hone : subjects = [m.name] := by
      have hin := (hsub m.name).2 ⟨rfl, hex⟩
      cases subjects with
      | nil => cases hin
      | cons a rest =>
        have ha' := ((hsub a).1 List.mem_cons_self).1
        cases rest with
        | nil => rw [ha']
        | cons b rest =>
          have hb' := ((hsub b).1 (by simp)).1
          have hlt := (List.pairwise_cons.1 s1).1 b (by simp)
          rw [ha', hb'] at hlt
          have hirr : ∀ l : List Char, strLt l l = false := by
            intro l
            induction l with
            | nil => rfl
            | cons c l ih => simp [strLt, ih]
          rw [hirr] at hlt
          cases hlt
    rw [hone, List.map_cons, List.map_nil]
    have hcols : testColumns = getTests.map TestRow.name := by decide
    have hnd : (getTests.map TestRow.name).Nodup := by decide
    have hrow : (testColumns.map fun c => (lastValue ((speedTests t hw m eval ms).flatMap timeOps) m.name c).getD "" ++ "|") =
        (speedTests t hw m eval ms).map fun e => (timeCell e).getD "" ++ "|" := by
      rw [hcols, hops]
      unfold speedTests
      rw [List.map_map, List.map_map]
      apply List.map_congr_left
      intro row hrow
      show (lastValue _ m.name row.name).getD "" ++ "|" = _
      rw [lastValue_cells m.name cell getTests hnd row hrow]
      rfl
    rw [hrow]
    simp [String.join]

/-- C138. The mean test has no results with more than 2^20 values: its cell is empty unless it rejects the mixer with 2^10 to 2^20 values. -/
theorem C138_mean (cdf : ℝ → ℝ → ℝ) (t : WT) (hw : BitVec 32) (m : Mixer t.bits) (eval : BitVec 64 → Battery ℝ) (ms : BitVec 64 → BitVec 64)
    (row : TestRow) (htype : row.type = .mean)
    (hrun : PossibleRun (suiteDef cdf) (speedSetup t (defaultMaxThreads hw) m row.type, eval))
    (hpass : ∀ k : Nat, 10 ≤ k → k ≤ 20 → BatteryPasses (eval (BitVec.ofNat 64 (2 ^ k)))) :
    timeCell (row, (speedSetup t (defaultMaxThreads hw) m row.type, eval), ms) = none := by
  classical
  have hv := possible_valid hrun
  obtain ⟨hth, -, -, -, hout⟩ := hrun
  have hempty : ∀ k : Nat, 21 ≤ k → k ≤ 25 → keys (eval (BitVec.ofNat 64 (2 ^ k))) = [] := by
    intro k hk1 hk2
    have hr1 : (speedSetup t (defaultMaxThreads hw) m row.type).startPower ≤ k := by
      show (10 : Int) ≤ k; omega
    have hr2 : (k : Int) ≤ (speedSetup t (defaultMaxThreads hw) m row.type).stopPower := by
      show (k : Int) ≤ 25; omega
    obtain ⟨hwf, _⟩ := hv k hr1 hr2
    have hb := (hout k hr1 hr2).1
    have hs := (C35_schedule_independent _ _ _ hth _ hb).2.2.2.2
    unfold keys
    rw [List.map_eq_nil_iff]
    apply List.eq_nil_iff_forall_not_mem.2
    intro y hy
    obtain ⟨x, hx⟩ := List.exists_mem_of_ne_nil _ (hwf.2 y hy)
    have hget : (eval (BitVec.ofNat 64 (2 ^ k))).get y.1 = y.2 := by
      unfold Battery.get
      rw [mapFind_of_mem _ hwf.1 y hy]; rfl
    have hp := hs y.1
    rw [hget] at hp
    have hx2 := List.mem_of_mem_filter (hp.mem_iff.1 hx)
    unfold expectedResults at hx2
    obtain ⟨ty, hty, hx2⟩ := List.mem_flatMap.1 hx2
    obtain ⟨s, _, hx2⟩ := List.mem_flatMap.1 hx2
    have hty' : ty = .mean := by
      have : ty ∈ [row.type] := hty
      rw [List.mem_singleton] at this
      rw [this, htype]
    subst hty'
    have hlim : (getTestDefinition .mean).limiter.limit (BitVec.ofNat 64 (2 ^ k)) = none := by
      obtain rfl | rfl | rfl | rfl | rfl : k = 21 ∨ k = 22 ∨ k = 23 ∨ k = 24 ∨ k = 25 := by omega
      all_goals rfl
    rcases List.mem_append.1 hx2 with h | h
    · simp [suiteDef, suiteMixer, rawMixerTest] at h
    · simp only [suiteDef, suiteStream, rawStreamTest, Option.map_some, hlim] at h
      have hval : TestRun.value (some (Except.ok [])) = [] := rfl
      cases hmix : (speedSetup t (defaultMaxThreads hw) m row.type).mix with
      | none =>
        simp only [hmix] at h
        obtain ⟨y, hy, _⟩ := List.mem_filterMap.1 h
        rw [hlim, hval] at hy; cases hy
      | some mm =>
        simp only [hmix] at h
        obtain ⟨y, hy, _⟩ := List.mem_filterMap.1 h
        rw [hlim, hval] at hy; cases hy
  have hreach : reached (fun k => eval (BitVec.ofNat 64 (2 ^ k))) 10 25 = 25 := by
    refine reached_eq _ 10 25 25 (by omega) (by omega) (fun j hj1 hj2 => ?_) (Or.inl rfl)
    by_cases h : j ≤ 20
    · exact hpass j hj1 h
    · intro key hkey
      rw [hempty j (by omega) (by omega)] at hkey; cases hkey
  unfold timeCell
  show (if keys (eval (BitVec.ofNat 64 (2 ^ reached (fun k => eval (BitVec.ofNat 64 (2 ^ k))) 10 25))) = [] then _ else _) = _
  rw [hreach, if_pos (hempty 25 (by omega) le_rfl)]

-- Every mixer has runs as C138_file and C138_mean suppose, whatever the schedule of the threads.
example (cdf : ℝ → ℝ → ℝ) (t : WT) (hw : BitVec 32) (m : Mixer t.bits) : ∃ eval : TestRow → BitVec 64 → Battery ℝ,
    ∀ row ∈ getTests, PossibleRun (suiteDef cdf) (speedSetup t (defaultMaxThreads hw) m row.type, eval row) := by
  choose f hf using fun (row : TestRow) n => C35_terminates (suiteDef cdf) n (speedSetup t (defaultMaxThreads hw) m row.type)
  have hth := defaultMaxThreads_pos hw
  refine ⟨f, fun row _ => ⟨by show 0 < defaultMaxThreads hw; omega, by show (0 : Int) ≤ 10; norm_num, by show (10 : Int) ≤ 25; norm_num,
    by show (25 : Int) ≤ 63; norm_num, fun k hk1 hk2 => ⟨hf row _, ?_⟩⟩⟩
  have hk : 10 ≤ k ∧ k ≤ 25 := by
    have a : (10 : Int) ≤ k := hk1
    have b : (k : Int) ≤ 25 := hk2
    omega
  have hval : (BitVec.ofNat 64 (2 ^ k)).toNat = 2 ^ k := by
    rw [BitVec.toNat_ofNat, Nat.mod_eq_of_lt (Nat.pow_lt_pow_right (by norm_num) (by omega))]
  refine suite_valid cdf t _ ?_ ?_ _
  · intro h
    have := congrArg BitVec.toNat h
    rw [hval] at this
    have : 0 < 2 ^ k := by positivity
    simp_all
  · rw [hval]
    calc 2 ^ k * t.bits ≤ 2 ^ 25 * 64 := Nat.mul_le_mul (Nat.pow_le_pow_right (by norm_num) hk.2) (by cases t <;> decide)
      _ < 2 ^ 64 := by norm_num
-- The row of a mixer with times for two tests and nothing for the others.
example : perTestText ([("mx3", "uniform", "120"), ("mx3", "gap", "95")].foldl
    (fun r (o : String × String × String) => r.assign o.1 o.2.1 o.2.2) []) =
    "name|mean|uniform|runs|serial-avalanche|gap|coupon|divisibility|permutation|binary-rank|linear-complexity|sac|bic|\n-|-|-|-|-|-|-|-|-|-|-|-|-\nmx3||120|||95||||||||\n" := by
  decide +kernel

end TFR
