import Verif.Props.InspectCommand
import Verif.Props.Construct
import Mathlib.Algebra.BigOperators.Group.List.Basic
import Mathlib.Data.List.ProdSigma
import Mathlib.Data.List.Nodup
/-
C98, continued: the table of `-inspect-test`.  C99: `-exhaust` and the command line.
-/
namespace TFR
open Spec
variable {w : Nat}

private theorem hbind {α β : Type} (x : α) (f : α → R β) : ((Except.ok x : R α) >>= f) = f x := rfl

/-- The power of two at which the evaluation of a subject stops: the first that fails, or the last. -/
noncomputable def Spec.reached (battery : Nat → Battery ℝ) (start stop : Nat) : Nat :=
  sInf {k | start ≤ k ∧ (k = stop ∨ ¬ BatteryPasses (battery k))}

theorem reached_eq (battery : Nat → Battery ℝ) (start stop k : Nat) (h1 : start ≤ k) (h2 : k ≤ stop)
    (h3 : ∀ j, start ≤ j → j < k → BatteryPasses (battery j)) (h4 : k = stop ∨ ¬ BatteryPasses (battery k)) :
    reached battery start stop = k := by
  apply le_antisymm
  · exact Nat.sInf_le ⟨h1, h4⟩
  · refine le_csInf ⟨k, h1, h4⟩ ?_
    rintro j ⟨hj1, hj2⟩
    by_contra hlt
    rw [not_le] at hlt
    rcases hj2 with rfl | hj2
    · omega
    · exact hj2 (h3 j hj1 hlt)

open Classical in
/-- What a subject contributes to the table: nothing if the last battery has no results, else `>k` if it was never rejected and `k` if it
was rejected at 2^k. -/
noncomputable def Spec.cellOf (battery : Nat → Battery ℝ) (subject test : String) (start stop : Nat) : List (String × String × String) :=
  let k := reached battery start stop
  if keys (battery k) = [] then []
  else [(subject, test, (if BatteryPasses (battery k) then ">" else "") ++ toString k)]

open Classical in
/-- What a subject contributes to the score of a test: 26 minus the power at which it was rejected. -/
noncomputable def Spec.scoreOf (battery : Nat → Battery ℝ) (start stop : Nat) : Nat :=
  let k := reached battery start stop
  if BatteryPasses (battery k) then 0 else 26 - k

/-- The effect of the callback at the last pass. -/
private def record {S : Type} (extract : S → Battery ℝ → R (String × S)) (s : R (PerTestResult × S)) (br : Battery ℝ) :
    R (PerTestResult × S) :=
  match br.results with
  | [] => s
  | e :: _ => do
    let st ← s
    let r ← extract st.2 br
    .ok (st.1.assign br.subject (getTestName e.1.type) r.1, r.2)

private theorem perTestCallback_eq {S : Type} (worst : Battery ℝ → Option Bool) (extract : S → Battery ℝ → R (String × S)) :
    perTestCallback worst extract = resultCallbackDo worst (some fun s br _ => record extract s br) := by
  funext s br last
  rw [resultCallbackDo_eq]
  unfold perTestCallback passes record
  rcases worst br with _ | a
  · cases last <;> simp <;> rfl
  · cases last <;> cases a <;> simp <;> rfl

private theorem key_type (defs : TestType → TestDef w ℝ) (n : BitVec 64) (setup : TestSetup w) (r : TestResult ℝ)
    (hr : r ∈ expectedResults defs n setup) : ∃ ty ∈ setup.tests, r.key.type = (defs ty).type := by
  unfold expectedResults at hr
  obtain ⟨ty, hty, hr⟩ := List.mem_flatMap.1 hr
  obtain ⟨s, _, hr⟩ := List.mem_flatMap.1 hr
  have hfm : ∀ (l : List (SubTest ℝ)) (a b : String), 
      r ∈ l.filterMap (fun sub => sub.stats.map fun stat => (⟨a, b, n, ⟨(defs ty).type, sub.name⟩, stat⟩ : TestResult ℝ)) →
      r.key.type = (defs ty).type := by
    intro l a b hr
    obtain ⟨x, hx, hr⟩ := List.mem_filterMap.1 hr
    obtain ⟨st, hst, rfl⟩ := Option.map_eq_some_iff.1 hr
    rfl
  refine ⟨ty, hty, ?_⟩
  rcases List.mem_append.1 hr with hr | hr
  · cases hm : (defs ty).testMixer with
    | none => simp [hm] at hr
    | some f =>
      cases hx : setup.mix with
      | none => simp [hm, hx] at hr
      | some m => simp only [hm, hx] at hr; exact hfm _ _ _ hr
  · cases hm : (defs ty).testStream with
    | none => simp [hm] at hr
    | some f =>
      cases hx : setup.mix with
      | none => simp only [hm, hx] at hr; exact hfm _ _ _ hr
      | some m => simp only [hm, hx] at hr; exact hfm _ _ _ hr

/-- One subject. -/
theorem perTest_one (defs : TestType → TestDef w ℝ) (analyse : Battery ℝ → List ResultAnalysis) (ha : Analyses analyse)
    (type : TestType) (hdef : (defs type).type = type) (run : EvalRun w) (h : PossibleRun defs run) (htests : run.1.tests = [type])
    (hstop : run.1.stopPower ≤ 26) (st : PerTestResult × BitVec 64) :
    (do let r ← evaluateMultiPass run.2 (perTestCallback (worstPass analyse) (extractPowerOfTwo analyse)) emptyBattery
          run.1.startPower run.1.stopPower (.ok st)
        r.2) = (.ok
      ((cellOf (fun k => run.2 (BitVec.ofNat 64 (2 ^ k))) run.1.subject (getTestName type) run.1.startPower.toNat
          run.1.stopPower.toNat).foldl (fun (r : PerTestResult) o => r.assign o.1 o.2.1 o.2.2) st.1,
       st.2 + BitVec.ofNat 64 (scoreOf (fun k => run.2 (BitVec.ofNat 64 (2 ^ k))) run.1.startPower.toNat run.1.stopPower.toNat)) :
        R (PerTestResult × BitVec 64)) := by
  classical
  have hposs := h
  have hv := possible_valid h
  obtain ⟨hth, h0, h1, h2, hout⟩ := h
  obtain ⟨a, hapow⟩ := Int.eq_ofNat_of_zero_le h0
  obtain ⟨b, hbpow⟩ := Int.eq_ofNat_of_zero_le (h0.trans h1)
  rw [hapow, hbpow] at h1
  rw [hbpow] at h2 hstop
  rw [perTestCallback_eq]
  obtain ⟨k, hk1, hk2, hj, hlast, he⟩ := multiPass_do run.2 (worstPass analyse)
    (some fun s br _ => record (extractPowerOfTwo analyse) s br) emptyBattery a b (by omega) (by omega) (.ok st)
  rw [hapow, hbpow, he, hbind]
  simp only [Int.toNat_natCast]
  have hpk : ∀ j, a ≤ j → j ≤ b → (passes (worstPass analyse) (run.2 (BitVec.ofNat 64 (2 ^ j))) = true ↔
      BatteryPasses (run.2 (BitVec.ofNat 64 (2 ^ j)))) := by
    intro j hj1 hj2
    obtain ⟨hwf', hvp', _⟩ := hv j (by omega) (by omega)
    exact (worstPass_spec analyse ha _ hwf' hvp').2
  have hreach : reached (fun k => run.2 (BitVec.ofNat 64 (2 ^ k))) a b = k := by
    refine reached_eq _ a b k hk1 hk2 (fun j hj1 hj2 => (hpk j hj1 (by omega)).1 (hj j hj1 hj2)) ?_
    rcases hlast with h | h
    · exact Or.inl h
    · refine Or.inr fun hc => ?_
      have := (hpk k hk1 hk2).2 hc
      rw [show passes (worstPass analyse) (run.2 (BitVec.ofNat 64 (2 ^ k))) = false from h] at this
      cases this
  unfold cellOf scoreOf
  dsimp only
  rw [hreach]
  have hpass := hpk k hk1 hk2
  obtain ⟨hwf, hvp, hsub, hn⟩ := hv k (by omega) (by omega)
  have hb := (hout k (by omega) (by omega)).1
  have hkeytype : ∀ e ∈ (run.2 (BitVec.ofNat 64 (2 ^ k))).results, e.1.type = type := by
    intro e hemem
    obtain ⟨x, hx⟩ := List.exists_mem_of_ne_nil _ (hwf.2 e hemem)
    have hget : (run.2 (BitVec.ofNat 64 (2 ^ k))).get e.1 = e.2 := by
      unfold Battery.get
      rw [mapFind_of_mem _ hwf.1 e hemem]; rfl
    have hs := (C35_schedule_independent defs _ run.1 hth _ hb).2.2.2.2 e.1
    rw [hget] at hs
    have hx2 := List.mem_filter.1 (hs.mem_iff.1 hx)
    obtain ⟨ty, hty, hxt⟩ := key_type defs _ _ x hx2.1
    rw [htests, List.mem_singleton] at hty
    subst hty
    have : x.key = e.1 := by simpa using hx2.2
    rw [← this, hxt, hdef]
  beta_reduce
  generalize hbk : run.2 (BitVec.ofNat 64 (2 ^ k)) = bk at *
  unfold record
  cases hres : bk.results with
  | nil =>
    have hkeys : keys bk = [] := by unfold keys; rw [hres]; rfl
    have hbp : BatteryPasses bk := by intro k hk; rw [hkeys] at hk; cases hk
    rw [if_pos hkeys, if_pos hbp]
    simp
  | cons e rest =>
    have hkeys : keys bk ≠ [] := by unfold keys; rw [hres]; simp
    have hw := (worstPass_spec analyse ha bk hwf hvp).1
    rw [if_neg hkeys]
    dsimp only
    rw [hbind]
    unfold extractPowerOfTwo
    cases hra : analyse bk with
    | nil => exact absurd (hw.1 (by unfold worstPass; rw [hra]; rfl)) hkeys
    | cons ra ras =>
      dsimp only
      rw [show bk.n = BitVec.ofNat 64 (2 ^ k) from hn, (C40_power_of_two 0).2.1 k (by omega), hbind, hbind]
      have hst : statPass ra.stat = passes (worstPass analyse) bk := by unfold passes worstPass; rw [hra]; rfl
      rw [hst, hkeytype e (by rw [hres]; exact List.mem_cons_self), show bk.subject = run.1.subject from hsub]
      by_cases hp : BatteryPasses bk
      · rw [hpass.2 hp]
        simp [hp]
        rfl
      · have hpf : passes (worstPass analyse) bk = false := by
          rw [← Bool.not_eq_true]; exact fun h => hp (hpass.1 h)
        rw [hpf]
        have hk26 : (1 : Int) + 25 - (k : Int) = ((26 - k : Nat) : Int) := by omega
        simp only [Bool.false_eq_true, if_false, hp, List.foldl_cons, List.foldl_nil]
        rw [hk26]
        rfl

/-- The assignments made for one test: a cell for each subject with results, then the score and the time. -/
noncomputable def Spec.testOps (e : TestRow × List (EvalRun w) × String) : List (String × String × String) :=
  (e.2.1.flatMap fun run => cellOf (fun k => run.2 (BitVec.ofNat 64 (2 ^ k))) run.1.subject e.1.name run.1.startPower.toNat
    run.1.stopPower.toNat) ++
  [("!score", e.1.name, toString ((e.2.1.map fun run => scoreOf (fun k => run.2 (BitVec.ofNat 64 (2 ^ k))) run.1.startPower.toNat
      run.1.stopPower.toNat).sum % 2 ^ 64)),
   ("!time", e.1.name, e.2.2 ++ "s")]

/-- C98. The table of `-inspect-test`, for any subjects and any schedule of the threads: the file contains the table (`C98_table`) of
exactly the assignments of `Spec.testOps` - how far each subject got in each test, and for each test the score and the time. -/
theorem C98_command (defs : TestType → TestDef w ℝ) (hdefs : ∀ type, (defs type).type = type)
    (analyse : Battery ℝ → List ResultAnalysis) (ha : Analyses analyse) (path : String)
    (tests : List (TestRow × List (EvalRun w) × String)) (hne : tests ≠ []) (hmem : ∀ e ∈ tests, e.1 ∈ getTests)
    (hruns : ∀ e ∈ tests, ∀ run ∈ e.2.1, PossibleRun defs run ∧ run.1.tests = [e.1.type] ∧ run.1.stopPower ≤ 26) (fs : TextFiles) :
    ∃ result fs', inspectPerTestCommand analyse path tests fs = .ok (result, fs') ∧
      result = (tests.flatMap testOps).foldl (fun (r : PerTestResult) o => r.assign o.1 o.2.1 o.2.2) [] ∧
      fs' path = some (perTestText result) ∧ ∀ p, p ≠ path → fs' p = fs p := by
  have hname : ∀ e ∈ getTests, getTestName e.type = e.name := by decide
  have hall : ∀ (type : TestType) (runs : List (EvalRun w)),
      (∀ run ∈ runs, PossibleRun defs run ∧ run.1.tests = [type] ∧ run.1.stopPower ≤ 26) → ∀ st : PerTestResult × BitVec 64,
      perTestRuns analyse runs st = .ok
        ((runs.flatMap fun run => cellOf (fun k => run.2 (BitVec.ofNat 64 (2 ^ k))) run.1.subject (getTestName type) run.1.startPower.toNat
            run.1.stopPower.toNat).foldl (fun (r : PerTestResult) o => r.assign o.1 o.2.1 o.2.2) st.1,
         st.2 + BitVec.ofNat 64 (runs.map fun run => scoreOf (fun k => run.2 (BitVec.ofNat 64 (2 ^ k))) run.1.startPower.toNat
            run.1.stopPower.toNat).sum) := by
    intro type runs
    unfold perTestRuns
    induction runs with
    | nil => intro _ st; simp; rfl
    | cons run runs ih =>
      intro h st
      obtain ⟨p1, p2, p3⟩ := h run List.mem_cons_self
      rw [List.foldlM_cons, perTest_one defs analyse ha type (hdefs type) run p1 p2 p3 st, hbind,
        ih fun r hr => h r (List.mem_cons_of_mem _ hr)]
      rw [List.flatMap_cons, List.foldl_append, List.map_cons, List.sum_cons, BitVec.ofNat_add, BitVec.add_assoc]
  have gen : ∀ (l : List (TestRow × List (EvalRun w) × String)), (∀ e ∈ l, e ∈ tests) → l ≠ [] → ∀ (st : PerTestResult × TextFiles),
      ∃ fs', l.foldlM (fun st e => do
        let r ← perTestRuns analyse e.2.1 (st.1, 0)
        let result := r.1.assign "!score" e.1.name (toString r.2.toNat)
        let result := result.assign "!time" e.1.name (e.2.2 ++ "s")
        .ok (result, writeText st.2 path (perTestText result) false)) st =
        (.ok ((l.flatMap testOps).foldl (fun (r : PerTestResult) o => r.assign o.1 o.2.1 o.2.2) st.1, fs') : R _) ∧
        fs' path = some (perTestText ((l.flatMap testOps).foldl (fun (r : PerTestResult) o => r.assign o.1 o.2.1 o.2.2) st.1)) ∧
        ∀ p, p ≠ path → fs' p = st.2 p := by
    intro l
    induction l with
    | nil => intro _ h; exact absurd rfl h
    | cons e l ih =>
      intro hl _ st
      rw [List.foldlM_cons, hall e.1.type e.2.1 (hruns e (hl e List.mem_cons_self)), hbind]
      dsimp only
      rw [hbind, hname e.1 (hmem e (hl e List.mem_cons_self))]
      have hops : ((PerTestResult.assign ((e.2.1.flatMap fun run => cellOf (fun k => run.2 (BitVec.ofNat 64 (2 ^ k))) run.1.subject e.1.name
            run.1.startPower.toNat run.1.stopPower.toNat).foldl (fun (r : PerTestResult) o => r.assign o.1 o.2.1 o.2.2) st.1) "!score" e.1.name
          (toString (0 + BitVec.ofNat 64 (e.2.1.map fun run => scoreOf (fun k => run.2 (BitVec.ofNat 64 (2 ^ k))) run.1.startPower.toNat
            run.1.stopPower.toNat).sum).toNat)).assign "!time" e.1.name (e.2.2 ++ "s")) =
          (testOps e).foldl (fun (r : PerTestResult) o => r.assign o.1 o.2.1 o.2.2) st.1 := by
        unfold testOps
        rw [List.foldl_append, List.foldl_cons, List.foldl_cons, List.foldl_nil]
        have : (0 + BitVec.ofNat 64 (e.2.1.map fun run => scoreOf (fun k => run.2 (BitVec.ofNat 64 (2 ^ k))) run.1.startPower.toNat
            run.1.stopPower.toNat).sum).toNat = (e.2.1.map fun run => scoreOf (fun k => run.2 (BitVec.ofNat 64 (2 ^ k)))
            run.1.startPower.toNat run.1.stopPower.toNat).sum % 2 ^ 64 := by
          simp
        rw [this]
      rw [hops, List.flatMap_cons, List.foldl_append]
      by_cases hnil : l = []
      · subst hnil
        exact ⟨_, rfl, by simp [writeText], fun p hp => by simp [writeText, hp]⟩
      · obtain ⟨fs', h1, h2, h3⟩ := ih (fun x hx => hl x (List.mem_cons_of_mem _ hx)) hnil
          ((testOps e).foldl (fun (r : PerTestResult) o => r.assign o.1 o.2.1 o.2.2) st.1,
            writeText st.2 path (perTestText ((testOps e).foldl (fun (r : PerTestResult) o => r.assign o.1 o.2.1 o.2.2) st.1)) false)
        refine ⟨fs', h1, h2, fun p hp => ?_⟩
        rw [h3 p hp]; simp [writeText, hp]
  obtain ⟨fs', h1, h2, h3⟩ := gen tests (fun _ h => h) hne ([], fs)
  exact ⟨_, fs', h1, rfl, h2, h3⟩

-- A history with an overwritten cell and a subject without some columns.
example : perTestText ([("mx3", "gap", "12"), ("aes", "mean", ">25"), ("mx3", "gap", "13"), ("!time", "gap", "2.5s")].foldl
    (fun r (o : String × String × String) => r.assign o.1 o.2.1 o.2.2) []) =
    "name|mean|uniform|runs|serial-avalanche|gap|coupon|divisibility|permutation|binary-rank|linear-complexity|sac|bic|\n-|-|-|-|-|-|-|-|-|-|-|-|-\n!time|||||2.5s||||||||\naes|>25||||||||||||\nmx3|||||13||||||||\n" := by
  decide +kernel
example (cdf : ℝ → ℝ → ℝ) : ∀ type, (suiteDef cdf type : TestDef WT.u32.bits ℝ).type = type := fun type =>
  (C89_kind (w := WT.u32.bits) cdf type).2.2.2

/-! ### C99 -/

private theorem foldlM_score (score : Nat × Nat × Nat → Int) (l : List (Nat × Nat × Nat)) (st : List Int × Int) :
    l.foldlM (fun (st : List Int × Int) c => do
      let p ← (.ok (score c) : R Int)
      .ok (st.1 ++ [p], st.2 + p)) st = (.ok (st.1 ++ l.map score, st.2 + (l.map score).sum) : R _) := by
  induction l generalizing st with
  | nil => simp; rfl
  | cons c l ih =>
    rw [List.foldlM_cons, hbind]
    refine (ih _).trans ?_
    simp [add_assoc]

private theorem exhaust_product : exhaustConstants = (List.range' 9 12).product ((List.range' 9 12).product (List.range' 9 11)) := by
  unfold exhaustConstants List.product
  congr 1

private theorem exhaust_length : exhaustConstants.length = 1584 := by
  rw [exhaust_product]
  erw [List.length_product, List.length_product, List.length_range', List.length_range']

private theorem exhaust_nodup : exhaustConstants.Nodup := by
  rw [exhaust_product]
  exact List.Nodup.product List.nodup_range' (List.Nodup.product List.nodup_range' List.nodup_range')

/-- C99. `-exhaust` evaluates each triple of constants with c1, c2 from 9 to 20 and c3 from 9 to 19 exactly once, 1584 in all; the total
it prints is the sum of the powers reached, which fits an `int` for every outcome. -/
theorem C99_exhaust (score : Nat × Nat × Nat → Int) (hscore : ∀ c, 10 ≤ score c ∧ score c ≤ 27) :
    exhaustLoop (fun c => .ok (score c)) = .ok (exhaustConstants.map score, (exhaustConstants.map score).sum) ∧
    exhaustConstants.Nodup ∧ exhaustConstants.length = 1584 ∧
    (∀ c1 c2 c3, (c1, c2, c3) ∈ exhaustConstants ↔ (9 ≤ c1 ∧ c1 ≤ 20) ∧ (9 ≤ c2 ∧ c2 ≤ 20) ∧ 9 ≤ c3 ∧ c3 ≤ 19) ∧
    (exhaustConstants.map score).sum < 2 ^ 31 := by
  refine ⟨?_, exhaust_nodup, exhaust_length, ?_, ?_⟩
  · have gen : ∀ (l : List Nat) (st : List Int × Int), l.foldlM (fun (st : List Int × Int) c1 => do
        let r ← exhaustRound (fun c => .ok (score c)) c1
        .ok (st.1 ++ r.1, st.2 + r.2)) st =
        (.ok (st.1 ++ (l.flatMap fun c1 => (List.range' 9 12).flatMap fun c2 => (List.range' 9 11).map fun c3 => (c1, c2, c3)).map score,
          st.2 + ((l.flatMap fun c1 => (List.range' 9 12).flatMap fun c2 => (List.range' 9 11).map fun c3 => (c1, c2, c3)).map score).sum) : R _) := by
      intro l
      induction l with
      | nil => intro st; simp; rfl
      | cons c l ih =>
        intro st
        rw [List.foldlM_cons]
        unfold exhaustRound
        rw [foldlM_score, hbind, hbind]
        refine (ih _).trans ?_
        rw [List.flatMap_cons, List.map_append, List.sum_append]
        simp only [List.nil_append, zero_add, List.append_assoc, add_assoc]
    unfold exhaustLoop
    refine (gen _ _).trans ?_
    unfold exhaustConstants
    rw [List.nil_append, zero_add]
  · intro c1 c2 c3
    unfold exhaustConstants
    simp only [List.mem_flatMap, List.mem_map, List.mem_range'_1, Prod.mk.injEq]
    constructor
    · rintro ⟨a, ha, b, hb, c, hc, rfl, rfl, rfl⟩
      omega
    · rintro ⟨h1, h2, h3⟩
      exact ⟨c1, by omega, c2, by omega, c3, by omega, rfl, rfl, rfl⟩
  · have h : ∀ l : List (Nat × Nat × Nat), (l.map score).sum ≤ 27 * (l.length : Int) := by
      intro l
      induction l with
      | nil => simp
      | cons c l ih =>
        rw [List.map_cons, List.sum_cons, List.length_cons]
        have := (hscore c).2
        push_cast
        linarith
    have h2 := h exhaustConstants
    have hlen := exhaust_length
    rw [hlen] at h2
    norm_num at h2 ⊢
    linarith

/-- C99. The power printed for a triple is the first power of two from 10 at which some test fails, or 27 if there is none, for every
schedule of the threads. -/
theorem C99_score (defs : TestType → TestDef w ℝ) (analyse : Battery ℝ → List ResultAnalysis) (ha : Analyses analyse)
    (run : EvalRun w) (h : PossibleRun defs run) (h1 : run.1.startPower = 10) (h2 : run.1.stopPower = 27) :
    exhaustScore analyse run.2 = .ok (reached (fun k => run.2 (BitVec.ofNat 64 (2 ^ k))) 10 27 : Int) ∧
      10 ≤ reached (fun k => run.2 (BitVec.ofNat 64 (2 ^ k))) 10 27 ∧ reached (fun k => run.2 (BitVec.ofNat 64 (2 ^ k))) 10 27 ≤ 27 := by
  have hv := possible_valid h
  obtain ⟨k, hk, he, hj, hlast⟩ := C36_passes run.2 (exhaustCallback (worstPass analyse)) emptyBattery 10 27 (by norm_num) (by norm_num) ()
  have hans : ∀ j, answer run.2 (exhaustCallback (worstPass analyse)) 10 27 () j
      = passes (worstPass analyse) (run.2 (BitVec.ofNat 64 (2 ^ (10 + j)))) := by
    intro j
    unfold answer exhaustCallback passes
    cases worstPass analyse (run.2 (BitVec.ofNat 64 (2 ^ (10 + j)))) <;> rfl
  have hpass : ∀ j, 10 + j ≤ 27 → (passes (worstPass analyse) (run.2 (BitVec.ofNat 64 (2 ^ (10 + j)))) = true ↔
      BatteryPasses (run.2 (BitVec.ofNat 64 (2 ^ (10 + j))))) := by
    intro j hj
    obtain ⟨a, b, _⟩ := hv (10 + j) (by omega) (by omega)
    exact (worstPass_spec analyse ha _ a b).2
  have hr : reached (fun k => run.2 (BitVec.ofNat 64 (2 ^ k))) 10 27 = 10 + k := by
    refine reached_eq _ 10 27 (10 + k) (by omega) hk ?_ ?_
    · intro j a b
      have := hj (j - 10) (by omega)
      rw [hans, hpass _ (by omega), show 10 + (j - 10) = j by omega] at this
      exact this
    · rcases hlast with h | h
      · exact Or.inl h
      · refine Or.inr fun hc => ?_
        rw [hans, (hpass k hk).2 hc] at h
        cases h
  rw [hr]
  refine ⟨?_, by omega, hk⟩
  unfold exhaustScore
  have he' : evaluateMultiPass run.2 (exhaustCallback (worstPass analyse)) emptyBattery 10 27 () = _ := he
  rw [he']
  dsimp only
  rw [(hv (10 + k) (by omega) (by omega)).2.2.2, (C40_power_of_two 0).2.1 (10 + k) (by omega)]

/-- C99. Every triple gives a permutation of the 32-bit words, without a fault. -/
theorem C99_mixers (c : Nat × Nat × Nat) (hc : c ∈ exhaustConstants) :
    ∃ f : BitVec 32 → BitVec 32, (∀ x, xm2xMix (exhaustXm2x c) x = .ok (f x)) ∧ Function.Bijective f := by
  obtain ⟨c1, c2, c3⟩ := c
  have hm : (9 ≤ c1 ∧ c1 ≤ 20) ∧ (9 ≤ c2 ∧ c2 ≤ 20) ∧ 9 ≤ c3 ∧ c3 ≤ 19 := by
    unfold exhaustConstants at hc
    simp only [List.mem_flatMap, List.mem_map, List.mem_range'_1, Prod.mk.injEq] at hc
    obtain ⟨a, ha, b, hb, c, hc, rfl, rfl, rfl⟩ := hc
    omega
  have ht : ∀ n, n ≤ 20 → (BitVec.ofNat 32 n).toNat = n := fun n hn => by
    rw [BitVec.toNat_ofNat, Nat.mod_eq_of_lt (by omega)]
  have e1 := ht c1 (by omega)
  have e2 := ht c2 (by omega)
  have e3 := ht c3 (by omega)
  have hz : ∀ n, 9 ≤ n → n ≤ 20 → BitVec.ofNat 32 n ≠ 0#32 := fun n h1 h2 h => by
    have := congrArg BitVec.toNat h
    rw [ht n h2] at this
    simp at this; omega
  obtain ⟨f, hf, hb⟩ := C17_xm2x .u32 (exhaustXm2x (c1, c2, c3)) (by show (BitVec.ofNat 32 c1).toNat < 32; omega)
    (by show (BitVec.ofNat 32 c2).toNat < 32; omega) (by show (BitVec.ofNat 32 c3).toNat < 32; omega) (by intro h; cases h)
  exact ⟨f, hf, hb.2 ⟨show (2471660141#32).toNat % 2 = 1 by decide, hz c1 (by omega) (by omega), hz c2 (by omega) (by omega), hz c3 (by omega) (by omega)⟩⟩

example : (9, 20, 19) ∈ exhaustConstants := by
  unfold exhaustConstants; simp

/-- C99. Of the results, however the sort orders equal ones, the 21 largest are printed, the largest first (one more than the constant
20 in the code suggests). -/
theorem C99_printed (powers sorted : List Int) (hp : sorted.Perm powers) (hs : sorted.Pairwise (· ≥ ·)) :
    ∃ rest, (exhaustPrint sorted 0 ++ rest).Perm powers ∧ (exhaustPrint sorted 0).length = min 21 powers.length ∧
      (exhaustPrint sorted 0).Pairwise (· ≥ ·) ∧ ∀ x ∈ exhaustPrint sorted 0, ∀ y ∈ rest, y ≤ x := by
  have gen : ∀ (l : List Int) (i : Nat), i ≤ 20 → exhaustPrint l i = l.take (21 - i) := by
    intro l
    induction l with
    | nil => intro i _; simp [exhaustPrint]
    | cons p l ih =>
      intro i hi
      rw [exhaustPrint, show 21 - i = (20 - i) + 1 by omega, List.take_succ_cons]
      by_cases h : i + 1 > 20
      · rw [if_pos h, show 20 - i = 0 by omega, List.take_zero]
      · rw [if_neg h, ih (i + 1) (by omega)]
        rw [show 21 - (i + 1) = 20 - i by omega]
  rw [gen sorted 0 (by norm_num), Nat.sub_zero]
  refine ⟨sorted.drop 21, by rwa [List.take_append_drop], ?_, hs.sublist (List.take_sublist _ _), ?_⟩
  · rw [List.length_take, hp.length_eq]
  · intro x hx y hy
    have : (sorted.take 21 ++ sorted.drop 21).Pairwise (· ≥ ·) := by rwa [List.take_append_drop]
    exact (List.pairwise_append.1 this).2.2 x hx y hy

example : exhaustPrint ((List.range 30).map fun i => (27 : Int) - i / 2) 0 =
    [27, 27, 26, 26, 25, 25, 24, 24, 23, 23, 22, 22, 21, 21, 20, 20, 19, 19, 18, 18, 17] := by decide +kernel

/-- The calls behind each command. -/
def Spec.commandTable : List (String × List ToolCall) := [
  ("-test", [.test .u8, .test .u16, .test .u32, .test .u64]),
  ("-search", [.search .u32]),
  ("-inspect-test", [.inspectTest .u8, .inspectTest .u16, .inspectTest .u32, .inspectTest .u64, .inspectPerTest .u32, .inspectPerTest .u64,
    .inspectSpeed .u32, .inspectSpeed .u64]),
  ("-ppm", [.ppm .u32]),
  ("-exhaust", [.exhaust])]

/-- The state after some calls that all return. -/
def Spec.after {W : Type} (exec : Config → ToolCall → W → W × Bool) (c : Config) (calls : List ToolCall) (s : W) : W :=
  calls.foldl (fun s call => (exec c call s).1) s

/-- C99. The command line: the exit code is 1 exactly if there are not two arguments or the second is not a known command, and then
nothing is run; otherwise it is 0 - even if a call threw -, the first argument is the root path and the calls of the command
are made in order up to and including the first that throws. -/
theorem C99_command_line {W : Type} (exec : Config → ToolCall → W → W × Bool) (args : List String) (s : W) :
    (∀ program root command calls, args = [program, root, command] → (command, calls) ∈ commandTable →
      ∃ done, done <+: calls ∧ toolMain exec args s = (after exec ⟨root⟩ done s, 0) ∧
        (∀ before call, before ++ [call] <+: done → before ++ [call] ≠ done → (exec ⟨root⟩ call (after exec ⟨root⟩ before s)).2 = true) ∧
        (done = calls ∨ ∃ before call, done = before ++ [call] ∧ (exec ⟨root⟩ call (after exec ⟨root⟩ before s)).2 = false)) ∧
    ((¬ ∃ program root command calls, args = [program, root, command] ∧ (command, calls) ∈ commandTable) → toolMain exec args s = (s, 1)) := by
  have htab : ∀ command calls, (command, calls) ∈ commandTable ↔ commandCalls command = some calls := by
    intro command calls
    unfold commandTable commandCalls
    simp only [List.mem_cons, Prod.mk.injEq, List.not_mem_nil, or_false]
    split_ifs with h1 h2 h3 h4 h5 <;> simp_all
    all_goals (constructor <;> (intro h; exact h.symm))
  have hrun : ∀ (c : Config) (calls : List ToolCall) (s : W), ∃ done, done <+: calls ∧ (runCalls exec c calls s).1 = after exec c done s ∧
      (∀ before call, before ++ [call] <+: done → before ++ [call] ≠ done → (exec c call (after exec c before s)).2 = true) ∧
      (done = calls ∨ ∃ before call, done = before ++ [call] ∧ (exec c call (after exec c before s)).2 = false) := by
    intro c calls
    induction calls with
    | nil =>
      intro s
      refine ⟨[], List.prefix_refl _, rfl, ?_, Or.inl rfl⟩
      intro before call h
      have := List.prefix_nil.1 h
      simp at this
    | cons a calls ih =>
      intro s
      cases hb : exec c a s with
      | mk s1 ok =>
        cases ok with
        | false =>
          refine ⟨[a], ⟨calls, rfl⟩, by simp [runCalls, after, hb], ?_, Or.inr ⟨[], a, rfl, by simp [after, hb]⟩⟩
          intro before call h hne
          have hl := h.length_le
          have : before = [] := by
            simp at hl; simpa using hl
          subst this
          rcases List.prefix_cons_iff.1 h with h' | ⟨l, h', _⟩
          · simp at h'
          · simp at h' hne; exact absurd h'.1 hne
        | true =>
          obtain ⟨done, d1, d2, d3, d4⟩ := ih s1
          have haft : ∀ l, after exec c (a :: l) s = after exec c l s1 := by intro l; simp [after, hb]
          refine ⟨a :: done, List.cons_prefix_cons.2 ⟨rfl, d1⟩, by rw [haft, ← d2]; simp [runCalls, hb], ?_, ?_⟩
          · intro before call h hne
            cases before with
            | nil =>
              obtain ⟨h1, _⟩ := List.cons_prefix_cons.1 h
              subst h1
              simp [after, hb]
            | cons x before =>
              obtain ⟨h1, h2⟩ := List.cons_prefix_cons.1 (show x :: (before ++ [call]) <+: a :: done from h)
              subst h1
              rw [haft]
              exact d3 before call h2 fun h => hne (by rw [← h]; rfl)
          · rcases d4 with rfl | ⟨before, call, rfl, h⟩
            · exact Or.inl rfl
            · exact Or.inr ⟨a :: before, call, rfl, by rw [haft]; exact h⟩
  refine ⟨?_, ?_⟩
  · rintro program root command calls rfl hc
    obtain ⟨done, d1, d2, d3, d4⟩ := hrun ⟨root⟩ calls s
    refine ⟨done, d1, ?_, d3, d4⟩
    unfold toolMain
    dsimp only
    rw [(htab command calls).1 hc]
    dsimp only
    rw [d2]
  · intro h
    unfold toolMain
    split
    · rename_i program root command
      cases hc : commandCalls command with
      | none => rfl
      | some calls => exact absurd ⟨program, root, command, calls, rfl, (htab _ _).2 hc⟩ h
    · rfl

example : (toolMain (fun _ call (s : List ToolCall) => (s ++ [call], call ≠ .test .u16)) ["tfr", "root/", "-test"] []) =
    ([.test .u8, .test .u16], 0) := by decide +kernel
example : (toolMain (fun _ call (s : List ToolCall) => (s ++ [call], true)) ["tfr", "root/"] []) = ([], 1) := by decide +kernel

end TFR
