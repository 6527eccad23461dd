import Verif.Model.ToolText
import Verif.Props.PerTestCommand
import Verif.Props.Console
/-
C131. What the tool prints: the reports of `-test`, the text of `-exhaust` and of `-inspect-test`, and the messages of `main`.
-/
namespace TFR
open Spec
variable {w : Nat}

private theorem hbind {α β : Type} (x : α) (f : α → R β) : ((Except.ok x : R α) >>= f) = f x := rfl

/-! ### the reports of -test -/

/-- The batteries of one subject, from the first power of two to a given one. -/
noncomputable def Spec.reportsUpTo (run : EvalRun w) (power : Nat) : List (Battery ℝ) :=
  (List.range' run.1.startPower.toNat (power + 1 - run.1.startPower.toNat)).map fun k => run.2 (BitVec.ofNat 64 (2 ^ k))

theorem printed_one (defs : TestType → TestDef w ℝ) (analyse : Battery ℝ → List ResultAnalysis) (ha : Analyses analyse)
    (run : EvalRun w) (h : PossibleRun defs run) (debug : Bool) (row : ReportRow)
    (hrow : Truthful (fun k => run.2 (BitVec.ofNat 64 (2 ^ k))) run.1.subject run.1.startPower.toNat run.1.stopPower.toNat row) :
    ∃ r, evaluateMultiPass run.2 (resultCallback (worstPass analyse) true (!debug)) emptyBattery run.1.startPower run.1.stopPower ⟨[], []⟩ = .ok r ∧
      r.2.printed = reportsUpTo run row.power := by
  have hv := possible_valid h
  obtain ⟨_, h0, h1, h2, _⟩ := h
  obtain ⟨a, hapow⟩ := Int.eq_ofNat_of_zero_le h0
  obtain ⟨b, hbpow⟩ := Int.eq_ofNat_of_zero_le (h0.trans h1)
  unfold reportsUpTo
  rw [hapow, hbpow] at h1 hv hrow ⊢
  rw [hbpow] at h2
  simp only [Int.toNat_natCast] at hrow ⊢
  obtain ⟨-, t1, t2, t3, t4, t5, -⟩ := hrow
  obtain ⟨k, hk, hj, hlast, he⟩ := C37_reported_once run.2 (worstPass analyse) true (!debug) emptyBattery a b (by omega) (by omega)
  have hpass : ∀ j, a + j ≤ b → (passes (worstPass analyse) (run.2 (BitVec.ofNat 64 (2 ^ (a + j)))) = true ↔
      BatteryPasses (run.2 (BitVec.ofNat 64 (2 ^ (a + j))))) := by
    intro j hj
    obtain ⟨v1, v2, _⟩ := hv (a + j) (by omega) (by omega)
    exact (worstPass_spec analyse ha _ v1 v2).2
  have hkp : a + k = row.power := by
    rcases lt_trichotomy (a + k) row.power with hlt | heq | hgt
    · exfalso
      rcases hlast with h | h
      · omega
      · have h' := (hpass k hk).2 (t3 (a + k) (by omega) hlt)
        have h'' : passes (worstPass analyse) (run.2 (BitVec.ofNat 64 (2 ^ (a + k)))) = false := h
        rw [h''] at h'; cases h'
    · exact heq
    · exfalso
      obtain ⟨i, hi⟩ := Nat.exists_eq_add_of_le t1
      have h' := hj i (by omega)
      have h'' := (hpass i (by omega)).1 h'
      rw [← hi] at h''
      have := t5 (t4.2 h'')
      omega
  refine ⟨_, he, ?_⟩
  dsimp only
  rw [if_pos rfl, ← hkp, show a + k + 1 - a = k + 1 by omega, List.range'_eq_map_range, List.map_map, List.range_succ, List.map_append]
  rfl

/-- C131. The console of `-test` for one word size, and the report file beside it: about each subject, in order, the reports with `2^start`,
`2^(start + 1)`, .. values up to the power in its line of the file are printed, and no others. -/
theorem C131_reports (defs : TestType → TestDef w ℝ) (analyse : Battery ℝ → List ResultAnalysis) (ha : Analyses analyse)
    (runs : List (EvalRun w)) (h : ∀ run ∈ runs, PossibleRun defs run) (path : String) (fs : TextFiles) :
    ∃ (fs' : TextFiles) (rows : List ReportRow), testCommand false path analyse runs fs = .ok fs' ∧
      fs' path = some (reportIntro w ++ String.join (rows.map ReportRow.text)) ∧
      List.Forall₂ (fun (run : EvalRun w) row => Truthful (fun k => run.2 (BitVec.ofNat 64 (2 ^ k))) run.1.subject run.1.startPower.toNat
        run.1.stopPower.toNat row) runs rows ∧
      ∀ debug, testCommandPrinted debug analyse runs = .ok ((List.zip runs rows).flatMap fun p => reportsUpTo p.1 p.2.power) := by
  obtain ⟨fs', rows, h1, h2, -, h4⟩ := C96_report defs analyse ha runs h path fs
  refine ⟨fs', rows, h1, h2, h4, fun debug => ?_⟩
  unfold testCommandPrinted
  have gen : ∀ (runs : List (EvalRun w)) (rows : List ReportRow), (∀ run ∈ runs, PossibleRun defs run) →
      List.Forall₂ (fun (run : EvalRun w) row => Truthful (fun k => run.2 (BitVec.ofNat 64 (2 ^ k))) run.1.subject run.1.startPower.toNat
        run.1.stopPower.toNat row) runs rows → ∀ acc : List (Battery ℝ),
      runs.foldlM (fun (printed : List (Battery ℝ)) run => do
        let r ← evaluateMultiPass run.2 (resultCallback (worstPass analyse) true (!debug)) emptyBattery run.1.startPower run.1.stopPower ⟨[], []⟩
        .ok (printed ++ r.2.printed)) acc =
      (.ok (acc ++ (List.zip runs rows).flatMap fun p => reportsUpTo p.1 p.2.power) : R _) := by
    intro runs rows hp hF
    induction hF with
    | nil => intro acc; simp; rfl
    | @cons run row runs rows hrow _ ih =>
      intro acc
      obtain ⟨r, he, hr⟩ := printed_one defs analyse ha run (hp run List.mem_cons_self) debug row hrow
      rw [List.foldlM_cons, he, hbind, hbind, ih (fun r hr => hp r (List.mem_cons_of_mem _ hr)), hr]
      simp
  exact (gen runs rows h h4 []).trans (by simp)

/-- The last line of a report. -/
def Spec.verdictLine (passed : Bool) (k failures suspicious : Nat) : String :=
  (if passed then "PASSED" else "***FAILED*** at") ++ " 2^" ++ toString k ++ " with a total of " ++ toString failures ++ " failures and " ++
    toString suspicious ++ " suspicious results.\n\n"

private theorem text_int (k : Nat) : toString (k : Int) = toString k := rfl

private theorem passed_text (k s : Nat) : verdictText (k : Int) (.passed 0 s) = (verdictLine true k 0 s).toList := by
  have e : verdictText (k : Int) (.passed 0 s) = "PASSED".toList ++ " 2^".toList ++ (toString (k : Int)).toList ++ " with a total of ".toList ++
      (toString (0 : Int)).toList ++ " failures and ".toList ++ (toString (s : Int)).toList ++ " suspicious results.\n\n".toList := rfl
  rw [verdictLine, if_pos rfl, e, text_int, text_int]
  simp only [String.toList_append, List.append_assoc]
  rfl

private theorem failed_text (k f s : Nat) : verdictText (k : Int) (.failed f s) = (verdictLine false k f s).toList := by
  have e : verdictText (k : Int) (.failed f s) = "***FAILED*** at".toList ++ " 2^".toList ++ (toString (k : Int)).toList ++ " with a total of ".toList ++
      (toString (f : Int)).toList ++ " failures and ".toList ++ (toString (s : Int)).toList ++ " suspicious results.\n\n".toList := rfl
  rw [verdictLine, if_neg Bool.false_ne_true, e, text_int, text_int, text_int]
  simp only [String.toList_append, List.append_assoc]

/-- C131. The verdict at the end of a printed report agrees with what the tool does next: `INCONCLUSIVE` if there are no results, else `PASSED` with
no failures exactly if the battery passes. -/
theorem C131_verdict (b : Battery ℝ) (hwf : WellFormed b) (hv : ValidP b) (k : Nat) (hk : k < 64) (hn : b.n = BitVec.ofNat 64 (2 ^ k))
    (ms : BitVec 64) (text : List Char) (h : PrintedReport b ms (.ok text)) :
    (keys b = [] → "INCONCLUSIVE\n\n".toList <:+ text) ∧
    (keys b ≠ [] → BatteryPasses b → ∃ s, (verdictLine true k 0 s).toList <:+ text) ∧
    (¬ BatteryPasses b → ∃ f s, 0 < f ∧ (verdictLine false k f s).toList <:+ text) := by
  obtain ⟨ras, shown, hras, hshown, ht⟩ := h
  have hpow := (C40_power_of_two b.n).2.1 k hk
  have hverd := C67_verdict b hwf hv _ ⟨ras, hras, rfl⟩
  have hend : verdictText (k : Int) (if keys b = [] then .inconclusive
        else if countAtMost b (1 / 10 ^ 9) = 0 then .passed 0 (countAtMost b (1 / 10 ^ 5))
        else .failed (countAtMost b (1 / 10 ^ 9)) (countAtMost b (1 / 10 ^ 5) - countAtMost b (1 / 10 ^ 9))) <:+ text := by
    rw [reportText, hn, hpow, hbind] at ht
    rcases h1 : Table.new reportHeaders with f | table
    · rw [h1] at ht; cases ht
    rcases h2 : reportRows shown with f | rows
    · rw [h1, h2] at ht; cases ht
    rw [h1, hbind, h2, hbind] at ht
    rcases h3 : table.run (rows.flatMap fun r => r.flatMap colOps ++ [.row]) with f | table2
    · rw [h3] at ht; cases ht
    rw [h3, hbind] at ht
    rcases h4 : table2.toStr with f | body
    · rw [h4] at ht; cases ht
    rw [h4, hbind, hverd, hbind] at ht
    rw [Except.ok.inj ht]
    exact List.suffix_append _ _
  have hiff := C67_pass_iff b (1 / 10 ^ 9)
  refine ⟨fun hk0 => ?_, fun hk0 hp => ?_, fun hp => ?_⟩
  · rw [if_pos hk0] at hend; exact hend
  · rw [if_neg hk0, if_pos (hiff.2 hp)] at hend
    exact ⟨_, passed_text k _ ▸ hend⟩
  · have hc : countAtMost b (1 / 10 ^ 9) ≠ 0 := fun h => hp (hiff.1 h)
    have hk0 : keys b ≠ [] := by
      intro h
      apply hp
      intro key hkey
      rw [h] at hkey; cases hkey
    rw [if_neg hk0, if_neg hc] at hend
    refine ⟨countAtMost b (1 / 10 ^ 9), countAtMost b (1 / 10 ^ 5) - countAtMost b (1 / 10 ^ 9), Nat.pos_of_ne_zero hc, ?_⟩
    have hmono : countAtMost b (1 / 10 ^ 9) ≤ countAtMost b (1 / 10 ^ 5) := by
      classical
      unfold countAtMost
      apply Nat.add_le_add <;> apply List.countP_mono_left <;> intro key _ <;> simp only [decide_eq_true_eq]
      · rintro ⟨r, hr, h⟩; exact ⟨r, hr, h.trans (by norm_num)⟩
      · intro h; exact h.trans (by norm_num)
    rw [← failed_text, Nat.cast_sub hmono]
    exact hend

-- One verdict line.
example : verdictLine false 17 3 2 = "***FAILED*** at 2^17 with a total of 3 failures and 2 suspicious results.\n\n" := by decide +kernel

/-- A mixer can be evaluated as `-exhaust` does it, with whatever outcome. -/
theorem mixer_run_exists (cdf : ℝ → ℝ → ℝ) (hw : BitVec 32) (m : Mixer WT.u32.bits) : ∃ run : EvalRun WT.u32.bits,
    run.1 = (createMixerTestSetup .u32 (defaultMaxThreads hw) m).range 10 27 ∧ PossibleRun (suiteDef cdf) run := by
  choose f hf using fun n => C35_terminates (suiteDef cdf) n ((createMixerTestSetup .u32 (defaultMaxThreads hw) m).range 10 27)
  have hth := defaultMaxThreads_pos hw
  refine ⟨(_, f), rfl, by show 0 < defaultMaxThreads hw; omega, by show (0 : Int) ≤ 10; norm_num, by show (10 : Int) ≤ 27; norm_num,
    by show (27 : Int) ≤ 63; norm_num, fun k hk1 hk2 => ⟨hf _, ?_⟩⟩
  have hk : 10 ≤ k ∧ k ≤ 27 := by
    have a : (10 : Int) ≤ k := hk1
    have b : (k : Int) ≤ 27 := hk2
    omega
  have hval : (BitVec.ofNat 64 (2 ^ k)).toNat = 2 ^ k := by
    rw [BitVec.toNat_ofNat, Nat.mod_eq_of_lt (Nat.pow_lt_pow_right (by norm_num) (by omega))]
  refine suite_valid cdf .u32 _ ?_ ?_ _
  · intro h
    have := congrArg BitVec.toNat h
    rw [hval] at this
    have : 0 < 2 ^ k := by positivity
    simp_all
  · rw [hval]
    calc 2 ^ k * WT.u32.bits ≤ 2 ^ 27 * 32 := Nat.mul_le_mul (Nat.pow_le_pow_right (by norm_num) hk.2) (by decide)
      _ < 2 ^ 64 := by norm_num

-- The hypotheses of C131_reports, C131_exhaust and C131_per_test can be met by runs of any mixers.
example (cdf : ℝ → ℝ → ℝ) (mixer : Nat → Nat → Nat → Mixer WT.u32.bits) : ∃ run : Nat → Nat → Nat → EvalRun WT.u32.bits,
    ∀ c1 c2 c3, PossibleRun (suiteDef cdf) (run c1 c2 c3) ∧ (run c1 c2 c3).1.startPower = 10 ∧ (run c1 c2 c3).1.stopPower = 27 ∧
      (run c1 c2 c3).1.subject = (mixer c1 c2 c3).name := by
  choose run h1 h2 using fun c1 c2 c3 => mixer_run_exists cdf 8#32 (mixer c1 c2 c3)
  exact ⟨run, fun c1 c2 c3 => ⟨h2 c1 c2 c3, by rw [h1]; rfl, by rw [h1]; rfl, by rw [h1]; rfl⟩⟩

-- Which reports are printed: with 2^10, .., 2^13 values if the line in the file says 13.
example (run : EvalRun 32) (h : run.1.startPower = 10) : reportsUpTo run 13 = [10, 11, 12, 13].map fun k => run.2 (BitVec.ofNat 64 (2 ^ k)) := by
  rw [reportsUpTo, h]; rfl

/-! ### -exhaust -/

/-- A decimal number. -/
def Spec.dec (n : Nat) : List Char := (toString n).toList

/-- The part of the text for one `c1`: twelve lines of eleven powers, and their sum. -/
def Spec.exhaustBlock (power : Nat → Nat → Nat → Nat) (c1 : Nat) : List Char :=
  dec c1 ++ "-\n".toList ++
  (List.range' 9 12).flatMap (fun c2 => (List.range' 9 11).flatMap (fun c3 => dec (power c1 c2 c3) ++ [';']) ++ ['\n']) ++
  "sum: ".toList ++ dec ((List.range' 9 12).map fun c2 => ((List.range' 9 11).map (power c1 c2)).sum).sum ++ "\n\n".toList

theorem exhaust_c3 (power : Nat → Nat → Nat → Nat) (c1 c2 : Nat) (l : List Nat) (t : List Char) (r : List Int) (s : Nat) :
    l.foldlM (fun (st : List Char × List Int × Int) c3 => do
      let p ← (.ok (power c1 c2 c3 : Int) : R Int)
      .ok (st.1 ++ (toString p).toList ++ [';'], st.2.1 ++ [p], st.2.2 + p)) (t, r, (s : Int)) =
    (.ok (t ++ l.flatMap (fun c3 => dec (power c1 c2 c3) ++ [';']), r ++ l.map (fun c3 => (power c1 c2 c3 : Int)),
      ((s + (l.map (power c1 c2)).sum : Nat) : Int)) : R _) := by
  induction l generalizing t r s with
  | nil => simp; rfl
  | cons c l ih =>
    rw [List.foldlM_cons, hbind, hbind]
    dsimp only
    rw [← Nat.cast_add, ih, text_int, List.flatMap_cons, List.map_cons, List.map_cons, List.sum_cons, dec]
    simp only [List.append_assoc, Nat.add_assoc, List.cons_append, List.nil_append]

theorem exhaust_c2 (power : Nat → Nat → Nat → Nat) (c1 : Nat) (l : List Nat) (t : List Char) (r : List Int) (s : Nat) :
    l.foldlM (fun (st : List Char × List Int × Int) c2 => do
      let st ← exhaustTextC3 (fun c => .ok (power c.1 c.2.1 c.2.2 : Int)) c1 c2 st
      .ok (st.1 ++ ['\n'], st.2.1, st.2.2)) (t, r, (s : Int)) =
    (.ok (t ++ l.flatMap (fun c2 => (List.range' 9 11).flatMap (fun c3 => dec (power c1 c2 c3) ++ [';']) ++ ['\n']),
      r ++ l.flatMap (fun c2 => (List.range' 9 11).map fun c3 => (power c1 c2 c3 : Int)),
      ((s + (l.map fun c2 => ((List.range' 9 11).map (power c1 c2)).sum).sum : Nat) : Int)) : R _) := by
  induction l generalizing t r s with
  | nil => simp; rfl
  | cons c l ih =>
    rw [List.foldlM_cons]
    have h3 := exhaust_c3 power c1 c (List.range' 9 11) t r s
    rw [exhaustTextC3]
    dsimp only
    rw [h3, hbind, hbind, ih, List.flatMap_cons, List.flatMap_cons, List.map_cons, List.sum_cons]
    simp only [List.append_assoc, Nat.add_assoc]

theorem exhaust_c1 (power : Nat → Nat → Nat → Nat) (l : List Nat) (t : List Char) (r : List Int) (s : Nat) :
    l.foldlM (fun (st : List Char × List Int × Int) c1 => do
      let r ← exhaustTextC2 (fun c => .ok (power c.1 c.2.1 c.2.2 : Int)) c1 (st.1 ++ (toString c1).toList ++ "-\n".toList, st.2.1, 0)
      .ok (r.1 ++ "sum: ".toList ++ (toString r.2.2).toList ++ "\n\n".toList, r.2.1, st.2.2 + r.2.2)) (t, r, (s : Int)) =
    (.ok (t ++ l.flatMap (exhaustBlock power),
      r ++ l.flatMap (fun c1 => (List.range' 9 12).flatMap fun c2 => (List.range' 9 11).map fun c3 => (power c1 c2 c3 : Int)),
      ((s + (l.map fun c1 => ((List.range' 9 12).map fun c2 => ((List.range' 9 11).map (power c1 c2)).sum).sum).sum : Nat) : Int)) : R _) := by
  induction l generalizing t r s with
  | nil => simp; rfl
  | cons c l ih =>
    rw [List.foldlM_cons]
    have h3 := exhaust_c2 power c (List.range' 9 12) (t ++ (toString c).toList ++ "-\n".toList) r 0
    have h4 : exhaustTextC2 (fun c => .ok (power c.1 c.2.1 c.2.2 : Int)) c (t ++ (toString c).toList ++ "-\n".toList, r, 0) = _ := h3
    dsimp only
    rw [h4, hbind, hbind, Nat.zero_add]
    dsimp only
    rw [← Nat.cast_add, ih, List.flatMap_cons, List.flatMap_cons, List.map_cons, List.sum_cons, text_int, exhaustBlock]
    simp only [List.append_assoc, Nat.add_assoc, dec]

private theorem constants_map (power : Nat → Nat → Nat → Nat) (A B C : List Nat) :
    A.flatMap (fun c1 => B.flatMap fun c2 => C.map fun c3 => (power c1 c2 c3 : Int)) =
      ((A.flatMap fun c1 => B.flatMap fun c2 => C.map fun c3 => (c1, c2, c3)).map fun c => power c.1 c.2.1 c.2.2).map Nat.cast := by
  simp only [List.map_flatMap, List.map_map]
  rfl

private theorem sum_flat (l : List Nat) (f : Nat → List Nat) : (l.flatMap f).sum = (l.map fun a => (f a).sum).sum := by
  induction l with
  | nil => rfl
  | cons a l ih => rw [List.flatMap_cons, List.sum_append, ih, List.map_cons, List.sum_cons]

private theorem constants_sum (power : Nat → Nat → Nat → Nat) (A B C : List Nat) :
    (A.map fun c1 => (B.map fun c2 => (C.map (power c1 c2)).sum).sum).sum =
      ((A.flatMap fun c1 => B.flatMap fun c2 => C.map fun c3 => (c1, c2, c3)).map fun c => power c.1 c.2.1 c.2.2).sum := by
  simp only [List.map_flatMap, List.map_map, sum_flat]
  rfl

/-- C131. The text of `-exhaust`, if the mixer with the constants `c1`, `c2`, `c3` reaches `power c1 c2 c3`: for every `c1` from 9 to 20 a block with a line
for every `c2` from 9 to 20, in it the powers for every `c3` from 9 to 19, and the sum of the block; then the total; then the 21 largest powers, largest
first. -/
theorem C131_exhaust (run : Nat → Nat → Nat → EvalRun 32) (defs : TestType → TestDef 32 ℝ) (analyse : Battery ℝ → List ResultAnalysis)
    (ha : Analyses analyse) (h : ∀ c1 c2 c3, PossibleRun defs (run c1 c2 c3) ∧ (run c1 c2 c3).1.startPower = 10 ∧ (run c1 c2 c3).1.stopPower = 27)
    (power : Nat → Nat → Nat → Nat)
    (hpower : ∀ c1 c2 c3, power c1 c2 c3 = reached (fun k => (run c1 c2 c3).2 (BitVec.ofNat 64 (2 ^ k))) 10 27)
    (text : R (List Char)) (ht : ExhaustText (fun c => exhaustScore analyse (run c.1 c.2.1 c.2.2).2) text) :
    ∃ top rest : List Nat, (top ++ rest).Perm (exhaustConstants.map fun c => power c.1 c.2.1 c.2.2) ∧ top.length = 21 ∧
      top.Pairwise (· ≥ ·) ∧ (∀ x ∈ top, ∀ y ∈ rest, y ≤ x) ∧ (∀ c1 c2 c3, 10 ≤ power c1 c2 c3 ∧ power c1 c2 c3 ≤ 27) ∧
      text = .ok ((List.range' 9 12).flatMap (exhaustBlock power) ++
        "total: ".toList ++ dec (exhaustConstants.map fun c => power c.1 c.2.1 c.2.2).sum ++ "\n\n".toList ++
        top.flatMap fun p => dec p ++ ['\n']) := by
  have hs : (fun c : Nat × Nat × Nat => exhaustScore analyse (run c.1 c.2.1 c.2.2).2) = fun c => (.ok (power c.1 c.2.1 c.2.2 : Int) : R Int) := by
    funext c
    obtain ⟨h1, h2, h3⟩ := h c.1 c.2.1 c.2.2
    rw [hpower]
    exact (C99_score defs analyse ha _ h1 h2 h3).1
  have hb : ∀ c1 c2 c3, 10 ≤ power c1 c2 c3 ∧ power c1 c2 c3 ≤ 27 := by
    intro c1 c2 c3
    obtain ⟨h1, h2, h3⟩ := h c1 c2 c3
    rw [hpower]
    exact (C99_score defs analyse ha _ h1 h2 h3).2
  have hloop := exhaust_c1 power (List.range' 9 12) [] [] 0
  have e1 : exhaustTextC1 (fun c => (.ok (power c.1 c.2.1 c.2.2 : Int) : R Int)) = _ := hloop
  rw [hs, ExhaustText, e1] at ht
  simp only [List.nil_append, Nat.zero_add] at ht
  obtain ⟨sorted, hp, hsrt, ht⟩ := ht
  have hall := constants_map power (List.range' 9 12) (List.range' 9 12) (List.range' 9 11)
  have hsum := constants_sum power (List.range' 9 12) (List.range' 9 12) (List.range' 9 11)
  rw [← exhaustConstants] at hall hsum
  rw [hall] at hp
  obtain ⟨rest, p1, p2, p3, p4⟩ := C99_printed _ sorted hp (hsrt.imp fun h => not_lt.1 h)
  have hnat : ∀ x ∈ exhaustPrint sorted 0 ++ rest, 0 ≤ x := by
    intro x hx
    obtain ⟨n, -, rfl⟩ := List.mem_map.1 (p1.mem_iff.1 hx)
    exact Int.natCast_nonneg n
  have hcast : ∀ l : List Int, (∀ x ∈ l, 0 ≤ x) → (l.map Int.toNat).map Nat.cast = l := by
    intro l hl
    rw [List.map_map]
    exact (List.map_congr_left fun x hx => Int.toNat_of_nonneg (hl x hx)).trans (List.map_id l)
  refine ⟨(exhaustPrint sorted 0).map Int.toNat, rest.map Int.toNat, ?_, ?_, ?_, ?_, hb, ?_⟩
  · have := p1.map Int.toNat
    rw [List.map_append] at this
    refine this.trans (List.Perm.of_eq ?_)
    rw [List.map_map]
    exact (List.map_congr_left fun x _ => Int.toNat_natCast x).trans (List.map_id _)
  · rw [List.length_map, p2, List.length_map, List.length_map, (C99_exhaust (fun _ => 10) (by intro c; norm_num)).2.2.1]; rfl
  · rw [List.pairwise_map]
    exact p3.imp fun h => Int.toNat_le_toNat h
  · intro x hx y hy
    obtain ⟨x', hx', rfl⟩ := List.mem_map.1 hx
    obtain ⟨y', hy', rfl⟩ := List.mem_map.1 hy
    exact Int.toNat_le_toNat (p4 x' hx' y' hy')
  · rw [ht, hsum, text_int, List.flatMap_map]
    have hfl : (exhaustPrint sorted 0).flatMap (fun p => (toString p).toList ++ ['\n']) = (exhaustPrint sorted 0).flatMap fun a => dec a.toNat ++ ['\n'] := ?_
    · rw [hfl]; rfl
    apply List.flatMap_congr
    intro x hx
    have : (toString x).toList = dec x.toNat := by
      conv_lhs => rw [← Int.toNat_of_nonneg (hnat x (List.mem_append_left _ hx))]
      rfl
    rw [this]

-- Constants that are all rejected at once: the first block begins like this.
example : (exhaustBlock (fun _ _ _ => 10) 9).take 12 = "9-\n10;10;10;".toList ∧ "sum: 1320\n\n".toList <:+ exhaustBlock (fun _ _ _ => 10) 9 := by
  decide +kernel

/-! ### -inspect-test -/

/-- A heading of `-inspect-test`. -/
def Spec.heading (title : String) (bits : Nat) : String :=
  "==============================================\n" ++ title ++ ", " ++ toString bits ++ " bits\n" ++
  "==============================================\n"

/-- A line of `-inspect-test`. -/
def Spec.lineText : InspectLine → String
  | .pass test => "PASS: " ++ test ++ "\n"
  | .fail test source => "FAIL: " ++ test ++ ": " ++ source ++ "\n"

theorem heading_text (title : String) (bits : Nat) : inspectHeading title bits = (heading title bits).toList := by
  unfold inspectHeading heading
  simp only [String.toList_append, List.append_assoc]
  rfl

theorem line_text (l : InspectLine) : l.text = (lineText l).toList := by
  cases l
  · unfold InspectLine.text lineText
    simp only [String.toList_append, List.append_assoc]
    rfl
  · unfold InspectLine.text lineText
    simp only [String.toList_append, List.append_assoc]
    rfl

private theorem defined_nth {w : Nat} (s : Stream (R (BitVec w))) (k : Nat) (v : BitVec w) (h : s.nth k = .ok v) : (definedStream s).nth k = v := by
  rw [Stream.nth_eq] at h ⊢
  have : (definedStream s).stateAt k = s.stateAt k := rfl
  rw [this]
  show (match (s.step (s.stateAt k)).1 with | .ok v => v | .error _ => 0) = v
  rw [h]

/-- C131. The text of `-inspect-test` for one word size: the two headings, the lines about the sources to be rejected and about those to be accepted (C97), and
a warning exactly if neither data file exists. -/
theorem C131_inspect (cdf : ℝ → ℝ → ℝ) (t : WT) (hw : BitVec 32) (analyse : Battery ℝ → List ResultAnalysis) (ha : Analyses analyse)
    (trng drng : Option (List (BitVec t.bits))) (h1 : trng ≠ some []) (h2 : drng ≠ some [])
    (fails passes : TestRow → Stream (BitVec t.bits) → BitVec 64 → Battery ℝ)
    (hf : ∀ test s, ∀ k : Nat, 10 ≤ k → k ≤ 25 → EvaluateOutcome (suiteDef cdf) (BitVec.ofNat 64 (2 ^ k))
      (inspectSetup (defaultMaxThreads hw) test s) (fails test s (BitVec.ofNat 64 (2 ^ k))))
    (hp : ∀ test s, ∀ k : Nat, 10 ≤ k → k ≤ 25 → EvaluateOutcome (suiteDef cdf) (BitVec.ofNat 64 (2 ^ k))
      (inspectSetup (defaultMaxThreads hw) test s) (passes test s (BitVec.ofNat 64 (2 ^ k)))) :
    ∃ bad good : List (Stream (BitVec t.bits)), createFailSources t = .ok bad ∧
      List.Forall₂ (fun (s : Stream (BitVec t.bits)) (file : String × List (BitVec t.bits)) => s.name = file.1 ∧
        ∀ k, k < 2 ^ 64 → s.nth k = file.2.getD (k % file.2.length) 0)
        good ((trng.toList.map fun data => ("trng", data)) ++ drng.toList.map fun data => ("drng", data)) ∧
      inspectCommandText t analyse trng drng fails passes = .ok (
        (heading "Fail sources" t.bits).toList ++
        (getTests.flatMap (shouldFailLines t (fun test s k => fails test s (BitVec.ofNat 64 (2 ^ k))) bad)).flatMap (fun l => (lineText l).toList) ++
        (heading "Pass sources" t.bits).toList ++
        (if trng = none ∧ drng = none then "Warning: No passable trng/drng sources was found\n".toList else []) ++
        (getTests.flatMap (shouldPassLines t (fun test s k => passes test s (BitVec.ofNat 64 (2 ^ k))) good)).flatMap (fun l => (lineText l).toList)) := by
  obtain ⟨c, s0, s1, s2, s3, hbad, -, -⟩ := C97_fail_sources t
  generalize [s0, s1, s2, s3] = bad at hbad
  have hl : (fun l : InspectLine => l.text) = fun l => (lineText l).toList := funext line_text
  refine ⟨bad, (createPassSources trng drng).1, hbad, ?_, ?_⟩
  · have hd : ∀ (name : String) (data : List (BitVec t.bits)), data ≠ [] → (definedStream (dataStream name data 0)).name = name ∧
        ∀ k, k < 2 ^ 64 → (definedStream (dataStream name data 0)).nth k = data.getD (k % data.length) 0 := by
      refine fun name data hne => ⟨rfl, fun k hk => ?_⟩
      obtain ⟨v, v1, v2⟩ := C27_dataStream name data 0 k hne (by simpa using hk)
      rw [defined_nth _ k v v1, List.getD_eq_getElem?_getD]
      have : (0 : BitVec 64).toNat + k = k := by simp
      rw [this] at v2
      rw [v2]; rfl
    rcases trng with _ | dt <;> rcases drng with _ | dd
    · exact List.Forall₂.nil
    · exact List.Forall₂.cons (hd _ _ fun h => h2 (by rw [h])) List.Forall₂.nil
    · exact List.Forall₂.cons (hd _ _ fun h => h1 (by rw [h])) List.Forall₂.nil
    · exact List.Forall₂.cons (hd _ _ fun h => h1 (by rw [h])) (List.Forall₂.cons (hd _ _ fun h => h2 (by rw [h])) List.Forall₂.nil)
  · have e1 := (C97_inspect cdf t hw analyse ha fails hf bad).1
    have e2 := (C97_inspect cdf t hw analyse ha passes hp (createPassSources trng drng).1).2
    unfold inspectCommandText
    rw [hbad]
    dsimp only
    rw [e1, hbind, e2, hbind, heading_text, heading_text]
    have hw : (createPassSources trng drng).2 = if trng = none ∧ drng = none then "Warning: No passable trng/drng sources was found\n".toList else [] := by
      cases trng <;> cases drng <;> rfl
    rw [hw]
    refine congrArg Except.ok ?_
    show _ ++ List.flatMap (fun l : InspectLine => l.text) _ ++ _ ++ _ ++ List.flatMap (fun l : InspectLine => l.text) _ = _
    rw [hl]

/-- C131. The reports printed by the per-test commands: one for each subject, that of the last evaluation. -/
theorem C131_per_test (defs : TestType → TestDef w ℝ) (analyse : Battery ℝ → List ResultAnalysis) (ha : Analyses analyse)
    (runs : List (EvalRun w)) (h : ∀ run ∈ runs, PossibleRun defs run) :
    perTestPrinted analyse runs = .ok (runs.map fun run => run.2 (BitVec.ofNat 64 (2 ^
      reached (fun k => run.2 (BitVec.ofNat 64 (2 ^ k))) run.1.startPower.toNat run.1.stopPower.toNat))) := by
  have hcb : perTestPrint analyse = resultCallbackDo (worstPass analyse) (some fun (s : List (Battery ℝ)) br _ => s ++ [br]) := by
    funext s br last
    rw [resultCallbackDo_eq]
    unfold Spec.passes perTestPrint
    cases worstPass analyse br with
    | none => cases last <;> simp
    | some a => cases last <;> cases a <;> simp
  unfold perTestPrinted
  rw [hcb]
  have gen : ∀ (runs : List (EvalRun w)), (∀ run ∈ runs, PossibleRun defs run) → ∀ acc : List (Battery ℝ),
      runs.foldlM (fun (printed : List (Battery ℝ)) run => do
        let r ← evaluateMultiPass run.2 (resultCallbackDo (worstPass analyse) (some fun (s : List (Battery ℝ)) br _ => s ++ [br])) emptyBattery
          run.1.startPower run.1.stopPower []
        .ok (printed ++ r.2)) acc =
      (.ok (acc ++ runs.map fun run => run.2 (BitVec.ofNat 64 (2 ^
        reached (fun k => run.2 (BitVec.ofNat 64 (2 ^ k))) run.1.startPower.toNat run.1.stopPower.toNat))) : R _) := by
    intro runs
    induction runs with
    | nil => intro _ acc; simp; rfl
    | cons run runs ih =>
      intro hp acc
      have hv := possible_valid (hp run List.mem_cons_self)
      obtain ⟨_, h0, h1, h2, _⟩ := hp run List.mem_cons_self
      obtain ⟨a, hapow⟩ := Int.eq_ofNat_of_zero_le h0
      obtain ⟨b, hbpow⟩ := Int.eq_ofNat_of_zero_le (h0.trans h1)
      rw [List.foldlM_cons, List.map_cons]
      rw [hapow, hbpow] at h1 hv ⊢
      rw [hbpow] at h2
      simp only [Int.toNat_natCast] at ⊢
      obtain ⟨k, hk1, hk2, hj, hlast, he⟩ := multiPass_do run.2 (worstPass analyse) (some fun (s : List (Battery ℝ)) br _ => s ++ [br]) emptyBattery a b
        (by omega) (by omega) []
      have hpass : ∀ j, a ≤ j → j ≤ b → (Spec.passes (worstPass analyse) (run.2 (BitVec.ofNat 64 (2 ^ j))) = true ↔
          BatteryPasses (run.2 (BitVec.ofNat 64 (2 ^ j)))) := by
        intro j hj1 hj2
        obtain ⟨v1, v2, _⟩ := hv j (by omega) (by omega)
        exact (worstPass_spec analyse ha _ v1 v2).2
      have hr : reached (fun k => run.2 (BitVec.ofNat 64 (2 ^ k))) a b = k := by
        apply reached_eq _ _ _ _ hk1 hk2
        · intro j hj1 hj2
          exact (hpass j hj1 (by omega)).1 (hj j hj1 hj2)
        · rcases hlast with h | h
          · exact Or.inl h
          · right
            intro hc
            have h' : Spec.passes (worstPass analyse) (run.2 (BitVec.ofNat 64 (2 ^ k))) = false := h
            rw [(hpass k hk1 hk2).2 hc] at h'; cases h'
      rw [he, hbind, hbind, ih (fun r hr => hp r (List.mem_cons_of_mem _ hr)), hr]
      simp
  exact (gen runs h []).trans (by simp)

/-! ### main -/

/-- Calls made one after the other, until one ends with an error: what each printed, the error, and the state afterwards. -/
inductive Spec.CallsRun {W : Type} (exec : Config → ToolCall → W → W × List Char × Option String) (c : Config) :
    List ToolCall → W → List (List Char) → Option String → W → Prop
  | done (s : W) : CallsRun exec c [] s [] none s
  | step (call : ToolCall) (rest : List ToolCall) (s s1 s2 : W) (printed : List Char) (texts : List (List Char)) (error : Option String)
      (h : exec c call s = (s1, printed, none)) (hr : CallsRun exec c rest s1 texts error s2) :
      CallsRun exec c (call :: rest) s (printed :: texts) error s2
  | stop (call : ToolCall) (rest : List ToolCall) (s s1 : W) (printed : List Char) (e : String)
      (h : exec c call s = (s1, printed, some e)) : CallsRun exec c (call :: rest) s [printed] (some e) s1

/-- C131. The text of `main` around that of the commands: a usage line unless there are two arguments; then a line with the command; `Unknown command` unless it
is one of the five; else what the calls of the command print, and if a `std::runtime_error` ends one, its message.  The exit code is 1 exactly for wrong
arguments. -/
theorem C131_main {W : Type} (exec : Config → ToolCall → W → W × List Char × Option String) (args : List String) (s : W) :
    (args.length ≠ 3 → toolConsole exec args s = (s, "Usage: tfr-tool.exe root-path command\n".toList, 1)) ∧
    (∀ program root command, args = [program, root, command] →
      ((∀ calls, (command, calls) ∉ commandTable) →
        toolConsole exec args s = (s, ("Executing command " ++ command ++ "\n" ++ "Unknown command\n").toList, 1)) ∧
      (∀ calls, (command, calls) ∈ commandTable → ∃ (s' : W) (texts : List (List Char)) (error : Option String),
        CallsRun exec ⟨root⟩ calls s texts error s' ∧
        toolConsole exec args s = (s', ("Executing command " ++ command ++ "\n").toList ++ texts.flatten ++
          (match error with | none => [] | some e => ("ERROR: " ++ e ++ "\n").toList), 0))) := by
  constructor
  · intro h
    match args with
    | [] => rfl
    | [_] => rfl
    | [_, _] => rfl
    | [_, _, _] => exact absurd rfl h
    | _ :: _ :: _ :: _ :: _ => rfl
  · rintro program root command rfl
    have htab : ∀ calls, (command, calls) ∈ commandTable ↔ commandCalls command = some calls := by
      intro calls
      unfold commandTable commandCalls
      simp only [List.mem_cons, Prod.mk.injEq, List.not_mem_nil, or_false]
      split_ifs with h1 h2 h3 h4 h5 <;> simp_all
      all_goals (constructor <;> (intro h; exact h.symm))
    constructor
    · intro h
      have hc : commandCalls command = none := by
        rcases hcc : commandCalls command with _ | calls
        · rfl
        · exact absurd ((htab calls).2 hcc) (h calls)
      rw [toolConsole, hc]
      simp only [String.toList_append]
      rfl
    · intro calls hcalls
      rw [toolConsole, (htab calls).1 hcalls]
      dsimp only
      have gen : ∀ (calls : List ToolCall) (s : W) (text : List Char), ∃ (s' : W) (texts : List (List Char)) (error : Option String),
          CallsRun exec ⟨root⟩ calls s texts error s' ∧
          toolConsole.run exec root calls s text = (s', text ++ texts.flatten ++
            (match error with | none => [] | some e => ("ERROR: " ++ e ++ "\n").toList), 0) := by
        intro calls
        induction calls with
        | nil => intro s text; exact ⟨s, [], none, .done s, by simp [toolConsole.run]⟩
        | cons call calls ih =>
          intro s text
          rcases hx : exec ⟨root⟩ call s with ⟨s1, printed, _ | e⟩
          · obtain ⟨s', texts, error, i1, i3⟩ := ih s1 (text ++ printed)
            refine ⟨s', printed :: texts, error, .step _ _ _ _ _ _ _ _ hx i1, ?_⟩
            rw [toolConsole.run, hx]
            dsimp only
            rw [i3]
            simp
          · refine ⟨s1, [printed], some e, .stop _ _ _ _ _ _ hx, ?_⟩
            rw [toolConsole.run, hx]
            dsimp only
            simp only [String.toList_append, List.flatten_cons, List.flatten_nil, List.append_nil, List.append_assoc]
            rfl
      obtain ⟨s', texts, error, g1, g3⟩ := gen calls s ("Executing command ".toList ++ command.toList ++ ['\n'])
      refine ⟨s', texts, error, g1, ?_⟩
      rw [g3]
      simp only [String.toList_append]
      rfl

-- A misspelt command.
example : toolConsole (fun _ _ s => (s, [], none)) ["tfr", "/data/", "-tset"] () = ((), "Executing command -tset\nUnknown command\n".toList, 1) := by
  decide +kernel

-- The second call of `-test` fails.
example : toolConsole (fun _ call (s : Nat) => match call with | .test .u16 => (s, ['b'], some "no file") | _ => (s + 1, ['a'], none)) ["tfr", "/data/", "-test"] 0 =
    (1, "Executing command -test\nabERROR: no file\n".toList, 0) := by
  decide +kernel

end TFR
