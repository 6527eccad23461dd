import Verif.Model.Console
import Verif.Props.Analysis
import Verif.Props.Table
import Verif.Props.Text
import Verif.Props.Budget
import Verif.Lemmas.Hist
import Verif.Lemmas.Float
import Mathlib.Data.List.GetD
/-
C128: the report printed for a battery; the histogram.
-/
namespace TFR
open Spec

private theorem hbind {α β : Type} (x : α) (f : α → R β) : ((Except.ok x : R α) >>= f) = f x := rfl

private theorem insert_spec (x : String) (l : List String) (h : l.Pairwise fun a b => strLt a.toList b.toList = true) :
    (setInsert x l).Pairwise (fun a b => strLt a.toList b.toList = true) ∧ ∀ y, y ∈ setInsert x l ↔ y = x ∨ y ∈ l := by
  induction l with
  | nil => simp [setInsert]
  | cons a l ih =>
    obtain ⟨h1, h2⟩ := List.pairwise_cons.1 h
    obtain ⟨ih1, ih2⟩ := ih h2
    rw [setInsert]
    split
    · rename_i hlt
      refine ⟨List.pairwise_cons.2 ⟨fun y hy => ?_, ih1⟩, fun y => ?_⟩
      · rcases (ih2 y).1 hy with rfl | hy
        · exact hlt
        · exact h1 y hy
      · rw [List.mem_cons, ih2, List.mem_cons]; tauto
    · split
      · rename_i hlt
        refine ⟨List.pairwise_cons.2 ⟨fun y hy => ?_, h⟩, fun y => by rw [List.mem_cons]⟩
        rcases List.mem_cons.1 hy with rfl | hy
        · exact hlt
        · exact strLt_trans hlt (h1 y hy)
      · rename_i h3 h4
        have : x = a := String.toList_inj.1 (strLt_total (by simpa using h4) (by simpa using h3))
        refine ⟨h, fun y => ?_⟩
        subst this
        simp

private theorem tests_spec (b : Battery ℝ) :
    (testsInBattery b).Pairwise (fun x y => strLt x.toList y.toList = true) ∧
    ∀ s, s ∈ testsInBattery b ↔ ∃ k ∈ keys b, s = getTestName k.type := by
  have gen : ∀ (m : ResultMap ℝ) (l : List String), l.Pairwise (fun x y => strLt x.toList y.toList = true) →
      (m.foldl (fun names e => setInsert (getTestName e.1.type) names) l).Pairwise (fun x y => strLt x.toList y.toList = true) ∧
      ∀ s, s ∈ m.foldl (fun names e => setInsert (getTestName e.1.type) names) l ↔ (∃ e ∈ m, s = getTestName e.1.type) ∨ s ∈ l := by
    intro m
    induction m with
    | nil => intro l h; exact ⟨h, fun s => by simp⟩
    | cons e m ih =>
      intro l h
      obtain ⟨i1, i2⟩ := insert_spec (getTestName e.1.type) l h
      obtain ⟨j1, j2⟩ := ih _ i1
      refine ⟨j1, fun s => ?_⟩
      rw [List.foldl_cons, j2, i2]
      simp only [List.mem_cons, exists_eq_or_imp]
      generalize (∃ a ∈ m, s = getTestName a.1.type) = A
      tauto
  obtain ⟨h1, h2⟩ := gen b.results [] List.Pairwise.nil
  refine ⟨h1, fun s => ?_⟩
  rw [testsInBattery, h2]
  simp [keys]

private theorem analysis_le_one (b : Battery ℝ) (hwf : WellFormed b) (hv : ValidP b) (ras : List ResultAnalysis) (h : GetAnalysis b ras) :
    ∀ x ∈ ras, comparableP x.stat ≤ 1 := by
  obtain ⟨_, _, h3, h4⟩ := (C67_analysis b hwf).2 ras h
  intro x hx
  obtain ⟨e, he, hk⟩ := h4 x hx
  obtain ⟨⟨s, s1, _, s2, _⟩, ⟨m, m1, _, m2⟩⟩ := h3 e he
  cases ht : x.type with
  | sample =>
    have hm : x ∈ ras.filter (fun r => decide (r.key = e.1 ∧ r.type = .sample)) := List.mem_filter.2 ⟨hx, by simp [hk, ht]⟩
    rw [s1] at hm
    obtain rfl := List.mem_singleton.1 hm
    obtain ⟨⟨r, hr, hrp⟩, _⟩ := s2
    rw [← hrp]
    refine hv e.1 r ?_
    have : b.get e.1 = e.2 := by
      have hg : ∀ m : ResultMap ℝ, m.Pairwise (fun x y => x.1.lt y.1 = true) → e ∈ m → mapFind e.1 m = some e.2 := by
        intro m
        induction m with
        | nil => intro _ h; cases h
        | cons a m ih =>
          intro hp hmem
          obtain ⟨p1, p2⟩ := List.pairwise_cons.1 hp
          obtain ⟨k, rs⟩ := a
          rw [mapFind]
          rcases List.mem_cons.1 hmem with rfl | hmem
          · have hirr : TestKey.lt k k = false := by simp [TestKey.lt]
            simp [hirr]
          · rw [if_pos (p1 e hmem)]; exact ih p2 hmem
      rw [Battery.get, hg b.results hwf.1 he]; rfl
    rw [this]; exact hr
  | metaOf =>
    have hm : x ∈ ras.filter (fun r => decide (r.key = e.1 ∧ r.type = .metaOf)) := List.mem_filter.2 ⟨hx, by simp [hk, ht]⟩
    rw [m1] at hm
    obtain rfl := List.mem_singleton.1 hm
    rw [m2]
    exact ((C66_comparable .kolmogorovSmirnovD _ _ _).2.1 (by decide)).2.trans (by norm_num)

private theorem rows_spec (shown : List ResultAnalysis) (h : ∀ x ∈ shown, comparableP x.stat ≤ 1) :
    ∃ rows, reportRows shown = .ok rows ∧ List.Forall₂ (fun (ra : ResultAnalysis) row => ∃ label, strengthLabel ra.stat = .ok label ∧
      row = [ra.key.toStr.toList, pValueToString ra.stat.pValue, label.toList, ra.streamName.toList]) shown rows := by
  induction shown with
  | nil => exact ⟨[], rfl, List.Forall₂.nil⟩
  | cons ra shown ih =>
    obtain ⟨rows, h1, h2⟩ := ih fun x hx => h x (List.mem_cons_of_mem _ hx)
    obtain ⟨l, hl, _⟩ := C66_label ra.stat (h ra List.mem_cons_self)
    refine ⟨[ra.key.toStr.toList, pValueToString ra.stat.pValue, l.toList, ra.streamName.toList] :: rows, ?_, .cons ⟨l, hl, rfl⟩ h2⟩
    rw [reportRows, reportCells, hl, hbind, hbind, h1]
    rfl

/-- The last lines of the report, for a verdict on `f` failures and `s` further suspicious results. -/
def Spec.lastLines (k : Nat) (empty passed : Bool) (f s : Nat) : String :=
  if empty then "INCONCLUSIVE\n\n"
  else (if passed then "PASSED" else "***FAILED*** at") ++
    s!" 2^{k} with a total of {f} failures and {s} suspicious results.\n\n"

private theorem app8 (a b c d e f g h : String) : (a ++ (b ++ c ++ d ++ e ++ f ++ g ++ h)).toList =
    a.toList ++ b.toList ++ c.toList ++ d.toList ++ e.toList ++ f.toList ++ g.toList ++ h.toList := by
  simp only [String.toList_append, List.append_assoc]

private theorem text_passed (p a b : Int) : verdictText p (.passed a b) = ("PASSED" ++ (" 2^" ++ toString p ++ " with a total of " ++
    toString a ++ " failures and " ++ toString b ++ " suspicious results.\n\n")).toList := (app8 _ _ _ _ _ _ _ _).symm

private theorem text_failed (p a b : Int) : verdictText p (.failed a b) = ("***FAILED*** at" ++ (" 2^" ++ toString p ++
    " with a total of " ++ toString a ++ " failures and " ++ toString b ++ " suspicious results.\n\n")).toList := (app8 _ _ _ _ _ _ _ _).symm

private theorem last_lines {α : Type} (k f s : Nat) (l : List α) (hmono : f ≤ s) :
    verdictText (k : Int) (if l = [] then .inconclusive else if f = 0 then .passed 0 s else .failed f (s - f)) =
      (lastLines k l.isEmpty (f == 0) f (s - f)).toList := by
  cases l with
  | nil => rw [if_pos rfl]; rfl
  | cons x l =>
    rw [if_neg (List.cons_ne_nil x l)]
    by_cases hz : f = 0
    · subst hz
      rw [if_pos rfl, text_passed]
      rfl
    · rw [if_neg hz, text_failed]
      have : (f == 0) = false := by simpa using hz
      rw [this]
      obtain ⟨d, rfl⟩ := Nat.exists_eq_add_of_le hmono
      have hd : ((f + d : Nat) : Int) - (f : Int) = (d : Int) := by push_cast; ring
      rw [hd, Nat.add_sub_cancel_left]
      rfl

/-- The headings of the four columns of the report. -/
def columnHeadings : List (List Char) := ["test".toList, "p-value".toList, "remark".toList, "stream/description".toList]

/-- C128. The report printed for a battery of 2^k samples.  A heading with the subject, the size and the time; the names of the tests that
have results, each once, in alphabetical order; a table with aligned columns (C68) of the worst results, at most three for each test
(C67), each with the name of the test, the p-value (C127), the remark (C66) and the source; and the verdict with the numbers of failures
and of suspicious results.  (The texts in the table are assumed to be shorter than 2^64.) -/
theorem C128_report (b : Battery ℝ) (hwf : WellFormed b) (hv : ValidP b) (k : Nat) (hk : k < 64) (hn : b.n = BitVec.ofNat 64 (2 ^ k))
    (ms : BitVec 64) (text : R (List Char)) (h : PrintedReport b ms text) :
    ∃ (names : List String) (ras shown : List ResultAnalysis) (rows : List (List (List Char))),
      names.Pairwise (fun x y => strLt x.toList y.toList = true) ∧ (∀ s, s ∈ names ↔ ∃ key ∈ keys b, s = getTestName key.type) ∧
      GetAnalysis b ras ∧ shown.Pairwise (fun x y => comparableP x.stat ≤ comparableP y.stat) ∧
      (∀ t : TestType, ∃ L : List ResultAnalysis,
        L.Perm (ras.filter fun r => decide (r.key.type = t ∧ comparableP r.stat ≤ 1 / 10 ^ 5)) ∧
        L.Pairwise (fun x y => comparableP x.stat ≤ comparableP y.stat) ∧
        (shown.filter fun r => decide (r.key.type = t)).Perm (L.take 3)) ∧
      List.Forall₂ (fun (ra : ResultAnalysis) row => ∃ label, strengthLabel ra.stat = .ok label ∧
        row = [ra.key.toStr.toList, pValueToString ra.stat.pValue, label.toList, ra.streamName.toList]) shown rows ∧
      ((∀ j, width (columnHeadings :: rows) j < 2 ^ 64) → text = .ok (
        List.replicate 90 '=' ++ ['\n'] ++
        s!"{b.subject} 2^{k} with {b.samples} samples using {b.bits}-bits ({ms.toNat / 1000}s)\n".toList ++
        [','].intercalate (names.map String.toList) ++ ['\n'] ++
        List.replicate 90 '=' ++ ['\n'] ++
        (columnHeadings :: rows).flatMap (line (columnHeadings :: rows)) ++ ['\n'] ++
        (lastLines k (keys b).isEmpty (countAtMost b (1 / 10 ^ 9) == 0) (countAtMost b (1 / 10 ^ 9))
          (countAtMost b (1 / 10 ^ 5) - countAtMost b (1 / 10 ^ 9))).toList)) := by
  have hch : columnHeadings = reportHeaders := rfl
  rw [hch]
  obtain ⟨ras, shown, hras, hshown, rfl⟩ := h
  have hle := analysis_le_one b hwf hv ras hras
  obtain ⟨s1, s2⟩ := C67_shown ras shown hle hshown
  have hshle : ∀ x ∈ shown, comparableP x.stat ≤ 1 := by
    intro x hx
    obtain ⟨L, l1, _, l3⟩ := s2 x.key.type
    have : x ∈ shown.filter fun r => decide (r.key.type = x.key.type) := List.mem_filter.2 ⟨hx, by simp⟩
    have := List.mem_of_mem_take (l3.mem_iff.1 this)
    exact hle x (List.mem_filter.1 (l1.mem_iff.1 this)).1
  obtain ⟨rows, r1, r2⟩ := rows_spec shown hshle
  obtain ⟨t1, t2⟩ := tests_spec b
  refine ⟨testsInBattery b, ras, shown, rows, t1, t2, hras, s1, fun t => ?_, r2, fun hsmall => ?_⟩
  · obtain ⟨L, l1, l2, l3⟩ := s2 t
    refine ⟨L, l1.trans (List.Perm.of_eq ?_), l2, l3⟩
    apply List.filter_congr
    intro x hx
    have := (C66_classes x.stat (hle x hx)).2.1
    by_cases hs : hasSuspicion x.stat = true
    · have h2 := this.1 hs
      rw [hs, Bool.and_true]
      exact decide_eq_decide.2 ⟨fun h => ⟨h, h2⟩, fun h => h.1⟩
    · have h2 : ¬ comparableP x.stat ≤ 1 / 10 ^ 5 := fun h => hs (this.2 h)
      simp only [Bool.not_eq_true] at hs
      rw [hs, Bool.and_false]
      symm
      simp only [decide_eq_false_iff_not, not_and]
      exact fun _ => h2
  · obtain ⟨tb, tb', a1, a2, a3⟩ := C68_render reportHeaders rows (by decide) (by
        intro r hr
        obtain ⟨x, _, hx⟩ : ∃ x ∈ shown, ∃ label, strengthLabel x.stat = .ok label ∧
            r = [x.key.toStr.toList, pValueToString x.stat.pValue, label.toList, x.streamName.toList] := by
          clear hsmall r1 t1 t2 s1 s2 hshle hshown
          induction r2 with
          | nil => cases hr
          | cons h1 _ ih =>
            rcases List.mem_cons.1 hr with rfl | hr
            · exact ⟨_, List.mem_cons_self, h1⟩
            · obtain ⟨x, hx, h⟩ := ih hr
              exact ⟨x, List.mem_cons_of_mem _ hx, h⟩
        obtain ⟨l, _, rfl⟩ := hx
        rfl) hsmall
    have hpow := (C40_power_of_two b.n).2.1 k hk
    have hverd := C67_verdict b hwf hv _ ⟨ras, hras, rfl⟩
    have hjoin : strJoin ((testsInBattery b).map String.toList) [','] = [','].intercalate ((testsInBattery b).map String.toList) := by
      rw [C65_join, List.filter_eq_self.2]
      intro s hs
      obtain ⟨n, hn, rfl⟩ := List.mem_map.1 hs
      obtain ⟨key, _, rfl⟩ := (t2 n).1 hn
      generalize key.type = ty
      cases ty <;> decide
    have hms : (ms / 1000#64).toNat = ms.toNat / 1000 := by
      rw [BitVec.toNat_udiv]; rfl
    rw [reportText, hn, hpow, hbind, a1, hbind, r1, hbind, a2, hbind, a3, hbind, hverd, hbind, hjoin, hms]
    refine congrArg Except.ok ?_
    have hlast : verdictText (k : Int) (if keys b = [] then .inconclusive
        else if countAtMost b (1 / 10 ^ 9) = 0 then .passed 0 (countAtMost b (1 / 10 ^ 5))
        else .failed (countAtMost b (1 / 10 ^ 9)) (countAtMost b (1 / 10 ^ 5) - countAtMost b (1 / 10 ^ 9))) =
      (lastLines k (keys b).isEmpty (countAtMost b (1 / 10 ^ 9) == 0) (countAtMost b (1 / 10 ^ 9))
          (countAtMost b (1 / 10 ^ 5) - countAtMost b (1 / 10 ^ 9))).toList := by
      have hmono : countAtMost b (1 / 10 ^ 9) ≤ countAtMost b (1 / 10 ^ 5) := by
        classical
        unfold countAtMost
        apply Nat.add_le_add <;> apply List.countP_mono_left <;> intro key _ <;> simp only [decide_eq_true_eq]
        · rintro ⟨r, hr, h⟩; exact ⟨r, hr, h.trans (by norm_num)⟩
        · intro h; exact h.trans (by norm_num)
      exact last_lines k _ _ _ hmono
    rw [hlast]
    generalize (lastLines k (keys b).isEmpty (countAtMost b (1 / 10 ^ 9) == 0) (countAtMost b (1 / 10 ^ 9))
          (countAtMost b (1 / 10 ^ 5) - countAtMost b (1 / 10 ^ 9))).toList = last
    generalize (reportHeaders :: rows).flatMap (line (reportHeaders :: rows)) = body
    generalize [','].intercalate ((testsInBattery b).map String.toList) = names
    rw [ruleLine]
    generalize List.replicate 90 '=' = bar
    simp only [String.toList_append, List.append_assoc, toString]
    rfl

private theorem push_ne (r : ResultAnalysis) (m : List (TestType × List ResultAnalysis)) (h : ∀ e ∈ m, e.2 ≠ []) :
    ∀ e ∈ typePush r m, e.2 ≠ [] := by
  induction m with
  | nil => intro e he; rw [typePush, List.mem_singleton] at he; rw [he]; simp
  | cons a m ih =>
    have ih := ih fun e he => h e (List.mem_cons_of_mem _ he)
    have ha := h a List.mem_cons_self
    obtain ⟨t, rs⟩ := a
    intro e he
    rw [typePush] at he
    split at he
    · rcases List.mem_cons.1 he with rfl | he
      · exact ha
      · exact ih e he
    · split at he
      · rcases List.mem_cons.1 he with rfl | he
        · simp
        · exact h e he
      · rcases List.mem_cons.1 he with rfl | he
        · simp
        · exact h e (List.mem_cons_of_mem _ he)

private theorem show_ok (m : List (TestType × List ResultAnalysis)) (h : ∀ e ∈ m, e.2 ≠ []) : ∃ l, showAll m = .ok l := by
  induction m with
  | nil => exact ⟨[], rfl⟩
  | cons a m ih =>
    obtain ⟨l, hl⟩ := ih fun e he => h e (List.mem_cons_of_mem _ he)
    have ha := h a List.mem_cons_self
    obtain ⟨t, rs⟩ := a
    cases rs with
    | nil => exact absurd rfl ha
    | cons w rs => rw [showAll, hl]; exact ⟨_, rfl⟩

private theorem sort_exists (l : List ResultAnalysis) : ∃ s, SortOf l s := by
  classical
  refine ⟨l.mergeSort (fun x y => decide (comparableP x.stat ≤ comparableP y.stat)), List.mergeSort_perm _ _, ?_⟩
  have := List.pairwise_mergeSort (le := fun x y : ResultAnalysis => decide (comparableP x.stat ≤ comparableP y.stat))
    (fun a b c h1 h2 => by simp only [decide_eq_true_eq] at *; exact h1.trans h2)
    (fun a b => by simp only [Bool.or_eq_true, decide_eq_true_eq]; exact le_total _ _) l
  refine this.imp ?_
  intro x y h
  rw [decide_eq_true_eq] at h
  exact not_lt.2 h

/-- C128. Every battery has a report. -/
theorem C128_printed (b : Battery ℝ) (hwf : WellFormed b) (ms : BitVec 64) : ∃ text, PrintedReport b ms text := by
  obtain ⟨ras, hr⟩ := (C67_analysis b hwf).1
  obtain ⟨sorted, hs⟩ := sort_exists ras
  obtain ⟨l, hl⟩ := show_ok (sorted.foldl (fun m r => typePush r m) []) (by
    have : ∀ (s : List ResultAnalysis) (m : List (TestType × List ResultAnalysis)), (∀ e ∈ m, e.2 ≠ []) →
        ∀ e ∈ s.foldl (fun m r => typePush r m) m, e.2 ≠ [] := by
      intro s
      induction s with
      | nil => intro m h; exact h
      | cons r s ih => intro m h; exact ih _ (push_ne r m h)
    exact this sorted [] (by simp))
  obtain ⟨shown, hsh⟩ := sort_exists l
  exact ⟨_, ras, shown, hr, ⟨sorted, l, hs, hl, hsh⟩, rfl⟩

/-- One gap result that fails. -/
private noncomputable def one : Battery ℝ := Battery.add ⟨"demo", 1024#64, 1, 8, []⟩ ⟨"a", "", 1024#64, ⟨.gap, ""⟩, ⟨.chi2, 1, 1, 1⟩⟩

-- The hypotheses of C128_report are met by a battery with a result, and the report then begins with its heading.
example : WellFormed one ∧ ValidP one ∧ one.n = BitVec.ofNat 64 (2 ^ 10) ∧ keys one = [⟨.gap, ""⟩] ∧
    ∃ text, PrintedReport one 2500#64 text := by
  have hwf : WellFormed one := by
    have := C38_entries "demo" 1024#64 1 8 ([⟨"a", "", 1024#64, ⟨.gap, ""⟩, ⟨.chi2, 1, 1, 1⟩⟩] : List (TestResult ℝ))
    exact ⟨this.1, fun e he => (this.2.1 e he).1⟩
  refine ⟨hwf, ?_, rfl, rfl, C128_printed one hwf _⟩
  intro k r hr
  have hg : one.get k = ([⟨"a", "", 1024#64, ⟨.gap, ""⟩, ⟨.chi2, 1, 1, 1⟩⟩] : List (TestResult ℝ)).filter fun r => r.key = k :=
    C38_lookup "demo" 1024#64 1 8 [⟨"a", "", 1024#64, ⟨.gap, ""⟩, ⟨.chi2, 1, 1, 1⟩⟩] k
  rw [hg] at hr
  have := List.mem_of_mem_filter hr
  simp only [List.mem_cons, List.not_mem_nil, or_false] at this
  rcases this with rfl
  simp [comparableP]

/-! ### The histogram -/

/-- The number of values in a bin: `r` is in the bin of the integer part of `30 r` (rounded to binary64), and 1 is in the last bin. -/
def Spec.inBin (data : List ℚ) (j : Nat) : Nat :=
  data.countP fun r => decide (⌊Fl.rnd (30 * r)⌋ = j ∨ j = 29 ∧ ⌊Fl.rnd (30 * r)⌋ = 30)

/-- The number of stars of a bar, for a count `c` when the largest count is `most`: `c`, or about `80 c / most` when `most` exceeds 80. -/
def Spec.starsFor (most c : Nat) : Nat := if most ≤ 80 then c else ⌈Fl.rnd (Fl.rnd (80 / most) * c)⌉₊

private def binOf (r : ℚ) : Nat := min ⌊Fl.rnd (30 * r)⌋.toNat 29

private theorem scaled_range {r : ℚ} (h0 : 0 ≤ r) (h1 : r ≤ 1) : 0 ≤ Fl.rnd (30 * r) ∧ Fl.rnd (30 * r) ≤ 30 := by
  refine ⟨Fl.rnd_nonneg (by positivity), ?_⟩
  have := Fl.rnd_mono (x := 30 * r) (y := ((30 : ℕ) : ℚ)) (by push_cast; linarith)
  rwa [Fl.rnd_natCast (by norm_num)] at this

private theorem index_eq {r : ℚ} (h0 : 0 ≤ r) (h1 : r ≤ 1) : histogramIndex r = .ok (binOf r) := by
  obtain ⟨a, b⟩ := scaled_range h0 h1
  have h30 : Fl.ofNat 30 = 30 := by
    have := Fl.rnd_natCast (m := 30) (by norm_num)
    rw [Fl.ofNat, this]; norm_num
  have hm : Fl.mul r (Fl.ofNat 30) = Fl.rnd (30 * r) := by rw [Fl.mul, h30, mul_comm]
  rw [histogramIndex, hm, toU64, if_pos ⟨a, by linarith⟩, hbind, BitVec.toNat_ofNat, Nat.mod_eq_of_lt]
  · rfl
  · have : ⌊Fl.rnd (30 * r)⌋ ≤ 30 := by
      have : ⌊Fl.rnd (30 * r)⌋ ≤ ⌊((30 : ℤ) : ℚ)⌋ := Int.floor_mono (by push_cast; exact b)
      rwa [Int.floor_intCast] at this
    omega

private theorem binOf_lt (r : ℚ) : binOf r < 30 := by rw [binOf]; omega

private theorem count_bin (data : List ℚ) (h : ∀ r ∈ data, 0 ≤ r ∧ r ≤ 1) (j : Nat) (hj : j < 30) :
    (data.map binOf).count j = inBin data j := by
  rw [inBin, List.count, List.countP_map]
  apply List.countP_congr
  intro r hr
  obtain ⟨a, b⟩ := scaled_range (h r hr).1 (h r hr).2
  have h0 : 0 ≤ ⌊Fl.rnd (30 * r)⌋ := Int.floor_nonneg.2 a
  have h30 : ⌊Fl.rnd (30 * r)⌋ ≤ 30 := by
    have : ⌊Fl.rnd (30 * r)⌋ ≤ ⌊((30 : ℤ) : ℚ)⌋ := Int.floor_mono (by push_cast; exact b)
    rwa [Int.floor_intCast] at this
  simp only [Function.comp_apply, beq_iff_eq, decide_eq_true_eq, binOf]
  generalize ⌊Fl.rnd (30 * r)⌋ = z at *
  omega

/-- The largest of the counts. -/
def Spec.mostInBin (data : List ℚ) : Nat := ((List.range 30).map (inBin data)).foldr max 0

private theorem foldr_max_spec (l : List Nat) : (∀ x ∈ l, x ≤ l.foldr max 0) ∧ (l.foldr max 0 = 0 ∨ l.foldr max 0 ∈ l) := by
  induction l with
  | nil => simp
  | cons a l ih =>
    obtain ⟨i1, i2⟩ := ih
    rw [List.foldr_cons]
    refine ⟨fun x hx => ?_, ?_⟩
    · rcases List.mem_cons.1 hx with rfl | hx
      · exact le_max_left _ _
      · exact (i1 x hx).trans (le_max_right _ _)
    · rcases le_total a (l.foldr max 0) with h | h
      · rw [max_eq_right h]
        rcases i2 with i2 | i2
        · exact Or.inl i2
        · exact Or.inr (List.mem_cons_of_mem _ i2)
      · rw [max_eq_left h]; exact Or.inr List.mem_cons_self

private def topCount (idx : List Nat) : Nat := ((List.range 30).map fun j => idx.count j).foldr max 0

private theorem top_push (idx : List Nat) (i : Nat) (hi : i < 30) :
    topCount (idx ++ [i]) = max (topCount idx) ((idx ++ [i]).count i) := by
  obtain ⟨a1, a2⟩ := foldr_max_spec ((List.range 30).map fun j => idx.count j)
  obtain ⟨b1, b2⟩ := foldr_max_spec ((List.range 30).map fun j => (idx ++ [i]).count j)
  have ha : ∀ j < 30, idx.count j ≤ topCount idx := fun j hj => a1 _ (List.mem_map.2 ⟨j, List.mem_range.2 hj, rfl⟩)
  have hb : ∀ j < 30, (idx ++ [i]).count j ≤ topCount (idx ++ [i]) := fun j hj => b1 _ (List.mem_map.2 ⟨j, List.mem_range.2 hj, rfl⟩)
  have hle : ∀ j, idx.count j ≤ (idx ++ [i]).count j := fun j => by rw [List.count_append]; omega
  apply le_antisymm
  · rcases b2 with b2 | b2
    · exact (le_of_eq b2).trans (Nat.zero_le _)
    · obtain ⟨j, hj, hjv⟩ := List.mem_map.1 b2
      have hj := List.mem_range.1 hj
      change topCount (idx ++ [i]) ≤ _
      have hjv : (idx ++ [i]).count j = topCount (idx ++ [i]) := hjv
      rw [← hjv]
      by_cases h : j = i
      · subst h; exact le_max_right _ _
      · refine le_trans ?_ (le_max_left _ _)
        rw [List.count_append, List.count_singleton, if_neg (by simpa using fun h' => h h'.symm)]
        exact ha j hj
  · refine max_le ?_ (hb i hi)
    rcases a2 with a2 | a2
    · exact (le_of_eq a2).trans (Nat.zero_le _)
    · obtain ⟨j, hj, hjv⟩ := List.mem_map.1 a2
      have hj := List.mem_range.1 hj
      have hjv : idx.count j = topCount idx := hjv
      rw [← hjv]
      exact (hle j).trans (hb j hj)

private theorem top_le (idx : List Nat) : topCount idx ≤ idx.length := by
  obtain ⟨_, a2⟩ := foldr_max_spec ((List.range 30).map fun j => idx.count j)
  rcases a2 with a2 | a2
  · exact (le_of_eq a2).trans (Nat.zero_le _)
  · obtain ⟨j, _, hjv⟩ := List.mem_map.1 a2
    have hjv : idx.count j = topCount idx := hjv
    rw [← hjv]; exact List.count_le_length

private theorem bins_loop (data : List ℚ) (h : ∀ r ∈ data, 0 ≤ r ∧ r ≤ 1) (idx : List Nat) (hlen : idx.length + data.length < 2 ^ 64) :
    data.foldlM (fun (st : List (BitVec 64) × BitVec 64) r => do
      let i ← histogramIndex r
      let bins ← incrAt st.1 i
      let c := bins.getD i 0#64
      .ok (bins, if st.2 ≤ c then c else st.2)) (histOf 30 idx, BitVec.ofNat 64 (topCount idx)) =
    .ok (histOf 30 (idx ++ data.map binOf), BitVec.ofNat 64 (topCount (idx ++ data.map binOf))) := by
  induction data generalizing idx with
  | nil => simp; rfl
  | cons r data ih =>
    have hr := h r List.mem_cons_self
    have hb := binOf_lt r
    rw [List.length_cons] at hlen
    rw [List.foldlM_cons, index_eq hr.1 hr.2, hbind]
    dsimp only
    rw [incrAt_histOf 30 idx _ hb, hbind, hbind]
    have hget : (histOf 30 (idx ++ [binOf r])).getD (binOf r) 0#64 = BitVec.ofNat 64 ((idx ++ [binOf r]).count (binOf r)) := by
      rw [List.getD_eq_getElem _ _ (by simpa using hb), getElem_histOf]
    rw [hget]
    have hmax : (if BitVec.ofNat 64 (topCount idx) ≤ BitVec.ofNat 64 ((idx ++ [binOf r]).count (binOf r))
        then BitVec.ofNat 64 ((idx ++ [binOf r]).count (binOf r)) else BitVec.ofNat 64 (topCount idx)) =
        BitVec.ofNat 64 (topCount (idx ++ [binOf r])) := by
      rw [top_push idx _ hb]
      have h1 : topCount idx < 2 ^ 64 := lt_of_le_of_lt (top_le idx) (by omega)
      have h2 : (idx ++ [binOf r]).count (binOf r) < 2 ^ 64 := lt_of_le_of_lt List.count_le_length (by simp; omega)
      have hiff : (BitVec.ofNat 64 (topCount idx) ≤ BitVec.ofNat 64 ((idx ++ [binOf r]).count (binOf r))) ↔
          topCount idx ≤ (idx ++ [binOf r]).count (binOf r) := by
        rw [BitVec.le_def, BitVec.toNat_ofNat, BitVec.toNat_ofNat, Nat.mod_eq_of_lt h1, Nat.mod_eq_of_lt h2]
      by_cases hc : topCount idx ≤ (idx ++ [binOf r]).count (binOf r)
      · rw [if_pos (hiff.2 hc), max_eq_right hc]
      · rw [if_neg (fun h => hc (hiff.1 h)), max_eq_left (by omega)]
    rw [hmax, ih (fun x hx => h x (List.mem_cons_of_mem _ hx)) (idx ++ [binOf r]) (by simp; omega), List.map_cons,
      List.append_assoc, List.singleton_append]

private theorem bar_eq (most c : Nat) (hm : most < 2 ^ 53) (hc : c ≤ most) :
    histogramBar (histogramScale (BitVec.ofNat 64 most)) (BitVec.ofNat 64 c) = List.replicate (starsFor most c) '*' ++ ['\n'] := by
  have t1 : (BitVec.ofNat 64 most).toNat = most := by rw [BitVec.toNat_ofNat]; exact Nat.mod_eq_of_lt (by omega)
  have t2 : (BitVec.ofNat 64 c).toNat = c := by rw [BitVec.toNat_ofNat]; exact Nat.mod_eq_of_lt (by omega)
  have hz : BitVec.ofNat 64 most = 0#64 ↔ most = 0 := by
    rw [← BitVec.toNat_inj, t1]; rfl
  rw [histogramBar, t2, Fl.ofNat, Fl.rnd_natCast (m := c) (by omega), histogramScale, t1, Fl.ofNat, Fl.rnd_natCast (m := most) (by omega)]
  refine congrArg (fun n => List.replicate n '*' ++ ['\n']) ?_
  rw [starsFor]
  by_cases h80 : most ≤ 80
  · rw [if_pos h80]
    have hs : (if BitVec.ofNat 64 most = 0#64 then (1 : ℚ) else min 1 (Fl.div 80 (most : ℚ))) = 1 := by
      by_cases h0 : most = 0
      · rw [if_pos (hz.2 h0)]
      · rw [if_neg (fun h => h0 (hz.1 h))]
        apply min_eq_left
        rw [Fl.div, ← Fl.rnd_one]
        apply Fl.rnd_mono
        have : (0 : ℚ) < most := by exact_mod_cast Nat.pos_of_ne_zero h0
        rw [le_div_iff₀ this, one_mul]
        exact_mod_cast h80
    rw [hs, Fl.mul, one_mul, Fl.rnd_natCast (by omega)]
    exact Nat.ceil_natCast c
  · rw [if_neg h80, if_neg (fun h => h80 (by rw [hz.1 h]; omega))]
    have : min 1 (Fl.div 80 (most : ℚ)) = Fl.rnd (80 / most) := by
      apply min_eq_right
      rw [Fl.div]
      refine le_trans (Fl.rnd_mono (y := 1) ?_) (le_of_eq Fl.rnd_one)
      have h81 : (80 : ℚ) ≤ most := by exact_mod_cast (show 80 ≤ most by omega)
      rw [div_le_one (by linarith)]; exact h81
    rw [this, Fl.mul]

/-- C128. The histogram of at most 2^53 numbers from 0 to 1: thirty bars, one for each bin, and an empty line. -/
theorem C128_histogram (data : List ℚ) (h : ∀ r ∈ data, 0 ≤ r ∧ r ≤ 1) (hlen : data.length < 2 ^ 53) :
    drawHistogram data = .ok ((List.range 30).flatMap (fun j =>
      List.replicate (starsFor (mostInBin data) (inBin data j)) '*' ++ ['\n']) ++ ['\n']) := by
  have h0 : topCount [] = 0 := by decide
  have hl := bins_loop data h [] (by simp; omega)
  rw [histOf_nil, h0, List.nil_append] at hl
  have hb : histogramBins data = .ok (histOf 30 (data.map binOf), BitVec.ofNat 64 (topCount (data.map binOf))) := hl
  have htop : topCount (data.map binOf) = mostInBin data := by
    rw [topCount, mostInBin]
    refine congrArg (fun l => List.foldr max 0 l) ?_
    apply List.map_congr_left
    intro j hj
    exact count_bin data h j (List.mem_range.1 hj)
  have hmost : mostInBin data < 2 ^ 53 := by
    rw [← htop]; exact lt_of_le_of_lt (top_le _) (by simpa using hlen)
  rw [drawHistogram, hb, hbind, htop]
  refine congrArg (fun l => Except.ok (l ++ ['\n'])) ?_
  rw [histOf, List.flatMap_map]
  apply List.flatMap_congr
  intro j hj
  have hj := List.mem_range.1 hj
  rw [count_bin data h j hj]
  refine bar_eq _ _ hmost ?_
  exact (foldr_max_spec _).1 _ (List.mem_map.2 ⟨j, List.mem_range.2 hj, rfl⟩)

private theorem stars_real (m c : ℚ) (hm : 80 < m) (hc : 0 ≤ c) (hcm : c ≤ m) :
    |Fl.rnd (Fl.rnd (80 / m) * c) - 80 * c / m| ≤ 1 / 10 ^ 12 := by
  have hm0 : 0 < m := by linarith
  have hq : 0 ≤ 80 / m := by positivity
  have h1 := Fl.abs_rnd_sub_le_rel hq
  have h2 := Fl.abs_rnd_sub_le_rel (x := Fl.rnd (80 / m) * c) (mul_nonneg (Fl.rnd_nonneg hq) hc)
  have e1 : 80 / m * c = 80 * c / m := by ring
  have hx : 80 * c / m ≤ 80 := by rw [div_le_iff₀ hm0]; nlinarith
  have hx0 : 0 ≤ 80 * c / m := by positivity
  have h3 : |Fl.rnd (80 / m) * c - 80 * c / m| ≤ 80 * c / m / 2 ^ 53 := by
    have : Fl.rnd (80 / m) * c - 80 * c / m = (Fl.rnd (80 / m) - 80 / m) * c := by ring
    rw [this, abs_mul, abs_of_nonneg hc]
    calc _ ≤ 80 / m / 2 ^ 53 * c := mul_le_mul_of_nonneg_right h1 hc
      _ = _ := by ring
  generalize Fl.rnd (80 / m) * c = y at h2 h3 ⊢
  generalize Fl.rnd y = z at h2 ⊢
  generalize 80 * c / m = x at h3 hx hx0 ⊢
  rw [abs_le] at h2 h3 ⊢
  norm_num at h2 h3 ⊢
  constructor <;> linarith [h2.1, h2.2, h3.1, h3.2]

/-- C128. The bars: no star exactly for an empty bin, one star for each value if no bin has more than 80, more stars for more values,
and in general the rounded up multiple of `80 / most`, up to 1e-12, so that no bar is longer than 81. -/
theorem C128_bars (most c : Nat) (hc : c ≤ most) :
    (starsFor most c = 0 ↔ c = 0) ∧ (most ≤ 80 → starsFor most c = c) ∧
    (∀ c', c ≤ c' → starsFor most c ≤ starsFor most c') ∧
    (80 < most → 80 * (c : ℚ) / most - 1 / 10 ^ 12 ≤ starsFor most c ∧ (starsFor most c : ℚ) < 80 * (c : ℚ) / most + 1 + 1 / 10 ^ 12) ∧
    starsFor most c ≤ 81 := by
  by_cases h80 : most ≤ 80
  · simp only [starsFor, if_pos h80]
    exact ⟨trivial, fun _ => trivial, fun _ h => h, fun h => absurd h (by omega), by omega⟩
  · simp only [starsFor, if_neg h80]
    have hm : (80 : ℚ) < most := by exact_mod_cast (show 80 < most by omega)
    have hq : 0 < (80 : ℚ) / most := by
      have : (0 : ℚ) < most := by linarith
      positivity
    have hr : 0 < Fl.rnd ((80 : ℚ) / most) := by rw [Fl.rnd_of_nonneg hq.le]; exact Fl.rndPos_pos hq
    have hcq : (0 : ℚ) ≤ c := Nat.cast_nonneg c
    have hcm : (c : ℚ) ≤ most := by exact_mod_cast hc
    have hab := abs_le.1 (stars_real (most : ℚ) c hm hcq hcm)
    have hnn : 0 ≤ Fl.rnd (Fl.rnd ((80 : ℚ) / most) * c) := Fl.rnd_nonneg (mul_nonneg hr.le hcq)
    have hx : 80 * (c : ℚ) / most ≤ 80 := by rw [div_le_iff₀ (by linarith)]; nlinarith
    refine ⟨?_, fun h => absurd h h80, fun c' h => ?_, fun _ => ⟨?_, ?_⟩, ?_⟩
    · rw [Nat.ceil_eq_zero]
      constructor
      · intro h
        by_contra hne
        have : (0 : ℚ) < c := by exact_mod_cast Nat.pos_of_ne_zero hne
        have h2 := Fl.rndPos_pos (mul_pos hr this)
        rw [← Fl.rnd_of_nonneg (mul_pos hr this).le] at h2
        linarith
      · rintro rfl; simp
    · apply Nat.ceil_mono
      apply Fl.rnd_mono
      exact mul_le_mul_of_nonneg_left (by exact_mod_cast h) hr.le
    · have := Nat.le_ceil (Fl.rnd (Fl.rnd ((80 : ℚ) / most) * c))
      linarith [hab.1]
    · have := Nat.ceil_lt_add_one hnn
      linarith [hab.2]
    · apply Nat.ceil_le.2
      push_cast
      have : (1 : ℚ) / 10 ^ 12 ≤ 1 := by norm_num
      linarith [hab.2]

-- A bin with 80 values gets 80 stars, but a fullest bin with 147 values gets 81: `80. / 147 * 147` exceeds 80 in binary64.
example : starsFor 80 80 = 80 ∧ starsFor 147 147 = 81 ∧ starsFor 1000 1 = 1 ∧ starsFor 1000 500 = 40 := by decide +kernel

-- The hypotheses of C128_histogram are met by a list with the values 0, 1/2 and 1, whose bars are at 0, 15 and 29.
example : (∀ r ∈ [(0 : ℚ), 1 / 2, 1 / 2, 1], 0 ≤ r ∧ r ≤ 1) ∧ [(0 : ℚ), 1 / 2, 1 / 2, 1].length < 2 ^ 53 ∧
    (List.range 30).map (inBin [(0 : ℚ), 1 / 2, 1 / 2, 1]) = [1] ++ List.replicate 14 0 ++ [2] ++ List.replicate 13 0 ++ [1] := by
  decide +kernel

end TFR
