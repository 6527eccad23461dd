import Verif.Model.Suite
import Verif.Props.BasicTests
import Verif.Props.AvalancheTests
import Verif.Props.DrawTests
import Verif.Props.PermutationTest
import Verif.Props.BlockTests
import Verif.Props.Budget
import Verif.Props.Evaluate
/-
C89: the whole catalogue.
-/
namespace TFR
open Spec ProbabilityTheory
variable {w : Nat}

/-- What a report says apart from values and p-values: the names, and for those that have a statistic its type and degrees of
freedom. -/
def Spec.shape (x : SubTest ℝ) : String × Option (StatType × ℝ) := (x.name, x.stats.map fun st => (st.type, st.df))

/-- A report that can be analysed: different names; every statistic has at least one degree of freedom; mean and runs give a
z-score with its two-sided normal p-value, the others a nonnegative chi-square value with its p-value. -/
structure Spec.WellFormedReport (cdf : ℝ → ℝ → ℝ) (type : TestType) (res : List (SubTest ℝ)) : Prop where
  names : (res.map SubTest.name).Nodup
  stats : ∀ x ∈ res, ∀ st, x.stats = some st → 1 ≤ st.df ∧
    if type = .mean ∨ type = .runs then
      st.type = .zScore ∧ st.pValue = (gaussianReal 0 1).real {x | |st.value| ≤ |x|}
    else st.type = .chi2 ∧ 0 ≤ st.value ∧ st.pValue = cdf st.value st.df

private theorem wf_nil (cdf : ℝ → ℝ → ℝ) (type : TestType) : WellFormedReport cdf type [] :=
  ⟨by simp, by simp⟩

/-- A list of Pearson tests. -/
private theorem wf_pearson (cdf : ℝ → ℝ → ℝ) (type : TestType) (h1 : type ≠ .mean) (h2 : type ≠ .runs) (res : List (SubTest ℝ))
    (hn : (res.map SubTest.name).Nodup)
    (h : ∀ x ∈ res, ∀ st, x.stats = some st → ∃ (cells : List (ℝ × ℝ)) (thr : ℝ), 0 ≤ thr ∧ pearson cdf cells thr = some st) :
    WellFormedReport cdf type res := by
  refine ⟨hn, fun x hx st hst => ?_⟩
  obtain ⟨cells, thr, ht, hp⟩ := h x hx st hst
  obtain ⟨p1, p2, p3, p4, p5⟩ := pearson_some cdf cells thr ht st hp
  rw [if_neg (by simp [h1, h2])]
  exact ⟨p2, p1, p4, p5⟩

/-- Type and degrees of freedom of Pearson's test depend on the expectations only. -/
private theorem pearson_shape {α : Type} (cdf : ℝ → ℝ → ℝ) (l : List α) (o o' e : α → ℝ) (thr : ℝ) :
    (pearson cdf (l.map fun i => (o i, e i)) thr).map (fun st => (st.type, st.df)) =
      (pearson cdf (l.map fun i => (o' i, e i)) thr).map (fun st => (st.type, st.df)) := by
  have h : (usedCells thr (l.map fun i => (o i, e i))).length = (usedCells thr (l.map fun i => (o' i, e i))).length := by
    unfold usedCells
    rw [List.filter_map, List.filter_map, List.length_map, List.length_map]
    rfl
  unfold pearson
  rw [h]
  split <;> rfl

private theorem shape_some {α : Type} (cdf : ℝ → ℝ → ℝ) (l : List α) (o e : α → ℝ) (thr : ℝ) (st : Statistic ℝ) (nm : String)
    (h : pearson cdf (l.map fun i => (o i, e i)) thr = some st) :
    shape ⟨nm, some st⟩ = (nm, (pearson cdf (l.map fun i => ((0 : ℝ), e i)) thr).map fun st => (st.type, st.df)) := by
  rw [← pearson_shape cdf l o (fun _ => 0) e thr, h]; rfl

/-- Tests with one Pearson test. -/
private theorem single {S : Type*} {α : Type} (cdf : ℝ → ℝ → ℝ) (type : TestType) (h1 : type ≠ .mean) (h2 : type ≠ .runs) (nm : String)
    (l : List α) (e : α → ℝ) (thr : ℝ) (ht : 0 ≤ thr) (f : S → TestRun)
    (h : ∀ s, ∃ o : α → ℝ, f s = some (.ok [⟨nm, pearson cdf (l.map fun i => (o i, e i)) thr⟩])) :
    ∃ L : List (String × Option (StatType × ℝ)), ∀ s, ∃ res, f s = some (.ok res) ∧ WellFormedReport cdf type res ∧
      res.map shape = L := by
  refine ⟨[(nm, (pearson cdf (l.map fun i => ((0 : ℝ), e i)) thr).map fun st => (st.type, st.df))], fun s => ?_⟩
  obtain ⟨o, h⟩ := h s
  refine ⟨_, h, ?_, ?_⟩
  · refine wf_pearson cdf _ h1 h2 _ (by simp) ?_
    intro x hx st hst
    rw [List.mem_singleton] at hx
    subst hx
    exact ⟨_, thr, ht, hst⟩
  · rw [← pearson_shape cdf l o (fun _ => 0) e thr]; rfl

private theorem drop_cond {S : Type*} (cdf : ℝ → ℝ → ℝ) (type : TestType) (f : S → TestRun)
    (h : ∃ L : List (String × Option (StatType × ℝ)), ∀ s, ∃ res, f s = some (.ok res) ∧ WellFormedReport cdf type res ∧
      res.map shape = L) :
    ∃ L : List (String × Option (StatType × ℝ)), ∀ s, ∃ res, f s = some (.ok res) ∧ WellFormedReport cdf type res ∧
      (type ≠ .runs → res.map shape = L) := by
  obtain ⟨L, h⟩ := h
  refine ⟨L, fun s => ?_⟩
  obtain ⟨res, a, b, c⟩ := h s
  exact ⟨res, a, b, fun _ => c⟩

private theorem limit_some (type : TestType) (n m : BitVec 64) (h : (getTestDefinition type).limiter.limit n = some m) :
    m.toNat ≤ n.toNat ∧ ((getTestDefinition type).limiter = .slow ∨ (getTestDefinition type).limiter = .slower → 1024 ≤ m.toNat) ∧
      ((getTestDefinition type).limiter = .none → m = n) ∧ (n ≠ 0#64 → m ≠ 0#64) := by
  obtain ⟨c1, c2, -⟩ := C40_limits n
  cases hl : (getTestDefinition type).limiter with
  | none => rw [hl] at h; cases h; simp
  | «to» k =>
    rw [hl] at h
    simp only [Limiter.limit, limitNTo] at h
    split at h
    · cases h; simp
    · cases h
  | slow =>
    rw [hl] at h
    have := c1 m h
    refine ⟨this.2, fun _ => this.1, by simp, fun _ h0 => ?_⟩
    rw [h0] at this; simp at this
  | slower =>
    rw [hl] at h
    have := c2 m h
    refine ⟨this.2, fun _ => this.1, by simp, fun _ h0 => ?_⟩
    rw [h0] at this; simp at this

/-- The unlimited stream tests. -/
private theorem raw_report (cdf : ℝ → ℝ → ℝ) (t : WT) (type : TestType) (n : BitVec 64) (hn : n ≠ 0#64) (hov : n.toNat * t.bits < 2 ^ 64)
    (hmin : (getTestDefinition type).limiter = .slow ∨ (getTestDefinition type).limiter = .slower → 1024 ≤ n.toNat)
    (f : BitVec 64 → Stream (BitVec t.bits) → TestRun) (hf : rawStreamTest cdf type = some f) :
    ∃ L : List (String × Option (StatType × ℝ)), ∀ s, ∃ res, f n s = some (.ok res) ∧ WellFormedReport cdf type res ∧
      (type ≠ .runs → res.map shape = L) := by
  have hn0 : 0 < n.toNat := Nat.pos_of_ne_zero fun h => hn (BitVec.eq_of_toNat_eq (by simpa using h))
  have hb8 : 8 ≤ t.bits := by cases t <;> simp [WT.bits]
  have hb64 : t.bits ≤ 64 := by cases t <;> simp [WT.bits]
  cases type with
  | sac => cases hf
  | bic => cases hf
  | mean =>
    cases hf
    refine ⟨[("", some (.zScore, (n.toNat : ℝ)))], fun s => ⟨_, congrArg some (C78_mean n s), ?_, ?_⟩⟩
    · rw [if_neg hn]
      refine ⟨by simp, fun x hx st hst => ?_⟩
      rw [List.mem_singleton] at hx
      subst hx
      cases hst
      refine ⟨(by exact_mod_cast hn0 : (1 : ℝ) ≤ (n.toNat : ℝ)), ?_⟩
      rw [if_pos (Or.inl rfl)]
      exact ⟨rfl, rfl⟩
    · intro _
      rw [if_neg hn]; rfl
  | uniform =>
    cases hf
    obtain ⟨k, -, -, -, -, hu⟩ := C79_uniform cdf t n hn
    exact drop_cond cdf _ _ (single cdf _ (by decide) (by decide) "" _ _ 0 le_rfl _ fun s => ⟨_, congrArg some (hu s)⟩)
  | runs =>
    cases hf
    refine ⟨[], fun s => ?_⟩
    obtain ⟨a, b, r, -, -, -, h⟩ := C80_runs (by omega) n s
    refine ⟨_, congrArg some h, ⟨by simp, fun x hx st hst => ?_⟩, fun h => absurd rfl h⟩
    rw [List.mem_singleton] at hx
    subst hx
    dsimp only at hst
    split at hst
    · cases hst
    · rename_i hab
      cases hst
      refine ⟨?_, ?_⟩
      · have : 1 ≤ a + b := by omega
        dsimp only
        exact_mod_cast this
      · rw [if_pos (Or.inr rfl)]
        exact ⟨rfl, rfl⟩
  | serialAvalanche =>
    cases hf
    obtain ⟨G, -, h⟩ := C81_serial_avalanche (w := t.bits) cdf n
    refine ⟨(List.range t.bits).filterMap fun a =>
      ((if ((G a).length : ℝ) / ((t.bits + 1 : ℕ) : ℝ) < 35 / 100 then none
           else pearson cdf ((G a).map fun g =>
             ((0 : ℝ), (g.map (pairExpected t.bits n.toNat a)).sum)) 0).map (fun st => (st.type, st.df))).map
              fun p => ("bit(" ++ toString a ++ ")", some p), fun s => ⟨_, congrArg some (h s), ?_, fun _ => ?_⟩⟩
    rotate_left
    · rw [List.map_filterMap]
      have : ∀ a, Option.map shape (Option.map (fun st => (⟨"bit(" ++ toString a ++ ")", some st⟩ : SubTest ℝ))
          (if ((G a).length : ℝ) / ((t.bits + 1 : ℕ) : ℝ) < 35 / 100 then none
           else pearson cdf ((G a).map fun g =>
             ((((g.map (pairHits s.nth n.toNat a)).sum : ℕ) : ℝ), (g.map (pairExpected t.bits n.toNat a)).sum)) 0)) =
          ((if ((G a).length : ℝ) / ((t.bits + 1 : ℕ) : ℝ) < 35 / 100 then none
           else pearson cdf ((G a).map fun g =>
             ((0 : ℝ), (g.map (pairExpected t.bits n.toNat a)).sum)) 0).map (fun st => (st.type, st.df))).map
              fun p => ("bit(" ++ toString a ++ ")", some p) := by
        intro a
        split
        · rfl
        · rw [← pearson_shape cdf (G a) (fun g => (((g.map (pairHits s.nth n.toNat a)).sum : ℕ) : ℝ)) (fun _ => 0)
            (fun g => (g.map (pairExpected t.bits n.toNat a)).sum) 0]
          rw [Option.map_map, Option.map_map]
          rfl
      simp only [this]
    · refine wf_pearson cdf _ (by decide) (by decide) _ ?_ ?_
      · rw [List.map_filterMap]
        refine List.Nodup.filterMap ?_ List.nodup_range
        intro a a' y h1 h2
        simp only [Option.map_map, Option.mem_def, Option.map_eq_some_iff] at h1 h2
        obtain ⟨_, -, h1⟩ := h1
        obtain ⟨_, -, h2⟩ := h2
        have h3 := congrArg String.toList (h1.trans h2.symm)
        simp only [Function.comp, String.toList_append] at h3
        exact Nat.repr_inj.1 (String.toList_injective (List.append_cancel_left (List.append_cancel_right h3)))
      · intro x hx st hst
        obtain ⟨a, -, hx⟩ := List.mem_filterMap.1 hx
        obtain ⟨st', h', rfl⟩ := Option.map_eq_some_iff.1 hx
        cases hst
        split at h'
        · cases h'
        · exact ⟨_, 0, le_refl _, h'⟩
  | gap =>
    cases hf
    let o : List (List (BitVec t.bits)) → Nat → ℝ := fun l g => (binCount (fun s => min (s.length - 1) 7) l g : ℝ)
    let e : Nat → ℝ := fun g => ((n.toNat / 2 : ℕ) : ℝ) / 2 ^ min (g + 1) 7
    refine ⟨["1/2", "2/2"].filterMap fun nm => ((pearson cdf ((List.range 8).map fun g => ((0 : ℝ), e g)) 5).map
      fun st => (st.type, st.df)).map fun p => (nm, some p), fun s => ?_⟩
    obtain ⟨low, restL, high, restH, -, -, h⟩ := C82_gap cdf t n s
    refine ⟨_, h, ?_, fun _ => ?_⟩
    · refine wf_pearson cdf _ (by decide) (by decide) _ ?_ ?_
      · rw [List.map_filterMap]
        have : (["1/2", "2/2"].filterMap fun nm => (some nm : Option String)).Nodup := by decide
        cases h1 : pearson cdf ((List.range 8).map fun g => (o low g, e g)) 5 <;>
        cases h2 : pearson cdf ((List.range 8).map fun g => (o high g, e g)) 5 <;>
        simp only [List.filterMap_cons, List.filterMap_nil, o, e] at h1 h2 ⊢ <;> simp [h1, h2]
      · intro x hx st hst
        obtain ⟨p, -, hx⟩ := List.mem_filterMap.1 hx
        obtain ⟨st', h', rfl⟩ := Option.map_eq_some_iff.1 hx
        cases hst
        exact ⟨_, 5, by norm_num, h'⟩
    · have key : ∀ nm l, Option.map shape ((pearson cdf ((List.range 8).map fun g => (o l g, e g)) 5).map fun st => (⟨nm, some st⟩ : SubTest ℝ)) =
          ((pearson cdf ((List.range 8).map fun g => ((0 : ℝ), e g)) 5).map fun st => (st.type, st.df)).map fun p => (nm, some p) := by
        intro nm l
        rw [← pearson_shape cdf (List.range 8) (o l) (fun _ => 0) e 5, Option.map_map, Option.map_map]
        rfl
      rw [List.map_filterMap]
      have k1 := key "1/2" low
      have k2 := key "2/2" high
      simp only [o, e] at k1 k2
      simp only [List.filterMap_cons, List.filterMap_nil, e]
      rw [k1, k2]
  | coupon =>
    cases hf
    refine drop_cond cdf _ _ (single cdf _ (by decide) (by decide) "" (List.range 25)
      (fun i => couponShare i * (12 * n.toNat / 137)) 1 zero_le_one _ fun s => ?_)
    obtain ⟨segs, rest, -, h⟩ := C83_coupon cdf n s
    exact ⟨_, congrArg some h⟩
  | divisibility =>
    cases hf
    have hmax : n.toNat < 2 ^ 64 - 1 := by
      have := Nat.mul_le_mul_left n.toNat hb8
      omega
    by_cases h1000 : n.toNat < 1000
    · refine ⟨[], fun s => ⟨[], ?_, wf_nil _ _, fun _ => rfl⟩⟩
      obtain ⟨segs, rest, -, h, -⟩ := C84_divisibility cdf n hmax s
      exact h h1000
    · refine drop_cond cdf _ _ (single cdf _ (by decide) (by decide) "d2" (List.range 16)
        (fun i => evenShare i * ((n.toNat / 10 : ℕ) : ℝ)) 5 (by norm_num) _ fun s => ?_)
      obtain ⟨segs, rest, -, -, h⟩ := C84_divisibility cdf n hmax s
      obtain ⟨st, h1, h2⟩ := h (by omega)
      refine ⟨fun i => (binCount (fun s => min 15 (s.length - 5)) segs i : ℝ), ?_⟩
      rw [h2]; exact h1
  | permutation =>
    cases hf
    obtain ⟨k, -, -, -, -, h⟩ := C85_permutation (w := t.bits) cdf n (by
      have h1 := hmin (Or.inl (by decide))
      calc 2 ^ 13 = 1024 * 8 := by norm_num
        _ ≤ _ := Nat.mul_le_mul h1 hb8) hov
    refine drop_cond cdf _ _ (single cdf _ (by decide) (by decide) (toString k) (List.range (2 ^ k))
        (fun _ => ((n.toNat * t.bits / k : ℕ) : ℝ) / 2 ^ k) 0 le_rfl _ fun s => ?_)
    obtain ⟨st, h1, h2, -⟩ := h s
    refine ⟨fun v => ((min 255 (((chunks k (bitsOf (s.take n.toNat))).map ofBits).count v) : ℕ) : ℝ), ?_⟩
    rw [h2]; exact congrArg some h1
  | binaryRank =>
    cases hf
    obtain ⟨j, -, -, -, h⟩ := C86_binary_rank (w := t.bits) cdf hb8 hb64 n (hmin (Or.inr (by decide))) hov
    let e : Nat → ℝ := fun i => rankShare (2 ^ j) (2 ^ j - i) * (n.toNat * t.bits / (2 ^ j * 2 ^ j) : ℕ)
    refine ⟨[(toString (2 ^ j), (pearson cdf ((List.range (2 ^ j + 1)).map fun i => ((0 : ℝ), e i)) 5).map fun st => (st.type, st.df)),
      (toString (2 ^ j) ++ ":bit(0)", (pearson cdf ((List.range (2 ^ j + 1)).map fun i => ((0 : ℝ), e i)) 5).map fun st => (st.type, st.df))],
      fun s => ?_⟩
    · obtain ⟨st₁, st₂, h1, h2, h3⟩ := h s
      refine ⟨_, congrArg some h1, ?_, fun _ => ?_⟩
      rotate_left
      · rw [List.map_cons, List.map_singleton]
        unfold rankCells at h2 h3
        rw [shape_some cdf _ _ _ 5 st₁ _ h2, shape_some cdf _ _ _ 5 st₂ _ h3]
      · refine wf_pearson cdf _ (by decide) (by decide) _ ?_ ?_
        · simp only [List.map_cons, List.map_nil, List.nodup_cons, List.mem_singleton, List.not_mem_nil, not_false_eq_true,
            List.nodup_nil, and_true]
          intro h
          have := congrArg (fun s => s.toList.length) h
          simp only [String.toList_append, List.length_append] at this
          have h9 : (":bit(0)".toList).length = 7 := by decide
          omega
        · intro x hx st' hst
          rcases List.mem_cons.1 hx with rfl | hx
          · cases hst; exact ⟨_, 5, by norm_num, h2⟩
          · rw [List.mem_singleton] at hx
            subst hx
            cases hst; exact ⟨_, 5, by norm_num, h3⟩
  | linearComplexity =>
    cases hf
    by_cases h8 : n.toNat < 8192
    · exact ⟨[], fun s => ⟨[], congrArg some ((C87_linear_complexity cdf (by omega) n s).1 h8), wf_nil _ _, fun _ => rfl⟩⟩
    · refine drop_cond cdf _ _ (single cdf _ (by decide) (by decide) (toString (n.toNat / 1024) ++ ":bit(0)")
        (List.range (n.toNat / 1024 + 1)) (fun l => complexityShare (n.toNat / 1024) l * (n.toNat / (n.toNat / 1024) : ℕ)) 5
        (by norm_num) _ fun s => ?_)
      obtain ⟨st, h1, h2⟩ := (C87_linear_complexity cdf (by omega) n s).2 (by omega)
      unfold complexityCells at h2
      exact ⟨_, (congrArg some h1).trans (by rw [← h2])⟩

/-- C89. For every word size, every `n ≥ 1` with `n·w < 2^64` and every stream each stream test of the catalogue, with its sample
budget, returns normally - no undefined behaviour, no endless loop - with a well-formed report.  But for the runs test the
shape of the report - the names, which sub tests have a statistic, its type and degrees of freedom - depends on the test, the
word size and `n` only, not on the stream. -/
theorem C89_stream_tests (cdf : ℝ → ℝ → ℝ) (t : WT) (type : TestType) (n : BitVec 64) (hn : n ≠ 0#64) (hov : n.toNat * t.bits < 2 ^ 64)
    (f : BitVec 64 → Stream (BitVec t.bits) → TestRun) (hf : suiteStream cdf type = some f) :
    ∃ L : List (String × Option (StatType × ℝ)), ∀ s, ∃ res, f n s = some (.ok res) ∧ WellFormedReport cdf type res ∧
      (type ≠ .runs → res.map shape = L) := by
  unfold suiteStream at hf
  obtain ⟨g, hg, rfl⟩ := Option.map_eq_some_iff.1 hf
  dsimp only
  cases hm : (getTestDefinition type).limiter.limit n with
  | none => exact ⟨[], fun s => ⟨[], rfl, wf_nil _ _, fun _ => rfl⟩⟩
  | some m =>
    obtain ⟨h1, h2, -, h4⟩ := limit_some type n m hm
    exact raw_report cdf t type m (h4 hn) (lt_of_le_of_lt (Nat.mul_le_mul_right _ h1) hov) h2 g hg

/-- C89. The same for the mixer tests, for every mixer and every source. -/
theorem C89_mixer_tests (cdf : ℝ → ℝ → ℝ) (t : WT) (type : TestType) (n : BitVec 64) (hn : n ≠ 0#64) (hov : n.toNat * t.bits < 2 ^ 64)
    (f : BitVec 64 → Stream (BitVec t.bits) → Mixer t.bits → TestRun) (hf : suiteMixer cdf type = some f) :
    ∃ L : List (String × Option (StatType × ℝ)), ∀ s mix, ∃ res, f n s mix = some (.ok res) ∧ WellFormedReport cdf type res ∧
      res.map shape = L := by
  have hb8 : 8 ≤ t.bits := by cases t <;> simp [WT.bits]
  have hb64 : t.bits ≤ 64 := by cases t <;> simp [WT.bits]
  unfold suiteMixer at hf
  obtain ⟨g, hg, rfl⟩ := Option.map_eq_some_iff.1 hf
  dsimp only
  cases hm : (getTestDefinition type).limiter.limit n with
  | none => exact ⟨[], fun s mix => ⟨[], rfl, wf_nil _ _, rfl⟩⟩
  | some m =>
    obtain ⟨h1, h2, -, h4⟩ := limit_some type n m hm
    have hov' : m.toNat * t.bits < 2 ^ 64 := lt_of_le_of_lt (Nat.mul_le_mul_right _ h1) hov
    cases type <;> cases hg
    · obtain ⟨L, h⟩ := single (S := Stream (BitVec t.bits) × Mixer t.bits) cdf .sac (by decide) (by decide) "" _ _ 5 (by norm_num)
        (fun p => some (sacTest cdf m p.1 p.2)) fun p => ⟨_, congrArg some (C88_sac hb64 cdf m hov' p.1 p.2)⟩
      exact ⟨L, fun s mix => h (s, mix)⟩
    · refine ⟨[("", some (.chi2, (t.bits : ℝ) ^ 2 - 1))], fun s mix => ?_⟩
      obtain ⟨stat, e1, -, e2⟩ := C88_bic hb64 (by omega) cdf m s mix
      obtain ⟨st, rfl, e3, e4, e5, e6⟩ := e2 (h4 hn)
      refine ⟨_, congrArg some e1, ⟨by simp, ?_⟩, ?_⟩
      · intro x hx st' hst
        rw [List.mem_singleton] at hx
        subst hx
        cases hst
        rw [if_neg (by decide)]
        refine ⟨?_, e3, ?_, e5⟩
        · rw [e4]
          have : (8 : ℝ) ≤ t.bits := by exact_mod_cast hb8
          nlinarith
        · rw [e6]
          refine Finset.sum_nonneg fun _ _ => Finset.sum_nonneg fun _ _ => ?_
          positivity
      · rw [List.map_singleton, shape, Option.map_some, e3, e4]

/-- C89. Every test of the catalogue is a stream test or a mixer test, never both. -/
theorem C89_kind (cdf : ℝ → ℝ → ℝ) (type : TestType) :
    ((suiteStream (w := w) cdf type).isSome = (getTestDefinition type).hasStream) ∧
    ((suiteMixer (w := w) cdf type).isSome = (getTestDefinition type).hasMixer) ∧
    ((getTestDefinition type).hasMixer = !(getTestDefinition type).hasStream) ∧ (getTestDefinition type).type = type := by
  cases type <;> exact ⟨rfl, rfl, by decide, by decide⟩

/-- The results filed under `key` for one report. -/
private theorem filter_key (a b : String) (n : BitVec 64) (type : TestType) (res : List (SubTest ℝ)) (key : TestKey) (hk : key.type = type)
    (h : (res.map SubTest.name).Nodup) :
    ((res.filterMap fun sub => sub.stats.map fun stat => (⟨a, b, n, ⟨type, sub.name⟩, stat⟩ : TestResult ℝ)).filter
        fun r => r.key = key) =
      ((res.find? fun sub => sub.name = key.sub).bind SubTest.stats).toList.map
        fun stat => (⟨a, b, n, key, stat⟩ : TestResult ℝ) := by
  obtain ⟨kt, ks⟩ := key
  dsimp only at hk
  subst hk
  induction res with
  | nil => rfl
  | cons x res ih =>
    rw [List.map_cons, List.nodup_cons] at h
    have ih := ih h.2
    by_cases hx : x.name = ks
    · have hnone : res.find? (fun sub => sub.name = ks) = none := by
        rw [List.find?_eq_none]
        intro y hy hyk
        apply h.1
        rw [hx, ← of_decide_eq_true hyk]
        exact List.mem_map_of_mem hy
      rw [hnone] at ih
      rw [List.find?_cons, decide_eq_true hx, List.filterMap_cons]
      cases hs : x.stats with
      | none => simpa [hs] using ih
      | some st => simp [hx, hs] at ih ⊢; exact ih
    · rw [List.find?_cons, decide_eq_false hx, List.filterMap_cons]
      cases hs : x.stats with
      | none => simpa [hs] using ih
      | some st => simp [hx] at ih ⊢; exact ih

private theorem find_shape (res : List (SubTest ℝ)) (k : String) :
    ((res.find? fun sub => sub.name = k).bind SubTest.stats).map (fun st => (st.type, st.df)) =
      ((res.map shape).find? fun p => p.1 = k).bind Prod.snd := by
  rw [List.find?_map]
  cases h : res.find? (fun sub => sub.name = k) with
  | none =>
    have : res.find? ((fun p : String × Option (StatType × ℝ) => decide (p.1 = k)) ∘ shape) = none := h
    rw [this]; rfl
  | some x =>
    have : res.find? ((fun p : String × Option (StatType × ℝ) => decide (p.1 = k)) ∘ shape) = some x := h
    rw [this]; rfl

/-- What one source contributes to a key. -/
private theorem one_source (cdf : ℝ → ℝ → ℝ) (t : WT) (n : BitVec 64) (hn : n ≠ 0#64) (hov : n.toNat * t.bits < 2 ^ 64)
    (setup : TestSetup t.bits) (key : TestKey) :
    ∃ c : Option (StatType × ℝ), ∀ s : Stream (BitVec t.bits), ∃ (a : String) (g : Option (Statistic ℝ)),
      (expectedResults (suiteDef cdf) n { setup with tests := [key.type], sources := [s] }).filter (fun r => r.key = key) =
          g.toList.map (fun stat => (⟨a, setup.subject, n, key, stat⟩ : TestResult ℝ)) ∧
        (∀ st, g = some st → 1 ≤ st.df) ∧ (key.type ≠ .runs → g.map (fun st => (st.type, st.df)) = c) := by
  obtain ⟨k1, k2, k3, k4⟩ := C89_kind (w := t.bits) cdf key.type
  have hty : (suiteDef cdf key.type : TestDef t.bits ℝ).type = key.type := k4
  unfold expectedResults
  simp only [List.flatMap_cons, List.flatMap_nil, List.append_nil]
  rw [hty]
  cases hs : suiteStream (w := t.bits) cdf key.type with
  | none =>
    have hst : (suiteDef cdf key.type : TestDef t.bits ℝ).testStream = none := by unfold suiteDef; rw [hs]; rfl
    cases hm : suiteMixer (w := t.bits) cdf key.type with
    | none => rw [hs] at k1; rw [hm] at k2; rw [← k1, ← k2] at k3; cases k3
    | some f =>
      have hmt : (suiteDef cdf key.type : TestDef t.bits ℝ).testMixer = some (fun n s m => (f n s m).value) := by
        unfold suiteDef; rw [hm]; rfl
      rw [hst, hmt]
      cases hx : setup.mix with
      | none => exact ⟨none, fun s => ⟨"", none, rfl, by simp, fun _ => rfl⟩⟩
      | some m =>
        obtain ⟨L, h⟩ := C89_mixer_tests cdf t key.type n hn hov f hm
        refine ⟨(L.find? fun p => p.1 = key.sub).bind Prod.snd, fun s => ?_⟩
        obtain ⟨res, h1, h2, h3⟩ := h s m
        refine ⟨s.name, (res.find? fun sub => sub.name = key.sub).bind SubTest.stats, ?_, ?_, ?_⟩
        · dsimp only
          rw [h1, List.append_nil]
          exact filter_key _ _ _ _ res key rfl h2.names
        · intro st hst
          obtain ⟨x, hx, hxs⟩ := Option.bind_eq_some_iff.1 hst
          exact (h2.stats x (List.mem_of_find?_eq_some hx) st hxs).1
        · intro _
          rw [find_shape, h3]
  | some f =>
    have hst : (suiteDef cdf key.type : TestDef t.bits ℝ).testStream = some (fun n s => (f n s).value) := by unfold suiteDef; rw [hs]; rfl
    have hmt : (suiteDef cdf key.type : TestDef t.bits ℝ).testMixer = none := by
      cases hm : suiteMixer (w := t.bits) cdf key.type with
      | some f => rw [hs] at k1; rw [hm] at k2; rw [← k1, ← k2] at k3; cases k3
      | none => unfold suiteDef; rw [hm]; rfl
    rw [hst, hmt]
    obtain ⟨L, h⟩ := C89_stream_tests cdf t key.type n hn hov f hs
    refine ⟨(L.find? fun p => p.1 = key.sub).bind Prod.snd, fun s => ?_⟩
    have main : ∀ (s' : Stream (BitVec t.bits)), ∃ g : Option (Statistic ℝ),
        (((f n s').value.filterMap fun sub => sub.stats.map fun stat =>
            (⟨s'.name, setup.subject, n, ⟨key.type, sub.name⟩, stat⟩ : TestResult ℝ)).filter (fun r => r.key = key) =
          g.toList.map (fun stat => (⟨s'.name, setup.subject, n, key, stat⟩ : TestResult ℝ))) ∧
        (∀ st, g = some st → 1 ≤ st.df) ∧
        (key.type ≠ .runs → g.map (fun st => (st.type, st.df)) = (L.find? fun p => p.1 = key.sub).bind Prod.snd) := by
      intro s'
      obtain ⟨res, h1, h2, h3⟩ := h s'
      refine ⟨(res.find? fun sub => sub.name = key.sub).bind SubTest.stats, ?_, ?_, ?_⟩
      · rw [h1]
        exact filter_key _ _ _ _ res key rfl h2.names
      · intro st hst
        obtain ⟨x, hx, hxs⟩ := Option.bind_eq_some_iff.1 hst
        exact (h2.stats x (List.mem_of_find?_eq_some hx) st hxs).1
      · intro hr
        rw [find_shape, h3 hr]
    cases hx : setup.mix with
    | none =>
      obtain ⟨g, h⟩ := main s
      exact ⟨_, g, h⟩
    | some m =>
      obtain ⟨g, h⟩ := main (mixerStream s m)
      exact ⟨_, g, h⟩

private theorem flatMap_nodup {α β : Type} [DecidableEq α] (l : List α) (F : α → List β) (k : α) (h : ∀ a, a ≠ k → F a = []) (hn : l.Nodup) :
    l.flatMap F = if k ∈ l then F k else [] := by
  induction l with
  | nil => simp
  | cons a l ih =>
    rw [List.nodup_cons] at hn
    rw [List.flatMap_cons, ih hn.2]
    by_cases ha : a = k
    · subst ha; simp [hn.1]
    · rw [h a ha]; simp [Ne.symm ha]

private theorem expected_flat (defs : TestType → TestDef w ℝ) (n : BitVec 64) (setup : TestSetup w) :
    expectedResults defs n setup = setup.tests.flatMap fun tt => setup.sources.flatMap fun s =>
      expectedResults defs n { setup with tests := [tt], sources := [s] } := by
  unfold expectedResults
  simp only [List.flatMap_cons, List.flatMap_nil, List.append_nil]

private theorem expected_type (defs : TestType → TestDef w ℝ) (n : BitVec 64) (setup : TestSetup w) (tt : TestType) (s : Stream (BitVec w))
    (r : TestResult ℝ) (hr : r ∈ expectedResults defs n { setup with tests := [tt], sources := [s] }) : r.key.type = (defs tt).type := by
  unfold expectedResults at hr
  simp only [List.flatMap_cons, List.flatMap_nil, List.append_nil, List.mem_append] at hr
  rcases hr with hr | hr
  · split at hr
    · obtain ⟨x, -, hx⟩ := List.mem_filterMap.1 hr
      obtain ⟨st, -, rfl⟩ := Option.map_eq_some_iff.1 hx
      rfl
    · exact absurd hr (by simp)
  · split at hr
    · obtain ⟨x, -, hx⟩ := List.mem_filterMap.1 hr
      obtain ⟨st, -, rfl⟩ := Option.map_eq_some_iff.1 hx
      rfl
    · obtain ⟨x, -, hx⟩ := List.mem_filterMap.1 hr
      obtain ⟨st, -, rfl⟩ := Option.map_eq_some_iff.1 hx
      rfl
    · exact absurd hr (by simp)

/-- C89. Evaluating any selection of different tests from the catalogue (`n ≥ 1`, `n·w < 2^64`, at least one thread, any schedule):
under every key there is at most one result per source, each with at least one degree of freedom.  For every test but the runs
test a key has no result at all or exactly one per source, all of the same type with the same degrees of freedom: this is what
the analysis of the p-values of a key needs. -/
theorem C89_battery (cdf : ℝ → ℝ → ℝ) (t : WT) (n : BitVec 64) (hn : n ≠ 0#64) (hov : n.toNat * t.bits < 2 ^ 64)
    (setup : TestSetup t.bits) (hth : 0 < setup.maxThreads) (hnd : setup.tests.Nodup) (b : Battery ℝ)
    (hb : EvaluateOutcome (suiteDef cdf) n setup b) (key : TestKey) :
    (b.get key).length ≤ setup.sources.length ∧
    (∀ r ∈ b.get key, r.key = key ∧ key.type ∈ setup.tests ∧ r.n = n ∧ 1 ≤ r.stats.df) ∧
    (key.type ≠ .runs → (b.get key = [] ∨ (b.get key).length = setup.sources.length) ∧
      ∀ r ∈ b.get key, ∀ r' ∈ b.get key, r.stats.type = r'.stats.type ∧ r.stats.df = r'.stats.df) := by
  obtain ⟨-, -, -, -, hp⟩ := C35_schedule_independent _ n setup hth b hb
  have hp := hp key
  obtain ⟨c, hc⟩ := one_source cdf t n hn hov setup key
  choose a g h1 h2 h3 using hc
  have hF : (expectedResults (suiteDef cdf) n setup).filter (fun r => r.key = key) =
      if key.type ∈ setup.tests then setup.sources.flatMap fun s =>
        (g s).toList.map (fun stat => (⟨a s, setup.subject, n, key, stat⟩ : TestResult ℝ)) else [] := by
    rw [expected_flat, List.filter_flatMap]
    rw [flatMap_nodup setup.tests _ key.type ?_ hnd]
    · rw [List.filter_flatMap]
      simp only [h1]
    · intro tt htt
      rw [List.filter_eq_nil_iff]
      intro r hr hk
      obtain ⟨s, -, hr⟩ := List.mem_flatMap.1 hr
      have h5 := expected_type _ n setup tt s r hr
      have h6 : (suiteDef cdf tt : TestDef t.bits ℝ).type = tt := (C89_kind (w := t.bits) cdf tt).2.2.2
      rw [h6, of_decide_eq_true hk] at h5
      exact htt h5.symm
  rw [hF] at hp
  by_cases hin : key.type ∈ setup.tests
  · rw [if_pos hin] at hp
    have hlen : ∀ l : List (Stream (BitVec t.bits)), (l.flatMap fun s =>
        (g s).toList.map (fun stat => (⟨a s, setup.subject, n, key, stat⟩ : TestResult ℝ))).length ≤ l.length := by
      intro l
      induction l with
      | nil => simp
      | cons s l ih =>
        rw [List.flatMap_cons, List.length_append, List.length_cons, List.length_map]
        have : (g s).toList.length ≤ 1 := by cases g s <;> simp
        omega
    have hmem : ∀ r ∈ b.get key, ∃ s stat, g s = some stat ∧ r = ⟨a s, setup.subject, n, key, stat⟩ := by
      intro r hr
      have hr := (hp.mem_iff).1 hr
      obtain ⟨s, -, hr⟩ := List.mem_flatMap.1 hr
      obtain ⟨stat, hs, rfl⟩ := List.mem_map.1 hr
      exact ⟨s, stat, by simpa using hs, rfl⟩
    refine ⟨by rw [hp.length_eq]; exact hlen _, ?_, fun hr => ⟨?_, ?_⟩⟩
    · intro r hr
      obtain ⟨s, stat, hg, rfl⟩ := hmem r hr
      exact ⟨rfl, hin, rfl, h2 s stat hg⟩
    · cases c with
      | none =>
        left
        rw [List.eq_nil_iff_forall_not_mem]
        intro r hr'
        obtain ⟨s, stat, hg, rfl⟩ := hmem r hr'
        have := h3 s hr
        rw [hg] at this
        cases this
      | some c =>
        right
        rw [hp.length_eq]
        have : ∀ l : List (Stream (BitVec t.bits)), (l.flatMap fun s =>
            (g s).toList.map (fun stat => (⟨a s, setup.subject, n, key, stat⟩ : TestResult ℝ))).length = l.length := by
          intro l
          induction l with
          | nil => simp
          | cons s l ih =>
            rw [List.flatMap_cons, List.length_append, List.length_cons, List.length_map, ih]
            obtain ⟨stat, hg, -⟩ := Option.map_eq_some_iff.1 (h3 s hr)
            rw [hg]
            simp; omega
        exact this _
    · intro r hr1 r' hr2
      obtain ⟨s, stat, hg, rfl⟩ := hmem r hr1
      obtain ⟨s', stat', hg', rfl⟩ := hmem r' hr2
      have e := (h3 s hr).trans (h3 s' hr).symm
      rw [hg, hg'] at e
      simp only [Option.map_some, Option.some.injEq, Prod.mk.injEq] at e
      exact e
  · rw [if_neg hin] at hp
    have : b.get key = [] := hp.eq_nil
    rw [this]
    simp

/-- C89. A sub test (but of the runs test) that gives a statistic for one stream, any stream, is in every battery that includes its test,
once for every source. -/
theorem C89_complete (cdf : ℝ → ℝ → ℝ) (t : WT) (n : BitVec 64) (hn : n ≠ 0#64) (hov : n.toNat * t.bits < 2 ^ 64)
    (setup : TestSetup t.bits) (hth : 0 < setup.maxThreads) (hnd : setup.tests.Nodup) (b : Battery ℝ)
    (hb : EvaluateOutcome (suiteDef cdf) n setup b) (key : TestKey) (hkey : key.type ∈ setup.tests) (hr : key.type ≠ .runs)
    (f : BitVec 64 → Stream (BitVec t.bits) → TestRun) (hf : suiteStream cdf key.type = some f)
    (s : Stream (BitVec t.bits)) (res : List (SubTest ℝ)) (st : Statistic ℝ) (hres : f n s = some (.ok res))
    (hst : ⟨key.sub, some st⟩ ∈ res) : (b.get key).length = setup.sources.length := by
  obtain ⟨c1, -, c3⟩ := C89_battery cdf t n hn hov setup hth hnd b hb key
  cases hs : setup.sources with
  | nil => rw [hs] at c1; simpa using c1
  | cons s0 rest =>
    rw [← hs]
    rcases (c3 hr).1 with h | h
    swap
    · exact h
    exfalso
    obtain ⟨L, hL⟩ := C89_stream_tests cdf t key.type n hn hov f hf
    obtain ⟨r1, e1, -, l1⟩ := hL s
    rw [hres] at e1
    cases e1
    obtain ⟨r2, e2, -, l2⟩ := hL (createStream setup.mix s0)
    have hmem : shape ⟨key.sub, some st⟩ ∈ r2.map shape := by
      rw [l2 hr, ← l1 hr]; exact List.mem_map_of_mem hst
    obtain ⟨x, hx, hxs⟩ := List.mem_map.1 hmem
    have hn1 : x.name = key.sub := congrArg Prod.fst hxs
    obtain ⟨st', hst'⟩ : ∃ st', x.stats = some st' := by
      have := congrArg Prod.snd hxs
      dsimp only [shape] at this
      rw [Option.map_some] at this
      obtain ⟨st', h', -⟩ := Option.map_eq_some_iff.1 this
      exact ⟨st', h'⟩
    obtain ⟨-, -, -, -, hp⟩ := C35_schedule_independent _ n setup hth b hb
    have hp := hp key
    rw [h] at hp
    have hnil := hp.symm.eq_nil
    rw [List.filter_eq_nil_iff] at hnil
    refine hnil ⟨(createStream setup.mix s0).name, setup.subject, n, key, st'⟩ ?_ (by simp)
    unfold expectedResults
    rw [List.mem_flatMap]
    refine ⟨key.type, hkey, ?_⟩
    rw [List.mem_flatMap]
    refine ⟨s0, by rw [hs]; simp, ?_⟩
    rw [List.mem_append]
    right
    have hty : (suiteDef cdf key.type : TestDef t.bits ℝ).type = key.type := (C89_kind (w := t.bits) cdf key.type).2.2.2
    have hd : (suiteDef cdf key.type : TestDef t.bits ℝ).testStream = some (fun n s => (f n s).value) := by
      unfold suiteDef; rw [hf]; rfl
    rw [hd, hty]
    have hv : (f n (createStream setup.mix s0)).value = r2 := by rw [e2]; rfl
    cases hm : setup.mix with
    | none =>
      rw [hm] at hv
      refine List.mem_filterMap.2 ⟨x, ?_, ?_⟩
      · show x ∈ (f n s0).value
        rw [show (f n s0).value = r2 from hv]; exact hx
      · rw [hst', hn1]; rfl
    | some m =>
      rw [hm] at hv
      refine List.mem_filterMap.2 ⟨x, ?_, ?_⟩
      · show x ∈ (f n (mixerStream s0 m)).value
        rw [show (f n (mixerStream s0 m)).value = r2 from hv]; exact hx
      · rw [hst', hn1]; rfl

-- A battery of all twelve tests on two sources of bytes: the uniformity test has a result for each source.
example (cdf : ℝ → ℝ → ℝ) : ∃ (b : Battery ℝ), EvaluateOutcome (suiteDef cdf) 1024#64
    (⟨"subject", [counterStream 8 1 0, counterStream 8 3 5], defaultTestTypes, none, 4, 10, 11⟩ : TestSetup WT.u8.bits) b ∧
    (b.get ⟨.uniform, ""⟩).length = 2 := by
  obtain ⟨b, hb⟩ := C35_terminates (suiteDef cdf) 1024#64
    (⟨"subject", [counterStream 8 1 0, counterStream 8 3 5], defaultTestTypes, none, 4, 10, 11⟩ : TestSetup WT.u8.bits)
  obtain ⟨k, hk1, -, -, -, hu⟩ := C79_uniform cdf .u8 1024#64 (by decide)
  obtain ⟨st, hst, -⟩ := C79_range cdf 1024 (2 ^ k) (by norm_num) (by
    calc 2 = 2 ^ 1 := rfl
      _ ≤ _ := Nat.pow_le_pow_right (by norm_num) hk1) (counterStream WT.u8.bits 1 0).nth
  have hu := hu (counterStream WT.u8.bits 1 0)
  have h1024 : (1024#64).toNat = 1024 := by decide
  rw [h1024] at hu
  push_cast at hst hu
  rw [hst] at hu
  exact ⟨b, hb, C89_complete cdf .u8 1024#64 (by decide) (by decide) _ (by decide) (by decide) b hb ⟨.uniform, ""⟩ (by decide)
    (by decide) _ rfl _ _ st (congrArg some hu) (by simp)⟩

-- The hypotheses of the stream and mixer theorems hold for instance for the gap test and the avalanche test on 64-bit words.
example (cdf : ℝ → ℝ → ℝ) : (∃ f, suiteStream (w := WT.u64.bits) cdf .gap = some f) ∧ (∃ f, suiteMixer (w := WT.u64.bits) cdf .sac = some f) ∧
    (2 ^ 40 : BitVec 64) ≠ 0#64 ∧ (2 ^ 40 : BitVec 64).toNat * WT.u64.bits < 2 ^ 64 :=
  ⟨⟨_, rfl⟩, ⟨_, rfl⟩, by decide +kernel, by decide +kernel⟩

end TFR
