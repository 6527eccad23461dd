import Verif.Props.InspectCommand
import Verif.Props.PowerBic
import Verif.Props.PowerRuns
import Verif.Props.PowerEven
/-
C126. What the self-check of `-inspect-test` prints for the sources that every test should reject: the tests of the mean and of mixers.
-/
namespace TFR
open Finset Spec
variable {w : Nat}

/-- The test a line of the self-check is about. -/
def Spec.lineTest : InspectLine → String
  | .pass test => test
  | .fail test _ => test

/-- The batteries of the self-check: for every test, source and number of values `2^10, ..., 2^25` a possible outcome of `evaluate`, under any
schedule of the threads. -/
def Spec.SelfCheckRuns (t : WT) (hw : BitVec 32) (eval : TestRow → Stream (BitVec t.bits) → BitVec 64 → Battery ℝ) : Prop :=
  ∀ test s, ∀ k : Nat, 10 ≤ k → k ≤ 25 → EvaluateOutcome (suiteDef chi2DistributionCdf) (BitVec.ofNat 64 (2 ^ k))
    (inspectSetup (defaultMaxThreads hw) test s) (eval test s (BitVec.ofNat 64 (2 ^ k)))

/-- What the self-check prints about one test. -/
theorem lines_about (t : WT) (hw : BitVec 32) (analyse : Battery ℝ → List ResultAnalysis) (ha : Analyses analyse)
    (eval : TestRow → Stream (BitVec t.bits) → BitVec 64 → Battery ℝ) (h : SelfCheckRuns t hw eval) (sources : List (Stream (BitVec t.bits)))
    (lines : List InspectLine) (hl : inspectTests t analyse eval sources false = .ok lines) (test : TestRow) (htest : test ∈ getTests) :
    lines.filter (fun l => decide (lineTest l = test.name)) =
      shouldFailLines t (fun test s k => eval test s (BitVec.ofNat 64 (2 ^ k))) sources test := by
  classical
  have e := (C97_inspect chi2DistributionCdf t hw analyse ha eval h sources).1
  rw [hl] at e
  rw [Except.ok.inj e]
  have hname : ∀ (x : TestRow) (l : InspectLine),
      l ∈ shouldFailLines t (fun test s k => eval test s (BitVec.ofNat 64 (2 ^ k))) sources x → lineTest l = x.name := by
    intro x l hl
    unfold shouldFailLines at hl
    dsimp only at hl
    generalize List.filter _ _ = A at hl
    by_cases hc : A.length = 0 ∨ (x.type = .runs ∧ A.length = 4)
    · rw [if_pos hc] at hl
      rw [List.mem_singleton.1 hl]; rfl
    · rw [if_neg hc] at hl
      obtain ⟨s, -, rfl⟩ := List.mem_map.1 hl; rfl
  generalize shouldFailLines t (fun test s k => eval test s (BitVec.ofNat 64 (2 ^ k))) sources = f at hname
  have hnd : (getTests.map TestRow.name).Nodup := by decide
  have gen : ∀ l : List TestRow, (l.map TestRow.name).Nodup → test ∈ l →
      (l.flatMap f).filter (fun l => decide (lineTest l = test.name)) = f test := by
    intro l
    induction l with
    | nil => intro _ h; cases h
    | cons x l ih =>
      intro hn hm
      rw [List.map_cons, List.nodup_cons] at hn
      rw [List.flatMap_cons, List.filter_append]
      by_cases hx : x = test
      · subst hx
        have h1 : (f x).filter (fun l => decide (lineTest l = x.name)) = f x :=
          List.filter_eq_self.2 fun a ha => by simpa using hname x a ha
        have h2 : (l.flatMap f).filter (fun l => decide (lineTest l = x.name)) = [] := by
          rw [List.filter_eq_nil_iff]
          intro a ha
          obtain ⟨y, hy, hay⟩ := List.mem_flatMap.1 ha
          have := hname y a hay
          rw [this]
          simp only [decide_eq_true_eq]
          intro e
          exact hn.1 (e ▸ List.mem_map_of_mem hy)
        rw [h1, h2, List.append_nil]
      · have hm' : test ∈ l := by
          rcases List.mem_cons.1 hm with h | h
          · exact absurd h.symm hx
          · exact h
        have h1 : (f x).filter (fun l => decide (lineTest l = test.name)) = [] := by
          rw [List.filter_eq_nil_iff]
          intro a ha
          rw [hname x a ha]
          simp only [decide_eq_true_eq]
          intro e
          exact hn.1 (e ▸ List.mem_map_of_mem hm')
        rw [h1, List.nil_append, ih hn.2 hm']
  exact gen getTests hnd htest

/-- If no shown source is accepted, the only line about the test is `PASS`. -/
theorem pass_of_none (t : WT) (hw : BitVec 32) (analyse : Battery ℝ → List ResultAnalysis) (ha : Analyses analyse)
    (eval : TestRow → Stream (BitVec t.bits) → BitVec 64 → Battery ℝ) (h : SelfCheckRuns t hw eval) (sources : List (Stream (BitVec t.bits)))
    (lines : List InspectLine) (hl : inspectTests t analyse eval sources false = .ok lines) (test : TestRow) (htest : test ∈ getTests)
    (hno : ∀ s ∈ (if test.type = .mean then sources else createRrcSources t sources),
      ¬ Accepted fun k => eval test s (BitVec.ofNat 64 (2 ^ k))) :
    lines.filter (fun l => decide (lineTest l = test.name)) = [.pass test.name] := by
  rw [lines_about t hw analyse ha eval h sources lines hl test htest]
  unfold shouldFailLines
  dsimp only
  rw [if_pos]
  left
  rw [List.length_eq_zero_iff, List.filter_eq_nil_iff]
  intro s hs
  simpa using hno s hs

theorem not_accepted (battery : Nat → Battery ℝ) (k : Nat) (h1 : 10 ≤ k) (h2 : k ≤ 25) (h : ¬ BatteryPasses (battery k)) : ¬ Accepted battery :=
  fun ha => h (ha.1 k h1 h2)


theorem mem_keys (b : Battery ℝ) (hwf : WellFormed b) (k : TestKey) : k ∈ keys b ↔ b.get k ≠ [] := by
  constructor
  · intro hk
    obtain ⟨e, he, rfl⟩ := List.mem_map.1 hk
    have hget : b.get e.1 = e.2 := by
      unfold Battery.get
      rw [mapFind_of_mem b.results hwf.1 e he]; rfl
    rw [hget]; exact hwf.2 e he
  · intro hne
    by_contra hk
    apply hne
    unfold Battery.get
    have hnone : ∀ m : ResultMap ℝ, (∀ e ∈ m, e.1 ≠ k) → mapFind k m = none := by
      intro m
      induction m with
      | nil => intro _; rfl
      | cons e m ih =>
        intro hm
        rw [mapFind]
        split
        · exact ih fun x hx => hm x (List.mem_cons_of_mem _ hx)
        · split
          · rfl
          · rename_i h1 h2
            exact absurd (C38_strict_total_order.2.2 _ _ (by simpa using h1) (by simpa using h2)) (hm e List.mem_cons_self)
    rw [hnone b.results fun e he hek => hk (List.mem_map.2 ⟨e, he, hek⟩)]
    rfl

/-- Batteries of a test that has no result for this number of values are empty. -/
theorem keys_nil_of (hw : BitVec 32) (test : TestRow) (s : Stream (BitVec w)) (n : BitVec 64) (b : Battery ℝ)
    (hb : EvaluateOutcome (suiteDef chi2DistributionCdf) n (inspectSetup (defaultMaxThreads hw) test s) b)
    (h1 : ∀ f, suiteStream (w := w) chi2DistributionCdf test.type = some f → ∀ x ∈ (f n (mixerStream s ⟨"identity", fun x => x⟩)).value, x.stats = none)
    (h2 : ∀ f, suiteMixer (w := w) chi2DistributionCdf test.type = some f → ∀ x ∈ (f n s ⟨"identity", fun x => x⟩).value, x.stats = none) :
    keys b = [] := by
  rw [List.eq_nil_iff_forall_not_mem]
  intro key hkey
  obtain ⟨r, hr⟩ := List.exists_mem_of_ne_nil _ ((mem_keys b (evaluate_wf _ _ _ _ hb) key).1 hkey)
  obtain ⟨-, ⟨f, hf, hm⟩ | ⟨f, hf, hm⟩⟩ := (C97_battery chi2DistributionCdf hw test s n b hb key r.stats).2.1 ⟨r, hr, rfl⟩
  · have := h1 f hf _ hm; cases this
  · have := h2 f hf _ hm; cases this

/-! ### The mean -/

/-- C126. With more than `2^20` values the mean test has no result.  So no source is accepted by it and the self-check prints `PASS`, whatever
the sources: this check can not find anything. -/
theorem C126_mean (t : WT) (hw : BitVec 32) (analyse : Battery ℝ → List ResultAnalysis) (ha : Analyses analyse)
    (eval : TestRow → Stream (BitVec t.bits) → BitVec 64 → Battery ℝ) (h : SelfCheckRuns t hw eval) (sources : List (Stream (BitVec t.bits)))
    (lines : List InspectLine) (hl : inspectTests t analyse eval sources false = .ok lines) :
    lines.filter (fun l => decide (lineTest l = "mean")) = [.pass "mean"] := by
  refine pass_of_none t hw analyse ha eval h sources lines hl ⟨.mean, true, false, .to (2 ^ 20), "mean"⟩ (by decide) fun s _ hacc => hacc.2 ?_
  refine keys_nil_of hw _ s _ _ (h _ s 25 (by norm_num) le_rfl) ?_ ?_
  · intro f hf x hx
    have : (f (BitVec.ofNat 64 (2 ^ 25)) (mixerStream s ⟨"identity", fun x => x⟩)).value = [] := by
      obtain rfl := Option.some.inj hf
      rfl
    rw [this] at hx; cases hx
  · intro f hf; cases hf

/-! ### The tests of mixers -/

theorem slow_budget (k : Nat) (hk : k < 64) (m : Nat) (hm : 1024 ≤ m) (h : m ^ 7 ≤ 2 ^ (5 * k)) :
    ∃ n', limitNSlow (BitVec.ofNat 64 (2 ^ k)) = some n' ∧ m ≤ n'.toNat ∧ n'.toNat ≤ 2 ^ k := by
  have hnat : (BitVec.ofNat 64 (2 ^ k)).toNat = 2 ^ k := by
    rw [BitVec.toNat_ofNat, Nat.mod_eq_of_lt (Nat.pow_lt_pow_right (by norm_num) hk)]
  have hpow : (m : ℝ) ≤ ((2 ^ k : ℕ) : ℝ) ^ expSlow := by
    have h1 : ((2 : ℝ) ^ k) ^ (5 / 7 : ℝ) ≤ ((2 ^ k : ℕ) : ℝ) ^ expSlow := by
      push_cast
      apply Real.rpow_le_rpow_of_exponent_le (one_le_pow₀ (by norm_num))
      unfold expSlow; norm_num
    refine le_trans ?_ h1
    have h2 : ((m : ℝ) ^ 7) ≤ (2 : ℝ) ^ (5 * k) := by exact_mod_cast h
    have h3 : (((2 : ℝ) ^ k) ^ (5 / 7 : ℝ)) ^ 7 = 2 ^ (5 * k) := by
      rw [← Real.rpow_natCast, ← Real.rpow_mul (by positivity), ← Real.rpow_natCast, ← Real.rpow_natCast,
        ← Real.rpow_mul (by norm_num)]
      congr 1
      push_cast; ring
    rw [← h3] at h2
    exact le_of_pow_le_pow_left₀ (by norm_num) (by positivity) h2
  have hc := C40_catalogue .sac (BitVec.ofNat 64 (2 ^ k))
  have hfl : m ≤ ⌊((2 ^ k : ℕ) : ℝ) ^ expSlow⌋₊ := Nat.le_floor hpow
  have hb : Spec.budget .sac (BitVec.ofNat 64 (2 ^ k)).toNat = some ⌊((2 ^ k : ℕ) : ℝ) ^ expSlow⌋₊ := by
    rw [hnat]
    show (if 1024 ≤ ⌊((2 ^ k : ℕ) : ℝ) ^ expSlow⌋₊ then some ⌊((2 ^ k : ℕ) : ℝ) ^ expSlow⌋₊ else none) = _
    rw [if_pos (hm.trans hfl)]
  have hl := hc.1.trans hb
  obtain ⟨n', h4, h5⟩ := Option.map_eq_some_iff.1 hl
  refine ⟨n', h4, by rw [h5]; exact hfl, ?_⟩
  have := hc.2 _ hb
  rw [h5]; exact this.trans hnat.le

/-- Every change of one input bit changes exactly one output bit. -/
def Spec.NoAvalanche (m : BitVec w → BitVec w) : Prop := ∀ x, ∀ j < w, flipDistance m x j = 1

private theorem two_le_length {α : Type} (l : List α) (a b : α) (ha : a ∈ l) (hb : b ∈ l) (hab : a ≠ b) : 2 ≤ l.length := by
  match l, ha, hb with
  | [x], ha, hb => rw [List.mem_singleton] at ha hb; exact absurd (ha.trans hb.symm) hab
  | _ :: _ :: _, _, _ => simp

/-- C126. The strict avalanche test rejects, from 1024 values on and whatever the source, every mixer that changes exactly one output bit
when one input bit is changed, such as the identity. -/
theorem C126_sac_test (t : WT) (n : BitVec 64) (hn : 1024 ≤ n.toNat) (hmax : n.toNat * t.bits < 2 ^ 64) (s : Stream (BitVec t.bits))
    (m : Mixer t.bits) (hm : NoAvalanche m.mix) :
    ∃ st, sacTest chi2DistributionCdf n s m = .ok [⟨"", some st⟩] ∧ st.pValue ≤ 1 / 10 ^ 9 ∧ statPass st = false := by
  classical
  have hw64 : t.bits ≤ 64 := by cases t <;> decide
  have hsac := C88_sac hw64 chi2DistributionCdf n hmax s m
  set N : ℝ := (n.toNat : ℝ) * t.bits with hN
  have hN8 : (8192 : ℝ) ≤ N := by
    have h1 : (1024 : ℝ) ≤ n.toNat := by exact_mod_cast hn
    have h2 : (8 : ℝ) ≤ t.bits := by
      have : 8 ≤ t.bits := by cases t <;> decide
      exact_mod_cast this
    rw [hN]; nlinarith
  have hhits : ∀ d, flipHits m.mix s.nth n.toNat d = if d = 1 then n.toNat * t.bits else 0 := by
    intro d
    unfold flipHits
    have hall : ∀ p ∈ List.range n.toNat ×ˢ List.range t.bits, flipDistance m.mix (m.mix (s.nth p.1)) p.2 = 1 := by
      intro p hp
      exact hm _ _ (List.mem_range.1 (List.mem_product.1 hp).2)
    by_cases hd : d = 1
    · rw [if_pos hd, List.countP_eq_length.2 fun p hp => by simpa [hd] using hall p hp, List.length_product, List.length_range,
        List.length_range]
    · rw [if_neg hd, List.countP_eq_zero]
      intro p hp
      rw [hall p hp]
      simpa using fun h => hd h.symm
  set cells : List (ℝ × ℝ) := (List.range (t.bits + 1)).map fun d =>
      ((flipHits m.mix s.nth n.toNat d : ℝ), N * ((t.bits.choose d : ℝ) / 2 ^ t.bits)) with hcells
  have hmem : ∀ d, d ≤ t.bits → (5 : ℝ) < N * ((t.bits.choose d : ℝ) / 2 ^ t.bits) →
      ((flipHits m.mix s.nth n.toNat d : ℝ), N * ((t.bits.choose d : ℝ) / 2 ^ t.bits)) ∈ usedCells 5 cells := by
    intro d hd h5
    unfold usedCells
    rw [List.mem_filter]
    exact ⟨List.mem_map.2 ⟨d, List.mem_range.2 (by omega), rfl⟩, by simpa using h5⟩
  have hlen : 2 ≤ (usedCells 5 cells).length := by
    obtain ⟨a, b, ha, hb, hca, hcb, hne⟩ : ∃ a b, a ≤ t.bits ∧ b ≤ t.bits ∧ (1 : ℝ) / 20 ≤ (t.bits.choose a : ℝ) / 2 ^ t.bits ∧
        (1 : ℝ) / 20 ≤ (t.bits.choose b : ℝ) / 2 ^ t.bits ∧ t.bits.choose a < t.bits.choose b := by
      cases t
      · exact ⟨3, 4, by decide, by decide, by norm_num [WT.bits, Nat.choose], by norm_num [WT.bits, Nat.choose], by decide⟩
      · exact ⟨7, 8, by decide, by decide, by norm_num [WT.bits, Nat.choose], by norm_num [WT.bits, Nat.choose], by decide +kernel⟩
      · have e1 : (32 : ℕ).choose 15 = 565722720 := by decide +kernel
        have e2 : (32 : ℕ).choose 16 = 601080390 := by decide +kernel
        exact ⟨15, 16, by decide, by decide, by rw [show WT.u32.bits = 32 from rfl, e1]; norm_num,
          by rw [show WT.u32.bits = 32 from rfl, e2]; norm_num, by rw [show WT.u32.bits = 32 from rfl, e1, e2]; norm_num⟩
      · have e1 : (64 : ℕ).choose 31 = 1777090076065542336 := by rw [Nat.choose_eq_factorial_div_factorial (by norm_num)]; decide +kernel
        have e2 : (64 : ℕ).choose 32 = 1832624140942590534 := by rw [Nat.choose_eq_factorial_div_factorial (by norm_num)]; decide +kernel
        exact ⟨31, 32, by decide, by decide, by rw [show WT.u64.bits = 64 from rfl, e1]; norm_num,
          by rw [show WT.u64.bits = 64 from rfl, e2]; norm_num, by rw [show WT.u64.bits = 64 from rfl, e1, e2]; norm_num⟩
    refine two_le_length _ _ _ (hmem a ha (by nlinarith)) (hmem b hb (by nlinarith)) fun h => ?_
    have h2 := (Prod.mk.inj h).2
    have hp : (0 : ℝ) < 2 ^ t.bits := by positivity
    have h3 : (t.bits.choose a : ℝ) = t.bits.choose b := by
      have := mul_left_cancel₀ (by linarith : N ≠ 0) h2
      field_simp at this
      exact this
    have : t.bits.choose a = t.bits.choose b := by exact_mod_cast h3
    omega
  have hp : pearson chi2DistributionCdf cells 5 = some ⟨.chi2, chiSquare (usedCells 5 cells),
      chi2DistributionCdf (chiSquare (usedCells 5 cells)) ((usedCells 5 cells).length - 1), (usedCells 5 cells).length - 1⟩ := by
    unfold pearson
    rw [if_neg (by omega)]
  rw [hp] at hsac
  refine ⟨_, hsac, reject_of_value _ rfl rfl ?_ ?_⟩
  · show (1 : ℝ) ≤ ((usedCells 5 cells).length : ℝ) - 1
    have : (2 : ℝ) ≤ (usedCells 5 cells).length := by exact_mod_cast hlen
    linarith
  · show 7 / 5 * (((usedCells 5 cells).length : ℝ) - 1) + 84 ≤ chiSquare (usedCells 5 cells)
    have hl65 : ((usedCells 5 cells).length : ℝ) ≤ 65 := by
      have h1 : (usedCells 5 cells).length ≤ cells.length := List.length_filter_le _ _
      have h2 : cells.length = t.bits + 1 := by rw [hcells, List.length_map, List.length_range]
      have : (usedCells 5 cells).length ≤ 65 := by omega
      exact_mod_cast this
    -- every cell but the second contributes its expectation, or at most 5 is missing
    have hterm : ∀ l : List ℕ, ((l.map fun d => N * ((t.bits.choose d : ℝ) / 2 ^ t.bits) - 5 -
          if d = 1 then N * ((t.bits.choose d : ℝ) / 2 ^ t.bits) else 0).sum) ≤
        chiSquare (usedCells 5 (l.map fun d => ((flipHits m.mix s.nth n.toNat d : ℝ), N * ((t.bits.choose d : ℝ) / 2 ^ t.bits)))) := by
      intro l
      induction l with
      | nil => simp [usedCells, chiSquare]
      | cons d l ih =>
        rw [List.map_cons, List.map_cons, List.sum_cons]
        have hE : 0 ≤ N * ((t.bits.choose d : ℝ) / 2 ^ t.bits) := by positivity
        unfold usedCells at ih ⊢
        by_cases h5 : (5 : ℝ) < N * ((t.bits.choose d : ℝ) / 2 ^ t.bits)
        · rw [List.filter_cons_of_pos (by simpa using h5)]
          unfold chiSquare at ih ⊢
          rw [List.map_cons, List.sum_cons]
          refine add_le_add ?_ ih
          dsimp only
          generalize N * ((t.bits.choose d : ℝ) / 2 ^ t.bits) = E at h5
          rw [hhits d]
          by_cases hd : d = 1
          · rw [if_pos hd]
            have : 0 ≤ (((if d = 1 then n.toNat * t.bits else 0 : ℕ) : ℝ) - E) ^ 2 / E := by
              have : 0 < E := by linarith
              positivity
            linarith
          · rw [if_neg hd, if_neg hd]
            have : ((0 : ℕ) - E) ^ 2 / E = E := by
              have : E ≠ 0 := by intro h; rw [h] at h5; norm_num at h5
              push_cast
              field_simp
              ring
            rw [this]; linarith
        · rw [List.filter_cons_of_neg (by simpa using h5)]
          have : (0 : ℝ) ≤ if d = 1 then N * ((t.bits.choose d : ℝ) / 2 ^ t.bits) else 0 := by
            split <;> [exact hE; exact le_rfl]
          linarith
    have hsum := hterm (List.range (t.bits + 1))
    rw [← hcells] at hsum
    refine le_trans ?_ hsum
    have hconv : ∀ f : ℕ → ℝ, ((List.range (t.bits + 1)).map f).sum = ∑ d ∈ range (t.bits + 1), f d := by
      intro f
      generalize t.bits + 1 = k
      induction k with
      | zero => simp
      | succ k ih => rw [List.range_succ, List.map_append, List.sum_append, ih, sum_range_succ]; simp
    rw [hconv, sum_sub_distrib, sum_sub_distrib]
    have h1 : ∑ d ∈ range (t.bits + 1), N * ((t.bits.choose d : ℝ) / 2 ^ t.bits) = N := by
      rw [← mul_sum, ← sum_div]
      have : ∑ d ∈ range (t.bits + 1), (t.bits.choose d : ℝ) = 2 ^ t.bits := by exact_mod_cast Nat.sum_range_choose t.bits
      rw [this, div_self (by positivity), mul_one]
    have h2 : ∑ d ∈ range (t.bits + 1), (if d = 1 then N * ((t.bits.choose d : ℝ) / 2 ^ t.bits) else 0) ≤ N / 32 := by
      rw [sum_ite_eq' (range (t.bits + 1)) 1]
      rw [if_pos (mem_range.2 (by cases t <;> decide)), Nat.choose_one_right]
      have : (t.bits : ℝ) / 2 ^ t.bits ≤ 1 / 32 := by cases t <;> norm_num [WT.bits]
      nlinarith
    rw [h1, sum_const, card_range, nsmul_eq_mul]
    have h3 : ((t.bits + 1 : ℕ) : ℝ) ≤ 65 := by exact_mod_cast (by omega : t.bits + 1 ≤ 65)
    linarith

/-- The identity changes exactly one bit. -/
theorem identity_noAvalanche : NoAvalanche (fun x : BitVec w => x) := by
  intro x j hj
  unfold flipDistance
  have : ∀ k ∈ List.range w, ((x.getLsbD k != (x ^^^ BitVec.twoPow w j).getLsbD k) = true ↔ (decide (k = j)) = true) := by
    intro k hk
    rw [List.mem_range] at hk
    rw [BitVec.getLsbD_xor, BitVec.getLsbD_twoPow]
    by_cases h : k = j
    · subst h
      cases x.getLsbD k <;> simp [hk]
    · have : ¬ j = k := fun e => h e.symm
      cases x.getLsbD k <;> simp [h, this]
  rw [List.countP_congr this]
  have h2 := List.count_eq_one_of_mem (List.nodup_range (n := w)) (List.mem_range.2 hj)
  rw [List.count] at h2
  convert h2 using 2
  rfl

/-- C126. The self-check of the two tests of mixers prints `PASS` for all sources: both reject the identity, through which it sends them. -/
theorem C126_mixer_tests (t : WT) (hw : BitVec 32) (analyse : Battery ℝ → List ResultAnalysis) (ha : Analyses analyse)
    (eval : TestRow → Stream (BitVec t.bits) → BitVec 64 → Battery ℝ) (h : SelfCheckRuns t hw eval) (sources : List (Stream (BitVec t.bits)))
    (lines : List InspectLine) (hl : inspectTests t analyse eval sources false = .ok lines) :
    lines.filter (fun l => decide (lineTest l = "sac")) = [.pass "sac"] ∧
    lines.filter (fun l => decide (lineTest l = "bic")) = [.pass "bic"] := by
  have hth := defaultMaxThreads_pos hw
  have hw64 : t.bits ≤ 64 := by cases t <;> decide
  constructor
  · refine pass_of_none t hw analyse ha eval h sources lines hl ⟨.sac, false, true, .slow, "sac"⟩ (by decide) fun s _ =>
      not_accepted _ 25 (by norm_num) le_rfl ?_
    obtain ⟨n', h1, h2, h3⟩ := slow_budget 25 (by norm_num) 1024 le_rfl (by norm_num)
    obtain ⟨st, h4, h5, -⟩ := C126_sac_test t n' h2 (by
      calc n'.toNat * t.bits ≤ 2 ^ 25 * 64 := Nat.mul_le_mul h3 hw64
        _ < 2 ^ 64 := by norm_num) s ⟨"identity", fun x => x⟩ identity_noAvalanche
    refine mixer_rejects chi2DistributionCdf .sac _ (inspectSetup (defaultMaxThreads hw) ⟨.sac, false, true, .slow, "sac"⟩ s)
      (by show 0 < defaultMaxThreads hw; omega) _ (h _ s 25 (by norm_num) le_rfl) List.mem_cons_self s List.mem_cons_self _ rfl
      ⟨"identity", fun x => x⟩ rfl [⟨"", some st⟩] ?_ "" st List.mem_cons_self h5
    dsimp only
    rw [show (getTestDefinition .sac).limiter.limit (BitVec.ofNat 64 (2 ^ 25)) = some n' from h1]
    exact congrArg some h4
  · refine pass_of_none t hw analyse ha eval h sources lines hl ⟨.bic, false, true, .slower, "bic"⟩ (by decide) fun s _ =>
      not_accepted _ 25 (by norm_num) le_rfl ?_
    refine C110_battery t 25 (by norm_num) (by norm_num) (inspectSetup (defaultMaxThreads hw) ⟨.bic, false, true, .slower, "bic"⟩ s)
      (by show 0 < defaultMaxThreads hw; omega) _ (h _ s 25 (by norm_num) le_rfl) List.mem_cons_self (by simp [inspectSetup, defaultSetup])
      ⟨"identity", fun x => x⟩ rfl (range 6 ×ˢ {0}) (by simp) fun p hp => ?_
    obtain ⟨a, b⟩ := mem_product.1 hp
    have hw8 : 8 ≤ t.bits := by cases t <;> decide
    rw [mem_range] at a
    rw [mem_singleton] at b
    refine ⟨by omega, by omega, (BitVec.twoPow t.bits p.1).getLsbD p.2, fun x => ?_⟩
    show (x.getLsbD p.2 != (x ^^^ BitVec.twoPow t.bits p.1).getLsbD p.2) = _
    rw [BitVec.getLsbD_xor]
    generalize x.getLsbD p.2 = u
    generalize (BitVec.twoPow t.bits p.1).getLsbD p.2 = v
    cases u <;> cases v <;> rfl

-- Runs as in the hypotheses exist, and the self-check of them prints lines.
example (t : WT) (hw : BitVec 32) (analyse : Battery ℝ → List ResultAnalysis) (ha : Analyses analyse) (sources : List (Stream (BitVec t.bits))) :
    ∃ eval lines, SelfCheckRuns t hw eval ∧ inspectTests t analyse eval sources false = .ok lines := by
  choose f hf using fun (test : TestRow) (s : Stream (BitVec t.bits)) n =>
    C35_terminates (suiteDef chi2DistributionCdf) n (inspectSetup (defaultMaxThreads hw) test s)
  exact ⟨f, _, fun test s k _ _ => hf test s _, (C97_inspect chi2DistributionCdf t hw analyse ha f (fun test s k _ _ => hf test s _) sources).1⟩

end TFR
