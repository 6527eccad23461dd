import Verif.Props.PowerRank
import Verif.Props.PowerRuns
import Verif.Props.Prngs
/-
C119. A sample that is too even: the uniformity test rejects it.
-/
namespace TFR
open Finset Spec
variable {w : Nat}

namespace Spec
/-- Among the first `n` values every word occurs equally often. -/
def PerfectlyEven (v : Nat → BitVec w) (n : Nat) : Prop := ∃ c, ∀ y, occurrences v y 0 n = c
end Spec

theorem card_shift (k : Nat) (hk : k ≤ w) (j : Nat) (hj : j < 2 ^ k) :
    ((univ : Finset (BitVec w)).filter fun y => y.toNat >>> (w - k) = j).card = 2 ^ (w - k) := by
  have : ((univ : Finset (BitVec w)).filter fun y => y.toNat >>> (w - k) = j) =
      (range (2 ^ (w - k))).image fun i => BitVec.ofNat w (j * 2 ^ (w - k) + i) := by
    have hpow : 2 ^ k * 2 ^ (w - k) = 2 ^ w := by rw [← pow_add]; congr 1; omega
    ext y
    simp only [mem_filter, mem_univ, true_and, mem_image, mem_range, Nat.shiftRight_eq_div_pow]
    constructor
    · intro h
      refine ⟨y.toNat % 2 ^ (w - k), Nat.mod_lt _ (by positivity), ?_⟩
      rw [← h, Nat.div_add_mod']
      simp
    · rintro ⟨i, hi, rfl⟩
      have : j * 2 ^ (w - k) + i < 2 ^ w := by
        rw [← hpow]
        calc j * 2 ^ (w - k) + i < j * 2 ^ (w - k) + 2 ^ (w - k) := by omega
          _ = (j + 1) * 2 ^ (w - k) := by ring
          _ ≤ _ := Nat.mul_le_mul_right _ hj
      rw [BitVec.toNat_ofNat, Nat.mod_eq_of_lt this]
      rw [mul_comm, Nat.mul_add_div (by positivity), Nat.div_eq_of_lt hi, add_zero]
  rw [this, card_image_of_injOn, card_range]
  intro a ha b hb hab
  have hpow : 2 ^ k * 2 ^ (w - k) = 2 ^ w := by rw [← pow_add]; congr 1; omega
  have hlt : ∀ i < 2 ^ (w - k), j * 2 ^ (w - k) + i < 2 ^ w := by
    intro i hi
    rw [← hpow]
    calc j * 2 ^ (w - k) + i < j * 2 ^ (w - k) + 2 ^ (w - k) := by omega
      _ = (j + 1) * 2 ^ (w - k) := by ring
      _ ≤ _ := Nat.mul_le_mul_right _ hj
  have := congrArg BitVec.toNat hab
  simp only [BitVec.toNat_ofNat] at this
  rw [Nat.mod_eq_of_lt (hlt a (by simpa using ha)), Nat.mod_eq_of_lt (hlt b (by simpa using hb))] at this
  omega

/-- Each bin of a perfectly even sample has the same number of values. -/
theorem even_hits (v : Nat → BitVec w) (n c : Nat) (h : ∀ y, occurrences v y 0 n = c) (k : Nat) (hk : k ≤ w) (j : Nat) (hj : j < 2 ^ k)
    (hbin : ∀ x : BitVec w, Spec.bin (2 ^ k) x = x.toNat >>> (w - k)) : binHits v n (2 ^ k) j = c * 2 ^ (w - k) := by
  have h1 : binHits v n (2 ^ k) j = ((range n).filter fun i => (v i).toNat >>> (w - k) = j).card := by
    unfold binHits
    simp only [hbin]
    rw [List.countP_eq_length_filter, ← List.toFinset_card_of_nodup (List.nodup_range.filter _)]
    congr 1
    ext i; simp
  rw [h1, Finset.card_eq_sum_card_fiberwise (f := v) (t := (univ : Finset (BitVec w)).filter fun y => y.toNat >>> (w - k) = j)]
  · rw [sum_congr rfl (g := fun _ => c), sum_const, card_shift k hk j hj, smul_eq_mul, mul_comm]
    intro y hy
    rw [← h y]
    unfold occurrences
    congr 1
    ext i
    have hy' : y.toNat >>> (w - k) = j := (mem_filter.1 hy).2
    simp only [mem_filter, mem_range, zero_add]
    constructor
    · rintro ⟨⟨h1, -⟩, h2⟩; exact ⟨h1, h2⟩
    · rintro ⟨h1, h2⟩; exact ⟨⟨h1, by rw [h2]; exact hy'⟩, h2⟩
  · intro i hi
    simp only [coe_filter, mem_range, Set.mem_setOf_eq] at hi
    simp [hi.2]

theorem even_total (v : Nat → BitVec w) (n c : Nat) (h : ∀ y, occurrences v y 0 n = c) : n = c * 2 ^ w := by
  have h1 : (range n).card = ∑ y : BitVec w, ((range n).filter fun i => v i = y).card :=
    Finset.card_eq_sum_card_fiberwise (f := v) (fun i _ => by simp)
  rw [card_range, sum_congr rfl (g := fun _ => c)] at h1
  · rw [sum_const, card_univ, card_bv, smul_eq_mul, mul_comm] at h1
    exact h1
  · intro y _
    rw [← h y]
    unfold occurrences
    simp

/-- C119. If every word occurs equally often among the first `n` values, the statistic of the uniformity test is zero, the p-value is 1, and the
test counts as failed: the sample is too even. -/
theorem C119_uniform (t : WT) (n : BitVec 64) (hn : n ≠ 0#64) (hmax : n.toNat ≤ 2 ^ 45) (s : Stream (BitVec t.bits))
    (h : PerfectlyEven s.nth n.toNat) :
    ∃ st, uniformTest chi2DistributionCdf n s = .ok [⟨"", some st⟩] ∧ st.value = 0 ∧ st.pValue = 1 ∧ comparableP st = 0 ∧
      statPass st = false := by
  have hn0 : 0 < n.toNat := Nat.pos_of_ne_zero fun h => hn (BitVec.eq_of_toNat_eq (by simpa using h))
  have hn' : (0 : ℝ) < n.toNat := by exact_mod_cast hn0
  obtain ⟨c, hc⟩ := h
  have htot := even_total _ _ _ hc
  have ht : t ≠ .u64 := by
    rintro rfl
    rcases Nat.eq_zero_or_pos c with rfl | hc0
    · omega
    · have : 1 * 2 ^ 64 ≤ c * 2 ^ 64 := Nat.mul_le_mul_right _ hc0
      have h2 : n.toNat = c * 2 ^ 64 := htot
      norm_num at this hmax
      omega
  obtain ⟨k, hk1, hkt, hup, hlo, hu⟩ := C79_uniform chi2DistributionCdf t n hn
  have hk21 := bins_lt n hmax k hup
  have h2k : 2 ≤ 2 ^ k := by
    calc 2 = 2 ^ 1 := rfl
      _ ≤ _ := Nat.pow_le_pow_right (by norm_num) hk1
  have hbin : ∀ x : BitVec t.bits, Spec.bin (2 ^ k) x = x.toNat >>> (t.bits - k) := by
    intro x
    have h1 := C75_top_bits k hkt (by cases t <;> decide) (by
      have : t.bits ≤ 32 := by cases t <;> first | decide | exact absurd rfl ht
      omega) x
    rw [chi2BinIndex_eq _ (Nat.pow_le_pow_right (by norm_num) (by omega))] at h1
    exact Except.ok.inj h1
  have he : (0 : ℝ) < (n.toNat : ℝ) / 2 ^ k := by positivity
  have hhit : ∀ j < 2 ^ k, (binHits s.nth n.toNat (2 ^ k) j : ℝ) = (n.toNat : ℝ) / 2 ^ k := by
    intro j hj
    rw [even_hits _ _ c hc k hkt j hj hbin, eq_div_iff (by positivity)]
    have : n.toNat = c * 2 ^ (t.bits - k) * 2 ^ k := by
      rw [mul_assoc, ← pow_add, Nat.sub_add_cancel hkt]; exact htot
    rw [this]; push_cast; ring
  have hsum : ∑ j ∈ range (2 ^ k), ((binHits s.nth n.toNat (2 ^ k) j : ℝ) - (n.toNat : ℝ) / 2 ^ k) ^ 2 / ((n.toNat : ℝ) / 2 ^ k) = 0 := by
    refine sum_eq_zero fun j hj => ?_
    rw [hhit j (mem_range.1 hj)]; simp
  have hp : pearson chi2DistributionCdf ((List.range (2 ^ k)).map fun j => ((binHits s.nth n.toNat (2 ^ k) j : ℝ), (n.toNat : ℝ) / 2 ^ k)) 0 =
      some ⟨.chi2, 0, chi2DistributionCdf 0 (2 ^ k - 1), 2 ^ k - 1⟩ := by
    unfold pearson
    rw [used_all (2 ^ k) (fun j => (binHits s.nth n.toNat (2 ^ k) j : ℝ)) _ he,
      chiSquare_range (2 ^ k) (fun j => (binHits s.nth n.toNat (2 ^ k) j : ℝ)), hsum, if_neg (by simp; omega)]
    simp
  have hone : chi2DistributionCdf 0 (2 ^ k - 1) = 1 := by
    refine (C90_p_value 0 (2 ^ k - 1) le_rfl (one_le_df k hk1) ?_).2.2.1
    have : (2 : ℝ) ^ k ≤ 2 ^ 20 := pow_le_pow_right₀ (by norm_num) (by omega)
    norm_num at this ⊢
    linarith
  rw [hone] at hp
  have hcmp : comparableP ⟨.chi2, 0, 1, 2 ^ k - 1⟩ = 0 := by
    unfold comparableP
    simp
  refine ⟨_, by rw [hu s, hp], rfl, rfl, hcmp, ?_⟩
  rw [← Bool.not_eq_true, (C66_classes _ (by rw [hcmp]; norm_num)).1, hcmp]
  norm_num

theorem battery_even (t : WT) (k : Nat) (hk : k ≤ 45) (setup : TestSetup t.bits) (hth : 0 < setup.maxThreads) (b : Battery ℝ)
    (hb : EvaluateOutcome (suiteDef chi2DistributionCdf) (BitVec.ofNat 64 (2 ^ k)) setup b) (htest : TestType.uniform ∈ setup.tests)
    (s : Stream (BitVec t.bits)) (hs : s ∈ setup.sources) (h : PerfectlyEven (createStream setup.mix s).nth (2 ^ k)) :
    (⟨.uniform, ""⟩ : TestKey) ∈ keys b ∧ ∃ r ∈ b.get ⟨.uniform, ""⟩, comparableP r.stats ≤ 1 / 10 ^ 9 := by
  have hlt : 2 ^ k < 2 ^ 64 := Nat.pow_lt_pow_right (by norm_num) (by omega)
  have hnat : (BitVec.ofNat 64 (2 ^ k)).toNat = 2 ^ k := by
    rw [BitVec.toNat_ofNat, Nat.mod_eq_of_lt hlt]
  obtain ⟨st, hst, -, -, hp, -⟩ := C119_uniform t (BitVec.ofNat 64 (2 ^ k))
    (fun e => by
      have := congrArg BitVec.toNat e
      rw [hnat] at this
      have h2 : 0 < 2 ^ k := by positivity
      simp at this)
    (by rw [hnat]; exact Nat.pow_le_pow_right (by norm_num) hk) (createStream setup.mix s) (by rw [hnat]; exact h)
  exact battery_failing_c chi2DistributionCdf .uniform _ setup hth _ hb htest s hs _ rfl _
    (by show some (uniformTest chi2DistributionCdf (BitVec.ofNat 64 (2 ^ k)) (createStream setup.mix s)) = _; rw [hst]) "" st
    List.mem_cons_self (by rw [hp]; norm_num)

/-- Full periods are perfectly even. -/
theorem even_of_period (v : Nat → BitVec w) (h : ∀ y n, occurrences v y n (2 ^ w) = 1) (e : Nat) (hwe : w ≤ e) : PerfectlyEven v (2 ^ e) := by
  have hrep : ∀ m y, occurrences v y 0 (m * 2 ^ w) = m := by
    intro m y
    induction m with
    | zero => simp [occurrences]
    | succ m ih =>
      have hsplit : occurrences v y 0 ((m + 1) * 2 ^ w) = occurrences v y 0 (m * 2 ^ w) + occurrences v y (m * 2 ^ w) (2 ^ w) := by
        unfold occurrences
        rw [add_mul, one_mul, Finset.range_add_eq_union, Finset.filter_union, Finset.card_union_of_disjoint]
        · congr 1
          simp only [zero_add, Finset.filter_map, Finset.card_map]
          rfl
        · refine Finset.disjoint_filter_filter ?_
          rw [Finset.disjoint_left]
          intro a ha hb
          simp only [Finset.mem_map, mem_range, addLeftEmbedding_apply] at ha hb
          obtain ⟨b, -, rfl⟩ := hb
          omega
      rw [hsplit, ih, h]
  refine ⟨2 ^ (e - w), fun y => ?_⟩
  have := hrep (2 ^ (e - w)) y
  rwa [← pow_add, Nat.sub_add_cancel hwe] at this

/-- A bijective mixer of a counter goes through all words. -/
theorem mixed_even (t : WT) (f : BitVec t.bits → BitVec t.bits) (hf : Function.Bijective f) (e : Nat) (he : t.bits ≤ e) :
    PerfectlyEven (mixed t f .identity 0) (2 ^ e) := by
  refine even_of_period _ (weyl (mixed t f .identity 0) f 1#t.bits 0#t.bits (by cases t <;> decide) hf fun k => ?_).1 e he
  unfold mixed
  congr 1
  simp [permute, ror_zero]

/-- C119. A generator all of whose `2^w` words come once per `2^w` outputs fails every battery with `2^w` to `2^45` values, under every schedule:
`uniform` is among the failures.  This is so for the generators `rng32::mx1`, `rng32::mx2` and `rng32::mx3`. -/
theorem C119_full_period (t : WT) (k : Nat) (hkt : t.bits ≤ k) (hk : k ≤ 45) (setup : TestSetup t.bits) (hth : 0 < setup.maxThreads) (b : Battery ℝ)
    (hb : EvaluateOutcome (suiteDef chi2DistributionCdf) (BitVec.ofNat 64 (2 ^ k)) setup b) (htest : TestType.uniform ∈ setup.tests)
    (s : Stream (BitVec t.bits)) (hs : s ∈ setup.sources)
    (h : ∀ y n, occurrences (createStream setup.mix s).nth y n (2 ^ t.bits) = 1) :
    ¬ BatteryPasses b ∧ ∃ r ∈ b.get ⟨.uniform, ""⟩, comparableP r.stats ≤ 1 / 10 ^ 9 := by
  obtain ⟨h1, r, hr, hle⟩ := battery_even t k hk setup hth b hb htest s hs (even_of_period _ h k hkt)
  exact ⟨fun hp => absurd ((hp _ h1).1 r hr) (not_lt.2 hle), r, hr, hle⟩

/-- C119. The generators `rng32::mx1`, `rng32::mx2` and `rng32::mx3`, with any seed, fail the uniformity test with `2^32` to `2^45` values when
the number of values is a power of two. -/
theorem C119_generators (rng : SeedData → Stream (BitVec 32)) (h : rng ∈ [rng32_mx1, rng32_mx2, rng32_mx3]) (seed : SeedData)
    (k : Nat) (hk32 : 32 ≤ k) (hk : k ≤ 45) :
    ∃ st, uniformTest chi2DistributionCdf (BitVec.ofNat 64 (2 ^ k)) (rng seed) = .ok [⟨"", some st⟩] ∧ st.value = 0 ∧ st.pValue = 1 ∧
      statPass st = false := by
  have hlt : 2 ^ k < 2 ^ 64 := Nat.pow_lt_pow_right (by norm_num) (by omega)
  have hnat : (BitVec.ofNat 64 (2 ^ k)).toNat = 2 ^ k := by
    rw [BitVec.toNat_ofNat, Nat.mod_eq_of_lt hlt]
  obtain ⟨st, h1, h2, h3, -, h4⟩ := C119_uniform .u32 (BitVec.ofNat 64 (2 ^ k)) (fun e => by
      have := congrArg BitVec.toNat e
      rw [hnat] at this
      have h2 : 0 < 2 ^ k := by positivity
      simp at this) (by rw [hnat]; exact Nat.pow_le_pow_right (by norm_num) hk) (rng seed)
    (by rw [hnat]; exact even_of_period _ (C18_full_period_32 rng h seed).1 k hk32)
  exact ⟨st, h1, h2, h3, h4⟩

/-- C119. The report of `-test` for words of 8 or 16 bits, for any data files, further subjects and schedules: every bijective mixer has a line
that says that it failed, with at most `2^max(w, 10)` values; with 8-bit words the line says `2^10` values and names `uniform`. -/
theorem C119_report (analyse : Battery ℝ → List ResultAnalysis) (ha : Analyses analyse) (t : WT) (ht : t = .u8 ∨ t = .u16) (hw : BitVec 32)
    (s : Subjects t) (fuel : Nat) (hfuel : 2 ^ t.bits ≤ fuel) (h1 : s.trng ≠ some []) (h2 : s.drng ≠ some [])
    (setups : List (TestSetup t.bits)) (hs : testCommandSetups t (defaultMaxThreads hw) s fuel = some (.ok setups))
    (runs : List (EvalRun t.bits)) (hruns : runs.map Prod.fst = setups)
    (hout : ∀ run ∈ runs, ∀ k : Nat, 10 ≤ k → k ≤ 25 →
      EvaluateOutcome (suiteDef chi2DistributionCdf) (BitVec.ofNat 64 (2 ^ k)) run.1 (run.2 (BitVec.ofNat 64 (2 ^ k))))
    (config : Config) (fs : TextFiles) :
    ∃ (fs' : TextFiles) (rows : List ReportRow), testCommand false (config.testResultFilePath t) analyse runs fs = .ok fs' ∧
      fs' (config.testResultFilePath t) = some (reportIntro t.bits ++ String.join (rows.map ReportRow.text)) ∧
      ∀ m ∈ s.mixers, Function.Bijective m.mix →
        ∃ row ∈ rows, row.subject = m.name ∧ row.passed = false ∧ row.power ≤ max t.bits 10 ∧ row.failures ≠ [] ∧
          (t = .u8 → row.power = 10 ∧ "uniform" ∈ row.failures) := by
  obtain ⟨fs', rows, r1, r2, r3⟩ := report_lines analyse ha t hw s fuel hfuel h1 h2 setups hs runs hruns hout config fs
  have hth : 0 < defaultMaxThreads hw := lt_of_lt_of_le (by norm_num) (le_max_right _ 2)
  refine ⟨fs', rows, r1, r2, fun m hm hbij => ?_⟩
  obtain ⟨bat, hbat, row, hrow, htr⟩ := r3 _ (mixer_setup_mem t hw s fuel setups hs m hm)
  have hb16 : t.bits ≤ 16 := by rcases ht with rfl | rfl <;> decide
  have hfail : ∀ k, max t.bits 10 ≤ k → k ≤ 25 →
      (⟨.uniform, ""⟩ : TestKey) ∈ keys (bat k) ∧ ∃ r ∈ (bat k).get ⟨.uniform, ""⟩, comparableP r.stats ≤ 1 / 10 ^ 9 := by
    intro k hk hk25
    refine battery_even t k (by omega) _ (by exact hth) (bat k) (hbat k ((le_max_right _ _).trans hk) hk25)
      (show TestType.uniform ∈ defaultTestTypes by decide) _ (addRrc_mem t .identity 0 (by cases t <;> decide)) ?_
    have : (createStream (some m) (addRrc t (counterStream t.bits 1 0) 0 .identity)).nth = mixed t m.mix .identity 0 :=
      funext (mixed_nth t m .identity 0)
    show PerfectlyEven (createStream (some m) (addRrc t (counterStream t.bits 1 0) 0 .identity)).nth (2 ^ k)
    rw [this]
    exact mixed_even t m.mix hbij k ((le_max_left _ _).trans hk)
  have hK : max t.bits 10 ≤ 25 := by omega
  obtain ⟨hk, r, hr, hle⟩ := hfail (max t.bits 10) le_rfl hK
  obtain ⟨e1, e2, e3, e4⟩ := truthful_fails bat _ 10 _ (max t.bits 10) row htr (le_max_right _ _) hK
    (fun hp => absurd ((hp _ hk).1 r hr) (not_lt.2 hle))
  refine ⟨row, hrow, e1, e2, e3, e4, ?_⟩
  rintro rfl
  obtain ⟨-, -, f1, f2⟩ := truthful_names bat _ 10 _ row htr _ (hfail 10 (by decide) (by norm_num))
  exact ⟨f1, f2⟩

-- C119, non-vacuity: the 8-bit counter, 1024 times; the identity as a mixer for `-test`; a setup that evaluates `rng32::mx3` with `2^32` values.
example : PerfectlyEven (counterStream 8 1 0).nth (1024#64).toNat := by
  refine even_of_period (counterStream 8 1 0).nth (weyl _ id 1#8 0#8 (by decide) Function.bijective_id fun k => ?_).1 10 (by norm_num)
  rw [counter_val _ (by decide)]
  simp [add_comm]
example : ∃ (s : Subjects .u8) (m : Mixer 8), m ∈ s.mixers ∧ Function.Bijective m.mix ∧ s.trng ≠ some [] ∧ s.drng ≠ some [] :=
  ⟨⟨none, none, [⟨"identity", id⟩], [], []⟩, ⟨"identity", id⟩, List.mem_cons_self, Function.bijective_id, by simp, by simp⟩
example (seed : SeedData) : ∃ (setup : TestSetup 32) (b : Battery ℝ), rng32_mx3 seed ∈ setup.sources ∧ 0 < setup.maxThreads ∧
    TestType.uniform ∈ setup.tests ∧ EvaluateOutcome (suiteDef chi2DistributionCdf) (BitVec.ofNat 64 (2 ^ 32)) setup b ∧
    ∀ y n, occurrences (createStream setup.mix (rng32_mx3 seed)).nth y n (2 ^ 32) = 1 := by
  obtain ⟨b, hb⟩ := C35_terminates (suiteDef chi2DistributionCdf) (BitVec.ofNat 64 (2 ^ 32))
    (defaultSetup 4 "rng32::mx3" [rng32_mx3 seed] defaultTestTypes none)
  exact ⟨_, b, List.mem_cons_self, (by norm_num : 0 < 4), (by decide : TestType.uniform ∈ defaultTestTypes), hb,
    (C18_full_period_32 rng32_mx3 (by simp) seed).1⟩

end TFR
