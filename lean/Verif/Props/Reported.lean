import Verif.Props.Suite
/-
C146: from which sample size on each test has results.
-/
namespace TFR
open Spec

namespace Spec

/-- Whether the test has results in a battery of `2^k` samples (`mixer`: the battery is that of a mixer).  Not used for the runs test, where it
depends on the data, and for the serial avalanche test, where it depends on the word width. -/
def reportsAt (mixer : Bool) (k : Nat) : TestType → Prop
  | .mean => k ≤ 20
  | .uniform => True
  | .gap | .divisibility | .permutation => 12 ≤ k
  | .coupon | .binaryRank => 14 ≤ k
  | .linearComplexity => 19 ≤ k
  | .sac => mixer = true ∧ 12 ≤ k
  | .bic => mixer = true ∧ 14 ≤ k
  | .runs | .serialAvalanche => True

/-- The names of the sub tests of each test, for words of `w` bits. -/
def SubName (w : Nat) (sub : String) : TestType → Prop
  | .mean | .uniform | .runs | .coupon | .sac | .bic => sub = ""
  | .serialAvalanche => ∃ a : Nat, a < w ∧ sub = "bit(" ++ toString a ++ ")"
  | .gap => sub = "1/2" ∨ sub = "2/2"
  | .divisibility => sub = "d2"
  | .permutation => ∃ size : Nat, 4 ≤ size ∧ size ≤ 59 ∧ sub = toString size
  | .binaryRank => ∃ j : Nat, 1 ≤ j ∧ (sub = toString (2 ^ j) ∨ sub = toString (2 ^ j) ++ ":bit(0)")
  | .linearComplexity => ∃ block : Nat, 8 ≤ block ∧ sub = toString block ++ ":bit(0)"

end Spec

/-! ### Budgets -/

private theorem pow_floor (e : ℝ) (k j : Nat) : 2 ^ j ≤ ⌊((2 ^ k : ℕ) : ℝ) ^ e⌋₊ ↔ (j : ℝ) ≤ k * e := by
  rw [Nat.le_floor_iff (by positivity)]
  push_cast
  rw [← Real.rpow_natCast 2 k, ← Real.rpow_mul (by norm_num), ← Real.rpow_natCast 2 j, Real.rpow_le_rpow_left_iff (by norm_num)]

private theorem slow_iff (k : Nat) : 1024 ≤ ⌊((2 ^ k : ℕ) : ℝ) ^ expSlow⌋₊ ↔ 12 ≤ k := by
  rw [show 1024 = 2 ^ 10 by norm_num, pow_floor]
  unfold expSlow
  constructor
  · intro h
    by_contra hc
    have : (k : ℝ) ≤ 11 := by exact_mod_cast (by omega : k ≤ 11)
    norm_num at h
    linarith
  · intro h
    have : (12 : ℝ) ≤ k := by exact_mod_cast h
    norm_num
    linarith

private theorem slower_iff (k : Nat) : 1024 ≤ ⌊((2 ^ k : ℕ) : ℝ) ^ expSlower⌋₊ ↔ 14 ≤ k := by
  rw [show 1024 = 2 ^ 10 by norm_num, pow_floor]
  unfold expSlower
  constructor
  · intro h
    by_contra hc
    have : (k : ℝ) ≤ 13 := by exact_mod_cast (by omega : k ≤ 13)
    norm_num at h
    linarith
  · intro h
    have : (14 : ℝ) ≤ k := by exact_mod_cast h
    norm_num
    linarith

private theorem slower_blocks (k : Nat) : 8192 ≤ ⌊((2 ^ k : ℕ) : ℝ) ^ expSlower⌋₊ ↔ 19 ≤ k := by
  rw [show 8192 = 2 ^ 13 by norm_num, pow_floor]
  unfold expSlower
  constructor
  · intro h
    by_contra hc
    have : (k : ℝ) ≤ 18 := by exact_mod_cast (by omega : k ≤ 18)
    norm_num at h
    linarith
  · intro h
    have : (19 : ℝ) ≤ k := by exact_mod_cast h
    norm_num
    linarith

/-- The budget of a test at `2^k` samples. -/
private theorem limit_at (type : TestType) (k : Nat) (hk : k < 64) :
    ((getTestDefinition type).limiter.limit (BitVec.ofNat 64 (2 ^ k))).map BitVec.toNat = Spec.budget type (2 ^ k) := by
  have h := (C40_catalogue type (BitVec.ofNat 64 (2 ^ k))).1
  rwa [BitVec.toNat_ofNat, Nat.mod_eq_of_lt (Nat.pow_lt_pow_right (by norm_num) hk)] at h

private theorem limit_some {type : TestType} {k m : Nat} (hk : k < 64) (h : Spec.budget type (2 ^ k) = some m) :
    ∃ v, (getTestDefinition type).limiter.limit (BitVec.ofNat 64 (2 ^ k)) = some v ∧ v.toNat = m := by
  have := limit_at type k hk
  rw [h] at this
  exact Option.map_eq_some_iff.1 this

private theorem limit_none {type : TestType} {k : Nat} (hk : k < 64) (h : Spec.budget type (2 ^ k) = none) :
    (getTestDefinition type).limiter.limit (BitVec.ofNat 64 (2 ^ k)) = none := by
  have := limit_at type k hk
  rw [h] at this
  exact Option.map_eq_none_iff.1 this

/-! ### The tests -/

/-- The run has a result with a statistic. -/
private def Has (r : TestRun) : Prop := ∃ sub st, (⟨sub, some st⟩ : SubTest ℝ) ∈ r.value

private theorem has_one {sub : String} {st : Statistic ℝ} {l : List (SubTest ℝ)} : Has (some (.ok (⟨sub, some st⟩ :: l))) :=
  ⟨sub, st, by simp [TestRun.value]⟩

private theorem not_has_nil : ¬ Has (some (.ok [])) := by
  rintro ⟨sub, st, h⟩
  simp [TestRun.value] at h

private theorem bits_pos (t : WT) : 8 ≤ t.bits ∧ t.bits ≤ 64 := by cases t <;> decide

private theorem stream_has (cdf : ℝ → ℝ → ℝ) (t : WT) (k : Nat) (hk : k ≤ 57) (type : TestType) (h1 : type ≠ .runs) (h2 : type ≠ .serialAvalanche)
    (f : BitVec 64 → Stream (BitVec t.bits) → TestRun) (hf : suiteStream cdf type = some f) (s : Stream (BitVec t.bits)) (mixer : Bool) :
    Has (f (BitVec.ofNat 64 (2 ^ k)) s) ↔ reportsAt mixer k type := by
  obtain ⟨hw8, hw64⟩ := bits_pos t
  have hpow : (2 : Nat) ^ k < 2 ^ 64 := Nat.pow_lt_pow_right (by norm_num) (by omega)
  have hle : ∀ m, Spec.budget type (2 ^ k) = some m → m * t.bits < 2 ^ 64 ∧ m < 2 ^ 64 - 1 := by
    intro m hm
    have h := (C40_catalogue type (BitVec.ofNat 64 (2 ^ k))).2 m
    rw [BitVec.toNat_ofNat, Nat.mod_eq_of_lt hpow] at h
    have h3 := h hm
    have h4 : (2 : Nat) ^ k ≤ 2 ^ 57 := Nat.pow_le_pow_right (by norm_num) hk
    have h5 : m * t.bits ≤ 2 ^ 57 * 64 := Nat.mul_le_mul (by omega) hw64
    constructor <;> omega
  unfold suiteStream at hf
  cases type with
  | sac => cases hf
  | bic => cases hf
  | runs => exact absurd rfl h1
  | serialAvalanche => exact absurd rfl h2
  | mean =>
    cases hf
    by_cases hb : (2 : Nat) ^ k ≤ 2 ^ 20
    · have hk2 : k ≤ 20 := (Nat.pow_le_pow_iff_right (by norm_num)).1 hb
      obtain ⟨v, hv, hvn⟩ := limit_some (type := .mean) (by omega) (show Spec.budget .mean (2 ^ k) = some (2 ^ k) by
        unfold Spec.budget; rw [if_pos hb])
      simp only [hv]
      have hv0 : v ≠ 0#64 := by intro h0; rw [h0] at hvn; have := Nat.two_pow_pos k; simp at hvn; omega
      rw [C78_mean, if_neg hv0]
      exact iff_of_true has_one hk2
    · have hv := limit_none (type := .mean) (k := k) (by omega) (by unfold Spec.budget; rw [if_neg hb])
      simp only [hv]
      exact iff_of_false not_has_nil (fun h => hb (Nat.pow_le_pow_right (by norm_num) h))
  | uniform =>
    cases hf
    obtain ⟨v, hv, hvn⟩ := limit_some (type := .uniform) (k := k) (by omega) rfl
    simp only [hv]
    have hv0 : v ≠ 0#64 := by intro h0; rw [h0] at hvn; have := Nat.two_pow_pos k; simp at hvn; omega
    obtain ⟨j, hj, -, -, -, h⟩ := C79_uniform cdf t v hv0
    rw [h s]
    have hB : 2 ≤ 2 ^ j := by calc 2 = 2 ^ 1 := rfl
      _ ≤ 2 ^ j := Nat.pow_le_pow_right (by norm_num) hj
    obtain ⟨st, hst, -⟩ := C79_range cdf v.toNat (2 ^ j) (by rw [hvn]; positivity) hB s.nth
    push_cast at hst
    rw [hst]
    exact iff_of_true has_one trivial
  | gap =>
    cases hf
    by_cases hb : 12 ≤ k
    · have hs := (slow_iff k).2 hb
      obtain ⟨v, hv, hvn⟩ := limit_some (type := .gap) (k := k) (by omega) (by unfold Spec.budget; rw [if_pos hs])
      simp only [hv]
      obtain ⟨res, hr, hn⟩ := C82_reported cdf t v s
      obtain ⟨low, -, high, -, -, -, hg⟩ := C82_gap cdf t v s
      rw [hr] at hg ⊢
      rw [if_pos (by rw [hvn]; omega)] at hn
      refine iff_of_true ?_ hb
      cases res with
      | nil => simp at hn
      | cons x l =>
        have hx : x ∈ x :: l := by simp
        rw [Except.ok.inj (Option.some.inj hg)] at hx
        obtain ⟨p, -, hp⟩ := List.mem_filterMap.1 hx
        obtain ⟨st, -, rfl⟩ := Option.map_eq_some_iff.1 hp
        exact has_one
    · have hv := limit_none (type := .gap) (k := k) (by omega) (by unfold Spec.budget; rw [if_neg (fun h => hb ((slow_iff k).1 h))])
      simp only [hv]
      exact iff_of_false not_has_nil hb
  | divisibility =>
    cases hf
    by_cases hb : 12 ≤ k
    · have hs := (slow_iff k).2 hb
      have hbud : Spec.budget .divisibility (2 ^ k) = some ⌊((2 ^ k : ℕ) : ℝ) ^ expSlow⌋₊ := by unfold Spec.budget; rw [if_pos hs]
      obtain ⟨v, hv, hvn⟩ := limit_some (type := .divisibility) (k := k) (by omega) hbud
      simp only [hv]
      obtain ⟨h3, h4⟩ := hle _ hbud
      obtain ⟨_, _, -, -, h⟩ := C84_divisibility cdf v (by rw [hvn]; exact h4) s
      obtain ⟨st, h, -⟩ := h (by omega)
      rw [h]
      exact iff_of_true has_one hb
    · have hv := limit_none (type := .divisibility) (k := k) (by omega) (by unfold Spec.budget; rw [if_neg (fun h => hb ((slow_iff k).1 h))])
      simp only [hv]
      exact iff_of_false not_has_nil hb
  | permutation =>
    cases hf
    by_cases hb : 12 ≤ k
    · have hs := (slow_iff k).2 hb
      have hbud : Spec.budget .permutation (2 ^ k) = some ⌊((2 ^ k : ℕ) : ℝ) ^ expSlow⌋₊ := by unfold Spec.budget; rw [if_pos hs]
      obtain ⟨v, hv, hvn⟩ := limit_some (type := .permutation) (k := k) (by omega) hbud
      simp only [hv]
      obtain ⟨h3, h4⟩ := hle _ hbud
      rw [← hvn] at hs h3
      obtain ⟨j, -, -, -, -, h⟩ := C85_permutation cdf (w := t.bits) v (by
        calc 2 ^ 13 = 1024 * 8 := by norm_num
          _ ≤ _ := Nat.mul_le_mul hs hw8) h3
      obtain ⟨st, h, -⟩ := h s
      rw [h]
      exact iff_of_true has_one hb
    · have hv := limit_none (type := .permutation) (k := k) (by omega) (by unfold Spec.budget; rw [if_neg (fun h => hb ((slow_iff k).1 h))])
      simp only [hv]
      exact iff_of_false not_has_nil hb
  | coupon =>
    cases hf
    by_cases hb : 14 ≤ k
    · have hs := (slower_iff k).2 hb
      obtain ⟨v, hv, hvn⟩ := limit_some (type := .coupon) (k := k) (by omega) (by unfold Spec.budget; rw [if_pos hs])
      simp only [hv]
      obtain ⟨-, st, h, -⟩ := C83_reported cdf v (by omega) s
      rw [h]
      exact iff_of_true has_one hb
    · have hv := limit_none (type := .coupon) (k := k) (by omega) (by unfold Spec.budget; rw [if_neg (fun h => hb ((slower_iff k).1 h))])
      simp only [hv]
      exact iff_of_false not_has_nil hb
  | binaryRank =>
    cases hf
    by_cases hb : 14 ≤ k
    · have hs := (slower_iff k).2 hb
      have hbud : Spec.budget .binaryRank (2 ^ k) = some ⌊((2 ^ k : ℕ) : ℝ) ^ expSlower⌋₊ := by unfold Spec.budget; rw [if_pos hs]
      obtain ⟨v, hv, hvn⟩ := limit_some (type := .binaryRank) (k := k) (by omega) hbud
      simp only [hv]
      obtain ⟨h3, h4⟩ := hle _ hbud
      rw [← hvn] at hs h3
      obtain ⟨j, -, -, -, h⟩ := C86_binary_rank cdf hw8 hw64 v hs h3
      obtain ⟨st, st2, h, -⟩ := h s
      rw [h]
      exact iff_of_true has_one hb
    · have hv := limit_none (type := .binaryRank) (k := k) (by omega) (by unfold Spec.budget; rw [if_neg (fun h => hb ((slower_iff k).1 h))])
      simp only [hv]
      exact iff_of_false not_has_nil hb
  | linearComplexity =>
    cases hf
    by_cases hb : 14 ≤ k
    · have hs := (slower_iff k).2 hb
      obtain ⟨v, hv, hvn⟩ := limit_some (type := .linearComplexity) (k := k) (by omega) (by unfold Spec.budget; rw [if_pos hs])
      simp only [hv]
      obtain ⟨h3, h4⟩ := C87_linear_complexity cdf (by omega : 0 < t.bits) v s
      by_cases hc : 19 ≤ k
      · obtain ⟨st, h, -⟩ := h4 (by rw [hvn]; exact (slower_blocks k).2 hc)
        rw [h]
        exact iff_of_true has_one hc
      · rw [h3 (by rw [hvn]; exact not_le.1 fun h => hc ((slower_blocks k).1 h))]
        exact iff_of_false not_has_nil hc
    · have hv := limit_none (type := .linearComplexity) (k := k) (by omega) (by unfold Spec.budget; rw [if_neg (fun h => hb ((slower_iff k).1 h))])
      simp only [hv]
      exact iff_of_false not_has_nil (fun h => hb (le_trans (by norm_num) h))

private theorem sac_cells (t : WT) : t.bits / 2 < t.bits / 2 + 1 ∧ t.bits / 2 + 1 < t.bits + 1 ∧
    2 ^ t.bits < 64 * (t.bits * t.bits.choose (t.bits / 2)) ∧ 2 ^ t.bits < 64 * (t.bits * t.bits.choose (t.bits / 2 + 1)) := by
  cases t <;> decide +kernel

private theorem mixer_has (cdf : ℝ → ℝ → ℝ) (t : WT) (k : Nat) (hk : k ≤ 57) (type : TestType)
    (f : BitVec 64 → Stream (BitVec t.bits) → Mixer t.bits → TestRun) (hf : suiteMixer cdf type = some f) (s : Stream (BitVec t.bits))
    (m : Mixer t.bits) :
    Has (f (BitVec.ofNat 64 (2 ^ k)) s m) ↔ reportsAt true k type := by
  obtain ⟨hw8, hw64⟩ := bits_pos t
  have hpow : (2 : Nat) ^ k < 2 ^ 64 := Nat.pow_lt_pow_right (by norm_num) (by omega)
  have hle : ∀ m, Spec.budget type (2 ^ k) = some m → m * t.bits < 2 ^ 64 := by
    intro m hm
    have h := (C40_catalogue type (BitVec.ofNat 64 (2 ^ k))).2 m
    rw [BitVec.toNat_ofNat, Nat.mod_eq_of_lt hpow] at h
    have h3 := h hm
    have h4 : (2 : Nat) ^ k ≤ 2 ^ 57 := Nat.pow_le_pow_right (by norm_num) hk
    have h5 : m * t.bits ≤ 2 ^ 57 * 64 := Nat.mul_le_mul (by omega) hw64
    omega
  unfold suiteMixer at hf
  cases type with
  | sac =>
    cases hf
    by_cases hb : 12 ≤ k
    · have hs := (slow_iff k).2 hb
      have hbud : Spec.budget .sac (2 ^ k) = some ⌊((2 ^ k : ℕ) : ℝ) ^ expSlow⌋₊ := by unfold Spec.budget; rw [if_pos hs]
      obtain ⟨v, hv, hvn⟩ := limit_some (type := .sac) (k := k) (by omega) hbud
      simp only [hv]
      have h3 := hle _ hbud
      rw [← hvn] at hs h3
      rw [C88_sac hw64 cdf v h3 s m]
      obtain ⟨c1, c2, c3, c4⟩ := sac_cells t
      have big : ∀ d, 2 ^ t.bits < 64 * (t.bits * t.bits.choose d) →
          (5 : ℝ) < (v.toNat : ℝ) * t.bits * ((t.bits.choose d : ℝ) / 2 ^ t.bits) := by
        intro d hd
        have hd' : (2 : ℝ) ^ t.bits < 64 * ((t.bits : ℝ) * (t.bits.choose d : ℝ)) := by exact_mod_cast hd
        have hv' : (1024 : ℝ) ≤ (v.toNat : ℝ) := by exact_mod_cast hs
        have hp : (0 : ℝ) < 2 ^ t.bits := by positivity
        rw [← mul_div_assoc, lt_div_iff₀ hp]
        have : 0 ≤ (t.bits : ℝ) * (t.bits.choose d : ℝ) := by positivity
        nlinarith
      obtain ⟨st, hst⟩ := Spec.pearson_isSome cdf (t.bits + 1) (fun d => (flipHits m.mix s.nth v.toNat d : ℝ))
        (fun d => (v.toNat : ℝ) * t.bits * ((t.bits.choose d : ℝ) / 2 ^ t.bits)) 5 _ _ c1 c2 (big _ c3) (big _ c4)
      rw [hst]
      exact iff_of_true has_one ⟨rfl, hb⟩
    · have hv := limit_none (type := .sac) (k := k) (by omega) (by unfold Spec.budget; rw [if_neg (fun h => hb ((slow_iff k).1 h))])
      simp only [hv]
      exact iff_of_false not_has_nil (fun h => hb h.2)
  | bic =>
    cases hf
    by_cases hb : 14 ≤ k
    · have hs := (slower_iff k).2 hb
      obtain ⟨v, hv, hvn⟩ := limit_some (type := .bic) (k := k) (by omega) (by unfold Spec.budget; rw [if_pos hs])
      simp only [hv]
      have hv0 : v ≠ 0#64 := by intro h0; rw [h0, BitVec.toNat_ofNat] at hvn; rw [← hvn] at hs; simp at hs
      obtain ⟨stat, h, -, h5⟩ := C88_bic hw64 (by omega) cdf v s m
      obtain ⟨st, rfl, -⟩ := h5 hv0
      rw [h]
      exact iff_of_true has_one ⟨rfl, hb⟩
    · have hv := limit_none (type := .bic) (k := k) (by omega) (by unfold Spec.budget; rw [if_neg (fun h => hb ((slower_iff k).1 h))])
      simp only [hv]
      exact iff_of_false not_has_nil (fun h => hb h.2)
  | _ => cases hf

/-! ### C146 -/

private theorem filterMap_key (a c : String) (n : BitVec 64) (ty : TestType) (l : List (SubTest ℝ)) (key : TestKey) :
    (∃ r ∈ l.filterMap (fun sub => sub.stats.map fun stat => (⟨a, c, n, ⟨ty, sub.name⟩, stat⟩ : TestResult ℝ)), r.key = key) ↔
    key.type = ty ∧ ∃ st, (⟨key.sub, some st⟩ : SubTest ℝ) ∈ l := by
  constructor
  · rintro ⟨r, hr, rfl⟩
    obtain ⟨⟨sn, so⟩, hsub, h⟩ := List.mem_filterMap.1 hr
    obtain ⟨stat, h1, rfl⟩ := Option.map_eq_some_iff.1 h
    cases h1
    exact ⟨rfl, stat, hsub⟩
  · rintro ⟨rfl, st, h⟩
    exact ⟨⟨a, c, n, key, st⟩, List.mem_filterMap.2 ⟨_, h, rfl⟩, rfl⟩

theorem reported_get_iff (cdf : ℝ → ℝ → ℝ) (n : BitVec 64) {w : Nat} (setup : TestSetup w) (hth : 0 < setup.maxThreads) (b : Battery ℝ)
    (hb : EvaluateOutcome (suiteDef cdf) n setup b) (key : TestKey) :
    b.get key ≠ [] ↔ key.type ∈ setup.tests ∧ ∃ s ∈ setup.sources,
      (∃ f m, suiteMixer (w := w) cdf key.type = some f ∧ setup.mix = some m ∧ ∃ st, (⟨key.sub, some st⟩ : SubTest ℝ) ∈ (f n s m).value) ∨
      (∃ f, suiteStream (w := w) cdf key.type = some f ∧ ∃ st, (⟨key.sub, some st⟩ : SubTest ℝ) ∈ (f n (createStream setup.mix s)).value) := by
  obtain ⟨-, -, -, -, hp⟩ := C35_schedule_independent _ n setup hth b hb
  have hp := hp key
  have h0 : b.get key ≠ [] ↔ ∃ r ∈ expectedResults (suiteDef cdf) n setup, r.key = key := by
    rw [List.ne_nil_iff_exists_cons]
    constructor
    · rintro ⟨r, l, hl⟩
      have : r ∈ (expectedResults (suiteDef cdf) n setup).filter fun r => r.key = key := by
        rw [← hp.mem_iff, hl]; simp
      have := List.mem_filter.1 this
      exact ⟨r, this.1, of_decide_eq_true this.2⟩
    · rintro ⟨r, hr, hk⟩
      have : r ∈ b.get key := by
        rw [hp.mem_iff]; exact List.mem_filter.2 ⟨hr, decide_eq_true hk⟩
      cases hg : b.get key with
      | nil => rw [hg] at this; simp at this
      | cons x l => exact ⟨x, l, rfl⟩
  rw [h0]
  have hty : ∀ tt, (suiteDef cdf tt : TestDef w ℝ).type = tt := fun tt => (C89_kind (w := w) cdf tt).2.2.2
  have one : ∀ tt s, (∃ r ∈ expectedResults (suiteDef cdf) n { setup with tests := [tt], sources := [s] }, r.key = key) ↔ key.type = tt ∧
      ((∃ f m, suiteMixer (w := w) cdf tt = some f ∧ setup.mix = some m ∧ ∃ st, (⟨key.sub, some st⟩ : SubTest ℝ) ∈ (f n s m).value) ∨
      (∃ f, suiteStream (w := w) cdf tt = some f ∧ ∃ st, (⟨key.sub, some st⟩ : SubTest ℝ) ∈ (f n (createStream setup.mix s)).value)) := by
    intro tt s
    unfold expectedResults
    simp only [List.flatMap_cons, List.flatMap_nil, List.append_nil]
    rw [hty]
    have em : (suiteDef cdf tt : TestDef w ℝ).testMixer = (suiteMixer (w := w) cdf tt).map fun f n s m => (f n s m).value := rfl
    have es : (suiteDef cdf tt : TestDef w ℝ).testStream = (suiteStream (w := w) cdf tt).map fun f n s => (f n s).value := rfl
    rw [em, es]
    simp only [List.mem_append, or_and_right, exists_or]
    cases hm : suiteMixer (w := w) cdf tt <;> cases hs : suiteStream (w := w) cdf tt <;> cases hx : setup.mix <;>
      simp only [Option.map_none, Option.map_some, filterMap_key, createStream, List.not_mem_nil, false_and, exists_false, false_or, or_false,
        reduceCtorEq, Option.some.injEq, exists_eq_left', and_false, ← and_or_left, exists_and_left]
  have flat : expectedResults (suiteDef cdf) n setup = setup.tests.flatMap fun tt => setup.sources.flatMap fun s =>
      expectedResults (suiteDef cdf) n { setup with tests := [tt], sources := [s] } := by
    unfold expectedResults
    simp only [List.flatMap_cons, List.flatMap_nil, List.append_nil]
  rw [flat]
  constructor
  · rintro ⟨r, hr, hk⟩
    obtain ⟨tt, htt, hr⟩ := List.mem_flatMap.1 hr
    obtain ⟨s, hs, hr⟩ := List.mem_flatMap.1 hr
    obtain ⟨e, h⟩ := (one tt s).1 ⟨r, hr, hk⟩
    subst e
    exact ⟨htt, s, hs, h⟩
  · rintro ⟨htt, s, hs, h⟩
    obtain ⟨r, hr, hk⟩ := (one key.type s).2 ⟨rfl, h⟩
    exact ⟨r, List.mem_flatMap.2 ⟨_, htt, List.mem_flatMap.2 ⟨s, hs, hr⟩⟩, hk⟩

/-- C146. A battery of `2^k` samples (at most `2^57`) of all tests, with at least one source and one thread, under every schedule: the mean
test has results up to 2^20 samples, the uniformity test always, gap, divisibility, permutation and strict avalanche test from 2^12, coupon,
binary rank and bit independence test from 2^14, the linear complexity test from 2^19, the avalanche tests for mixers only; each result
key that occurs has exactly one result per source. -/
theorem C146_reported (cdf : ℝ → ℝ → ℝ) (t : WT) (k : Nat) (hk : k ≤ 57) (setup : TestSetup t.bits) (hth : 0 < setup.maxThreads)
    (htests : setup.tests = defaultTestTypes) (hsrc : setup.sources ≠ []) (b : Battery ℝ)
    (hb : EvaluateOutcome (suiteDef cdf) (BitVec.ofNat 64 (2 ^ k)) setup b) (type : TestType) (h1 : type ≠ .runs) (h2 : type ≠ .serialAvalanche) :
    ((∃ sub, b.get ⟨type, sub⟩ ≠ []) ↔ reportsAt setup.mix.isSome k type) ∧
    ∀ sub, b.get ⟨type, sub⟩ = [] ∨ (b.get ⟨type, sub⟩).length = setup.sources.length := by
  have hpow : (2 : Nat) ^ k < 2 ^ 64 := Nat.pow_lt_pow_right (by norm_num) (by omega)
  have hn : (BitVec.ofNat 64 (2 ^ k)).toNat = 2 ^ k := by rw [BitVec.toNat_ofNat, Nat.mod_eq_of_lt hpow]
  have hnd : setup.tests.Nodup := by rw [htests]; decide
  have hin : type ∈ setup.tests := by rw [htests]; cases type <;> decide
  refine ⟨?_, fun sub => ?_⟩
  · constructor
    · rintro ⟨sub, h⟩
      obtain ⟨-, s, -, h⟩ := (reported_get_iff cdf _ setup hth b hb _).1 h
      rcases h with ⟨f, m, hf, hm, st, hst⟩ | ⟨f, hf, st, hst⟩
      · rw [hm]
        exact (mixer_has cdf t k hk type f hf s m).1 ⟨sub, st, hst⟩
      · exact (stream_has cdf t k hk type h1 h2 f hf _ _).1 ⟨sub, st, hst⟩
    · intro h
      obtain ⟨s, hs⟩ := List.exists_mem_of_ne_nil _ hsrc
      obtain ⟨-, -, k3, -⟩ := C89_kind (w := t.bits) cdf type
      cases hf : suiteStream (w := t.bits) cdf type with
      | some f =>
        obtain ⟨sub, st, hst⟩ := (stream_has cdf t k hk type h1 h2 f hf (createStream setup.mix s) setup.mix.isSome).2 h
        exact ⟨sub, (reported_get_iff cdf _ setup hth b hb _).2 ⟨hin, s, hs, Or.inr ⟨f, hf, st, hst⟩⟩⟩
      | none =>
        cases hg : suiteMixer (w := t.bits) cdf type with
        | none =>
          exfalso
          cases type <;> first | (cases hf; done) | (cases hg; done)
        | some f =>
          cases hm : setup.mix with
          | none =>
            exfalso
            rw [hm] at h
            cases type <;> first | (cases hg; done) | exact absurd h.1 (by simp)
          | some m =>
            rw [hm] at h
            obtain ⟨sub, st, hst⟩ := (mixer_has cdf t k hk type f hg s m).2 h
            exact ⟨sub, (reported_get_iff cdf _ setup hth b hb _).2 ⟨hin, s, hs, Or.inl ⟨f, m, hg, hm, st, hst⟩⟩⟩
  · refine ((C89_battery cdf t (BitVec.ofNat 64 (2 ^ k)) ?_ ?_ setup hth hnd b hb ⟨type, sub⟩).2.2 h1).1
    · intro h0
      have := congrArg BitVec.toNat h0
      rw [hn] at this
      have := Nat.two_pow_pos k
      simp at *
    · rw [hn]
      have h4 : (2 : Nat) ^ k ≤ 2 ^ 57 := Nat.pow_le_pow_right (by norm_num) hk
      have h5 : 2 ^ k * t.bits ≤ 2 ^ 57 * 64 := Nat.mul_le_mul h4 (bits_pos t).2
      omega

/-- The names of the sub tests of one run. -/
private theorem stream_names (cdf : ℝ → ℝ → ℝ) (t : WT) (n : BitVec 64) (hn : n ≠ 0#64) (hov : n.toNat * t.bits < 2 ^ 64) (type : TestType)
    (f : BitVec 64 → Stream (BitVec t.bits) → TestRun) (hf : suiteStream cdf type = some f) (s : Stream (BitVec t.bits))
    (x : SubTest ℝ) (hx : x ∈ (f n s).value) : SubName t.bits x.name type := by
  obtain ⟨hw8, hw64⟩ := bits_pos t
  unfold suiteStream at hf
  obtain ⟨g, hg, hf⟩ := Option.map_eq_some_iff.1 hf
  rw [← hf] at hx
  simp only at hx
  cases hl : (getTestDefinition type).limiter.limit n with
  | none => rw [hl] at hx; simp [TestRun.value] at hx
  | some v =>
    rw [hl] at hx
    simp only at hx
    have hc := C40_catalogue type n
    rw [hl, Option.map_some] at hc
    have hvn : v.toNat ≤ n.toNat := hc.2 _ hc.1.symm
    have hov' : v.toNat * t.bits < 2 ^ 64 := lt_of_le_of_lt (Nat.mul_le_mul_right _ hvn) hov
    have hv0 : v ≠ 0#64 ∧ (type = .permutation ∨ type = .binaryRank → 1024 ≤ v.toNat) := by
      have h := hc.1
      have hn0 : n.toNat ≠ 0 := fun h0 => hn (BitVec.eq_of_toNat_eq (by simpa using h0))
      constructor
      · rintro rfl
        rw [BitVec.toNat_ofNat] at h
        unfold Spec.budget at h
        cases type <;> simp only at h <;> first
          | (split at h <;> simp at h <;> omega)
          | (simp at h; omega)
      · intro ht
        unfold Spec.budget at h
        rcases ht with rfl | rfl <;> simp only at h <;> split at h <;> simp at h <;> omega
    obtain ⟨hv0, hv1⟩ := hv0
    cases type with
    | sac => cases hg
    | bic => cases hg
    | mean =>
      cases hg
      beta_reduce at hx
      rw [C78_mean] at hx
      simp only [TestRun.value, List.mem_singleton] at hx
      rw [hx]
      exact rfl
    | uniform =>
      cases hg
      beta_reduce at hx
      obtain ⟨_, _, -, -, -, h⟩ := C79_uniform cdf t v hv0
      rw [h s] at hx
      simp only [TestRun.value, List.mem_singleton] at hx
      rw [hx]
      exact rfl
    | runs =>
      cases hg
      beta_reduce at hx
      obtain ⟨_, _, _, -, -, -, h⟩ := C80_runs (by omega : 0 < t.bits) v s
      rw [h] at hx
      simp only [TestRun.value, List.mem_singleton] at hx
      rw [hx]
      exact rfl
    | serialAvalanche =>
      cases hg
      beta_reduce at hx
      obtain ⟨G, -, h⟩ := C81_serial_avalanche (w := t.bits) cdf v
      rw [h s] at hx
      simp only [TestRun.value] at hx
      obtain ⟨a, ha, h⟩ := List.mem_filterMap.1 hx
      obtain ⟨st, -, rfl⟩ := Option.map_eq_some_iff.1 h
      exact ⟨a, List.mem_range.1 ha, rfl⟩
    | gap =>
      cases hg
      beta_reduce at hx
      obtain ⟨res, hr, hnm⟩ := C82_reported cdf t v s
      rw [hr] at hx
      have hx : x ∈ res := hx
      have := List.mem_map_of_mem (f := SubTest.name) hx
      rw [hnm] at this
      split at this
      · simpa [SubName] using this
      · simp at this
    | coupon =>
      cases hg
      beta_reduce at hx
      obtain ⟨_, _, -, h⟩ := C83_coupon cdf v s
      rw [h] at hx
      simp only [TestRun.value, List.mem_singleton] at hx
      rw [hx]
      exact rfl
    | divisibility =>
      cases hg
      beta_reduce at hx
      obtain ⟨_, _, -, h3, h4⟩ := C84_divisibility cdf v (by
        have : v.toNat * 8 ≤ v.toNat * t.bits := Nat.mul_le_mul_left _ hw8
        omega) s
      by_cases hc : v.toNat < 1000
      · rw [h3 hc] at hx; simp [TestRun.value] at hx
      · obtain ⟨st, h4, -⟩ := h4 (by omega)
        rw [h4] at hx
        simp only [TestRun.value, List.mem_singleton] at hx
        rw [hx]
        exact rfl
    | permutation =>
      cases hg
      beta_reduce at hx
      obtain ⟨j, j1, j2, -, -, h⟩ := C85_permutation cdf (w := t.bits) v (by
        calc 2 ^ 13 = 1024 * 8 := by norm_num
          _ ≤ _ := Nat.mul_le_mul (hv1 (Or.inl rfl)) hw8) hov'
      obtain ⟨st, h, -⟩ := h s
      rw [h] at hx
      simp only [TestRun.value, List.mem_singleton] at hx
      rw [hx]
      exact ⟨j, j1, j2, rfl⟩
    | binaryRank =>
      cases hg
      beta_reduce at hx
      obtain ⟨j, j1, -, -, h⟩ := C86_binary_rank cdf hw8 hw64 v (hv1 (Or.inr rfl)) hov'
      obtain ⟨st, st2, h, -⟩ := h s
      rw [h] at hx
      simp only [TestRun.value, List.mem_cons, List.not_mem_nil, or_false] at hx
      rcases hx with rfl | rfl
      · exact ⟨j, j1, Or.inl rfl⟩
      · exact ⟨j, j1, Or.inr rfl⟩
    | linearComplexity =>
      cases hg
      beta_reduce at hx
      obtain ⟨h3, h4⟩ := C87_linear_complexity cdf (by omega : 0 < t.bits) v s
      by_cases hc : v.toNat < 8192
      · rw [h3 hc] at hx; simp [TestRun.value] at hx
      · obtain ⟨st, h4, -⟩ := h4 (by omega)
        rw [h4] at hx
        simp only [TestRun.value, List.mem_singleton] at hx
        rw [hx]
        exact ⟨v.toNat / 1024, by omega, rfl⟩

private theorem mixer_names (cdf : ℝ → ℝ → ℝ) (t : WT) (n : BitVec 64) (hov : n.toNat * t.bits < 2 ^ 64) (type : TestType)
    (f : BitVec 64 → Stream (BitVec t.bits) → Mixer t.bits → TestRun) (hf : suiteMixer cdf type = some f) (s : Stream (BitVec t.bits))
    (m : Mixer t.bits) (x : SubTest ℝ) (hx : x ∈ (f n s m).value) : SubName t.bits x.name type := by
  obtain ⟨hw8, hw64⟩ := bits_pos t
  unfold suiteMixer at hf
  obtain ⟨g, hg, hf⟩ := Option.map_eq_some_iff.1 hf
  rw [← hf] at hx
  simp only at hx
  cases hl : (getTestDefinition type).limiter.limit n with
  | none => rw [hl] at hx; simp [TestRun.value] at hx
  | some v =>
    rw [hl] at hx
    simp only at hx
    have hc := C40_catalogue type n
    rw [hl, Option.map_some] at hc
    have hov' : v.toNat * t.bits < 2 ^ 64 := lt_of_le_of_lt (Nat.mul_le_mul_right _ (hc.2 _ hc.1.symm)) hov
    cases type with
    | sac =>
      cases hg
      beta_reduce at hx
      rw [C88_sac hw64 cdf v hov' s m] at hx
      simp only [TestRun.value, List.mem_singleton] at hx
      rw [hx]
      exact rfl
    | bic =>
      cases hg
      beta_reduce at hx
      obtain ⟨stat, h, -⟩ := C88_bic hw64 (by omega) cdf v s m
      rw [h] at hx
      simp only [TestRun.value, List.mem_singleton] at hx
      rw [hx]
      exact rfl
    | _ => cases hg

/-- C146. The keys of a battery: every result is filed under one of the tests of the setup, and the name of its sub test is of the form
given by `SubName`. -/
theorem C146_names (cdf : ℝ → ℝ → ℝ) (t : WT) (n : BitVec 64) (hn : n ≠ 0#64) (hov : n.toNat * t.bits < 2 ^ 64) (setup : TestSetup t.bits)
    (hth : 0 < setup.maxThreads) (b : Battery ℝ) (hb : EvaluateOutcome (suiteDef cdf) n setup b) (key : TestKey) (h : b.get key ≠ []) :
    key.type ∈ setup.tests ∧ SubName t.bits key.sub key.type := by
  obtain ⟨hin, s, -, h⟩ := (reported_get_iff cdf n setup hth b hb key).1 h
  refine ⟨hin, ?_⟩
  rcases h with ⟨f, m, hf, -, st, hst⟩ | ⟨f, hf, st, hst⟩
  · exact mixer_names cdf t n hov key.type f hf s m _ hst
  · exact stream_names cdf t n hn hov key.type f hf _ _ hst

/-- The first pass of -test for a generator (2^10 samples): no gap test yet, but a result of the uniformity test. -/
example (s : Stream (BitVec WT.u32.bits)) : ∃ b : Battery ℝ,
    EvaluateOutcome (suiteDef chi2DistributionCdf) (BitVec.ofNat 64 (2 ^ 10)) ⟨"s", [s], defaultTestTypes, none, 2, 10, 25⟩ b ∧
    (∀ sub, b.get ⟨.gap, sub⟩ = []) ∧ (b.get ⟨.uniform, ""⟩).length = 1 := by
  obtain ⟨b, hb⟩ := C35_terminates (suiteDef chi2DistributionCdf) (BitVec.ofNat 64 (2 ^ 10))
    (⟨"s", [s], defaultTestTypes, none, 2, 10, 25⟩ : TestSetup WT.u32.bits)
  have h := fun ty h1 h2 => C146_reported chi2DistributionCdf .u32 10 (by norm_num)
    (⟨"s", [s], defaultTestTypes, none, 2, 10, 25⟩ : TestSetup WT.u32.bits) (show 0 < 2 by norm_num) rfl (by simp) b hb ty h1 h2
  refine ⟨b, hb, fun sub => ?_, ?_⟩
  · by_contra hc
    exact absurd ((h .gap (by decide) (by decide)).1.1 ⟨sub, hc⟩) (by unfold reportsAt; norm_num)
  · obtain ⟨g1, g2⟩ := h .uniform (by decide) (by decide)
    obtain ⟨sub, hs⟩ := g1.2 trivial
    have hn := (C146_names chi2DistributionCdf .u32 (BitVec.ofNat 64 (2 ^ 10)) (by decide) (by decide)
      (⟨"s", [s], defaultTestTypes, none, 2, 10, 25⟩ : TestSetup WT.u32.bits) (show 0 < 2 by norm_num) b hb _ hs).2
    obtain rfl : sub = "" := hn
    exact (g2 "").resolve_left hs

end TFR
