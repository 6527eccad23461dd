import Verif.Model.Budget
import Mathlib.Analysis.Convex.SpecificFunctions.Basic
import Mathlib.Tactic.NormNum
import Mathlib.Tactic.Linarith
import Mathlib.Tactic.Positivity
import Mathlib.Tactic.Ring
import Mathlib.Tactic.FieldSimp
/-
C40.
-/
namespace TFR
variable {w : Nat} {K : Type}

namespace Spec
/-- Calling a stateful function once for each size, in order: the answers and the final state. -/
def callAll {σ α : Type} (f : σ → BitVec 64 → α × σ) : σ → List (BitVec 64) → List α × σ
  | s, [] => ([], s)
  | s, n :: rest => let r := f s n; let q := callAll f r.2 rest; (r.1 :: q.1, q.2)

/-- The sizes of the sub-tests for a budget of `n` with at most `m` per sub-test. -/
def splitSizes (n m : BitVec 64) : List (BitVec 64) :=
  if n.toNat ≤ m.toNat then [n]
  else if n.toNat < 2 * m.toNat then [m, m]
  else List.replicate (n.toNat / m.toNat) m

/-- The names of the sub-tests: no name for a single one, otherwise s1, s2, ... -/
def splitNames (n m : BitVec 64) : List String :=
  if n.toNat ≤ m.toNat then [""] else (List.range (splitSizes n m).length).map fun i => "s" ++ toString (i + 1)
end Spec

private theorem splitLoop_spec {σ : Type} (m : BitVec 64) (f : σ → BitVec 64 → Option (Statistic K) × σ) :
    ∀ (count i : Nat) (s : σ),
      (splitLoop m f i count s).1.map SubTest.name = (List.range' i count).map (fun j => "s" ++ toString (j + 1)) ∧
      (splitLoop m f i count s).1.map SubTest.stats = (Spec.callAll f s (List.replicate count m)).1 ∧
      (splitLoop m f i count s).2 = (Spec.callAll f s (List.replicate count m)).2 := by
  intro count
  induction count with
  | zero => intro i s; simp [splitLoop, Spec.callAll]
  | succ c ih =>
    intro i s
    obtain ⟨a, b, d⟩ := ih (i + 1) (f s m).2
    simp [splitLoop, Spec.callAll, List.replicate_succ, List.range'_succ, a, b, d]

/-- C40 (splitting). For every sample count, cap and test function (with any hidden state): the test function is called
exactly once per listed size, in order, and the results carry the listed names. -/
theorem C40_split {σ : Type} (n m : BitVec 64) (hm : m ≠ 0#64) (f : σ → BitVec 64 → Option (Statistic K) × σ) (s : σ) :
    ∃ res s', splitTest n m f s = .ok (res, s') ∧
      res.map SubTest.name = Spec.splitNames n m ∧
      (res.map SubTest.stats, s') = Spec.callAll f s (Spec.splitSizes n m) := by
  unfold splitTest Spec.splitNames Spec.splitSizes
  by_cases h : n ≤ m
  · have h' : n.toNat ≤ m.toNat := BitVec.le_def.1 h
    simp [h, h', Spec.callAll]
  · have h' : ¬ n.toNat ≤ m.toNat := fun q => h (BitVec.le_def.2 q)
    have hm0 : 0 < m.toNat := Nat.pos_of_ne_zero fun q => hm (BitVec.eq_of_toNat_eq (by simpa using q))
    rw [if_neg h, if_neg hm]
    by_cases h2 : n.toNat < 2 * m.toNat
    · have hd : n.toNat / m.toNat = 1 := by
        apply Nat.div_eq_of_lt_le <;> omega
      obtain ⟨a, b, d⟩ := splitLoop_spec m f 2 0 s
      refine ⟨_, _, by rw [hd], ?_, ?_⟩
      · rw [show max 2 1 = 2 from rfl, a, if_neg h', if_neg h', if_pos h2]; rfl
      · rw [show max 2 1 = 2 from rfl, if_neg h', if_pos h2, b, d]; rfl
    · have hd : 2 ≤ n.toNat / m.toNat := (Nat.le_div_iff_mul_le hm0).2 (by omega)
      obtain ⟨a, b, d⟩ := splitLoop_spec m f (n.toNat / m.toNat) 0 s
      refine ⟨_, _, by rw [Nat.max_eq_right hd], ?_, ?_⟩
      · rw [a, if_neg h', if_neg h', if_neg h2]; simp [List.range_eq_range']
      · rw [if_neg h', if_neg h2, b, d]

/-- C40 (totals). No sub-test is larger than the cap; the total is the full request when it fits in one sub-test, more
than requested exactly when the request is strictly between one and two caps, and otherwise falls short of the request
by less than one cap. -/
theorem C40_split_total (n m : BitVec 64) (hm : m ≠ 0#64) :
    let total := ((Spec.splitSizes n m).map BitVec.toNat).sum
    (∀ s ∈ Spec.splitSizes n m, s.toNat ≤ m.toNat) ∧
    (n.toNat ≤ m.toNat → total = n.toNat) ∧
    (n.toNat < total ↔ m.toNat < n.toNat ∧ n.toNat < 2 * m.toNat) ∧
    n.toNat < total + m.toNat ∧ total ≤ 2 * n.toNat := by
  have hm0 : 0 < m.toNat := Nat.pos_of_ne_zero fun q => hm (BitVec.eq_of_toNat_eq (by simpa using q))
  have hdm := Nat.div_add_mod n.toNat m.toNat
  have hlt := Nat.mod_lt n.toNat hm0
  have hc := Nat.mul_comm m.toNat (n.toNat / m.toNat)
  unfold Spec.splitSizes
  generalize n.toNat / m.toNat = q at *
  generalize n.toNat % m.toNat = r at *
  rw [hc] at hdm
  generalize hp : q * m.toNat = p at *
  split
  · simp; omega
  · split
    · simp; omega
    · simp only [List.mem_replicate, List.map_replicate, List.sum_replicate, smul_eq_mul, hp]
      refine ⟨?_, ?_, ?_, ?_, ?_⟩
      · rintro s ⟨_, rfl⟩; exact le_rfl
      all_goals omega

/-- C40 (cap 0). A zero cap with a positive request is a division by zero. -/
theorem C40_split_zero_cap {σ : Type} (n : BitVec 64) (hn : n ≠ 0#64) (f : σ → BitVec 64 → Option (Statistic K) × σ)
    (s : σ) : splitTest n 0#64 f s = .error .divByZero := by
  have : ¬ n ≤ 0#64 := by
    intro h; apply hn; have := BitVec.le_def.1 h; exact BitVec.eq_of_toNat_eq (by simp at this; simpa using this)
  simp [splitTest, this]

example : (Spec.splitSizes 25000#64 10000#64).map BitVec.toNat = [10000, 10000] ∧
    Spec.splitNames 35000#64 10000#64 = ["s1", "s2", "s3"] ∧
    ((Spec.splitSizes 15000#64 10000#64).map BitVec.toNat).sum = 20000 := by decide +kernel

/-! limits -/

private theorem pow_le_self (n : BitVec 64) (e : ℝ) (h0 : 0 < e) (h1 : e ≤ 1) :
    ⌊(n.toNat : ℝ) ^ e⌋₊ ≤ n.toNat := by
  rcases Nat.eq_zero_or_pos n.toNat with h | h
  · rw [h, Nat.cast_zero, Real.zero_rpow h0.ne']; simp
  · have : (n.toNat : ℝ) ^ e ≤ (n.toNat : ℝ) := by
      conv_rhs => rw [← Real.rpow_one (n.toNat : ℝ)]
      exact Real.rpow_le_rpow_of_exponent_le (by exact_mod_cast h) h1
    have := Nat.floor_mono this
    simpa using this

private theorem limitN_eq (n : BitVec 64) (e : ℝ) (h0 : 0 < e) (h1 : e ≤ 1) :
    (BitVec.ofNat 64 ⌊(n.toNat : ℝ) ^ e⌋₊).toNat = ⌊(n.toNat : ℝ) ^ e⌋₊ := by
  have := pow_le_self n e h0 h1
  have := n.isLt
  rw [BitVec.toNat_ofNat, Nat.mod_eq_of_lt (by omega)]

private theorem limitN_some (n m : BitVec 64) (e : ℝ) (h0 : 0 < e) (h1 : e ≤ 1) :
    limitN n e = some m ↔ m.toNat = ⌊(n.toNat : ℝ) ^ e⌋₊ ∧ 1024 ≤ ⌊(n.toNat : ℝ) ^ e⌋₊ := by
  have hl := limitN_eq n e h0 h1
  unfold limitN
  have hk : ((1#64 <<< 10 : BitVec 64)).toNat = 1024 := by decide
  simp only [ge_iff_le, BitVec.le_def, hk, hl]
  constructor
  · intro h
    split at h
    · next q => cases h; exact ⟨hl, q⟩
    · cases h
  · rintro ⟨a, b⟩
    rw [if_pos b]
    congr 1
    exact BitVec.eq_of_toNat_eq (by rw [hl, a])

private theorem expSlow_pos : 0 < expSlow := by unfold expSlow; positivity
private theorem expSlow_le : expSlow ≤ 1 := by unfold expSlow; norm_num
private theorem expSlower_pos : 0 < expSlower := by unfold expSlower; positivity
private theorem expSlower_le : expSlower ≤ 1 := by unfold expSlower; norm_num

/-- C40 (limits). The slow and slower limits are either absent or between 1024 and the request, the slower limit never
exceeds the slow one, and both are monotone in the request: a larger request never gets less. -/
theorem C40_limits (n : BitVec 64) :
    (∀ m, limitNSlow n = some m → 1024 ≤ m.toNat ∧ m.toNat ≤ n.toNat) ∧
    (∀ m, limitNSlower n = some m → 1024 ≤ m.toNat ∧ m.toNat ≤ n.toNat) ∧
    (∀ m, limitNSlower n = some m → ∃ m', limitNSlow n = some m' ∧ m.toNat ≤ m'.toNat) ∧
    (∀ n' m, n.toNat ≤ n'.toNat → limitNSlow n = some m → ∃ m', limitNSlow n' = some m' ∧ m.toNat ≤ m'.toNat) ∧
    (∀ n' m, n.toNat ≤ n'.toNat → limitNSlower n = some m →
      ∃ m', limitNSlower n' = some m' ∧ m.toNat ≤ m'.toNat) := by
  have mk : ∀ (k : BitVec 64) (e : ℝ), 0 < e → e ≤ 1 → ∀ j : Nat, 1024 ≤ j → j ≤ ⌊(k.toNat : ℝ) ^ e⌋₊ →
      ∃ m', limitN k e = some m' ∧ j ≤ m'.toNat := by
    intro k e h0 h1 j hj hle
    refine ⟨BitVec.ofNat 64 ⌊(k.toNat : ℝ) ^ e⌋₊, ?_, ?_⟩
    · exact (limitN_some k _ e h0 h1).2 ⟨limitN_eq k e h0 h1, by omega⟩
    · rw [limitN_eq k e h0 h1]; exact hle
  refine ⟨?_, ?_, ?_, ?_, ?_⟩
  · intro m h
    obtain ⟨a, b⟩ := (limitN_some n m _ expSlow_pos expSlow_le).1 h
    have := pow_le_self n _ expSlow_pos expSlow_le
    omega
  · intro m h
    obtain ⟨a, b⟩ := (limitN_some n m _ expSlower_pos expSlower_le).1 h
    have := pow_le_self n _ expSlower_pos expSlower_le
    omega
  · intro m h
    obtain ⟨a, b⟩ := (limitN_some n m _ expSlower_pos expSlower_le).1 h
    refine mk n expSlow expSlow_pos expSlow_le m.toNat (by omega) ?_
    rw [a]
    apply Nat.floor_mono
    have hn : 1 ≤ n.toNat := by
      have := pow_le_self n _ expSlower_pos expSlower_le; omega
    apply Real.rpow_le_rpow_of_exponent_le (by exact_mod_cast hn)
    unfold expSlow expSlower; norm_num
  · intro n' m hn h
    obtain ⟨a, b⟩ := (limitN_some n m _ expSlow_pos expSlow_le).1 h
    refine mk n' expSlow expSlow_pos expSlow_le m.toNat (by omega) ?_
    rw [a]
    exact Nat.floor_mono (Real.rpow_le_rpow (by positivity) (by exact_mod_cast hn) expSlow_pos.le)
  · intro n' m hn h
    obtain ⟨a, b⟩ := (limitN_some n m _ expSlower_pos expSlower_le).1 h
    refine mk n' expSlower expSlower_pos expSlower_le m.toNat (by omega) ?_
    rw [a]
    exact Nat.floor_mono (Real.rpow_le_rpow (by positivity) (by exact_mod_cast hn) expSlower_pos.le)

private theorem two_rpow_le {x : ℝ} (h0 : 0 ≤ x) (h1 : x ≤ 1) : (2 : ℝ) ^ x ≤ 1 + x := by
  have := rpow_one_add_le_one_add_mul_self (s := 1) (by norm_num) h0 h1
  have e : (1 : ℝ) + 1 = 2 := by norm_num
  rw [e] at this
  linarith

/-- C40 (the slow limit on powers of two). The source says `(2^35)^x = 2^30`; but the double nearest to 6/7 lies below
it, so for a request of `2^(7k)` (2 ≤ k ≤ 8) the budget is `2^(6k) - 1`, one less than documented. -/
theorem C40_slow_powers (k : Nat) (h2 : 2 ≤ k) (h8 : k ≤ 8) :
    limitNSlow (BitVec.ofNat 64 (2 ^ (7 * k))) = some (BitVec.ofNat 64 (2 ^ (6 * k) - 1)) := by
  have hlt : 2 ^ (7 * k) < 2 ^ 64 := Nat.pow_lt_pow_right (by norm_num) (by omega)
  have hlt6 : 2 ^ (6 * k) < 2 ^ 64 := Nat.pow_lt_pow_right (by norm_num) (by omega)
  have hge6 : 2 ^ 12 ≤ 2 ^ (6 * k) := Nat.pow_le_pow_right (by norm_num) (by omega)
  have hfl : ⌊(((BitVec.ofNat 64 (2 ^ (7 * k))).toNat : ℕ) : ℝ) ^ expSlow⌋₊ = 2 ^ (6 * k) - 1 := by
    rw [BitVec.toNat_ofNat, Nat.mod_eq_of_lt hlt]
    set x : ℝ := (7 * k) * (6 / 7 - expSlow) with hx
    have hd : 6 / 7 - expSlow = 3 / 63050394783186944 := by unfold expSlow; norm_num
    have hk : (2 : ℝ) ≤ k := by exact_mod_cast h2
    have hk8 : (k : ℝ) ≤ 8 := by exact_mod_cast h8
    have hx0 : 0 < x := by rw [hx, hd]; positivity
    have hx1 : x ≤ 168 / 63050394783186944 := by
      rw [hx, hd]
      rw [mul_div_assoc', div_le_div_iff_of_pos_right (by norm_num)]; linarith
    have hpow : ((2 ^ (7 * k) : ℕ) : ℝ) ^ expSlow * 2 ^ x = 2 ^ (6 * k) := by
      push_cast
      rw [← Real.rpow_natCast, ← Real.rpow_mul (by norm_num), ← Real.rpow_add (by norm_num), ← Real.rpow_natCast]
      congr 1
      rw [hx]; push_cast; ring
    have h2x := two_rpow_le hx0.le (by linarith [hx1, show (168 : ℝ) / 63050394783186944 ≤ 1 by norm_num])
    have h2x1 : 1 < (2 : ℝ) ^ x := Real.one_lt_rpow (by norm_num) hx0
    have hp0 : 0 < ((2 ^ (7 * k) : ℕ) : ℝ) ^ expSlow := by positivity
    have hM : (2 : ℝ) ^ (6 * k) ≤ 2 ^ 48 := pow_le_pow_right₀ (by norm_num) (by omega)
    have hup : ((2 ^ (7 * k) : ℕ) : ℝ) ^ expSlow < 2 ^ (6 * k) := by
      nlinarith
    have hlo : (2 : ℝ) ^ (6 * k) - 1 ≤ ((2 ^ (7 * k) : ℕ) : ℝ) ^ expSlow := by
      have h1 : (2 : ℝ) ^ (6 * k) ≤ ((2 ^ (7 * k) : ℕ) : ℝ) ^ expSlow * (1 + x) := by rw [← hpow]; gcongr
      have h3 : ((2 ^ (7 * k) : ℕ) : ℝ) ^ expSlow * x ≤ 1 := by
        calc _ ≤ (2 : ℝ) ^ 48 * (168 / 63050394783186944) := by
              apply mul_le_mul (by linarith) hx1 hx0.le (by positivity)
          _ ≤ 1 := by norm_num
      linarith
    rw [Nat.floor_eq_iff hp0.le]
    rw [Nat.cast_sub (by omega)]
    push_cast at hup hlo ⊢
    constructor
    · exact hlo
    · linarith
  refine (limitN_some _ _ _ expSlow_pos expSlow_le).2 ⟨?_, ?_⟩
  · rw [hfl, BitVec.toNat_ofNat, Nat.mod_eq_of_lt (by omega)]
  · rw [hfl]; omega

/-- C40 (the slower limit on powers of two). The double nearest to 5/7 lies above it, so a request of `2^(7k)`
(2 ≤ k ≤ 9) gets exactly the documented `2^(5k)`. -/
theorem C40_slower_powers (k : Nat) (h2 : 2 ≤ k) (h9 : k ≤ 9) :
    limitNSlower (BitVec.ofNat 64 (2 ^ (7 * k))) = some (BitVec.ofNat 64 (2 ^ (5 * k))) := by
  have hlt : 2 ^ (7 * k) < 2 ^ 64 := Nat.pow_lt_pow_right (by norm_num) (by omega)
  have hlt6 : 2 ^ (5 * k) < 2 ^ 64 := Nat.pow_lt_pow_right (by norm_num) (by omega)
  have hge6 : 2 ^ 10 ≤ 2 ^ (5 * k) := Nat.pow_le_pow_right (by norm_num) (by omega)
  have hfl : ⌊(((BitVec.ofNat 64 (2 ^ (7 * k))).toNat : ℕ) : ℝ) ^ expSlower⌋₊ = 2 ^ (5 * k) := by
    rw [BitVec.toNat_ofNat, Nat.mod_eq_of_lt hlt]
    set x : ℝ := (7 * k) * (expSlower - 5 / 7) with hx
    have hd : expSlower - 5 / 7 = 1 / 63050394783186944 := by unfold expSlower; norm_num
    have hk : (2 : ℝ) ≤ k := by exact_mod_cast h2
    have hk8 : (k : ℝ) ≤ 9 := by exact_mod_cast h9
    have hx0 : 0 < x := by rw [hx, hd]; positivity
    have hx1 : x ≤ 63 / 63050394783186944 := by
      rw [hx, hd]
      rw [mul_div_assoc', div_le_div_iff_of_pos_right (by norm_num)]; linarith
    have hpow : ((2 ^ (7 * k) : ℕ) : ℝ) ^ expSlower = 2 ^ (5 * k) * 2 ^ x := by
      push_cast
      rw [← Real.rpow_natCast, ← Real.rpow_mul (by norm_num), ← Real.rpow_natCast, ← Real.rpow_add (by norm_num)]
      congr 1
      rw [hx]; push_cast; ring
    have h2x := two_rpow_le hx0.le (by linarith [hx1, show (63 : ℝ) / 63050394783186944 ≤ 1 by norm_num])
    have h2x1 : 1 < (2 : ℝ) ^ x := Real.one_lt_rpow (by norm_num) hx0
    have hM : (2 : ℝ) ^ (5 * k) ≤ 2 ^ 45 := pow_le_pow_right₀ (by norm_num) (by omega)
    have hM0 : (0 : ℝ) < 2 ^ (5 * k) := by positivity
    rw [hpow, Nat.floor_eq_iff (by positivity)]
    push_cast
    constructor
    · nlinarith
    · have h3 : (2 : ℝ) ^ (5 * k) * x < 1 := by
        calc _ ≤ (2 : ℝ) ^ 45 * (63 / 63050394783186944) := by
              apply mul_le_mul hM hx1 hx0.le (by positivity)
          _ < 1 := by norm_num
      nlinarith
  refine (limitN_some _ _ _ expSlower_pos expSlower_le).2 ⟨?_, ?_⟩
  · rw [hfl, BitVec.toNat_ofNat, Nat.mod_eq_of_lt (by omega)]
  · rw [hfl]; omega

example : limitNSlow (BitVec.ofNat 64 (2 ^ 35)) = some (BitVec.ofNat 64 (2 ^ 30 - 1)) :=
  C40_slow_powers 5 (by norm_num) (by norm_num)

/-- C40 (wrapped tests). A limited test runs the underlying test exactly once, with the limited sample count, and yields
nothing when the limit is absent; the fixed cap passes requests up to the cap unchanged and refuses larger ones. -/
theorem C40_limited_test (test : StreamTest w K) (mtest : MixerTest w K) (limit : BitVec 64 → Option (BitVec 64))
    (n cap : BitVec 64) (source : Stream (BitVec w)) (mixer : Mixer w) :
    (∀ m, limit n = some m → limitStreamTest test limit n source = test m source ∧
        limitMixerTest mtest limit n source mixer = mtest m source mixer) ∧
    (limit n = none → limitStreamTest test limit n source = [] ∧ limitMixerTest mtest limit n source mixer = []) ∧
    (n.toNat ≤ cap.toNat → limitStreamTest test (limitNTo cap) n source = test n source) ∧
    (cap.toNat < n.toNat → limitStreamTest test (limitNTo cap) n source = []) := by
  refine ⟨?_, ?_, ?_, ?_⟩
  · intro m h; simp [limitStreamTest, limitMixerTest, h]
  · intro h; simp [limitStreamTest, limitMixerTest, h]
  · intro h; simp [limitStreamTest, limitNTo, BitVec.le_def, h]
  · intro h; simp [limitStreamTest, limitNTo, BitVec.le_def, Nat.not_le.2 h]

/-- The number of samples each test of the catalogue works on when `n` are asked for (`none`: the test is not run):
`mean` runs up to 2^20 samples only; `uniform`, `runs` and `serial-avalanche` use all; `gap`, `divisibility`, `permutation` and
`sac` use the power 6/7 of `n`; the others the power 5/7; less than 1024 samples are not worth a test. -/
noncomputable def Spec.budget (t : TestType) (n : Nat) : Option Nat :=
  match t with
  | .mean => if n ≤ 2 ^ 20 then some n else none
  | .uniform | .runs | .serialAvalanche => some n
  | .gap | .divisibility | .permutation | .sac =>
    if 1024 ≤ ⌊(n : ℝ) ^ expSlow⌋₊ then some ⌊(n : ℝ) ^ expSlow⌋₊ else none
  | .coupon | .binaryRank | .linearComplexity | .bic =>
    if 1024 ≤ ⌊(n : ℝ) ^ expSlower⌋₊ then some ⌊(n : ℝ) ^ expSlower⌋₊ else none

/-- C40 (catalogue). Every test of the catalogue works on the documented number of samples; it never uses more than asked
for. -/
theorem C40_catalogue (t : TestType) (n : BitVec 64) :
    ((getTestDefinition t).limiter.limit n).map BitVec.toNat = Spec.budget t n.toNat ∧
    ∀ m, Spec.budget t n.toNat = some m → m ≤ n.toNat := by
  have e0 : 0 < expSlow ∧ expSlow ≤ 1 := by unfold expSlow; constructor <;> norm_num
  have e1 : 0 < expSlower ∧ expSlower ≤ 1 := by unfold expSlower; constructor <;> norm_num
  have key : ∀ e : ℝ, 0 < e ∧ e ≤ 1 → (limitN n e).map BitVec.toNat =
      (if 1024 ≤ ⌊(n.toNat : ℝ) ^ e⌋₊ then some ⌊(n.toNat : ℝ) ^ e⌋₊ else none) ∧
      ∀ m, (if 1024 ≤ ⌊(n.toNat : ℝ) ^ e⌋₊ then some ⌊(n.toNat : ℝ) ^ e⌋₊ else none) = some m → m ≤ n.toNat := by
    intro e he
    have hle := pow_le_self n e he.1 he.2
    refine ⟨?_, ?_⟩
    · have h64 : ⌊(n.toNat : ℝ) ^ e⌋₊ < 2 ^ 64 := lt_of_le_of_lt hle n.isLt
      unfold limitN
      have hv : (BitVec.ofNat 64 ⌊(n.toNat : ℝ) ^ e⌋₊).toNat = ⌊(n.toNat : ℝ) ^ e⌋₊ := by
        rw [BitVec.toNat_ofNat, Nat.mod_eq_of_lt h64]
      by_cases h : 1024 ≤ ⌊(n.toNat : ℝ) ^ e⌋₊
      · rw [if_pos h, if_pos (by rw [ge_iff_le, BitVec.le_def, hv]; exact h), Option.map_some, hv]
      · rw [if_neg h, if_neg (by rw [ge_iff_le, BitVec.le_def, hv]; exact h), Option.map_none]
    · intro m hm
      split at hm
      · cases hm; exact hle
      · cases hm
  have hto : (limitNTo (BitVec.ofNat 64 (2 ^ 20)) n).map BitVec.toNat = (if n.toNat ≤ 2 ^ 20 then some n.toNat else none) := by
    unfold limitNTo
    have : (n ≤ BitVec.ofNat 64 (2 ^ 20)) ↔ n.toNat ≤ 2 ^ 20 := by rw [BitVec.le_def]; rfl
    by_cases h : n.toNat ≤ 2 ^ 20
    · rw [if_pos h, if_pos (this.2 h)]; rfl
    · rw [if_neg h, if_neg (fun q => h (this.1 q))]; rfl
  cases t
  case mean => exact ⟨hto, fun m h => by simp only [Spec.budget] at h; split at h <;> simp_all⟩
  case uniform => exact ⟨rfl, fun m h => by simp [Spec.budget] at h; omega⟩
  case runs => exact ⟨rfl, fun m h => by simp [Spec.budget] at h; omega⟩
  case serialAvalanche => exact ⟨rfl, fun m h => by simp [Spec.budget] at h; omega⟩
  case gap => exact key _ e0
  case divisibility => exact key _ e0
  case permutation => exact key _ e0
  case sac => exact key _ e0
  case coupon => exact key _ e1
  case binaryRank => exact key _ e1
  case linearComplexity => exact key _ e1
  case bic => exact key _ e1

/-- At `n = 2^14` the coupon test gets 1024 samples, at `2^13` it is skipped; `mean` is skipped above `2^20`. -/
example : (getTestDefinition .coupon).limiter.limit (BitVec.ofNat 64 (2 ^ (7 * 2))) = some (BitVec.ofNat 64 (2 ^ (5 * 2))) ∧
    (getTestDefinition .mean).limiter.limit (BitVec.ofNat 64 (2 ^ 21)) = none :=
  ⟨C40_slower_powers 2 (by decide) (by decide), by decide +kernel⟩

/-- C40 (power_of_two). For every positive sample count the reported power is the least `k` with `n ≤ 2^k`; in
particular it is `k` for `n = 2^k`; `n = 0` is undefined behaviour. -/
theorem C40_power_of_two (n : BitVec 64) :
    (n ≠ 0#64 → ∃ k : Nat, powerOfTwo n = .ok (k : Int) ∧ n.toNat ≤ 2 ^ k ∧ ∀ j : Nat, n.toNat ≤ 2 ^ j → k ≤ j) ∧
    (∀ k : Nat, k < 64 → powerOfTwo (BitVec.ofNat 64 (2 ^ k)) = .ok (k : Int)) ∧
    powerOfTwo 0#64 = .error .badCast := by
  have main : ∀ n : BitVec 64, n ≠ 0#64 →
      ∃ k : Nat, powerOfTwo n = .ok (k : Int) ∧ n.toNat ≤ 2 ^ k ∧ ∀ j : Nat, n.toNat ≤ 2 ^ j → k ≤ j := by
    intro n hn
    have hn0 : n.toNat ≠ 0 := fun h => hn (BitVec.eq_of_toNat_eq (by simpa using h))
    refine ⟨Nat.clog 2 n.toNat, ?_, Nat.le_pow_clog (by norm_num) _, fun j h => Nat.clog_le_of_le_pow h⟩
    rw [powerOfTwo, if_neg hn]
    congr 1
    have h := Real.ceil_logb_natCast (b := 2) (r := (n.toNat : ℝ)) (by positivity)
    have h2 := Int.clog_natCast (R := ℝ) 2 n.toNat
    push_cast at h
    rw [h, h2]
  refine ⟨main n, ?_, by simp [powerOfTwo]⟩
  intro k hk
  have hlt : 2 ^ k < 2 ^ 64 := Nat.pow_lt_pow_right (by norm_num) hk
  have hv : (BitVec.ofNat 64 (2 ^ k)).toNat = 2 ^ k := by rw [BitVec.toNat_ofNat, Nat.mod_eq_of_lt hlt]
  obtain ⟨j, a, b, c⟩ := main (BitVec.ofNat 64 (2 ^ k)) (by
    intro h; have := congrArg BitVec.toNat h; rw [hv] at this; simp at this)
  rw [hv] at b c
  have h1 := c k le_rfl
  have h2 := (Nat.pow_le_pow_iff_right (by norm_num : 1 < 2)).1 b
  rw [a, show j = k by omega]

end TFR
