import Verif.Props.Power
import Verif.Props.BlockTests
import Verif.Props.LinearPrngs
import Verif.Props.TestCommand
import Mathlib.LinearAlgebra.Charpoly.Basic
import Mathlib.LinearAlgebra.FreeModule.Finite.CardQuotient
import Mathlib.Algebra.Module.ZMod
import Mathlib.FieldTheory.Finiteness
/-
C108. Power of the linear complexity test.
-/
namespace TFR
open Finset Spec Lfsr
variable {w : Nat}

namespace Spec
/-- The bit sequence `u` satisfies a linear recurrence of order `L`: every bit from the `L`-th on is the exclusive or of a fixed selection
`c` of the `L` bits before it. -/
def LinearRecurrence (u : Nat → Bool) (L : Nat) : Prop :=
  ∃ c : Nat → Bool, ∀ i, u (i + L) = (List.range L).foldl (fun acc j => acc ^^ (c j && u (i + j))) false
end Spec

private theorem toF_fold (c v : Nat → Bool) (L : Nat) :
    toF ((List.range L).foldl (fun acc j => acc ^^ (c j && v j)) false) = ∑ j ∈ range L, toF (c j) * toF (v j) := by
  induction L with
  | zero => simp [toF]
  | succ L ih => rw [List.range_succ, List.foldl_append, Finset.sum_range_succ, ← ih]; simp [toF_xor, toF_and]

theorem linearRecurrence_iff (u : Nat → Bool) (L : Nat) :
    LinearRecurrence u L ↔ ∃ c : Nat → F2, ∀ i, toF (u (i + L)) = ∑ j ∈ range L, c j * toF (u (i + j)) := by
  constructor
  · rintro ⟨c, h⟩
    exact ⟨fun j => toF (c j), fun i => by rw [h, toF_fold c (fun j => u (i + j))]⟩
  · rintro ⟨c, h⟩
    choose b hb using exists_toF
    refine ⟨fun j => b (c j), fun i => toF_inj ?_⟩
    rw [h, toF_fold (fun j => b (c j)) (fun j => u (i + j))]
    exact sum_congr rfl fun j _ => by rw [hb]

/-- A segment of a sequence with a recurrence of order `L` is generated by a register of length `L`. -/
theorem segment_generated (u : Nat → Bool) (L : Nat) (h : LinearRecurrence u L) (start size : Nat) :
    GeneratedBy ((List.range size).map fun i => u (start + i)) L := by
  obtain ⟨c, hc⟩ := (linearRecurrence_iff u L).1 h
  choose b hb using exists_toF
  refine ⟨fun j => b (c (L - 1 - j)), fun n h1 h2 => toF_inj ?_⟩
  have h2 : n < size := by simpa using h2
  rw [toF_lfsrNext]
  have hget : ∀ i, i < size → ((List.range size).map fun i => u (start + i)).getD i false = u (start + i) := by
    intro i hi
    rw [List.getD_eq_getElem _ _ (by simpa using hi)]; simp
  rw [hget n h2, show start + n = (start + (n - L)) + L by omega, hc, ← sum_range_reflect]
  refine sum_congr rfl fun j hj => ?_
  have hj := mem_range.1 hj
  rw [hb]
  unfold lift
  rw [hget _ (by omega),
    show start + (n - L) + (L - 1 - j) = start + (n - 1 - j) by omega]

theorem share_small (b l : Nat) (hb : b < 2 ^ 63) (hb8 : 8 ≤ b) (h : 2 * l + 7 ≤ b) : complexityShare b l ≤ 1 / 256 := by
  unfold complexityShare
  rw [← C55_lfsr_probability b l hb (by omega), lfsrLog2Probability_closed b l hb (by omega)]
  have : (1 / 256 : ℝ) = (2 : ℝ) ^ (-8 : ℤ) := by norm_num
  rw [this]
  split
  · exact zpow_le_zpow_right₀ (by norm_num) (by omega)
  · split
    · exact zpow_le_zpow_right₀ (by norm_num) (by omega)
    · exact zpow_le_zpow_right₀ (by norm_num) (by omega)

theorem share_large (b l : Nat) (hb63 : b < 2 ^ 63) (hl1 : 1 ≤ l) (hl : l ≤ b) (hlo : b ≤ 2 * l + 1) (hhi : 2 * l ≤ b + 2) :
    (1 / 4 : ℝ) ≤ complexityShare b l := by
  unfold complexityShare
  rw [← C55_lfsr_probability b l hb63 hl, lfsrLog2Probability_closed b l hb63 hl, if_neg (by omega)]
  have : (1 / 4 : ℝ) = (2 : ℝ) ^ (-2 : ℤ) := by norm_num
  rw [this]
  split
  · exact zpow_le_zpow_right₀ (by norm_num) (by omega)
  · exact zpow_le_zpow_right₀ (by norm_num) (by omega)

/-- Pearson's statistic when nothing was observed in the used cells and one of them expects at least `E`. -/
theorem empty_cells (cdf : ℝ → ℝ → ℝ) (cells : List (ℝ × ℝ)) (st : Statistic ℝ) (h : pearson cdf cells 5 = some st)
    (h0 : ∀ c ∈ cells, 5 < c.2 → c.1 = 0) (E : ℝ) (hE : 115 ≤ E) (hc : ∃ c ∈ cells, E ≤ c.2) :
    st.type = .chi2 ∧ st.pValue = cdf st.value st.df ∧ 1 ≤ st.df ∧ 7 / 5 * st.df + 84 ≤ st.value := by
  unfold pearson at h
  by_cases hlen : (usedCells 5 cells).length < 2
  · rw [if_pos hlen] at h; cases h
  rw [if_neg hlen] at h
  obtain rfl := Option.some.inj h
  have hmem : ∀ c ∈ usedCells 5 cells, c ∈ cells ∧ 5 < c.2 := by
    intro c hc
    unfold usedCells at hc
    rw [List.mem_filter] at hc
    exact ⟨hc.1, by simpa using hc.2⟩
  have hin : ∃ c ∈ usedCells 5 cells, E ≤ c.2 := by
    obtain ⟨c, hc1, hc2⟩ := hc
    refine ⟨c, ?_, hc2⟩
    unfold usedCells
    rw [List.mem_filter]
    exact ⟨hc1, by simp; linarith⟩
  have hval : chiSquare (usedCells 5 cells) = ((usedCells 5 cells).map Prod.snd).sum := by
    unfold chiSquare
    congr 1
    apply List.map_congr_left
    intro c hc
    obtain ⟨h1, h2⟩ := hmem c hc
    rw [h0 c h1 h2]
    have : c.2 ≠ 0 := by linarith
    field_simp
    ring
  generalize usedCells 5 cells = U at *
  have hsum : ∀ U : List (ℝ × ℝ), (∀ c ∈ U, 5 < c.2) → 5 * (U.length : ℝ) ≤ (U.map Prod.snd).sum := by
    intro U
    induction U with
    | nil => simp
    | cons c U ih =>
      intro hU
      have := ih fun d hd => hU d (List.mem_cons_of_mem _ hd)
      have := hU c List.mem_cons_self
      rw [List.map_cons, List.sum_cons, List.length_cons]
      push_cast
      linarith
  have h1 := hsum U fun c hc => (hmem c hc).2
  have h2 : E ≤ (U.map Prod.snd).sum := by
    obtain ⟨c, hc1, hc2⟩ := hin
    refine hc2.trans (List.single_le_sum ?_ _ (List.mem_map.2 ⟨c, hc1, rfl⟩))
    intro x hx
    obtain ⟨d, hd, rfl⟩ := List.mem_map.1 hx
    linarith [(hmem d hd).2]
  have hl2 : (2 : ℝ) ≤ U.length := by exact_mod_cast (not_lt.1 hlen)
  refine ⟨rfl, rfl, ?_, ?_⟩
  · show (1 : ℝ) ≤ (U.length : ℝ) - 1
    linarith
  · show 7 / 5 * ((U.length : ℝ) - 1) + 84 ≤ chiSquare U
    rw [hval]
    linarith

/-- C108. The linear complexity test rejects every sequence whose lowest bits satisfy a linear recurrence of order `L`, as soon as it
reads `1024 (2 L + 7)` values (and 8192). -/
theorem C108_linear (hw : 0 < w) (n : BitVec 64) (s : Stream (BitVec w)) (L : Nat) (hrec : LinearRecurrence (fun i => (s.nth i).getLsbD 0) L)
    (hn8 : 8192 ≤ n.toNat) (hn : 1024 * (2 * L + 7) ≤ n.toNat) :
    ∃ st, linearComplexityTest chi2DistributionCdf n s = .ok [⟨toString (n.toNat / 1024) ++ ":bit(0)", some st⟩] ∧
      st.pValue ≤ 1 / 10 ^ 9 ∧ statPass st = false := by
  obtain ⟨st, h1, h2⟩ := (C87_linear_complexity chi2DistributionCdf hw n s).2 hn8
  have hlt := n.isLt
  set b := n.toNat / 1024 with hb
  have hb8 : 8 ≤ b := by omega
  have hbL : 2 * L + 7 ≤ b := by omega
  have hb63 : b < 2 ^ 63 := by omega
  have hN1 : 1024 ≤ n.toNat / b := by
    rw [Nat.le_div_iff_mul_le (by omega)]; omega
  have hN2 : n.toNat / b ≤ 1152 := by
    apply Nat.le_of_lt_succ
    rw [Nat.div_lt_iff_lt_mul (by omega)]; omega
  have hN1' : (1024 : ℝ) ≤ ((n.toNat / b : ℕ) : ℝ) := by exact_mod_cast hN1
  have hN2' : ((n.toNat / b : ℕ) : ℝ) ≤ 1152 := by exact_mod_cast hN2
  have hcells := empty_cells chi2DistributionCdf _ st h2 ?_ 256 (by norm_num) ?_
  · refine ⟨st, h1, reject_of_value st hcells.1 hcells.2.1 hcells.2.2.1 hcells.2.2.2⟩
  · intro c hc h5
    unfold complexityCells at hc
    obtain ⟨l, -, rfl⟩ := List.mem_map.1 hc
    dsimp only at h5 ⊢
    have hlL : L < l := by
      by_contra hcon
      have := share_small b l hb63 hb8 (by omega)
      nlinarith
    have hzero : ((List.range (n.toNat / b)).countP fun k =>
        @decide (IsLinearComplexity (bitBlock s.nth 0 b k) l) (Classical.propDecidable _)) = 0 := by
      rw [List.countP_eq_zero]
      intro k _ hk
      have hk := @of_decide_eq_true _ (Classical.propDecidable _) hk
      have := hk.2 L (segment_generated (fun i => (s.nth i).getLsbD 0) L hrec (k * b) b)
      omega
    rw [hzero]; simp
  · refine ⟨_, List.mem_map.2 ⟨b / 2, List.mem_range.2 (by omega), rfl⟩, ?_⟩
    dsimp only
    have := share_large b (b / 2) hb63 (by omega) (by omega) (by omega) (by omega)
    nlinarith

/-! ### Linear state transitions -/

/-- The bits seen through a linear functional of the states of a linear transition satisfy a recurrence of order at most the dimension
(Cayley-Hamilton). -/
theorem linear_state_recurrence {V : Type} [AddCommGroup V] [Finite V] (hV : ∀ v : V, v + v = 0) (T : AddMonoid.End V) (f : V →+ F2) (v : V)
    (d : Nat) (hd : Nat.card V = 2 ^ d) (u : Nat → Bool) (hu : ∀ i, toF (u i) = f (T^[i] v)) : LinearRecurrence u d := by
  letI : Module (ZMod 2) V := AddCommGroup.zmodModule (n := 2) fun x => by rw [two_nsmul, hV]
  haveI : FiniteDimensional (ZMod 2) V := Module.Finite.of_finite
  have hfin : Module.finrank (ZMod 2) V = d := by
    have h := Module.natCard_eq_pow_finrank (K := ZMod 2) (V := V)
    rw [hd, Nat.card_zmod] at h
    exact (Nat.pow_right_injective (le_refl 2) h).symm
  let TL : V →ₗ[ZMod 2] V := AddMonoidHom.toZModLinearMap 2 T
  let fL : V →ₗ[ZMod 2] ZMod 2 := AddMonoidHom.toZModLinearMap 2 f
  have hT : ∀ i, (TL ^ i) v = T^[i] v := by
    intro i
    rw [Module.End.pow_apply]; rfl
  have hch := LinearMap.aeval_self_charpoly TL
  rw [Polynomial.aeval_eq_sum_range, LinearMap.charpoly_natDegree, hfin, sum_range_succ] at hch
  have hlead : TL.charpoly.coeff d = 1 := by
    have := (LinearMap.charpoly_monic TL).coeff_natDegree
    rwa [LinearMap.charpoly_natDegree, hfin] at this
  rw [hlead, one_smul] at hch
  rw [linearRecurrence_iff]
  refine ⟨fun j => TL.charpoly.coeff j, fun i => ?_⟩
  have h0 := congrArg (fun M : V →ₗ[ZMod 2] V => fL (M ((TL ^ i) v))) hch
  simp only [LinearMap.add_apply, LinearMap.sum_apply, LinearMap.smul_apply, map_add, map_sum, map_smul, LinearMap.zero_apply, map_zero,
    smul_eq_mul] at h0
  have hcomb : ∀ j, fL ((TL ^ j) ((TL ^ i) v)) = toF (u (i + j)) := by
    intro j
    rw [← Module.End.mul_apply, ← pow_add, hT, add_comm j i, hu]
    rfl
  simp only [hcomb] at h0
  have : ∀ a b : F2, a + b = 0 → b = a := by decide
  exact this _ _ h0

/-! ### Batteries and the report -/

/-- The number of values the slower tests get of `2^k` requested ones is at least every `m` with `m^7 ≤ 2^(5k)`. -/
theorem slower_budget (k : Nat) (hk : k < 64) (m : Nat) (hm : 1024 ≤ m) (h : m ^ 7 ≤ 2 ^ (5 * k)) :
    ∃ n', (getTestDefinition .linearComplexity).limiter.limit (BitVec.ofNat 64 (2 ^ k)) = some n' ∧ m ≤ n'.toNat := by
  have hnat : (BitVec.ofNat 64 (2 ^ k)).toNat = 2 ^ k := by
    rw [BitVec.toNat_ofNat, Nat.mod_eq_of_lt (Nat.pow_lt_pow_right (by norm_num) hk)]
  have hpow : (m : ℝ) ≤ ((2 ^ k : ℕ) : ℝ) ^ expSlower := by
    have h1 : ((2 : ℝ) ^ k) ^ (5 / 7 : ℝ) ≤ ((2 ^ k : ℕ) : ℝ) ^ expSlower := by
      push_cast
      apply Real.rpow_le_rpow_of_exponent_le (one_le_pow₀ (by norm_num))
      unfold expSlower; norm_num
    refine le_trans ?_ h1
    have h2 : ((m : ℝ) ^ 7) ≤ (2 : ℝ) ^ (5 * k) := by exact_mod_cast h
    have h3 : (((2 : ℝ) ^ k) ^ (5 / 7 : ℝ)) ^ 7 = 2 ^ (5 * k) := by
      rw [← Real.rpow_natCast, ← Real.rpow_mul (by positivity), ← Real.rpow_natCast, ← Real.rpow_natCast,
        ← Real.rpow_mul (by norm_num)]
      congr 1; push_cast; ring
    rw [← h3] at h2
    exact le_of_pow_le_pow_left₀ (by norm_num) (by positivity) h2
  have hfl : m ≤ ⌊((2 ^ k : ℕ) : ℝ) ^ expSlower⌋₊ := Nat.le_floor hpow
  have hc := (C40_catalogue .linearComplexity (BitVec.ofNat 64 (2 ^ k))).1
  rw [hnat, Spec.budget, if_pos (hm.trans hfl)] at hc
  obtain ⟨n', h1, h2⟩ := Option.map_eq_some_iff.1 hc
  exact ⟨n', h1, by omega⟩

/-- C108. A battery with `2^k` values that contains the linear complexity test fails, under every schedule, if the lowest bits of one of the
streams satisfy a linear recurrence of order `L` with `(1024 (2 L + 8))^7 ≤ 2^(5k)`. -/
theorem C108_battery (hw : 0 < w) (k : Nat) (hk : k < 64) (L : Nat) (hL : (1024 * (2 * L + 8)) ^ 7 ≤ 2 ^ (5 * k)) (setup : TestSetup w)
    (hth : 0 < setup.maxThreads) (b : Battery ℝ) (hb : EvaluateOutcome (suiteDef chi2DistributionCdf) (BitVec.ofNat 64 (2 ^ k)) setup b)
    (htest : TestType.linearComplexity ∈ setup.tests) (s : Stream (BitVec w)) (hs : s ∈ setup.sources)
    (hrec : LinearRecurrence (fun i => ((createStream setup.mix s).nth i).getLsbD 0) L) : ¬ BatteryPasses b := by
  obtain ⟨n', h1, h2⟩ := slower_budget k hk (1024 * (2 * L + 8)) (by omega) hL
  obtain ⟨st, h3, h4, -⟩ := C108_linear hw n' (createStream setup.mix s) L hrec (by omega) (by omega)
  refine battery_rejects chi2DistributionCdf .linearComplexity _ setup hth b hb htest s hs _ rfl
    [⟨toString (n'.toNat / 1024) ++ ":bit(0)", some st⟩] ?_ _ st List.mem_cons_self h4
  dsimp only
  rw [h1]
  exact congrArg some h3

theorem truthful_fails (battery : Nat → Battery ℝ) (subject : String) (start stop K : Nat) (row : ReportRow)
    (h : Truthful battery subject start stop row) (h1 : start ≤ K) (h2 : K ≤ stop) (hf : ¬ BatteryPasses (battery K)) :
    row.subject = subject ∧ row.passed = false ∧ row.power ≤ K ∧ row.failures ≠ [] := by
  obtain ⟨r0, r1, r2, r3, r4, r5, r6, -⟩ := h
  have hle : row.power ≤ K := by
    by_contra hc
    exact hf (r3 K h1 (by omega))
  have hp : row.passed = false := by
    rw [← Bool.not_eq_true]
    intro hc
    have he := r5 hc
    have : row.power = K := by omega
    rw [this] at r4
    exact hf (r4.1 hc)
  refine ⟨r0, hp, hle, fun hc => ?_⟩
  rw [r6.2 hc] at hp; cases hp

private theorem mapM_some_mem {α β : Type*} (f : α → Option β) (l : List α) (bs : List β) (h : l.mapM f = some bs) (a : α) (ha : a ∈ l) :
    ∃ b ∈ bs, f a = some b := by
  induction l generalizing bs with
  | nil => cases ha
  | cons x l ih =>
    rw [List.mapM_cons] at h
    cases hx : f x with
    | none => rw [hx] at h; cases h
    | some y =>
      cases hl : l.mapM f with
      | none => rw [hx, hl] at h; cases h
      | some ys =>
        rw [hx, hl] at h
        obtain rfl : y :: ys = bs := by simpa using h
        rcases List.mem_cons.1 ha with rfl | ha
        · exact ⟨y, List.mem_cons_self, hx⟩
        · obtain ⟨b, hb, e⟩ := ih ys hl ha
          exact ⟨b, List.mem_cons_of_mem _ hb, e⟩

private theorem mapM_ok_mem {α β : Type*} (f : α → R β) (l : List α) (bs : List β) (h : l.mapM f = .ok bs) (a : α) (ha : a ∈ l) :
    ∃ b ∈ bs, f a = .ok b := by
  induction l generalizing bs with
  | nil => cases ha
  | cons x l ih =>
    rw [List.mapM_cons] at h
    cases hx : f x with
    | error e => rw [hx] at h; cases h
    | ok y =>
      cases hl : l.mapM f with
      | error e => rw [hx, hl] at h; cases h
      | ok ys =>
        rw [hx, hl] at h
        obtain rfl : y :: ys = bs := by injection h
        rcases List.mem_cons.1 ha with rfl | ha
        · exact ⟨y, List.mem_cons_self, hx⟩
        · obtain ⟨b, hb, e⟩ := ih ys hl ha
          exact ⟨b, List.mem_cons_of_mem _ hb, e⟩

/-- The setup of a generator is among those of `-test`, and one of its streams is the generator itself. -/
theorem prng_setup_mem (t : WT) (hw : BitVec 32) (s : Subjects t) (fuel : Nat) (hfuel : 2 ^ t.bits ≤ fuel)
    (setups : List (TestSetup t.bits)) (hs : testCommandSetups t (defaultMaxThreads hw) s fuel = some (.ok setups))
    (p : SeedData → Stream (BitVec t.bits)) (hp : p ∈ s.prngs) :
    ∃ x ∈ setups, x.subject = (p ⟨0, 0, 0, 0⟩).name ∧ x.mix = none ∧ x.tests = defaultTestTypes ∧ x.startPower = 10 ∧ x.stopPower = 25 ∧
      0 < x.maxThreads ∧ ∃ st ∈ x.sources, ∃ seed, seed.s64 ≠ 0 ∧ ∀ k, st.nth k = (p seed).nth k := by
  obtain ⟨all, sources, a1, a2, a3, -, a4, a5⟩ := C74_prng_setup t p fuel hfuel
  have hset : createPrngTestSetup t (defaultMaxThreads hw) p fuel =
      some (.ok (defaultSetup (defaultMaxThreads hw) (p ⟨0, 0, 0, 0⟩).name sources defaultTestTypes none)) := by
    unfold createPrngTestSetup; rw [a2]; rfl
  have hmem : ((defaultSetup (defaultMaxThreads hw) (p ⟨0, 0, 0, 0⟩).name sources defaultTestTypes none).range 10 25) ∈ setups := by
    unfold testCommandSetups at hs
    dsimp only at hs
    cases hm : s.prngs.mapM (fun p => createPrngTestSetup t (defaultMaxThreads hw) p fuel) with
    | none => rw [hm] at hs; cases hs
    | some rs =>
      rw [hm] at hs
      obtain ⟨r, hr, hr2⟩ := mapM_some_mem _ _ _ hm p hp
      rw [hset] at hr2
      obtain rfl := Option.some.inj hr2
      dsimp only at hs
      have hs := Option.some.inj hs
      cases hm2 : rs.mapM (fun r => (do .ok ((← r).range 10 25) : R (TestSetup t.bits))) with
      | error e => rw [hm2] at hs; cases hs
      | ok prngs =>
        obtain ⟨x, hx, hx2⟩ := mapM_ok_mem _ _ _ hm2 _ hr
        obtain rfl : _ = x := by injection hx2
        rw [hm2] at hs
        generalize optionalData (defaultMaxThreads hw) s.trng ("file" ++ toString t.bits ++ "::" ++ "trng") 10 (min 25 22) = A at hs
        generalize optionalData (defaultMaxThreads hw) s.drng ("file" ++ toString t.bits ++ "::" ++ "drng") 10 (min 25 27) = B at hs
        generalize (s.combiners.mapM fun c => (do .ok ((← createCombinerTestSetup t (defaultMaxThreads hw) c).range 10 25) :
          R (TestSetup t.bits))) = C at hs
        cases A with
        | error e => cases hs
        | ok A =>
          cases B with
          | error e => cases hs
          | ok B =>
            cases C with
            | error e => cases hs
            | ok C =>
              injection hs with hs
              rw [← hs]
              simp only [List.mem_append]
              exact Or.inl (Or.inr hx)
  refine ⟨_, hmem, rfl, rfl, rfl, rfl, rfl, ?_, ?_⟩
  · have := defaultMaxThreads_pos hw
    show 0 < defaultMaxThreads hw
    omega
  · have hbits : 0 < t.bits := by cases t <;> decide
    obtain ⟨seed, st, e1, e2, e3⟩ := a5 (4 * t.bits - 1) (by omega)
    refine ⟨st, List.mem_of_getElem? e2, seed, a4 seed ?_, fun k => ?_⟩
    · apply List.mem_of_getElem? (i := 4 * t.bits - 1)
      rw [List.getElem?_take_of_lt (by omega)]; exact e1
    · rw [e3 k, if_neg (by omega)]

/-- If the battery of a generator with `2^K` values cannot pass, the report of `-test` says so: it has a line for the generator, which says that
it failed with at most `2^K` values. -/
theorem report_of_rejected (analyse : Battery ℝ → List ResultAnalysis) (ha : Analyses analyse) (t : WT) (hw : BitVec 32)
    (s : Subjects t) (fuel : Nat) (hfuel : 2 ^ t.bits ≤ fuel) (h1 : s.trng ≠ some []) (h2 : s.drng ≠ some [])
    (setups : List (TestSetup t.bits)) (hs : testCommandSetups t (defaultMaxThreads hw) s fuel = some (.ok setups))
    (runs : List (EvalRun t.bits)) (hruns : runs.map Prod.fst = setups)
    (hout : ∀ run ∈ runs, ∀ k : Nat, 10 ≤ k → k ≤ 25 →
      EvaluateOutcome (suiteDef chi2DistributionCdf) (BitVec.ofNat 64 (2 ^ k)) run.1 (run.2 (BitVec.ofNat 64 (2 ^ k))))
    (config : Config) (fs : TextFiles) :
    ∃ (fs' : TextFiles) (rows : List ReportRow), testCommand false (config.testResultFilePath t) analyse runs fs = .ok fs' ∧
      fs' (config.testResultFilePath t) = some (reportIntro t.bits ++ String.join (rows.map ReportRow.text)) ∧
      (∀ row ∈ rows, 10 ≤ row.power) ∧
      ∀ p ∈ s.prngs, ∀ K : Nat, 10 ≤ K → K ≤ 25 → (∀ (setup : TestSetup t.bits) (b : Battery ℝ), 0 < setup.maxThreads → setup.tests = defaultTestTypes →
      EvaluateOutcome (suiteDef chi2DistributionCdf) (BitVec.ofNat 64 (2 ^ K)) setup b →
      ∀ st ∈ setup.sources, createStream setup.mix st = st → ∀ seed : SeedData, seed.s64 ≠ 0 → (∀ k, st.nth k = (p seed).nth k) → ¬ BatteryPasses b) →
      ∃ row ∈ rows, row.subject = (p ⟨0, 0, 0, 0⟩).name ∧ row.passed = false ∧ row.power ≤ K ∧ row.failures ≠ [] := by
  obtain ⟨fs', rows, r1, r2, -, -, r3⟩ := C96_test_command chi2DistributionCdf analyse ha t hw s fuel hfuel h1 h2 setups hs runs hruns hout config fs
  refine ⟨fs', rows, r1, r2, ?_, fun p hp K hK hK2 hrej => ?_⟩
  · clear hruns hout r1 r2
    induction r3 with
    | nil => simp
    | cons h _ ih => exact List.forall_mem_cons.2 ⟨h.2.1, ih⟩
  obtain ⟨x, hx, x1, x2, x3, x4, x5, x6, st, hst, seed, hseed, hk⟩ := prng_setup_mem t hw s fuel hfuel setups hs p hp
  rw [← hruns] at hx
  obtain ⟨run, hrun, rfl⟩ := List.mem_map.1 hx
  have hnot := hrej run.1 _ x6 x3 (hout run hrun K hK hK2) st hst (by unfold createStream; rw [x2]) seed hseed hk
  have hex : ∀ (l : List (EvalRun t.bits)) (rows : List ReportRow), List.Forall₂ (fun (run : EvalRun t.bits) row =>
      Truthful (fun k => run.2 (BitVec.ofNat 64 (2 ^ k))) run.1.subject 10 run.1.stopPower.toNat row) l rows → run ∈ l →
      ∃ row ∈ rows, Truthful (fun k => run.2 (BitVec.ofNat 64 (2 ^ k))) run.1.subject 10 run.1.stopPower.toNat row := by
    intro l rows h
    induction h with
    | nil => intro h; cases h
    | cons h _ ih =>
      intro hm
      rcases List.mem_cons.1 hm with rfl | hm
      · exact ⟨_, List.mem_cons_self, h⟩
      · obtain ⟨row, hr, ht⟩ := ih hm
        exact ⟨row, List.mem_cons_of_mem _ hr, ht⟩
  obtain ⟨row, hr, ht⟩ := hex runs rows r3 hrun
  have := truthful_fails _ _ _ _ K row ht hK (by rw [x5]; exact hK2) hnot
  exact ⟨row, hr, by rw [this.1, x1], this.2⟩

/-! ### The xorshift generators -/

/-- A bit of a word, as a linear functional. -/
def XV.bit (j : Nat) : XV w →+ F2 where
  toFun x := toF (BitVec.getLsbD (w := w) x j)
  map_zero' := by show toF (BitVec.getLsbD (BitVec.ofNat w 0) j) = 0; simp [toF]
  map_add' x y := by
    show toF (BitVec.getLsbD (BitVec.xor x y) j) = _
    rw [← toF_xor]
    congr 1
    exact BitVec.getLsbD_xor ..

theorem card_xv (w : Nat) : Nat.card (XV w) = 2 ^ w := by
  show Nat.card (BitVec w) = 2 ^ w
  rw [Nat.card_eq_fintype_card]
  exact card_bv w

instance : Finite (XV w) := inferInstanceAs (Finite (BitVec w))

/-- Every output bit of `rng32::xorshift` satisfies a linear recurrence of order 32, for every seed. -/
theorem recurrence_xorshift32 (seed : SeedData) (j : Nat) : LinearRecurrence (fun i => ((rng32_xorshift seed).nth i).getLsbD j) 32 := by
  refine linear_state_recurrence (V := XV 32) XV.add_self T32 ((XV.bit j).comp T32) (show XV 32 from seed.s32) 32 (card_xv 32) _ fun i => ?_
  dsimp only
  rw [nth_xorshift32]
  rfl

/-- Every output bit of `rng64::xorshift` satisfies a linear recurrence of order 64. -/
theorem recurrence_xorshift64 (seed : SeedData) (j : Nat) : LinearRecurrence (fun i => ((rng64_xorshift seed).nth i).getLsbD j) 64 := by
  refine linear_state_recurrence (V := XV 64) XV.add_self T64 ((XV.bit j).comp T64) (show XV 64 from seed.s64) 64 (card_xv 64) _ fun i => ?_
  dsimp only
  rw [nth_xorshift64]
  rfl

theorem nth_xorshift_64 (seed : SeedData) (k : Nat) :
    (rng32_xorshift_64 seed).nth k = (((rng64_xorshift seed).nth k) >>> 32).setWidth 32 := by
  unfold rng32_xorshift_64
  rw [Stream.nth_mapS]

/-- Every output bit of `rng32::xorshift_64` satisfies a linear recurrence of order 64. -/
theorem recurrence_xorshift_64 (seed : SeedData) (j : Nat) (hj : j < 32) :
    LinearRecurrence (fun i => ((rng32_xorshift_64 seed).nth i).getLsbD j) 64 := by
  have : (fun i => ((rng32_xorshift_64 seed).nth i).getLsbD j) = fun i => ((rng64_xorshift seed).nth i).getLsbD (32 + j) := by
    funext i
    rw [nth_xorshift_64, BitVec.getLsbD_setWidth, BitVec.getLsbD_ushiftRight]
    simp [hj]
  rw [this]
  exact recurrence_xorshift64 seed _

/-- The lowest bit of a sum is the exclusive or of the lowest bits. -/
theorem lsb_add (x y : BitVec w) : (x + y).getLsbD 0 = ((x.getLsbD 0) ^^ (y.getLsbD 0)) := by
  rcases Nat.eq_zero_or_pos w with rfl | hw
  · simp
  · rw [BitVec.getLsbD_add hw]
    simp

instance {w₁ w₂ : Nat} : Finite (XV w₁ × XV w₂) := inferInstance

theorem xv_prod_add {A B : Type} [AddCommGroup A] [AddCommGroup B] (hA : ∀ a : A, a + a = 0) (hB : ∀ b : B, b + b = 0) (v : A × B) :
    v + v = 0 := Prod.ext (hA _) (hB _)

/-- The lowest output bit of `rng64::xorshift128+` and of `rng64::xoroshiro128+` satisfies a linear recurrence of order 128. -/
theorem recurrence_xorshift128plus (seed : SeedData) : LinearRecurrence (fun i => ((rng64_xorshift128plus seed).nth i).getLsbD 0) 128 := by
  refine linear_state_recurrence (V := XV 64 × XV 64) (xv_prod_add XV.add_self XV.add_self) T128a
    ((XV.bit 0).coprod (XV.bit 0)) (show XV 64 × XV 64 from seed.s128_64) 128 ?_ _ fun i => ?_
  · rw [Nat.card_prod, card_xv]; norm_num
  · dsimp only
    rw [nth_xs128, lsb_add, toF_xor]
    rfl

theorem recurrence_xoroshiro128plus (seed : SeedData) : LinearRecurrence (fun i => ((rng64_xoroshiro128plus seed).nth i).getLsbD 0) 128 := by
  refine linear_state_recurrence (V := XV 64 × XV 64) (xv_prod_add XV.add_self XV.add_self) T128b
    ((XV.bit 0).coprod (XV.bit 0)) (show XV 64 × XV 64 from seed.s128_64) 128 ?_ _ fun i => ?_
  · rw [Nat.card_prod, card_xv]; norm_num
  · dsimp only
    rw [nth_xor128, lsb_add, toF_xor]
    rfl

/-- C108. For every seed: every output bit of the xorshift generators satisfies a linear recurrence of the order of the number of state bits;
the lowest output bit of xorshift128+ and xoroshiro128+ one of order 128. -/
theorem C108_generators (seed : SeedData) :
    (∀ j, LinearRecurrence (fun i => ((rng32_xorshift seed).nth i).getLsbD j) 32) ∧
    (∀ j, LinearRecurrence (fun i => ((rng64_xorshift seed).nth i).getLsbD j) 64) ∧
    (∀ j < 32, LinearRecurrence (fun i => ((rng32_xorshift_64 seed).nth i).getLsbD j) 64) ∧
    LinearRecurrence (fun i => ((rng64_xorshift128plus seed).nth i).getLsbD 0) 128 ∧
    LinearRecurrence (fun i => ((rng64_xoroshiro128plus seed).nth i).getLsbD 0) 128 :=
  ⟨recurrence_xorshift32 seed, recurrence_xorshift64 seed, recurrence_xorshift_64 seed, recurrence_xorshift128plus seed,
    recurrence_xoroshiro128plus seed⟩

/-- C108. The report of `-test`, for any data files, further subjects and schedules: a generator whose lowest bits satisfy a linear recurrence
of order `L` for every seed (`(1024 (2 L + 8))^7 ≤ 2^(5K)`, `K ≤ 25`) has a line, and it says that the generator failed with at most `2^K`
values; a generator whose most significant bit is stuck has a line that says that it failed with `2^10` values. -/
theorem C108_report (analyse : Battery ℝ → List ResultAnalysis) (ha : Analyses analyse) (t : WT) (hw : BitVec 32)
    (s : Subjects t) (fuel : Nat) (hfuel : 2 ^ t.bits ≤ fuel) (h1 : s.trng ≠ some []) (h2 : s.drng ≠ some [])
    (setups : List (TestSetup t.bits)) (hs : testCommandSetups t (defaultMaxThreads hw) s fuel = some (.ok setups))
    (runs : List (EvalRun t.bits)) (hruns : runs.map Prod.fst = setups)
    (hout : ∀ run ∈ runs, ∀ k : Nat, 10 ≤ k → k ≤ 25 →
      EvaluateOutcome (suiteDef chi2DistributionCdf) (BitVec.ofNat 64 (2 ^ k)) run.1 (run.2 (BitVec.ofNat 64 (2 ^ k))))
    (config : Config) (fs : TextFiles) :
    ∃ (fs' : TextFiles) (rows : List ReportRow), testCommand false (config.testResultFilePath t) analyse runs fs = .ok fs' ∧
      fs' (config.testResultFilePath t) = some (reportIntro t.bits ++ String.join (rows.map ReportRow.text)) ∧
      (∀ p ∈ s.prngs, ∀ K L : Nat, K ≤ 25 → (1024 * (2 * L + 8)) ^ 7 ≤ 2 ^ (5 * K) →
        (∀ seed, LinearRecurrence (fun i => ((p seed).nth i).getLsbD 0) L) →
        ∃ row ∈ rows, row.subject = (p ⟨0, 0, 0, 0⟩).name ∧ row.passed = false ∧ row.power ≤ K ∧ row.failures ≠ []) ∧
      (∀ p ∈ s.prngs, ∀ b : Bool, (∀ seed i, ((p seed).nth i).msb = b) →
        ∃ row ∈ rows, row.subject = (p ⟨0, 0, 0, 0⟩).name ∧ row.passed = false ∧ row.power = 10 ∧ row.failures ≠ []) := by
  obtain ⟨fs', rows, r1, r2, r4, r3⟩ := report_of_rejected analyse ha t hw s fuel hfuel h1 h2 setups hs runs hruns hout config fs
  refine ⟨fs', rows, r1, r2, fun p hp K L hK hL hrec => ?_, fun p hp b hb => ?_⟩
  · have hK10 : 10 ≤ K := by
      by_contra hc
      have h3 : (2 : ℕ) ^ (5 * K) ≤ 2 ^ 45 := Nat.pow_le_pow_right (by norm_num) (by omega)
      have h4 : (8192 : ℕ) ^ 7 ≤ (1024 * (2 * L + 8)) ^ 7 := Nat.pow_le_pow_left (by omega) 7
      have : (2 : ℕ) ^ 45 < 8192 ^ 7 := by norm_num
      omega
    refine r3 p hp K hK10 hK ?_
    intro setup b hth htests hb st hst hcreate seed _ hnth
    refine C108_battery (by cases t <;> decide) K (by omega) L hL setup hth b hb (by rw [htests]; decide) st hst ?_
    rw [hcreate]
    have := hrec seed
    simpa only [hnth] using this
  · obtain ⟨row, e1, e2, e3, e4, e5⟩ := r3 p hp 10 le_rfl (by norm_num) fun setup bat hth htests hbat st hst hcreate seed _ hnth => by
      have hnat : (BitVec.ofNat 64 (2 ^ 10)).toNat = 2 ^ 10 := by decide
      obtain ⟨x, hx, hp', -⟩ := C107_stuck_top_bit t (BitVec.ofNat 64 (2 ^ 10)) (by rw [hnat]; norm_num) (by rw [hnat]; norm_num)
        (createStream setup.mix st) b (fun i _ => by rw [hcreate, hnth, hb])
      exact battery_rejects chi2DistributionCdf .uniform _ setup hth _ hbat (by rw [htests]; decide) st hst _ rfl _
        (by show some (uniformTest chi2DistributionCdf (BitVec.ofNat 64 (2 ^ 10)) (createStream setup.mix st)) = _; rw [hx]) "" x
        List.mem_cons_self hp'
    exact ⟨row, e1, e2, e3, le_antisymm e4 (r4 row e1), e5⟩

/-- The most significant bit of `std::minstd_rand` is always 0. -/
theorem minstd_msb (seed : SeedData) (i : Nat) : ((rng32_minstd seed).nth i).msb = false := by
  rw [Stream.nth_eq]
  show (BitVec.ofNat 32 (minstdStep _)).msb = false
  generalize (rng32_minstd seed).stateAt i = x
  have : minstdStep x < 2147483647 := Nat.mod_lt _ (by norm_num)
  rw [BitVec.msb_eq_decide, BitVec.toNat_ofNat]
  simp
  omega

/-- C108. 32-bit words, the generators `rng32::xorshift`, `rng32::xorshift_64` and `rng32::minstd_rand` being among the subjects: the report has
lines for them that say that they failed, with at most `2^23`, at most `2^24` and `2^10` values. -/
theorem C108_report_32 (analyse : Battery ℝ → List ResultAnalysis) (ha : Analyses analyse) (hw : BitVec 32)
    (s : Subjects .u32) (fuel : Nat) (hfuel : 2 ^ WT.u32.bits ≤ fuel) (h1 : s.trng ≠ some []) (h2 : s.drng ≠ some [])
    (setups : List (TestSetup WT.u32.bits)) (hs : testCommandSetups .u32 (defaultMaxThreads hw) s fuel = some (.ok setups))
    (runs : List (EvalRun WT.u32.bits)) (hruns : runs.map Prod.fst = setups)
    (hout : ∀ run ∈ runs, ∀ k : Nat, 10 ≤ k → k ≤ 25 →
      EvaluateOutcome (suiteDef chi2DistributionCdf) (BitVec.ofNat 64 (2 ^ k)) run.1 (run.2 (BitVec.ofNat 64 (2 ^ k))))
    (config : Config) (fs : TextFiles)
    (hp1 : rng32_xorshift ∈ s.prngs) (hp2 : rng32_xorshift_64 ∈ s.prngs) (hp3 : rng32_minstd ∈ s.prngs) :
    ∃ (fs' : TextFiles) (rows : List ReportRow), testCommand false (config.testResultFilePath .u32) analyse runs fs = .ok fs' ∧
      fs' (config.testResultFilePath .u32) = some (reportIntro 32 ++ String.join (rows.map ReportRow.text)) ∧
      (∃ row ∈ rows, row.subject = "rng32::xorshift" ∧ row.passed = false ∧ row.power ≤ 23 ∧ row.failures ≠ []) ∧
      (∃ row ∈ rows, row.subject = "rng32::xorshift_64" ∧ row.passed = false ∧ row.power ≤ 24 ∧ row.failures ≠ []) ∧
      (∃ row ∈ rows, row.subject = "rng32::minstd_rand" ∧ row.passed = false ∧ row.power = 10 ∧ row.failures ≠ []) := by
  obtain ⟨fs', rows, r1, r2, r3, r4⟩ := C108_report analyse ha .u32 hw s fuel hfuel h1 h2 setups hs runs hruns hout config fs
  exact ⟨fs', rows, r1, r2, r3 _ hp1 23 32 (by norm_num) (by norm_num) fun seed => recurrence_xorshift32 seed 0,
    r3 _ hp2 24 64 (by norm_num) (by norm_num) fun seed => recurrence_xorshift_64 seed 0 (by norm_num),
    r4 _ hp3 false minstd_msb⟩

/-- C108. 64-bit words, `rng64::xorshift` being among the subjects: the report has a line for it that says that it failed with at most `2^24`
values. -/
theorem C108_report_64 (analyse : Battery ℝ → List ResultAnalysis) (ha : Analyses analyse) (hw : BitVec 32)
    (s : Subjects .u64) (fuel : Nat) (hfuel : 2 ^ WT.u64.bits ≤ fuel) (h1 : s.trng ≠ some []) (h2 : s.drng ≠ some [])
    (setups : List (TestSetup WT.u64.bits)) (hs : testCommandSetups .u64 (defaultMaxThreads hw) s fuel = some (.ok setups))
    (runs : List (EvalRun WT.u64.bits)) (hruns : runs.map Prod.fst = setups)
    (hout : ∀ run ∈ runs, ∀ k : Nat, 10 ≤ k → k ≤ 25 →
      EvaluateOutcome (suiteDef chi2DistributionCdf) (BitVec.ofNat 64 (2 ^ k)) run.1 (run.2 (BitVec.ofNat 64 (2 ^ k))))
    (config : Config) (fs : TextFiles)
    (hp : rng64_xorshift ∈ s.prngs) :
    ∃ (fs' : TextFiles) (rows : List ReportRow), testCommand false (config.testResultFilePath .u64) analyse runs fs = .ok fs' ∧
      fs' (config.testResultFilePath .u64) = some (reportIntro 64 ++ String.join (rows.map ReportRow.text)) ∧
      ∃ row ∈ rows, row.subject = "rng64::xorshift" ∧ row.passed = false ∧ row.power ≤ 24 ∧ row.failures ≠ [] := by
  obtain ⟨fs', rows, r1, r2, r3, r4⟩ := C108_report analyse ha .u64 hw s fuel hfuel h1 h2 setups hs runs hruns hout config fs
  exact ⟨fs', rows, r1, r2, r3 _ hp 24 64 (by norm_num) (by norm_num) fun seed => recurrence_xorshift64 seed 0⟩

-- C108, non-vacuity: a generator that meets the hypotheses of `C108_linear`, and another kind of sequence with a recurrence.
example (seed : SeedData) : ∃ st, linearComplexityTest chi2DistributionCdf 72704#64 (rng32_xorshift seed) = .ok [⟨"71:bit(0)", some st⟩] ∧
    statPass st = false := by
  obtain ⟨st, h1, -, h2⟩ := C108_linear (by norm_num) 72704#64 (rng32_xorshift seed) 32 (recurrence_xorshift32 seed 0) (by decide) (by decide)
  exact ⟨st, h1, h2⟩
example : LinearRecurrence (fun i => decide (i % 3 = 2)) 3 := by
  refine ⟨fun j => decide (j = 0), fun i => ?_⟩
  have : (i + 3) % 3 = i % 3 := by omega
  simp [List.range_succ, this]
-- Not every sequence has one of a given order.
example : ¬ LinearRecurrence (fun i => decide (i = 1)) 1 := by
  rintro ⟨c, h⟩
  have h0 := h 0
  simp [List.range_succ] at h0

-- The hypotheses of the theorems on reports can be met.
example : ∃ (analyse : Battery ℝ → List ResultAnalysis) (s : Subjects .u32) (fuel : Nat) (setups : List (TestSetup WT.u32.bits))
    (runs : List (EvalRun WT.u32.bits)), Analyses analyse ∧ 2 ^ WT.u32.bits ≤ fuel ∧ s.trng ≠ some [] ∧ s.drng ≠ some [] ∧
    testCommandSetups .u32 (defaultMaxThreads 8) s fuel = some (.ok setups) ∧ runs.map Prod.fst = setups ∧
    (∀ run ∈ runs, ∀ k : Nat, 10 ≤ k → k ≤ 25 →
      EvaluateOutcome (suiteDef chi2DistributionCdf) (BitVec.ofNat 64 (2 ^ k)) run.1 (run.2 (BitVec.ofNat 64 (2 ^ k)))) ∧
    rng32_xorshift ∈ s.prngs ∧ rng32_xorshift_64 ∈ s.prngs ∧ rng32_minstd ∈ s.prngs := by
  classical
  let s : Subjects .u32 := ⟨none, some [1, 2, 3], [], [rng32_sfc, rng32_xorshift, rng32_xorshift_64, rng32_minstd], []⟩
  obtain ⟨setups, e1, -, -⟩ := C96_subjects .u32 8 s (2 ^ 32) le_rfl (by simp [s]) (by simp [s])
  choose f hf using fun (s : TestSetup WT.u32.bits) n => C35_terminates (suiteDef chi2DistributionCdf) n s
  refine ⟨fun b => if h : WellFormed b then (C67_analysis b h).1.choose else [], s, 2 ^ 32, setups, setups.map fun s => (s, f s),
    fun b h => ?_, le_rfl, by simp [s], by simp [s], e1, by simp [Function.comp_def], ?_, by simp [s], by simp [s], by simp [s]⟩
  · dsimp only
    rw [dif_pos h]
    exact (C67_analysis b h).1.choose_spec
  · intro run hr k _ _
    obtain ⟨s, _, rfl⟩ := List.mem_map.1 hr
    exact hf s _

end TFR
