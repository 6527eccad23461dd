import Verif.Props.Locality
/-
C145: which features of the values each test looks at.  Two sources that agree in these features get the same report, however they
differ otherwise.
-/
namespace TFR
open Spec
variable {w : Nat}

private theorem hbind {α β : Type} (x : α) (f : α → R β) : ((Except.ok x : R α) >>= f) = f x := rfl

private theorem foldlM_same {α β σ : Type} (f : σ → α → R σ) (g : σ → β → R σ) (a : Nat → α) (b : Nat → β) (n : Nat)
    (h : ∀ st i, i < n → f st (a i) = g st (b i)) (st : σ) :
    ((List.range n).map a).foldlM f st = ((List.range n).map b).foldlM g st := by
  have key : ∀ (l : List Nat) (st : σ), (∀ i ∈ l, i < n) → (l.map a).foldlM f st = (l.map b).foldlM g st := by
    intro l
    induction l with
    | nil => intro st _; rfl
    | cons x l ih =>
      intro st hl
      rw [List.map_cons, List.map_cons, List.foldlM_cons, List.foldlM_cons, h st x (hl x (by simp))]
      cases g st (b x) with
      | error e => rfl
      | ok st' => exact ih st' (fun i hi => hl i (List.mem_cons_of_mem _ hi))
  exact key _ st fun i hi => List.mem_range.1 hi

/-! ### Lowest bits -/

/-- C145 (lowest bit). The linear complexity and the divisibility test look at the lowest bits of the `n` values only; the word sizes
may even differ. -/
theorem C145_lowest_bit {w' : Nat} (hw : 0 < w) (hw' : 0 < w') (cdf : ℝ → ℝ → ℝ) (n : BitVec 64) (s : Stream (BitVec w)) (s' : Stream (BitVec w'))
    (h : ∀ i, i < n.toNat → (s.nth i).getLsbD 0 = (s'.nth i).getLsbD 0) :
    linearComplexityTest cdf n s = linearComplexityTest cdf n s' ∧ divisibilityTest cdf n s = divisibilityTest cdf n s' := by
  constructor
  · obtain ⟨h1, h2⟩ := C87_linear_complexity cdf hw n s
    obtain ⟨h1', h2'⟩ := C87_linear_complexity cdf hw' n s'
    by_cases hm : n.toNat < 8192
    · rw [h1 hm, h1' hm]
    · obtain ⟨a, h3, h4⟩ := h2 (by omega)
      obtain ⟨a', h3', h4'⟩ := h2' (by omega)
      have e2 : complexityCells (n.toNat / 1024) (n.toNat / (n.toNat / 1024)) (bitBlock s.nth 0 (n.toNat / 1024)) =
          complexityCells (n.toNat / 1024) (n.toNat / (n.toNat / 1024)) (bitBlock s'.nth 0 (n.toNat / 1024)) := by
        unfold complexityCells
        apply List.map_congr_left
        intro l _
        rw [List.countP_congr fun k hk => ?_]
        have hk := List.mem_range.1 hk
        have e : bitBlock s.nth 0 (n.toNat / 1024) k = bitBlock s'.nth 0 (n.toNat / 1024) k := by
          unfold bitBlock
          apply List.map_congr_left
          intro i hi
          have hi := List.mem_range.1 hi
          have h6 : (k + 1) * (n.toNat / 1024) ≤ n.toNat := le_trans (Nat.mul_le_mul_right _ hk) (Nat.div_mul_le_self _ _)
          rw [Nat.add_mul, Nat.one_mul] at h6
          exact h _ (by omega)
        rw [e]
      rw [e2, h4'] at h4
      rw [h3, h3']
      cases h4; rfl
  · have h1 : ∀ {u : Nat} (v : BitVec u), v.toNat % 2 = (v.getLsbD 0).toNat := by
      intro u v
      rw [BitVec.getLsbD, Nat.testBit_zero]
      rcases Nat.mod_two_eq_zero_or_one v.toNat with h | h <;> simp [h]
    have hcd : ∀ tracked, collectDivisible 2#64 5#64 tracked (s.take n.toNat) = collectDivisible 2#64 5#64 tracked (s'.take n.toNat) := by
      intro tracked
      unfold collectDivisible
      rw [Stream.take_eq_map, Stream.take_eq_map, foldlM_same (divStep 2#64 5#64) (divStep 2#64 5#64) s.nth s'.nth n.toNat]
      intro st i hi
      unfold divStep
      have : (s.nth i).toNat % (2#64 : BitVec 64).toNat = (s'.nth i).toNat % (2#64 : BitVec 64).toNat := by
        show (s.nth i).toNat % 2 = (s'.nth i).toNat % 2
        rw [h1, h1, h i hi]
      rw [this]
    unfold divisibilityTest
    dsimp only
    simp only [show BitVec.ofNat 64 2 = 2#64 from rfl, show BitVec.ofNat 64 5 = 5#64 from rfl, hcd]

/-- The 8-bit and the 64-bit counter have the same lowest bits. -/
example (cdf : ℝ → ℝ → ℝ) :
    linearComplexityTest cdf 10000#64 (counterStream 8 1 0) = linearComplexityTest cdf 10000#64 (counterStream 64 1 0) :=
  (C145_lowest_bit (by norm_num) (by norm_num) cdf 10000#64 (counterStream 8 1 0) (counterStream 64 1 0) fun i _ => by
    rw [nth_counter, nth_counter]
    rw [BitVec.getLsbD_setWidth, BitVec.getLsbD_setWidth]
    rfl).1

/-! ### Halves -/

/-- C145 (upper half). The runs test looks only at which of the `n` values have the top bit set and which are the largest word without
(those it skips).  The gap test looks only at which values are in the lower half (for 8, 16 and 32-bit words: at the top bits). -/
theorem C145_halves (cdf : ℝ → ℝ → ℝ) (t : WT) (n : BitVec 64) (s s' : Stream (BitVec t.bits)) :
    ((∀ i, i < n.toNat → (s.nth i).msb = (s'.nth i).msb ∧ (s.nth i = BitVec.intMax t.bits ↔ s'.nth i = BitVec.intMax t.bits)) →
      runsTest n s = runsTest n s') ∧
    ((∀ i, i < n.toNat → (lowHalf t (s.nth i) ↔ lowHalf t (s'.nth i))) → gapTest cdf n s = gapTest cdf n s') ∧
    (t ≠ .u64 → ∀ v : BitVec t.bits, lowHalf t v ↔ v.msb = false) := by
  have hb : 0 < t.bits := by cases t <;> simp [WT.bits]
  have hpow : 2 ^ t.bits = 2 * 2 ^ (t.bits - 1) := by
    rw [← pow_succ']; congr 1; omega
  have hp0 : 0 < 2 ^ (t.bits - 1) := by positivity
  refine ⟨?_, ?_, ?_⟩
  · intro h
    have hc : BitVec.ofNat t.bits ((2 ^ t.bits - 1) / 2) = BitVec.intMax t.bits := by
      apply BitVec.eq_of_toNat_eq
      rw [BitVec.toNat_ofNat, BitVec.toNat_intMax, Nat.mod_eq_of_lt (by omega)]
      omega
    have hgt : ∀ v : BitVec t.bits, BitVec.intMax t.bits < v ↔ v.msb = true := by
      intro v
      rw [BitVec.lt_def, BitVec.toNat_intMax, BitVec.msb_eq_decide, decide_eq_true_eq]
      omega
    have hstep : ∀ (st : RunsData × Bool) i, i < n.toNat →
        runsStep (BitVec.intMax t.bits) st (s.nth i) = runsStep (BitVec.intMax t.bits) st (s'.nth i) := by
      intro st i hi
      obtain ⟨h1, h2⟩ := h i hi
      unfold runsStep
      simp only [h2, hgt, h1]
    have hfold : ∀ (l : List Nat) (st : RunsData × Bool), (∀ i ∈ l, i < n.toNat) →
        (l.map s.nth).foldl (runsStep (BitVec.intMax t.bits)) st = (l.map s'.nth).foldl (runsStep (BitVec.intMax t.bits)) st := by
      intro l
      induction l with
      | nil => intro st _; rfl
      | cons x l ih =>
        intro st hl
        rw [List.map_cons, List.map_cons, List.foldl_cons, List.foldl_cons, hstep st x (hl x (by simp))]
        exact ih _ fun i hi => hl i (List.mem_cons_of_mem _ hi)
    unfold runsTest
    rw [hc]
    refine congrArg (fun d => Except.ok (mainSubTest (runsStats d))) ?_
    rw [Stream.take_eq_map, Stream.take_eq_map]
    cases hn : n.toNat with
    | zero => rfl
    | succ k =>
      have e1 := hfold (List.range (k + 1)) (⟨1#64, 0#64, 0#64⟩, decide (BitVec.intMax t.bits < s.nth 0)) (by
        intro i hi; rw [hn]; exact List.mem_range.1 hi)
      have e2 : decide (BitVec.intMax t.bits < s.nth 0) = decide (BitVec.intMax t.bits < s'.nth 0) := by
        rw [decide_eq_decide, hgt, hgt, (h 0 (by omega)).1]
      unfold generateRunsData
      rw [List.range_succ_eq_map, List.map_cons, List.map_cons] at e1 ⊢
      dsimp only
      rw [e2] at e1
      rw [e2, e1]
  · intro h
    have hstep : ∀ (m : Nat) (a b : ℚ), (a = 0 ∧ b = 1 / 2 ∨ a = 1 / 2 ∧ b = 1) →
        generateGaps m a b (s.take n.toNat) = generateGaps m a b (s'.take n.toNat) := by
      intro m a b hab
      unfold generateGaps
      dsimp only
      rw [Stream.take_eq_map, Stream.take_eq_map]
      generalize hb' : (if isNear b 1 (Fl.rnd (1 / 10 ^ 14)) = true then 2 else b) = b'
      rw [foldlM_same (gapStep a b') (gapStep a b') s.nth s'.nth n.toNat]
      intro st i hi
      have hiff : (rescaleTypeTo01 (s.nth i) ≥ a ∧ rescaleTypeTo01 (s.nth i) < b') ↔
          (rescaleTypeTo01 (s'.nth i) ≥ a ∧ rescaleTypeTo01 (s'.nth i) < b') := by
        rcases hab with ⟨rfl, rfl⟩ | ⟨rfl, rfl⟩
        · have : b' = 1 / 2 := by
            rw [← hb', if_neg]
            unfold isNear
            rw [decide_eq_true_eq]
            decide +kernel
          subst this
          exact (C45_lower_half t _).trans ((h i hi).trans (C45_lower_half t _).symm)
        · have : b' = 2 := by
            rw [← hb', if_pos]
            unfold isNear
            rw [decide_eq_true_eq]
            decide +kernel
          subst this
          exact (C45_halves_partition _).trans ((not_congr ((C45_lower_half t _).trans ((h i hi).trans
            (C45_lower_half t _).symm))).trans (C45_halves_partition _).symm)
      unfold gapStep
      simp only [hiff]
    have e0 : Fl.div 1 ((2 : ℕ) : ℚ) = 1/2 := by decide +kernel
    have e1 : snapTo01 (Fl.mul ((0 : ℕ) : ℚ) (1/2)) = 0 := by decide +kernel
    have e2 : snapTo01 (Fl.add 0 (1/2)) = 1/2 := by decide +kernel
    have e3 : snapTo01 (Fl.mul ((1 : ℕ) : ℚ) (1/2)) = 1/2 := by decide +kernel
    have e4 : snapTo01 (Fl.add (1/2) (1/2)) = 1 := by decide +kernel
    unfold gapTest
    dsimp only
    rw [e0, show List.range 2 = [0, 1] from rfl, List.foldl_cons, List.foldl_cons, List.foldl_nil, List.foldl_cons, List.foldl_cons,
      List.foldl_nil, e1, e2, e3, e4]
    have g0 := fun m => hstep m 0 (1 / 2) (Or.inl ⟨rfl, rfl⟩)
    have g1 := fun m => hstep m (1 / 2) 1 (Or.inr ⟨rfl, rfl⟩)
    simp only [g0, g1]
  · intro ht v
    unfold lowHalf
    rw [if_neg ht, BitVec.msb_eq_decide, decide_eq_false_iff_not]
    omega

/-- Replacing all small bytes but 127 by 0 and all large ones by 255 is not noticed by the runs test and the gap test. -/
example (cdf : ℝ → ℝ → ℝ) (n : BitVec 64) (s : Stream (BitVec WT.u8.bits)) :
    let s' := s.mapS "coarse" fun v => if v.msb then 255#8 else if v = 127#8 then v else 0#8
    runsTest n s = runsTest n s' ∧ gapTest cdf n s = gapTest cdf n s' := by
  have key : ∀ v : BitVec 8, v.msb = (if v.msb then 255#8 else if v = 127#8 then v else 0#8).msb ∧
      (v = BitVec.intMax 8 ↔ (if v.msb then 255#8 else if v = 127#8 then v else 0#8) = BitVec.intMax 8) := by decide +kernel
  obtain ⟨h1, h2, h3⟩ := C145_halves cdf .u8 n s (s.mapS "coarse" fun v => if v.msb then 255#8 else if v = 127#8 then v else 0#8)
  refine ⟨h1 fun i _ => ?_, h2 fun i _ => ?_⟩
  · rw [Stream.nth_mapS]
    exact key _
  · rw [h3 (by decide), h3 (by decide), Stream.nth_mapS, ← (key _).1]

/-! ### Coupons -/

/-- The double product whose integer part is the coupon number is at least 0 and at most `2^63`. -/
private theorem coupon_bounds (wanted : BitVec 64) (h : wanted.toNat ≤ 2 ^ 63) (v : BitVec w) :
    0 ≤ Fl.mul (Fl.ofNat wanted.toNat) (rescaleTypeTo01 v) ∧ Fl.mul (Fl.ofNat wanted.toNat) (rescaleTypeTo01 v) ≤ 2 ^ 63 := by
  have hw0 : 0 ≤ Fl.ofNat wanted.toNat := Fl.rnd_nonneg (by positivity)
  have hw1 : Fl.ofNat wanted.toNat ≤ 2 ^ 63 := by
    rw [← Fl.rnd_two_pow 63]
    apply Fl.rnd_mono
    exact_mod_cast h
  refine ⟨Fl.rnd_nonneg (mul_nonneg hw0 (rescale_nonneg v)), ?_⟩
  rw [← Fl.rnd_two_pow 63]
  apply Fl.rnd_mono
  calc Fl.ofNat wanted.toNat * rescaleTypeTo01 v ≤ Fl.ofNat wanted.toNat * 1 :=
        mul_le_mul_of_nonneg_left (rescale_le_one v) hw0
    _ ≤ _ := by rw [mul_one]; exact hw1

private theorem couponId_eq (wanted : BitVec 64) (h0 : 0 < wanted.toNat) (h : wanted.toNat ≤ 2 ^ 63) (v : BitVec w) :
    couponId wanted v = .ok (BitVec.ofNat 64 (Spec.coupon wanted.toNat v)) := by
  obtain ⟨hl, hu⟩ := coupon_bounds wanted h v
  unfold couponId toU64
  dsimp only
  have hlt : Fl.mul (Fl.ofNat wanted.toNat) (rescaleTypeTo01 v) < 2 ^ 64 := lt_of_le_of_lt hu (by norm_num)
  rw [if_pos ⟨hl, hlt⟩, hbind]
  congr 1
  unfold Spec.coupon
  have hf : ⌊Fl.mul (Fl.ofNat wanted.toNat) (rescaleTypeTo01 v)⌋ ≤ 2 ^ 63 := by
    have : ⌊Fl.mul (Fl.ofNat wanted.toNat) (rescaleTypeTo01 v)⌋ ≤ ⌊(2 : ℚ) ^ 63⌋ := Int.floor_mono hu
    refine this.trans ?_
    have h2 : (2 : ℚ) ^ 63 = (((2 : ℤ) ^ 63 : ℤ) : ℚ) := by push_cast; rfl
    rw [h2, Int.floor_intCast]
  have hf0 : 0 ≤ ⌊Fl.mul (Fl.ofNat wanted.toNat) (rescaleTypeTo01 v)⌋ := Int.floor_nonneg.2 hl
  generalize ⌊Fl.mul (Fl.ofNat wanted.toNat) (rescaleTypeTo01 v)⌋ = z at hf hf0
  have hsub : (wanted - 1#64).toNat = wanted.toNat - 1 := by
    rw [BitVec.toNat_sub]
    have := wanted.isLt
    simp
    omega
  have hz : (BitVec.ofNat 64 z.toNat).toNat = z.toNat := by
    rw [BitVec.toNat_ofNat, Nat.mod_eq_of_lt (by omega)]
  apply BitVec.eq_of_toNat_eq
  rw [BitVec.toNat_ofNat, Nat.mod_eq_of_lt (by have := wanted.isLt; omega)]
  by_cases hc : wanted - 1#64 < BitVec.ofNat 64 z.toNat
  · rw [if_pos hc, hsub]
    rw [BitVec.lt_def, hsub, hz] at hc
    omega
  · rw [if_neg hc, hz]
    rw [BitVec.lt_def, hsub, hz] at hc
    omega

/-- C145 (coupons). The coupon test looks only at the coupons (0 to 4) the `n` values stand for; the word sizes may even differ. -/
theorem C145_coupons {w' : Nat} (cdf : ℝ → ℝ → ℝ) (n : BitVec 64) (s : Stream (BitVec w)) (s' : Stream (BitVec w'))
    (h : ∀ i, i < n.toNat → Spec.coupon 5 (s.nth i) = Spec.coupon 5 (s'.nth i)) : couponTest cdf n s = couponTest cdf n s' := by
  have hc : ∀ i, i < n.toNat → couponId 5#64 (s.nth i) = couponId 5#64 (s'.nth i) := by
    intro i hi
    rw [couponId_eq 5#64 (by decide) (by decide), couponId_eq 5#64 (by decide) (by decide)]
    exact congrArg _ (congrArg _ (h i hi))
  have hcd : ∀ tracked, collectCoupons 5#64 tracked (s.take n.toNat) = collectCoupons 5#64 tracked (s'.take n.toNat) := by
    intro tracked
    unfold collectCoupons
    rw [Stream.take_eq_map, Stream.take_eq_map, foldlM_same (couponStep 5#64) (couponStep 5#64) s.nth s'.nth n.toNat]
    intro st i hi
    unfold couponStep
    rw [hc i hi]
  unfold couponTest
  dsimp only
  simp only [show BitVec.ofNat 64 5 = 5#64 from rfl, hcd]

/-- Bytes rounded down to multiples of 51 stand for the same coupons. -/
example (cdf : ℝ → ℝ → ℝ) (n : BitVec 64) (s : Stream (BitVec 8)) :
    couponTest cdf n s = couponTest cdf n (s.mapS "fifths" fun v => v / 51#8 * 51#8) := by
  apply C145_coupons
  intro i _
  rw [Stream.nth_mapS]
  have key : ∀ v : BitVec 8, Spec.coupon 5 v = Spec.coupon 5 (v / 51#8 * 51#8) := by decide +kernel
  exact key _

/-! ### Ones -/

/-- C145 (ones). The serial avalanche test looks only at how many bits are set in each of the `2n` values. -/
theorem C145_ones (cdf : ℝ → ℝ → ℝ) (n : BitVec 64) (s s' : Stream (BitVec w))
    (h : ∀ i, i < 2 * n.toNat → ones (s.nth i) = ones (s'.nth i)) : serialAvalanche cdf n s = serialAvalanche cdf n s' := by
  obtain ⟨G, -, hG⟩ := C81_serial_avalanche (w := w) cdf n
  have e : ∀ a, pairHits s.nth n.toNat a = pairHits s'.nth n.toNat a := by
    intro a
    funext b
    unfold pairHits
    apply List.countP_congr
    intro q hq
    have hq := List.mem_range.1 hq
    rw [h (2 * q) (by omega), h (2 * q + 1) (by omega)]
  rw [hG s, hG s']
  simp only [e]

private theorem ones_ror (v : BitVec w) (r : Int) : ones (ror v r) = ones v := by
  have := C01_ror_bitCount v r
  rwa [bitCount_eq_countP, bitCount_eq_countP] at this

private theorem ones_reverse (t : WT) (v : BitVec t.bits) : ones (reverseBits t v) = ones v := by
  have key : ∀ (n : Nat) (f : Nat → Bool), (List.range n).countP f = ∑ i ∈ Finset.range n, if f i then 1 else 0 := by
    intro n f
    induction n with
    | zero => rfl
    | succ n ih => rw [List.range_succ, List.countP_append, ih, Finset.sum_range_succ]; simp [List.countP_cons]
  unfold ones
  rw [key, key, ← Finset.sum_range_reflect]
  apply Finset.sum_congr rfl
  intro i hi
  have hi := Finset.mem_range.1 hi
  rw [C03_reverseBits_bit t v _ (by omega)]
  have : t.bits - 1 - (t.bits - 1 - i) = i := by omega
  rw [this]

/-- C145 (rotations). So the serial avalanche test gives the same report for a source, the source with all values rotated and the
source with all values reversed. -/
theorem C145_rotations (cdf : ℝ → ℝ → ℝ) (t : WT) (n : BitVec 64) (s : Stream (BitVec t.bits)) (r : Int) :
    serialAvalanche cdf n (rorStream s r) = serialAvalanche cdf n s ∧ serialAvalanche cdf n (bitReverseStream t s) = serialAvalanche cdf n s := by
  constructor
  · apply C145_ones
    intro i _
    unfold rorStream
    split
    · rfl
    · rw [Stream.nth_mapS, ones_ror]
  · apply C145_ones
    intro i _
    unfold bitReverseStream
    rw [Stream.nth_mapS, ones_reverse]

/-! ### Order -/

/-- C145 (order). The mean and the uniformity test do not look at the order of the `n` values. -/
theorem C145_order (cdf : ℝ → ℝ → ℝ) (t : WT) (n : BitVec 64) (s s' : Stream (BitVec t.bits))
    (h : (s.take n.toNat).Perm (s'.take n.toNat)) : meanTest n s = meanTest n s' ∧ uniformTest cdf n s = uniformTest cdf n s' := by
  refine ⟨?_, C79_order cdf t n s s' h⟩
  unfold meanTest meanRescale01
  have : (s.take n.toNat).foldl (fun sum v => sum + (v.toNat : ℝ) / ((2 ^ t.bits - 1 : ℕ) : ℝ)) 0 =
      (s'.take n.toNat).foldl (fun sum v => sum + (v.toNat : ℝ) / ((2 ^ t.bits - 1 : ℕ) : ℝ)) 0 := by
    haveI : RightCommutative (fun (sum : ℝ) (v : BitVec t.bits) => sum + (v.toNat : ℝ) / ((2 ^ t.bits - 1 : ℕ) : ℝ)) :=
      ⟨fun a b c => by ring⟩
    exact h.foldl_eq 0
  rw [this, Stream.length_take, Stream.length_take]

/-- Counting in steps of three visits the same 256 bytes. -/
example (cdf : ℝ → ℝ → ℝ) : uniformTest cdf 256#64 (counterStream WT.u8.bits 1 0) = uniformTest cdf 256#64 (counterStream WT.u8.bits 3 0) :=
  (C145_order cdf .u8 256#64 (counterStream WT.u8.bits 1 0) (counterStream WT.u8.bits 3 0) (by
    have e : ∀ inc : BitVec 64, (counterStream 8 inc 0).take 256 = (List.range 256).map fun k =>
        (0 + BitVec.ofNat 64 (k + 1) * inc).setWidth 8 := by
      intro inc
      rw [Stream.take_eq_map]
      exact List.map_congr_left fun k _ => nth_counter _ _ _
    show ((counterStream 8 1 0).take 256).Perm ((counterStream 8 3 0).take 256)
    rw [e, e]
    decide +kernel)).2

/-- C145 (complement). Complementing all values turns the z-score of the mean test into its negative and leaves its p-value as it is. -/
theorem C145_complement (hw : 0 < w) (n : BitVec 64) (hn : n ≠ 0#64) (s s' : Stream (BitVec w)) (h : ∀ i, i < n.toNat → s'.nth i = ~~~ s.nth i) :
    ∃ st st', meanTest n s = .ok [⟨"", some st⟩] ∧ meanTest n s' = .ok [⟨"", some st'⟩] ∧ st'.value = - st.value ∧ st'.pValue = st.pValue ∧
      st'.df = st.df := by
  have hn0 : 0 < n.toNat := Nat.pos_of_ne_zero fun h => hn (BitVec.eq_of_toNat_eq (by simpa using h))
  have h1 := C78_mean n s
  have h2 := C78_mean n s'
  rw [if_neg hn] at h1 h2
  have hz : meanZ s'.nth n.toNat = - meanZ s.nth n.toNat := by
    have hM : (2 : ℝ) ^ w - 1 ≠ 0 := by
      have : (1 : ℝ) < 2 ^ w := one_lt_pow₀ (by norm_num) (by omega)
      linarith
    have hk' : (n.toNat : ℝ) ≠ 0 := by exact_mod_cast hn0.ne'
    have hsum : ∑ i ∈ Finset.range n.toNat, ((s'.nth i).toNat : ℝ) / (2 ^ w - 1) =
        n.toNat - ∑ i ∈ Finset.range n.toNat, ((s.nth i).toNat : ℝ) / (2 ^ w - 1) := by
      rw [eq_sub_iff_add_eq, ← Finset.sum_add_distrib]
      rw [Finset.sum_congr rfl fun i hi => show ((s'.nth i).toNat : ℝ) / (2 ^ w - 1) + ((s.nth i).toNat : ℝ) / (2 ^ w - 1) = 1 from ?_]
      · simp
      · rw [h i (Finset.mem_range.1 hi), BitVec.toNat_not]
        have hlt := (s.nth i).isLt
        rw [show 2 ^ w - 1 - (s.nth i).toNat = 2 ^ w - (1 + (s.nth i).toNat) by omega, Nat.cast_sub (by omega)]
        push_cast
        rw [← add_div, div_eq_one_iff_eq hM]
        ring
    unfold meanZ
    rw [hsum, sub_div, div_self hk']
    ring
  rw [hz, abs_neg] at h2
  exact ⟨_, _, h1, h2, rfl, rfl, rfl⟩

/-! ### Bits -/

/-- C145 (bits). The permutation test and the first part of the binary rank test look only at the sequence of bits (lowest bit of a word
first), not at how it is cut into words: `n` words of `w` bits and `n'` words of `w'` bits that spell the same bits get the same
results. -/
theorem C145_bits {w' : Nat} (cdf : ℝ → ℝ → ℝ) (n n' : BitVec 64) (s : Stream (BitVec w)) (s' : Stream (BitVec w'))
    (h0 : 2 ^ 13 ≤ n.toNat * w) (h1 : n.toNat * w < 2 ^ 64) (h : bitsOf (s.take n.toNat) = bitsOf (s'.take n'.toNat)) :
    permutationTest cdf n s = permutationTest cdf n' s' ∧
    getMatrixSize w n = getMatrixSize w' n' ∧
    ∀ size : BitVec 64, size ≠ 0#64 → binaryRankStats cdf n s size = binaryRankStats cdf n' s' size := by
  have hl : n.toNat * w = n'.toNat * w' := by
    have := congrArg List.length h
    rwa [length_bitsOf, length_bitsOf, Stream.length_take, Stream.length_take] at this
  have htot : n * BitVec.ofNat 64 w = n' * BitVec.ofNat 64 w' := by
    apply BitVec.eq_of_toNat_eq
    rw [BitVec.toNat_mul, BitVec.toNat_mul, BitVec.toNat_ofNat, BitVec.toNat_ofNat, Nat.mul_mod_mod, Nat.mul_mod_mod, hl]
  have hsize : getPermutationSize w n = getPermutationSize w' n' := by
    unfold getPermutationSize
    rw [htot]
  refine ⟨?_, ?_, ?_⟩
  · obtain ⟨k, hk, hk4, hk59, -, -⟩ := C85_size n h0 h1
    have hkn : (BitVec.ofNat 64 k).toNat = k := by
      rw [BitVec.toNat_ofNat]; exact Nat.mod_eq_of_lt (lt_of_le_of_lt hk59 (by norm_num))
    have hhist : permutationHistogram (s.take n.toNat) (BitVec.ofNat 64 k) = permutationHistogram (s'.take n'.toNat) (BitVec.ofNat 64 k) := by
      obtain ⟨v, hist, e1, -, e2, e3, e4⟩ := C50_histogram (s.take n.toNat) (BitVec.ofNat 64 k) (by omega) (by omega)
      obtain ⟨v', hist', f1, -, f2, f3, f4⟩ := C50_histogram (s'.take n'.toNat) (BitVec.ofNat 64 k) (by omega) (by omega)
      rw [e2, f2]
      refine congrArg _ (List.ext_getElem? fun c => ?_)
      by_cases hc : c < 2 ^ (BitVec.ofNat 64 k).toNat
      · obtain ⟨x, hx1, hx2⟩ := e4 c hc
        obtain ⟨y, hy1, hy2⟩ := f4 c hc
        rw [hx1, hy1]
        refine congrArg _ (BitVec.eq_of_toNat_eq ?_)
        rw [hx2, hy2, e1, f1, h]
      · rw [List.getElem?_eq_none (by omega), List.getElem?_eq_none (by omega)]
    unfold permutationTest
    rw [← hsize, hk, hbind, hbind]
    unfold permutationStat
    dsimp only
    rw [hhist, htot]
  · unfold getMatrixSize
    dsimp only
    have : (n.toNat : ℝ) * ((w : ℝ) / (5 / 0.0052387863054258942636)) = n'.toNat * ((w' : ℝ) / (5 / 0.0052387863054258942636)) := by
      rw [← mul_div_assoc, ← mul_div_assoc]
      congr 1
      exact_mod_cast hl
    rw [this]
  · intro size hs
    have hs0 : 0 < size.toNat := Nat.pos_of_ne_zero fun h => hs (BitVec.eq_of_toNat_eq (by simpa using h))
    obtain ⟨c, e1, e2, e3⟩ := C53_rank_counts (s.take n.toNat) size.toNat hs0
    obtain ⟨c', f1, f2, f3⟩ := C53_rank_counts (s'.take n'.toNat) size.toNat hs0
    rw [Stream.length_take] at e1 e3 f1 f3
    have : c = c' := by
      apply List.ext_getElem (by omega)
      intro i hi hi'
      rw [e3 i hi, f3 i hi', hl]
      refine congrArg _ (List.countP_congr fun k _ => ?_)
      unfold blockMatrix
      rw [h]
    unfold binaryRankStats
    dsimp only
    rw [e1, f1, this, hl]

/-- 2048 bytes `0x55` and 1024 words `0x5555`. -/
example (cdf : ℝ → ℝ → ℝ) : permutationTest cdf 2048#64 (constantStream 0x55#8) = permutationTest cdf 1024#64 (constantStream 0x5555#16) := by
  refine (C145_bits cdf 2048#64 1024#64 (constantStream 0x55#8) (constantStream 0x5555#16) (by decide) (by decide) ?_).1
  have e : ∀ {u : Nat} (c : BitVec u) (n : Nat), (constantStream c).take n = List.replicate n c := by
    intro u c n
    rw [Stream.take_eq_map]
    have : ∀ k, (constantStream c).nth k = c := fun k => by rw [Stream.nth_eq]; rfl
    rw [List.map_congr_left fun k _ => this k, List.map_const', List.length_range]
  have key : ∀ n, bitsOf (List.replicate (2 * n) 0x55#8) = bitsOf (List.replicate n 0x5555#16) := by
    intro n
    induction n with
    | zero => rfl
    | succ n ih =>
      rw [show 2 * (n + 1) = 2 * n + 1 + 1 by ring, List.replicate_succ, List.replicate_succ, List.replicate_succ]
      unfold bitsOf at ih ⊢
      rw [List.flatMap_cons, List.flatMap_cons, List.flatMap_cons, ih, ← List.append_assoc]
      rfl
  rw [e, e]
  exact key 1024

end TFR
