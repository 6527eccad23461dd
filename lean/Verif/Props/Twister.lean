import Verif.Model.Twister
import Verif.Props.PowerLinear
import Mathlib.Data.Fintype.Pigeonhole
/-
C117. `rng32::mt19937`.
-/
namespace TFR
open Finset Spec Function Lfsr

namespace Mt

/-- The sequence of words: the first 624 are the state, the others follow the recurrence. -/
def word (s : MtState) (k : Nat) : BitVec 32 := (mtStep^[k] s) 0

def upper (x : BitVec 32) : BitVec 32 := x &&& 0x80000000#32
def lower (x : BitVec 32) : BitVec 32 := x &&& 0x7fffffff#32

theorem bit_upper (x : BitVec 32) (i : Nat) : (upper x).getLsbD i = (decide (i = 31) && x.getLsbD i) := by
  unfold upper
  rw [BitVec.getLsbD_and]
  by_cases hi : i < 32
  · have : ∀ j : Fin 32, (0x80000000#32).getLsbD j.val = decide (j.val = 31) := by decide
    rw [this ⟨i, hi⟩, Bool.and_comm]
  · rw [BitVec.getLsbD_of_ge x i (by omega)]; simp

theorem bit_lower (x : BitVec 32) (i : Nat) : (lower x).getLsbD i = (decide (i < 31) && x.getLsbD i) := by
  unfold lower
  rw [BitVec.getLsbD_and]
  by_cases hi : i < 32
  · have : ∀ j : Fin 32, (0x7fffffff#32).getLsbD j.val = decide (j.val < 31) := by decide
    rw [this ⟨i, hi⟩, Bool.and_comm]
  · rw [BitVec.getLsbD_of_ge x i (by omega)]; simp

theorem ext_parts (x y : BitVec 32) (hu : upper x = upper y) (hl : lower x = lower y) : x = y := by
  refine BitVec.eq_of_getLsbD_eq fun i hi => ?_
  have h1 := congrArg (fun v => v.getLsbD i) hu
  have h2 := congrArg (fun v => v.getLsbD i) hl
  simp only [bit_upper, bit_lower] at h1 h2
  by_cases h : i = 31
  · simpa [h] using h1
  · have : i < 31 := by omega
    simpa [this] using h2

theorem or_parts (a b c d : BitVec 32) (h : upper a ||| lower b = upper c ||| lower d) : upper a = upper c ∧ lower b = lower d := by
  constructor
  · refine BitVec.eq_of_getLsbD_eq fun i hi => ?_
    have h1 := congrArg (fun v => v.getLsbD i) h
    simp only [BitVec.getLsbD_or, bit_upper, bit_lower] at h1 ⊢
    by_cases h : i = 31
    · simpa [h] using h1
    · simp [h]
  · refine BitVec.eq_of_getLsbD_eq fun i hi => ?_
    have h1 := congrArg (fun v => v.getLsbD i) h
    simp only [BitVec.getLsbD_or, bit_upper, bit_lower] at h1 ⊢
    by_cases h : i < 31
    · have : i ≠ 31 := by omega
      simpa [h, this] using h1
    · simp [h]

theorem twist_injective : Injective mtTwist := by
  intro y z h
  have hb : ∀ v : BitVec 32, ∀ i, (mtTwist v).getLsbD i = (v.getLsbD (i + 1) ^^ (v.getLsbD 0 && (0x9908b0df#32).getLsbD i)) := by
    intro v i
    unfold mtTwist
    rw [BitVec.getLsbD_xor, BitVec.getLsbD_ushiftRight, Nat.add_comm 1 i]
    cases v.getLsbD 0 <;> simp
  have hbit : ∀ i, (y.getLsbD (i + 1) ^^ (y.getLsbD 0 && (0x9908b0df#32).getLsbD i)) =
      (z.getLsbD (i + 1) ^^ (z.getLsbD 0 && (0x9908b0df#32).getLsbD i)) := by
    intro i
    rw [← hb, ← hb, h]
  have h0 : y.getLsbD 0 = z.getLsbD 0 := by
    have := hbit 31
    rw [BitVec.getLsbD_of_ge y 32 (le_refl _), BitVec.getLsbD_of_ge z 32 (le_refl _),
      show (0x9908b0df#32).getLsbD 31 = true by decide] at this
    simpa using this
  refine BitVec.eq_of_getLsbD_eq fun i hi => ?_
  rcases i with _ | i
  · exact h0
  · have := hbit i
    rw [h0] at this
    revert this
    cases y.getLsbD (i + 1) <;> cases z.getLsbD (i + 1) <;> cases z.getLsbD 0 <;> cases (0x9908b0df#32).getLsbD i <;> simp

theorem masked_left_injective (k : Nat) (hk : 0 < k) (c : BitVec 32) : Injective fun x : BitVec 32 => x ^^^ ((x <<< k) &&& c) := by
  intro x y h
  refine BitVec.eq_of_getLsbD_eq fun i hi => ?_
  induction i using Nat.strong_induction_on with
  | _ i ih =>
    have hbit := congrArg (fun v => v.getLsbD i) h
    simp only [BitVec.getLsbD_xor, BitVec.getLsbD_and, BitVec.getLsbD_shiftLeft, hi, decide_true, Bool.true_and] at hbit
    by_cases hik : i < k
    · simpa [hik] using hbit
    · have := ih (i - k) (by omega) (by omega)
      rw [this] at hbit
      exact (Bool.xor_right_inj).1 (by rw [Bool.xor_comm, hbit, Bool.xor_comm])

theorem temper_bijective : Bijective mtTemper := by
  refine bij_of_inj _ fun x y h => ?_
  unfold mtTemper at h
  have hones : ∀ v : BitVec 32, v &&& 0xffffffff#32 = v := by
    intro v
    rw [show (0xffffffff#32) = BitVec.allOnes 32 from by decide, BitVec.and_allOnes]
  simp only [hones] at h
  have h1 := (bij_xsr 18 (by omega)).1 h
  have h2 := masked_left_injective 15 (by omega) _ h1
  have h3 := masked_left_injective 7 (by omega) _ h2
  exact (bij_xsr 11 (by omega)).1 h3

/-! ### The recurrence -/

theorem iterate_apply (s : MtState) (i : Nat) : ∀ (k : Nat) (hi : i < 624), (mtStep^[k] s) ⟨i, hi⟩ = word s (k + i) := by
  induction i with
  | zero => intro k hi; rfl
  | succ i ih =>
    intro k hi
    have := ih (k + 1) (by omega)
    rw [iterate_succ_apply'] at this
    rw [show k + (i + 1) = k + 1 + i by omega, ← this]
    show _ = (if h : i + 1 < 624 then _ else _)
    rw [dif_pos hi]

theorem word_lt (s : MtState) (i : Nat) (hi : i < 624) : word s i = s ⟨i, hi⟩ := by
  have := iterate_apply s i 0 hi
  rw [Nat.zero_add] at this
  exact this.symm

theorem new_eq (s : MtState) (k : Nat) :
    mtNew (mtStep^[k] s) = word s (k + 397) ^^^ mtTwist (upper (word s k) ||| lower (word s (k + 1))) := by
  unfold mtNew
  rw [show (mtStep^[k] s) 397 = word s (k + 397) from iterate_apply s 397 k (by omega),
    show (mtStep^[k] s) 1 = word s (k + 1) from iterate_apply s 1 k (by omega)]
  rfl

theorem word_rec (s : MtState) (k : Nat) :
    word s (k + 624) = word s (k + 397) ^^^ mtTwist (upper (word s k) ||| lower (word s (k + 1))) := by
  rw [← new_eq]
  have := iterate_apply s 623 (k + 1) (by omega)
  rw [show k + 1 + 623 = k + 624 by omega] at this
  rw [← this, iterate_succ_apply']
  show (if h : 623 + 1 < 624 then _ else _) = _
  rw [dif_neg (by omega)]

theorem nth_mt (s : MtState) (k : Nat) : (mtStream s).nth k = mtTemper (word s (k + 624)) := by
  rw [word_rec, ← new_eq, Stream.nth_eq]
  rfl

/-- A sequence that follows the recurrence. -/
def Rec (x : Nat → BitVec 32) : Prop := ∀ k, x (k + 624) = x (k + 397) ^^^ mtTwist (upper (x k) ||| lower (x (k + 1)))

/-- Two sequences agree in what matters of the 624 words from position `n` on. -/
def Agree (x y : Nat → BitVec 32) (n : Nat) : Prop := upper (x n) = upper (y n) ∧ ∀ i, 1 ≤ i → i ≤ 623 → x (n + i) = y (n + i)

theorem agree_succ (x y : Nat → BitVec 32) (hx : Rec x) (hy : Rec y) (n : Nat) : Agree x y n ↔ Agree x y (n + 1) := by
  constructor
  · rintro ⟨hu, hw⟩
    refine ⟨by rw [hw 1 (le_refl _) (by omega)], fun i h1 h2 => ?_⟩
    by_cases h : i = 623
    · rw [show n + 1 + i = n + 624 by omega, hx n, hy n, hu, hw 1 (le_refl _) (by omega), hw 397 (by omega) (by omega)]
    · rw [show n + 1 + i = n + (i + 1) by omega]
      exact hw _ (by omega) (by omega)
  · rintro ⟨hu, hw⟩
    have h624 := hw 623 (by omega) (le_refl _)
    have h397 := hw 396 (by omega) (by omega)
    rw [show n + 1 + 623 = n + 624 by omega, hx n, hy n] at h624
    rw [show n + 1 + 396 = n + 397 by omega] at h397
    rw [h397] at h624
    have ht := twist_injective ((BitVec.xor_right_inj _).1 h624)
    obtain ⟨p1, p2⟩ := or_parts _ _ _ _ ht
    refine ⟨p1, fun i h1 h2 => ?_⟩
    by_cases h : i = 1
    · rw [h]
      exact ext_parts _ _ hu p2
    · rw [show n + i = n + 1 + (i - 1) by omega]
      exact hw _ (by omega) (by omega)

theorem agree_iff (x y : Nat → BitVec 32) (hx : Rec x) (hy : Rec y) (n : Nat) : Agree x y 0 ↔ Agree x y n := by
  induction n with
  | zero => rfl
  | succ n ih => rw [ih, agree_succ x y hx hy n]

theorem agree_all (x y : Nat → BitVec 32) (hx : Rec x) (hy : Rec y) (n : Nat) (h : Agree x y n) (k : Nat) (hk : 1 ≤ k) : x k = y k := by
  have h0 := (agree_iff x y hx hy n).2 h
  have := (agree_iff x y hx hy (k - 1)).1 h0
  have := this.2 1 (le_refl _) (by omega)
  rwa [show k - 1 + 1 = k by omega] at this

theorem agree_of_window (x y : Nat → BitVec 32) (n : Nat) (h : ∀ i < 624, x (n + i) = y (n + i)) : Agree x y n :=
  ⟨by have := h 0 (by omega); rw [Nat.add_zero] at this; rw [this], fun i _ h2 => h i (by omega)⟩

theorem rec_word (s : MtState) : Rec (word s) := word_rec s

theorem rec_shift (x : Nat → BitVec 32) (hx : Rec x) (p : Nat) : Rec fun k => x (k + p) := by
  intro k
  have := hx (k + p)
  rw [show k + p + 624 = k + 624 + p by omega, show k + p + 397 = k + 397 + p by omega, show k + p + 1 = k + 1 + p by omega] at this
  exact this

end Mt
open Mt

/-! ### Property C117 -/

/-- C117. Any 624 consecutive outputs determine all outputs, before and after: two generators, in any two states, whose outputs at
`n, ..., n + 623` agree, agree at every position. -/
theorem C117_prediction (s s' : MtState) (n : Nat) (h : ∀ i < 624, (mtStream s).nth (n + i) = (mtStream s').nth (n + i)) (k : Nat) :
    (mtStream s).nth k = (mtStream s').nth k := by
  rw [nth_mt, nth_mt]
  refine congrArg mtTemper ?_
  refine agree_all _ _ (rec_word s) (rec_word s') (n + 624) (agree_of_window _ _ _ fun i hi => ?_) _ (by omega)
  have := h i hi
  rw [nth_mt, nth_mt] at this
  have := temper_bijective.1 this
  rwa [show n + 624 + i = n + i + 624 by omega]

/-- C117. The same inside one generator: if the outputs at `n, ..., n + 623` are repeated `p` positions later, `p` is a period. -/
theorem C117_repetition (s : MtState) (n p : Nat) (h : ∀ i < 624, (mtStream s).nth (n + i) = (mtStream s).nth (n + i + p)) :
    IsPeriod (mtStream s).nth p := by
  intro k
  rw [nth_mt, nth_mt]
  refine congrArg mtTemper ?_
  rw [show k + p + 624 = (k + 624) + p by omega]
  refine (agree_all _ _ (rec_word s) (rec_shift _ (rec_word s) p) (n + 624) (agree_of_window _ _ _ fun i hi => ?_) _ (by omega)).symm
  have := h i hi
  rw [nth_mt, nth_mt] at this
  have := temper_bijective.1 this
  rwa [show n + 624 + i = n + i + 624 by omega, show n + i + 624 + p = n + i + p + 624 by omega]

/-- C117. From every state the outputs are purely periodic. -/
theorem C117_periodic (s : MtState) : ∃ p, 0 < p ∧ IsPeriod (mtStream s).nth p := by
  obtain ⟨a, b, hab, h⟩ := Finite.exists_ne_map_eq_of_infinite fun n : Nat => fun i : Fin 624 => (mtStream s).nth (n + i.val)
  have key : ∀ a b : Nat, a < b → ((fun i : Fin 624 => (mtStream s).nth (a + i.val)) = fun i : Fin 624 => (mtStream s).nth (b + i.val)) →
      ∃ p, 0 < p ∧ IsPeriod (mtStream s).nth p := by
    intro a b hab h
    refine ⟨b - a, by omega, C117_repetition s a (b - a) fun i hi => ?_⟩
    have := congrFun h ⟨i, hi⟩
    dsimp only at this
    rwa [show a + i + (b - a) = b + i by omega]
  rcases Nat.lt_or_gt_of_ne hab with h1 | h1
  · exact key a b h1 h
  · exact key b a h1 h.symm

/-- C117. 623-dimensional equidistribution: for every position and every choice of 623 words, exactly `2^32` of the `2^19968` states
(one for each value of the 31 bits that do not matter, times two) produce these words at this position. -/
theorem C117_equidistributed (n : Nat) (t : Fin 623 → BitVec 32) :
    Nat.card {s : MtState // ∀ j : Fin 623, (mtStream s).nth (n + j.val) = t j} = 2 ^ 32 := by
  obtain ⟨u, hu⟩ : ∃ u : Fin 623 → BitVec 32, ∀ j, mtTemper (u j) = t j :=
    ⟨fun j => (temper_bijective.2 (t j)).choose, fun j => (temper_bijective.2 (t j)).choose_spec⟩
  let Ψ : MtState → MtState := fun s i => if i.val = 0 then upper (word s (n + 623)) ||| lower (s 0) else word s (n + 623 + i.val)
  have hinj : Injective Ψ := by
    intro s s' h
    have h0 := congrFun h 0
    have h0' : upper (word s (n + 623)) ||| lower (s 0) = upper (word s' (n + 623)) ||| lower (s' 0) := h0
    obtain ⟨p1, p2⟩ := or_parts _ _ _ _ h0'
    have hag : Agree (word s) (word s') (n + 623) := by
      refine ⟨p1, fun i h1 h2 => ?_⟩
      have hi := congrFun h ⟨i, by omega⟩
      have e : ∀ s : MtState, Ψ s ⟨i, by omega⟩ = word s (n + 623 + i) := by
        intro s
        show (if i = 0 then _ else _) = _
        rw [if_neg (by omega)]
      rwa [e, e] at hi
    have hz := (agree_iff _ _ (rec_word s) (rec_word s') _).2 hag
    funext i
    by_cases hi : i.val = 0
    · have hi' : i = 0 := Fin.ext hi
      rw [hi']
      have hu0 := hz.1
      rw [word_lt s 0 (by omega), word_lt s' 0 (by omega)] at hu0
      exact ext_parts _ _ hu0 p2
    · have := hz.2 i.val (by omega) (by omega)
      rw [Nat.zero_add, word_lt s _ i.isLt, word_lt s' _ i.isLt] at this
      exact this
  have hbij : Bijective Ψ := Finite.injective_iff_bijective.1 hinj
  have hcond : ∀ s : MtState, (∀ j : Fin 623, (mtStream s).nth (n + j.val) = t j) ↔ ∀ j : Fin 623, Ψ s ⟨j.val + 1, by omega⟩ = u j := by
    intro s
    refine forall_congr' fun j => ?_
    have e : Ψ s ⟨j.val + 1, by omega⟩ = word s (n + 623 + (j.val + 1)) := by
      show (if j.val + 1 = 0 then _ else _) = _
      rw [if_neg (by omega)]
    rw [e, nth_mt, ← hu j, show n + j.val + 624 = n + 623 + (j.val + 1) by omega]
    exact ⟨fun h => temper_bijective.1 h, fun h => congrArg _ h⟩
  have hcard : Nat.card {s : MtState // ∀ j : Fin 623, (mtStream s).nth (n + j.val) = t j} =
      Nat.card {s : MtState // ∀ j : Fin 623, s ⟨j.val + 1, by omega⟩ = u j} :=
    Nat.card_congr ((Equiv.ofBijective Ψ hbij).subtypeEquiv fun s => hcond s)
  rw [hcard]
  have e2 : {s : MtState // ∀ j : Fin 623, s ⟨j.val + 1, by omega⟩ = u j} ≃ BitVec 32 :=
    { toFun := fun s => s.1 0
      invFun := fun b => ⟨fun i => if h : i.val = 0 then b else u ⟨i.val - 1, by omega⟩, fun j => by
        show (if h : j.val + 1 = 0 then _ else _) = _
        rw [dif_neg (by omega)]
        rfl⟩
      left_inv := fun s => by
        refine Subtype.ext (funext fun i => ?_)
        dsimp only
        by_cases hi : i.val = 0
        · rw [dif_pos hi]
          exact congrArg _ (Fin.ext hi.symm)
        · rw [dif_neg hi, ← s.2]
          refine congrArg _ (Fin.ext ?_)
          show i.val - 1 + 1 = i.val
          omega
      right_inv := fun b => by
        dsimp only
        rw [dif_pos (by rfl)] }
  rw [Nat.card_congr e2, Nat.card_eq_fintype_card]
  exact card_bv 32

/-- C117. Generators with different 32-bit seeds never agree in 624 consecutive outputs at the same position. -/
theorem C117_seeds (a b : SeedData) (h : a.s32 ≠ b.s32) (n : Nat) :
    ∃ i < 624, (rng32_mt19937 a).nth (n + i) ≠ (rng32_mt19937 b).nth (n + i) := by
  by_contra hc
  push Not at hc
  refine h ?_
  let sa : MtState := fun i => mtSeedWord a.s32 i.val
  let sb : MtState := fun i => mtSeedWord b.s32 i.val
  have hag : Agree (word sa) (word sb) (n + 624) := by
    refine agree_of_window _ _ _ fun i hi => ?_
    have := hc i hi
    have e : (mtStream sa).nth (n + i) = (mtStream sb).nth (n + i) := this
    rw [nth_mt, nth_mt] at e
    have := temper_bijective.1 e
    rwa [show n + 624 + i = n + i + 624 by omega]
  have h1 := agree_all _ _ (rec_word sa) (rec_word sb) _ hag 1 (le_refl _)
  rw [word_lt sa 1 (by omega), word_lt sb 1 (by omega)] at h1
  have h2 : 1812433253#32 * (a.s32 ^^^ (a.s32 >>> 30)) + BitVec.ofNat 32 1 =
    1812433253#32 * (b.s32 ^^^ (b.s32 >>> 30)) + BitVec.ofNat 32 1 := h1
  have h3 := (bij_add_const (BitVec.ofNat 32 1)).1 h2
  rw [BitVec.mul_comm, BitVec.mul_comm _ (b.s32 ^^^ _)] at h3
  have h4 := (bij_mul_odd (1812433253#32) (by decide)).1 h3
  exact (bij_xsr 30 (by omega)).1 h4

/-- C117. No seed leads to the absorbing zero state: among any 624 consecutive outputs one is not zero. -/
theorem C117_not_stuck (seed : SeedData) (n : Nat) : ∃ i < 624, (rng32_mt19937 seed).nth (n + i) ≠ 0#32 := by
  by_contra hc
  push Not at hc
  let s : MtState := fun i => mtSeedWord seed.s32 i.val
  let z : MtState := fun _ => 0#32
  have hz : ∀ k, mtStep^[k] z = z := by
    intro k
    induction k with
    | zero => rfl
    | succ k ih =>
      rw [iterate_succ_apply', ih]
      funext i
      show (if h : i.val + 1 < 624 then _ else mtNew z) = _
      split
      · rfl
      · show mtNew z = 0#32
        decide
  have hzw : ∀ k, word z k = 0#32 := fun k => by unfold word; rw [hz k]
  have hag : Agree (word s) (word z) (n + 624) := by
    refine agree_of_window _ _ _ fun i hi => ?_
    have e : (mtStream s).nth (n + i) = 0#32 := hc i hi
    rw [nth_mt] at e
    have e0 : mtTemper (0#32) = 0#32 := by decide
    rw [hzw]
    refine temper_bijective.1 ?_
    rw [e0, show n + 624 + i = n + i + 624 by omega]
    exact e
  have h1 := agree_all _ _ (rec_word s) (rec_word z) _ hag 1 (le_refl _)
  have h2 := agree_all _ _ (rec_word s) (rec_word z) _ hag 2 (by omega)
  rw [hzw, word_lt s 1 (by omega)] at h1
  rw [hzw, word_lt s 2 (by omega)] at h2
  have h1' : mtSeedWord seed.s32 1 = 0#32 := h1
  have h2' : mtSeedWord seed.s32 2 = 0#32 := h2
  unfold mtSeedWord at h2'
  rw [h1'] at h2'
  revert h2'
  decide

-- The first output of the default-seeded `std::mt19937`, as published.
example : (rng32_mt19937 ⟨5489, 0, 0, 0⟩).nth 0 = 3499211612#32 := by
  show mtTemper (mtSeedWord 5489#32 397 ^^^ mtTwist ((mtSeedWord 5489#32 0 &&& 0x80000000#32) ||| (mtSeedWord 5489#32 1 &&& 0x7fffffff#32))) = _
  decide +kernel

/-! ### Linearity -/
namespace Mt

theorem twist_xor (x y : BitVec 32) : mtTwist (x ^^^ y) = mtTwist x ^^^ mtTwist y := by
  unfold mtTwist
  rw [BitVec.getLsbD_xor, BitVec.ushiftRight_xor_distrib]
  generalize x >>> 1 = p
  generalize y >>> 1 = q
  generalize 0x9908b0df#32 = c
  cases x.getLsbD 0 <;> cases y.getLsbD 0 <;>
    simp only [Bool.xor_false, Bool.xor_true, Bool.not_true, Bool.not_false, if_true, Bool.false_eq_true, if_false, BitVec.xor_zero]
  · rw [BitVec.xor_assoc]
  · rw [BitVec.xor_assoc, BitVec.xor_assoc, BitVec.xor_comm q c]
  · rw [BitVec.xor_assoc, BitVec.xor_comm q c, ← BitVec.xor_assoc c c q, BitVec.xor_self, BitVec.zero_xor]

theorem lower_xor (x y : BitVec 32) : lower (x ^^^ y) = lower x ^^^ lower y := by
  refine BitVec.eq_of_getLsbD_eq fun i hi => ?_
  simp only [BitVec.getLsbD_xor, bit_lower]
  cases decide (i < 31) <;> simp

theorem xor_swap (a b c d : BitVec 32) : (a ^^^ b) ^^^ (c ^^^ d) = (a ^^^ c) ^^^ (b ^^^ d) := by
  rw [BitVec.xor_assoc, BitVec.xor_assoc, ← BitVec.xor_assoc b, BitVec.xor_comm b c, BitVec.xor_assoc c]

theorem temper_xor (x y : BitVec 32) : mtTemper (x ^^^ y) = mtTemper x ^^^ mtTemper y := by
  have hl : ∀ (k : Nat) (c x y : BitVec 32), (x ^^^ y) ^^^ (((x ^^^ y) <<< k) &&& c) = (x ^^^ ((x <<< k) &&& c)) ^^^ (y ^^^ ((y <<< k) &&& c)) := by
    intro k c x y
    rw [xor_swap, BitVec.shiftLeft_xor_distrib]
    congr 1
    refine BitVec.eq_of_getLsbD_eq fun i hi => ?_
    simp only [BitVec.getLsbD_xor, BitVec.getLsbD_and]
    cases c.getLsbD i <;> simp
  have hr : ∀ (x y : BitVec 32), (x ^^^ y) ^^^ (((x ^^^ y) >>> 11) &&& 0xffffffff#32) =
      (x ^^^ ((x >>> 11) &&& 0xffffffff#32)) ^^^ (y ^^^ ((y >>> 11) &&& 0xffffffff#32)) := by
    intro x y
    rw [xor_swap, BitVec.ushiftRight_xor_distrib]
    congr 1
    refine BitVec.eq_of_getLsbD_eq fun i hi => ?_
    simp only [BitVec.getLsbD_xor, BitVec.getLsbD_and]
    cases (0xffffffff#32).getLsbD i <;> simp
  unfold mtTemper
  simp only [hr, hl]
  rw [BitVec.ushiftRight_xor_distrib, xor_swap]

theorem or_eq_xor (x y : BitVec 32) : upper x ||| lower y = upper x ^^^ lower y := by
  refine BitVec.eq_of_getLsbD_eq fun i hi => ?_
  simp only [BitVec.getLsbD_or, BitVec.getLsbD_xor, bit_upper, bit_lower]
  by_cases h : i = 31
  · simp [h]
  · simp [h]

/-- The top bit of a word, and the word with this top bit. -/
def top (x : BitVec 32) : BitVec 1 := x.extractLsb' 31 1
def emb (b : BitVec 1) : BitVec 32 := if b.getLsbD 0 then 0x80000000#32 else 0#32

theorem top_xor (x y : BitVec 32) : top (x ^^^ y) = top x ^^^ top y := by
  refine BitVec.eq_of_getLsbD_eq fun i hi => ?_
  simp only [top, BitVec.getLsbD_xor, BitVec.getLsbD_extractLsb']
  cases decide (i < 1) <;> simp

theorem emb_xor (x y : BitVec 1) : emb (x ^^^ y) = emb x ^^^ emb y := by
  unfold emb
  rw [BitVec.getLsbD_xor]
  cases x.getLsbD 0 <;> cases y.getLsbD 0 <;> decide

theorem emb_top (x : BitVec 32) : emb (top x) = upper x := by
  have h1 : ∀ j : Fin 32, (0x80000000#32).getLsbD j.val = decide (j.val = 31) := by decide
  refine BitVec.eq_of_getLsbD_eq fun i hi => ?_
  rw [bit_upper]
  have : (top x).getLsbD 0 = x.getLsbD 31 := by simp [top, BitVec.getLsbD_extractLsb']
  unfold emb
  rw [this]
  by_cases h : i = 31
  · subst h
    cases hx : x.getLsbD 31 <;> simp
  · have h2 := h1 ⟨i, hi⟩
    dsimp only at h2
    cases hx : x.getLsbD 31 <;> simp [h, h2]

/-- What matters of a state: the top bit of the oldest word, and the others. -/
abbrev Ess := XV 1 × (Fin 623 → XV 32)

def bv {w : Nat} (x : XV w) : BitVec w := x
def xv {w : Nat} (x : BitVec w) : XV w := x
theorem bv_add {w : Nat} (x y : XV w) : bv (x + y) = bv x ^^^ bv y := rfl
theorem xv_xor {w : Nat} (x y : BitVec w) : xv (x ^^^ y) = xv x + xv y := rfl

def essNew (v : Ess) : BitVec 32 := bv (v.2 396) ^^^ mtTwist (emb (bv v.1) ^^^ lower (bv (v.2 0)))

theorem essNew_add (u v : Ess) : essNew (u + v) = essNew u ^^^ essNew v := by
  unfold essNew
  rw [Prod.fst_add, Prod.snd_add, Pi.add_apply, Pi.add_apply, bv_add, bv_add, bv_add, emb_xor, lower_xor, xor_swap (emb (bv u.1)),
    twist_xor, xor_swap]

/-- The transition of what matters. -/
def essStep (v : Ess) : Ess := (xv (top (bv (v.2 0))), fun i => if h : i.val + 1 < 623 then v.2 ⟨i.val + 1, h⟩ else xv (essNew v))

def essEnd : AddMonoid.End Ess := AddMonoidHom.mk' essStep fun u v => by
  refine Prod.ext ?_ (funext fun i => ?_)
  · exact top_xor _ _
  · show (if h : i.val + 1 < 623 then u.2 ⟨i.val + 1, h⟩ + v.2 ⟨i.val + 1, h⟩ else xv (essNew (u + v))) =
      (if h : i.val + 1 < 623 then u.2 ⟨i.val + 1, h⟩ else xv (essNew u)) + (if h : i.val + 1 < 623 then v.2 ⟨i.val + 1, h⟩ else xv (essNew v))
    by_cases h : i.val + 1 < 623
    · rw [dif_pos h, dif_pos h, dif_pos h]
    · rw [dif_neg h, dif_neg h, dif_neg h, essNew_add, xv_xor]

def essBit (j : Nat) : Ess →+ F2 := AddMonoidHom.mk' (fun v => toF ((mtTemper (essNew v)).getLsbD j)) fun u v => by
  rw [essNew_add, temper_xor, BitVec.getLsbD_xor, toF_xor]

def proj (s : MtState) : Ess := (xv (top (s 0)), fun i => xv (s i.succ))

theorem essNew_proj (s : MtState) : essNew (proj s) = mtNew s := by
  show s (Fin.succ 396) ^^^ mtTwist (emb (top (s 0)) ^^^ lower (s (Fin.succ 0))) = _
  rw [emb_top, ← or_eq_xor]
  rfl

theorem proj_step (s : MtState) : proj (mtStep s) = essEnd (proj s) := by
  refine Prod.ext ?_ (funext fun i => ?_)
  · rfl
  · show xv (if h : i.val + 1 + 1 < 624 then s ⟨i.val + 1 + 1, h⟩ else mtNew s) = (if h : i.val + 1 < 623 then xv (s (Fin.succ ⟨i.val + 1, h⟩)) else xv (essNew (proj s)))
    by_cases h : i.val + 1 < 623
    · rw [dif_pos h, dif_pos (by omega)]
      rfl
    · rw [dif_neg h, dif_neg (by omega), essNew_proj]

theorem proj_iterate (s : MtState) (k : Nat) : proj (mtStep^[k] s) = essEnd^[k] (proj s) := by
  induction k with
  | zero => rfl
  | succ k ih => rw [iterate_succ_apply', iterate_succ_apply', proj_step, ih]

theorem card_ess : Nat.card Ess = 2 ^ 19937 := by
  rw [Nat.card_prod, Nat.card_fun, card_xv, card_xv, Nat.card_eq_fintype_card, Fintype.card_fin, ← pow_mul, ← pow_add]

theorem ess_add_self (v : Ess) : v + v = 0 := Prod.ext (XV.add_self _) (funext fun i => XV.add_self _)

end Mt

/-- C117. Every output bit of the generator, from every state, satisfies a linear recurrence of order 19937 over GF(2). -/
theorem C117_linear (s : MtState) (j : Nat) : LinearRecurrence (fun i => ((mtStream s).nth i).getLsbD j) 19937 := by
  refine linear_state_recurrence (V := Ess) ess_add_self essEnd (essBit j) (proj s) 19937 card_ess _ fun i => ?_
  rw [← proj_iterate]
  show _ = toF ((mtTemper (essNew (proj (mtStep^[i] s)))).getLsbD j)
  rw [essNew_proj, Stream.nth_eq]
  rfl

/-- C117. So the linear complexity test rejects the generator, from whatever state, once it reads `1024 · (2 · 19937 + 7)` (about 40.8
million) values. -/
theorem C117_rejected (s : MtState) (n : BitVec 64) (hn : 40838144 ≤ n.toNat) :
    ∃ st, linearComplexityTest chi2DistributionCdf n (mtStream s) = .ok [⟨toString (n.toNat / 1024) ++ ":bit(0)", some st⟩] ∧
      st.pValue ≤ 1 / 10 ^ 9 ∧ statPass st = false :=
  C108_linear (by omega) n (mtStream s) 19937 (C117_linear s 0) (by omega) (by omega)

/-- C117. Hence an evaluation of `2^36` values or more that runs the linear complexity test on `rng32::mt19937`, with whatever seed, fails, under
every schedule and whatever the other sources and tests are. -/
theorem C117_battery (k : Nat) (h36 : 36 ≤ k) (hk : k < 64) (setup : TestSetup 32) (hth : 0 < setup.maxThreads) (b : Battery ℝ)
    (hb : EvaluateOutcome (suiteDef chi2DistributionCdf) (BitVec.ofNat 64 (2 ^ k)) setup b) (htest : TestType.linearComplexity ∈ setup.tests)
    (hmix : setup.mix = none) (seed : SeedData) (hs : rng32_mt19937 seed ∈ setup.sources) : ¬ BatteryPasses b := by
  refine C108_battery (by omega) k hk 19937 ?_ setup hth b hb htest _ hs ?_
  · calc (1024 * (2 * 19937 + 8)) ^ 7 ≤ 2 ^ (5 * 36) := by norm_num
      _ ≤ 2 ^ (5 * k) := Nat.pow_le_pow_right (by omega) (by omega)
  · rw [hmix]
    exact C117_linear _ 0

-- Two different states with the same outputs: the lower 31 bits of the oldest word do not matter.
example : ∃ s s' : MtState, s ≠ s' ∧ (∀ i, (mtStream s).nth i = (mtStream s').nth i) ∧ ∃ n p, 0 < p ∧
    ∀ i < 624, (mtStream s).nth (n + i) = (mtStream s).nth (n + i + p) := by
  refine ⟨fun i => BitVec.ofNat 32 i.val, fun i => if i.val = 0 then 5#32 else BitVec.ofNat 32 i.val, fun h => ?_, fun i => ?_, ?_⟩
  · have := congrFun h 0
    revert this
    decide
  · rw [nth_mt, nth_mt]
    refine congrArg mtTemper (agree_all _ _ (rec_word _) (rec_word _) 0 ⟨?_, fun i h1 h2 => ?_⟩ _ (by omega))
    · decide
    · rw [Nat.zero_add, word_lt _ i (by omega), word_lt _ i (by omega)]
      show _ = (if i = 0 then _ else _)
      rw [if_neg (by omega)]
  · obtain ⟨p, hp, h⟩ := C117_periodic fun i => BitVec.ofNat 32 i.val
    exact ⟨0, p, hp, fun i _ => (h (0 + i)).symm⟩

-- Seeds and sample counts as in the theorems exist.
example : (⟨5489, 0, 0, 0⟩ : SeedData).s32 ≠ (⟨1, 0, 0, 0⟩ : SeedData).s32 ∧ 40838144 ≤ (BitVec.ofNat 64 (2 ^ 26)).toNat := by decide

-- An evaluation as in `C117_battery` exists.
example : ∃ (setup : TestSetup 32) (b : Battery ℝ), 0 < setup.maxThreads ∧ TestType.linearComplexity ∈ setup.tests ∧ setup.mix = none ∧
    rng32_mt19937 ⟨1, 0, 0, 0⟩ ∈ setup.sources ∧ EvaluateOutcome (suiteDef chi2DistributionCdf) (BitVec.ofNat 64 (2 ^ 36)) setup b := by
  obtain ⟨b, hb⟩ := C35_terminates (suiteDef (w := 32) chi2DistributionCdf) (BitVec.ofNat 64 (2 ^ 36))
    ⟨"s", [rng32_mt19937 ⟨1, 0, 0, 0⟩], [.linearComplexity], none, 1, 10, 36⟩
  exact ⟨_, b, by decide, by simp, rfl, by simp, hb⟩

end TFR
