import Verif.Lemmas.Windows
/-
C06 - C08: bit iteration, blocks, windows (core/src/util/bitwise.h:125-164).
-/
namespace TFR
open Spec
variable {w : Nat} {σ : Type}

/-! ### C06 -/

/-- `for_each_bit` makes exactly the calls `calls[0], calls[1], ...`: `n * w` of them, call number
`q * w + b` getting bit `b` of word `q`, threading the callback's state (and any fault it raises). -/
theorem C06_forEachBit (data : List (BitVec w)) (cb : σ → Bool → R σ) (s : σ) :
    ∃ calls : List Bool, calls.length = data.length * w ∧
      (∀ q b v, data[q]? = some v → b < w → calls[q * w + b]? = some (v.getLsbD b)) ∧
      forEachBit data cb s = calls.foldlM cb s :=
  ⟨bitsOf data, length_bitsOf data, fun q b v hv hb => getElem?_bitsOf data q b hb v hv,
    forEachBit_eq data cb s⟩

example : forEachBit [0b10010001#8, 0xf0#8] (fun (l : List Bool) b => .ok (l ++ [b])) [] =
    .ok [true,false,false,false,true,false,false,true, false,false,false,false,true,true,true,true] := by
  decide +kernel

/-! ### C07 -/

/-- `for_each_bit_block` with block size `k ≥ 1`: the callback is called `⌊n*w/k⌋` times, call `j` with
bits `j*k .. j*k+k-1` of the bit sequence of C06, in order; remaining bits are dropped. -/
theorem C07_forEachBitBlock (data : List (BitVec w)) (k : Nat) (hk : 0 < k) (cb : σ → List Bool → R σ) (s : σ) :
    ∃ blocks : List (List Bool), blocks.length = data.length * w / k ∧
      (∀ j (hj : j < blocks.length), blocks[j].length = k ∧
        ∀ b, b < k → blocks[j][b]? = (bitsOf data)[j * k + b]?) ∧
      forEachBitBlock data k cb s = blocks.foldlM cb s := by
  refine ⟨chunks k (bitsOf data), by simp [chunks, length_bitsOf], ?_, forEachBitBlock_eq data k hk cb s⟩
  intro j hj
  have hj' : j < (bitsOf data).length / k := by simpa [chunks] using hj
  have hjk : j * k + k ≤ (bitsOf data).length := by
    have := Nat.div_mul_le_self (bitsOf data).length k
    nlinarith
  constructor
  · simp [chunks]; omega
  · intro b hb
    simp [chunks, hb, List.getElem?_take]

/-- Block size 0: nothing happens on an empty range, otherwise the first bit is written out of bounds. -/
theorem C07_forEachBitBlock_zero (data : List (BitVec w)) (cb : σ → List Bool → R σ) (s : σ) :
    forEachBitBlock data 0 cb s =
      if data.length * w = 0 then .ok s else .error .oobIndex := by
  unfold forEachBitBlock
  rw [forEachBit_eq, ← length_bitsOf]
  cases h : bitsOf data with
  | nil => simp
  | cons b l => simp [blockStep]; rfl

example : forEachBitBlock [0b10010001#8, 0xf0#8] 5 (fun (l : List (List Bool)) b => .ok (l ++ [b])) [] =
    .ok [[true,false,false,false,true],[false,false,true, false,false],[false,false,true,true,true]] := by
  decide +kernel

/-! ### C08 -/

/-- `sliding_bit_window` with window size `1 ≤ k ≤ 64`: the callback is called `⌊n*w/k⌋` times; value
number `j` is `Σ_b bit(j*k+b) 2^b`, and is below `2^k`. -/
theorem C08_slidingBitWindow (data : List (BitVec w)) (k : Nat) (hk : 0 < k) (hk64 : k ≤ 64)
    (cb : σ → BitVec 64 → R σ) (s : σ) :
    ∃ values : List (BitVec 64), values.length = data.length * w / k ∧
      (∀ j (hj : j < values.length), values[j].toNat < 2 ^ k ∧
        ∀ b, b < k → some (values[j].getLsbD b) = (bitsOf data)[j * k + b]?) ∧
      slidingBitWindow data k cb s = values.foldlM cb s := by
  refine ⟨(chunks k (bitsOf data)).map fun bs => BitVec.ofNat 64 (ofBits bs),
    by simp [chunks, length_bitsOf], ?_, ?_⟩
  · intro j hj
    have hj' : j < (bitsOf data).length / k := by simpa [chunks] using hj
    have hjk : j * k + k ≤ (bitsOf data).length := by
      have := Nat.div_mul_le_self (bitsOf data).length k
      nlinarith
    have hlen : (((bitsOf data).drop (j * k)).take k).length = k := by simp; omega
    have hlt := ofBits_lt (((bitsOf data).drop (j * k)).take k)
    rw [hlen] at hlt
    have h64 : 2 ^ k ≤ 2 ^ 64 := Nat.pow_le_pow_right (by omega) hk64
    simp only [List.getElem_map, chunks, List.getElem_range, BitVec.toNat_ofNat]
    refine ⟨by rw [Nat.mod_eq_of_lt (by omega)]; exact hlt, ?_⟩
    intro b hb
    rw [BitVec.getLsbD_ofNat, testBit_ofBits]
    have hb64 : b < 64 := by omega
    have : j * k + b < (bitsOf data).length := by omega
    simp [hb64, hb, List.getElem?_take, List.getElem?_eq_getElem this]
  · rw [slidingBitWindow_eq data k hk hk64, List.foldlM_map]

/-- Window sizes above 64 or not positive: undefined behaviour as soon as there are more than 64 bits. -/
theorem C08_slidingBitWindow_bad (data : List (BitVec w)) (k : Int) (hk : k ≤ 0 ∨ 64 < k)
    (cb : σ → BitVec 64 → R σ) (s : σ) (hlen : 64 < data.length * w) :
    slidingBitWindow data k cb s = .error .shiftTooLarge := by
  unfold slidingBitWindow
  rw [forEachBit_eq]
  rw [← length_bitsOf] at hlen
  have : ∀ (l : List Bool) (c : Nat) (v : BitVec 64), c ≤ 64 → 64 < l.length + c →
      l.foldlM (windowStep k cb) (c, v, s) = .error .shiftTooLarge := by
    intro l
    induction l with
    | nil => intro c v h1 h2; simp at h2; omega
    | cons b l ih =>
      intro c v h1 h2
      simp only [List.foldlM_cons, windowStep]
      by_cases hc : c < 64
      · rw [if_pos hc, if_neg (by omega)]
        exact ih _ _ (by omega) (by simp at h2; omega)
      · rw [if_neg hc]; rfl
  rw [this _ 0 _ (by omega) (by omega)]; rfl

example : slidingBitWindow [0b10010001#8, 0xf0#8] 5 (fun (l : List (BitVec 64)) b => .ok (l ++ [b])) [] =
    .ok [17#64, 4#64, 28#64] := by
  decide +kernel

end TFR
