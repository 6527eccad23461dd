import Verif.Lemmas.Streams
import Verif.Props.Streams

namespace TFR
variable {w : Nat}

theorem bij_of_inj (f : BitVec w → BitVec w) (h : Function.Injective f) : Function.Bijective f :=
  ⟨h, Finite.surjective_of_injective h⟩

/-- A map whose output bit `i` determines input bit `i` once all higher input bits are known. -/
theorem inj_of_upper (f : BitVec w → BitVec w)
    (h : ∀ x y i, i < w → (∀ j, i < j → x.getLsbD j = y.getLsbD j) →
      (f x).getLsbD i = (f y).getLsbD i → x.getLsbD i = y.getLsbD i) : Function.Injective f := by
  intro x y hxy
  have key : ∀ d i, i < w → w - i ≤ d → x.getLsbD i = y.getLsbD i := by
    intro d
    induction d with
    | zero => intro i hi hd; omega
    | succ d ih =>
      intro i hi hd
      apply h x y i hi _ (by rw [hxy])
      intro j hj
      by_cases hjw : j < w
      · exact ih j hjw (by omega)
      · rw [BitVec.getLsbD_of_ge x j (by omega), BitVec.getLsbD_of_ge y j (by omega)]
  apply BitVec.eq_of_getLsbD_eq
  intro i hi
  exact key w i hi (by omega)

/-- Dual: output bit `i` determines input bit `i` once all lower input bits are known. -/
theorem inj_of_lower (f : BitVec w → BitVec w)
    (h : ∀ x y i, i < w → (∀ j, j < i → x.getLsbD j = y.getLsbD j) →
      (f x).getLsbD i = (f y).getLsbD i → x.getLsbD i = y.getLsbD i) : Function.Injective f := by
  intro x y hxy
  apply BitVec.eq_of_getLsbD_eq
  intro i
  induction i using Nat.strong_induction_on with
  | _ i ih =>
    intro hi
    apply h x y i hi _ (by rw [hxy])
    intro j hj
    exact ih j hj (by omega)

theorem bij_xsr (k : Nat) (hk : 0 < k) : Function.Bijective (fun x : BitVec w => x ^^^ (x >>> k)) := by
  apply bij_of_inj
  apply inj_of_upper
  intro x y i hi hj h
  simp only [BitVec.getLsbD_xor, BitVec.getLsbD_ushiftRight] at h
  rw [hj (k + i) (by omega)] at h
  simpa using h

theorem bij_xsr2 (k l : Nat) (hk : 0 < k) (hl : 0 < l) :
    Function.Bijective (fun x : BitVec w => x ^^^ ((x >>> k) ^^^ (x >>> l))) := by
  apply bij_of_inj
  apply inj_of_upper
  intro x y i hi hj h
  simp only [BitVec.getLsbD_xor, BitVec.getLsbD_ushiftRight] at h
  rw [hj (k + i) (by omega), hj (l + i) (by omega)] at h
  simpa using h

theorem bij_xsl (k : Nat) (hk : 0 < k) : Function.Bijective (fun x : BitVec w => x ^^^ (x <<< k)) := by
  apply bij_of_inj
  apply inj_of_lower
  intro x y i hi hj h
  simp only [BitVec.getLsbD_xor, BitVec.getLsbD_shiftLeft, hi, decide_true, Bool.true_and] at h
  by_cases hik : i < k
  · simpa [hik] using h
  · rw [hj (i - k) (by omega)] at h
    simpa using h

theorem bij_xor_const (c : BitVec w) : Function.Bijective (fun x : BitVec w => x ^^^ c) := by
  apply bij_of_inj
  intro x y h
  simpa using h

theorem bij_const_xor (c : BitVec w) : Function.Bijective (fun x : BitVec w => c ^^^ x) := by
  apply bij_of_inj
  intro x y h
  simpa using h

theorem bij_add_const (c : BitVec w) : Function.Bijective (fun x : BitVec w => x + c) := by
  apply bij_of_inj
  intro x y h
  exact (BitVec.add_left_inj c).1 h

theorem bij_mul_odd (c : BitVec w) (hc : c.toNat % 2 = 1) : Function.Bijective (fun x : BitVec w => x * c) := by
  apply bij_of_inj
  intro x y h
  have h1 := congrArg BitVec.toNat h
  simp only [BitVec.toNat_mul] at h1
  have hcop : Nat.gcd (2 ^ w) c.toNat = 1 := by
    apply Nat.Coprime.pow_left
    rw [Nat.coprime_two_left, Nat.odd_iff]; exact hc
  have h3 : x.toNat % 2 ^ w = y.toNat % 2 ^ w := Nat.ModEq.cancel_right_of_coprime hcop h1
  rw [Nat.mod_eq_of_lt x.isLt, Nat.mod_eq_of_lt y.isLt] at h3
  exact BitVec.eq_of_toNat_eq h3

/-- `(x ^ c) ^ (x >> k)`. -/
theorem bij_xor_xsr (c : BitVec w) (k : Nat) (hk : 0 < k) :
    Function.Bijective (fun x : BitVec w => (x ^^^ c) ^^^ (x >>> k)) := by
  have := (bij_xor_const c).comp (bij_xsr (w := w) k hk)
  convert this using 2 with x
  simp only [Function.comp]
  rw [BitVec.xor_assoc, BitVec.xor_comm c, ← BitVec.xor_assoc]

/-- `(x >> k) ^ x`. -/
theorem bij_xsr' (k : Nat) (hk : 0 < k) : Function.Bijective (fun x : BitVec w => (x >>> k) ^^^ x) := by
  have := bij_xsr (w := w) k hk
  convert this using 2 with x
  rw [BitVec.xor_comm]

/-- `(x + a) + (x << k)`: multiplication by the odd number `2^k + 1`, then addition. -/
theorem bij_add_shl (a : BitVec w) (k : Nat) (hk : 0 < k) :
    Function.Bijective (fun x : BitVec w => (x + a) + (x <<< k)) := by
  rcases Nat.eq_zero_or_pos w with hw | hw
  · subst hw; exact ⟨fun x y _ => Subsingleton.elim _ _, fun y => ⟨y, Subsingleton.elim _ _⟩⟩
  have hodd : (BitVec.ofNat w (2 ^ k) + 1#w).toNat % 2 = 1 := by
    rw [BitVec.toNat_add, BitVec.toNat_ofNat, BitVec.toNat_ofNat]
    have h2 : 2 ∣ 2 ^ w := dvd_pow_self 2 (by omega)
    rw [Nat.mod_mod_of_dvd _ h2, Nat.add_mod, Nat.mod_mod_of_dvd _ h2, Nat.mod_mod_of_dvd _ h2]
    have : 2 ^ k % 2 = 0 := Nat.mod_eq_zero_of_dvd (dvd_pow_self 2 (by omega))
    omega
  have := (bij_add_const a).comp (bij_mul_odd _ hodd)
  convert this using 2 with x
  simp only [Function.comp]
  rw [BitVec.mul_add, BitVec.mul_one]
  have : x <<< k = x * BitVec.ofNat w (2 ^ k) := by
    apply BitVec.eq_of_toNat_eq
    simp [BitVec.toNat_mul, Nat.shiftLeft_eq]
  rw [this, BitVec.add_assoc, BitVec.add_comm a, ← BitVec.add_assoc, BitVec.add_comm x]

/-- `(x + a) ^ (x << k)`: a triangular function. -/
theorem bij_add_xor_shl (a : BitVec w) (k : Nat) (hk : 0 < k) :
    Function.Bijective (fun x : BitVec w => (x + a) ^^^ (x <<< k)) := by
  apply bij_of_inj
  apply inj_of_lower
  intro x y i hi hj h
  simp only [BitVec.getLsbD_xor, BitVec.getLsbD_shiftLeft, hi, decide_true, Bool.true_and,
    BitVec.getLsbD_add hi] at h
  have hcarry : BitVec.carry i x a false = BitVec.carry i y a false := by
    have hmod : x.toNat % 2 ^ i = y.toNat % 2 ^ i := by
      apply Nat.eq_of_testBit_eq
      intro j
      rw [Nat.testBit_mod_two_pow, Nat.testBit_mod_two_pow]
      by_cases hji : j < i
      · have := hj j hji
        simp only [BitVec.getLsbD] at this
        rw [this]
      · simp [hji]
    simp only [BitVec.carry, hmod]
  have hsh : (!decide (i < k) && x.getLsbD (i - k)) = (!decide (i < k) && y.getLsbD (i - k)) := by
    by_cases hik : i < k
    · simp [hik]
    · rw [hj (i - k) (by omega)]
  rw [hcarry, hsh] at h
  simpa using h

theorem ror_xor (x y : BitVec w) (a : Int) : ror (x ^^^ y) a = ror x a ^^^ ror y a := by
  apply BitVec.eq_of_getLsbD_eq
  intro i hi
  rw [BitVec.getLsbD_xor, getLsbD_ror _ _ _ hi, getLsbD_ror _ _ _ hi, getLsbD_ror _ _ _ hi, BitVec.getLsbD_xor]

/-- `1 + R^a + R^b` on 64-bit words. -/
def rot2 (a b : Int) (x : BitVec 64) : BitVec 64 := x ^^^ (ror x a ^^^ ror x b)

theorem rot2_rot2 (a b : Int) (x : BitVec 64) : rot2 a b (rot2 a b x) = rot2 (2 * a) (2 * b) x := by
  unfold rot2
  simp only [ror_xor, ror_ror]
  rw [show b + a = a + b by ring, show a + a = 2 * a by ring, show b + b = 2 * b by ring]
  generalize ror x a = u
  generalize ror x b = v
  generalize ror x (a + b) = z
  generalize ror x (2 * a) = p
  generalize ror x (2 * b) = q
  apply BitVec.eq_of_getLsbD_eq
  intro i hi
  simp only [BitVec.getLsbD_xor]
  cases x.getLsbD i <;> cases u.getLsbD i <;> cases v.getLsbD i <;> cases z.getLsbD i <;>
    cases p.getLsbD i <;> cases q.getLsbD i <;> rfl

theorem bij_rot2 (a b : Int) : Function.Bijective (rot2 a b) := by
  have h64 : ∀ x, rot2 (64 * a) (64 * b) x = x := by
    intro x
    unfold rot2
    rw [ror_congr x (64 * a) 0 (by simp), ror_congr x (64 * b) 0 (by simp), ror_zero]
    simp
  have hinj : ∀ c d : Int, Function.Injective (rot2 (2 * c) (2 * d)) → Function.Injective (rot2 c d) := by
    intro c d h x y hxy
    apply h
    rw [← rot2_rot2, ← rot2_rot2, hxy]
  apply bij_of_inj
  apply hinj; apply hinj; apply hinj; apply hinj; apply hinj; apply hinj
  intro x y hxy
  have e : ∀ c : Int, 2 * (2 * (2 * (2 * (2 * (2 * c))))) = 64 * c := by intro c; ring
  rw [e, e, h64, h64] at hxy
  exact hxy

/-- Finite: a composition of self maps is bijective iff both are. -/
theorem bij_comp_iff {β : Type} [Finite β] (f g : β → β) :
    Function.Bijective (f ∘ g) ↔ Function.Bijective f ∧ Function.Bijective g := by
  constructor
  · intro h
    have hg : Function.Bijective g := by
      have := h.injective.of_comp
      exact ⟨this, Finite.surjective_of_injective this⟩
    have hf : Function.Bijective f := by
      have := h.surjective.of_comp
      exact ⟨Finite.injective_iff_surjective.2 this, this⟩
    exact ⟨hf, hg⟩
  · rintro ⟨hf, hg⟩; exact hf.comp hg

end TFR
