import Mathlib.NumberTheory.LucasPrimality
import Mathlib.Tactic.NormNum.Prime
import Mathlib.Data.List.Prime
/-
Fast modular powers in the kernel, and the primes needed by the period proofs.
-/
namespace TFR

/-- `a ^ e % m`, reading `k` bits of `e`. -/
def powMod (m a : Nat) : Nat → Nat → Nat
  | 0, _ => 1 % m
  | k + 1, e => (fun r => (r * r % m) * (a ^ (e % 2)) % m) (powMod m a k (e / 2))

theorem powMod_eq (m a k e : Nat) (h : e < 2 ^ k) : powMod m a k e = a ^ e % m := by
  induction k generalizing e with
  | zero => have : e = 0 := by simpa using h
            subst this; simp [powMod]
  | succ k ih =>
    simp only [powMod]
    rw [ih (e / 2) (by rw [Nat.pow_succ] at h; omega)]
    conv_rhs => rw [← Nat.div_add_mod e 2, pow_add, Nat.mul_mod, two_mul, pow_add]
    rw [← Nat.mul_mod]
    rw [Nat.mul_mod]
    simp [Nat.mul_mod]

theorem zmod_pow_eq_one_iff (m a e : Nat) : ((a : ZMod m) ^ e = 1) ↔ a ^ e % m = 1 % m := by
  rw [← Nat.cast_pow, ← Nat.cast_one (R := ZMod m), ZMod.natCast_eq_natCast_iff]; rfl

theorem prime_mem_of_dvd_prod {q n : Nat} (hq : q.Prime) (hd : q ∣ n) (l : List Nat) (hl : l.prod = n)
    (hp : ∀ p ∈ l, p.Prime) : q ∈ l := by
  rw [← hl] at hd
  obtain ⟨p, hpl, hqp⟩ := (Prime.dvd_prod_iff hq.prime).1 hd
  rwa [(Nat.prime_dvd_prime_iff_eq hq (hp p hpl)).1 hqp]

/-- Checked by evaluation: `a` has order `m - 1` modulo `m`, given the prime factors of `m - 1`. -/
def lucasCert (m a : Nat) (l : List Nat) : Bool :=
  powMod m a 64 (m - 1) == 1 % m && l.all fun q => powMod m a 64 ((m - 1) / q) != 1 % m

theorem prime_of_lucasCert (m a : Nat) (l : List Nat) (hm : m ≤ 2 ^ 64) (hl : l.prod = m - 1) (hm2 : 2 ≤ m)
    (hp : ∀ p ∈ l, p.Prime) (h : lucasCert m a l = true) : m.Prime := by
  unfold lucasCert at h
  rw [Bool.and_eq_true, beq_iff_eq, List.all_eq_true] at h
  apply lucas_primality m (a : ZMod m)
  · rw [zmod_pow_eq_one_iff, ← powMod_eq m a 64 _ (by omega)]; exact h.1
  · intro q hq hd
    rw [Ne, zmod_pow_eq_one_iff, ← powMod_eq m a 64 _ (lt_of_le_of_lt (Nat.div_le_self _ _) (by omega))]
    have := h.2 q (prime_mem_of_dvd_prod hq hd l hl hp)
    simpa using this

theorem prime_67280421310721 : Nat.Prime 67280421310721 := by
  apply prime_of_lucasCert _ 3 [2, 2, 2, 2, 2, 2, 2, 2, 5, 47, 373, 2998279] (by norm_num) (by norm_num) (by norm_num)
  · simp only [List.forall_mem_cons, List.not_mem_nil, false_imp_iff, implies_true, and_true]
    norm_num
  · decide +kernel

/-- The factors of `2^128 - 1`. -/
theorem primes128 : ∀ p ∈ [3, 5, 17, 257, 65537, 641, 6700417, 274177, 67280421310721], Nat.Prime p := by
  simp only [List.forall_mem_cons, List.not_mem_nil, false_imp_iff, implies_true, and_true]
  exact ⟨by norm_num, by norm_num, by norm_num, by norm_num, by norm_num, by norm_num, by norm_num, by norm_num,
    prime_67280421310721⟩

theorem minstd_cert : lucasCert 2147483647 48271 [2, 3, 3, 7, 11, 31, 151, 331] = true := by decide +kernel

theorem minstd_factors : ∀ p ∈ [2, 3, 3, 7, 11, 31, 151, 331], Nat.Prime p := by
  simp only [List.forall_mem_cons, List.not_mem_nil, false_imp_iff, implies_true, and_true]
  norm_num

theorem prime_2147483647 : Nat.Prime 2147483647 :=
  prime_of_lucasCert _ 48271 _ (by norm_num) (by norm_num) (by norm_num) minstd_factors minstd_cert

end TFR
