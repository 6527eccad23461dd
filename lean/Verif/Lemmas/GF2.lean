import Verif.Lemmas.Period
import Mathlib.Algebra.Group.Hom.End
import Mathlib.Algebra.Group.Prod
import Mathlib.Data.Nat.Prime.Basic
import Mathlib.Data.List.Prime
import Mathlib.Data.Nat.Bitwise
import Mathlib.Data.Fintype.Prod
import Mathlib.Tactic.NoncommRing
import Mathlib.Tactic.Abel

/-
Certificates for the period of a linear map over GF(2).  Polynomials are natural numbers (bit `i` is the
coefficient of `x^i`).
-/
namespace TFR
open Function Spec

/-- `x * a mod P` (degree `n`). -/
def polyX (n P a : Nat) : Nat := (2 * a) ^^^ (P * (((2 * a) >>> n) % 2))

/-- `b * a mod P`, reading `k` bits of `b`. -/
def polyMul (n P a : Nat) : Nat → Nat → Nat
  | 0, _ => 0
  | k + 1, b => polyX n P (polyMul n P a k (b / 2)) ^^^ (a * (b % 2))

/-- `x ^ e mod P`, reading `k` bits of `e`. -/
def polyPow (n P : Nat) : Nat → Nat → Nat
  | 0, _ => 1
  | k + 1, e =>
    (fun r => (fun r2 => polyX n P r2 * (e % 2) + r2 * (1 - e % 2)) (polyMul n P r n r)) (polyPow n P k (e / 2))

section
variable {V : Type*} [AddCommGroup V]

/-- The polynomial `p` evaluated at `T`. -/
def ev (T : AddMonoid.End V) (p : Nat) : AddMonoid.End V :=
  if p = 0 then 0 else (if p % 2 = 1 then 1 else 0) + T * ev T (p / 2)
termination_by p
decreasing_by omega

theorem ev_rec (T : AddMonoid.End V) (p : Nat) : ev T p = (if p % 2 = 1 then 1 else 0) + T * ev T (p / 2) := by
  rw [ev]
  split
  · next h => subst h; rw [ev]; simp
  · rfl

theorem ev_zero (T : AddMonoid.End V) : ev T 0 = 0 := by rw [ev]; simp
theorem ev_one (T : AddMonoid.End V) : ev T 1 = 1 := by rw [ev_rec]; simp [ev_zero]
theorem ev_two_mul (T : AddMonoid.End V) (p : Nat) : ev T (2 * p) = T * ev T p := by
  rw [ev_rec, Nat.mul_mod_right, Nat.mul_div_cancel_left _ (by decide)]; simp

variable (h2 : ∀ v : V, v + v = 0)
include h2

theorem end_add_self (A : AddMonoid.End V) : A + A = 0 := by
  ext v; exact h2 (A v)

theorem ev_xor (T : AddMonoid.End V) (p q : Nat) : ev T (p ^^^ q) = ev T p + ev T q := by
  induction p using Nat.strong_induction_on generalizing q with
  | _ p ih =>
    by_cases hp : p = 0
    · subst hp; simp [ev_zero]
    · rw [ev_rec T (p ^^^ q), ev_rec T p, ev_rec T q, Nat.xor_div_two, ih (p / 2) (by omega), mul_add]
      have hm : (p ^^^ q) % 2 = (p % 2) ^^^ (q % 2) := by
        have := Nat.xor_mod_two_pow (a := p) (b := q) (n := 1)
        simpa using this
      rw [hm]
      have h11 := end_add_self h2 (1 : AddMonoid.End V)
      rcases Nat.mod_two_eq_zero_or_one p with h | h <;> rcases Nat.mod_two_eq_zero_or_one q with h' | h' <;>
        rw [h, h'] <;> simp
      · abel
      · abel
      · have : (1 : AddMonoid.End V) + T * ev T (p / 2) + (1 + T * ev T (q / 2))
            = (1 + 1) + (T * ev T (p / 2) + T * ev T (q / 2)) := by abel
        rw [this, h11, zero_add]

theorem ev_polyX (T : AddMonoid.End V) (n P a : Nat) (hP : ev T P = 0) : ev T (polyX n P a) = T * ev T a := by
  unfold polyX
  rw [ev_xor h2, ev_two_mul]
  rcases Nat.mod_two_eq_zero_or_one ((2 * a) >>> n) with h | h <;> rw [h] <;> simp [ev_zero, hP]

theorem ev_polyMul (T : AddMonoid.End V) (n P a k b : Nat) (hP : ev T P = 0) (hb : b < 2 ^ k) :
    ev T (polyMul n P a k b) = ev T b * ev T a := by
  induction k generalizing b with
  | zero => have : b = 0 := by simpa using hb
            subst this; simp [polyMul, ev_zero]
  | succ k ih =>
    rw [polyMul, ev_xor h2, ev_polyX h2 T n P _ hP, ih (b / 2) (by rw [Nat.pow_succ] at hb; omega), ev_rec T b]
    rcases Nat.mod_two_eq_zero_or_one b with h | h <;> rw [h] <;> simp [ev_zero, add_mul, mul_assoc, add_comm]

omit h2 in
theorem ev_comm (T : AddMonoid.End V) (p : Nat) : T * ev T p = ev T p * T := by
  induction p using Nat.strong_induction_on with
  | _ p ih =>
    by_cases hp : p = 0
    · subst hp; simp [ev_zero]
    · rw [ev_rec, mul_add, add_mul, mul_assoc, ih (p / 2) (by omega)]
      split <;> simp [mul_assoc]

theorem ev_polyPow (T : AddMonoid.End V) (n P k e : Nat) (hP : ev T P = 0) (he : e < 2 ^ k)
    (hlt : ∀ k e, polyPow n P k e < 2 ^ n) :
    ev T (polyPow n P k e) = T ^ e := by
  induction k generalizing e with
  | zero => have : e = 0 := by simpa using he
            subst this; simp [polyPow, ev_one]
  | succ k ih =>
    have ihe := ih (e / 2) (by rw [Nat.pow_succ] at he; omega)
    have hsq : ev T (polyMul n P (polyPow n P k (e / 2)) n (polyPow n P k (e / 2))) = T ^ (2 * (e / 2)) := by
      rw [ev_polyMul h2 T n P _ _ _ hP (hlt _ _), ihe, ← pow_add, two_mul]
    simp only [polyPow]
    rcases Nat.mod_two_eq_zero_or_one e with h | h <;> rw [h]
    · simp only [Nat.mul_zero, Nat.sub_zero, Nat.mul_one, Nat.zero_add]
      rw [hsq, show 2 * (e / 2) = e by omega]
    · simp only [Nat.mul_one, Nat.sub_self, Nat.mul_zero, Nat.add_zero]
      rw [ev_polyX h2 T n P _ hP, hsq, ← pow_succ', show 2 * (e / 2) + 1 = e by omega]

end

/-! Bounds: polynomials stay reduced. -/

theorem polyX_lt (n P a : Nat) (hP1 : 2 ^ n ≤ P) (hP2 : P < 2 ^ (n + 1)) (ha : a < 2 ^ n) : polyX n P a < 2 ^ n := by
  unfold polyX
  have h2a : 2 * a < 2 ^ (n + 1) := by rw [Nat.pow_succ]; omega
  rw [Nat.shiftRight_eq_div_pow]
  by_cases h : 2 * a < 2 ^ n
  · rw [Nat.div_eq_of_lt h]; simpa using h
  · have hq : 2 * a / 2 ^ n = 1 := by
      apply Nat.div_eq_of_lt_le
      · omega
      · rw [Nat.pow_succ] at h2a; omega
    rw [hq]; simp only [Nat.one_mod, Nat.mul_one]
    apply Nat.lt_pow_two_of_testBit
    intro i hi
    rw [Nat.testBit_xor]
    rcases Nat.eq_or_lt_of_le hi with rfl | hi
    · have t : ∀ b, 2 ^ n ≤ b → b < 2 ^ (n + 1) → b.testBit n = true := by
        intro b h1 h2
        rw [Nat.testBit_eq_decide_div_mod_eq]
        have : b / 2 ^ n = 1 := by
          apply Nat.div_eq_of_lt_le
          · omega
          · rw [Nat.pow_succ] at h2; omega
        rw [this]; rfl
      rw [t _ (by omega) h2a, t _ hP1 hP2]; rfl
    · have t : ∀ b, b < 2 ^ (n + 1) → b.testBit i = false := fun b hb =>
        Nat.testBit_lt_two_pow (lt_of_lt_of_le hb (Nat.pow_le_pow_right (by omega) hi))
      rw [t _ h2a, t _ hP2]; rfl

theorem polyMul_lt (n P a k b : Nat) (hP1 : 2 ^ n ≤ P) (hP2 : P < 2 ^ (n + 1)) (ha : a < 2 ^ n) :
    polyMul n P a k b < 2 ^ n := by
  induction k generalizing b with
  | zero => exact Nat.two_pow_pos n
  | succ k ih =>
    rw [polyMul]
    apply Nat.xor_lt_two_pow (polyX_lt n P _ hP1 hP2 (ih _))
    rcases Nat.mod_two_eq_zero_or_one b with h | h <;> rw [h] <;> simp [ha]

theorem polyPow_lt (n P : Nat) (hn : 0 < n) (hP1 : 2 ^ n ≤ P) (hP2 : P < 2 ^ (n + 1)) (k e : Nat) :
    polyPow n P k e < 2 ^ n := by
  induction k generalizing e with
  | zero => exact Nat.one_lt_two_pow (by omega)
  | succ k ih =>
    simp only [polyPow]
    have hm := polyMul_lt n P (polyPow n P k (e / 2)) n (polyPow n P k (e / 2)) hP1 hP2 (ih _)
    rcases Nat.mod_two_eq_zero_or_one e with h | h <;> rw [h]
    · simpa using hm
    · simpa using polyX_lt n P _ hP1 hP2 hm

/-- The certificate checked by evaluation: `x^N = 1 mod P` and, for each listed prime `p` with cofactor `u`,
`u * (x^(N/p) + 1) = 1 mod P`. -/
def periodCert (n P N : Nat) (l : List (Nat × Nat)) : Bool :=
  polyPow n P n N == 1 && l.all fun pu => polyMul n P pu.2 n (polyPow n P n (N / pu.1) ^^^ 1) == 1

theorem dvd_div_of_dvd_of_ne {N d : Nat} (hN : 0 < N) (hd : d ∣ N) (hne : d ≠ N) (l : List Nat)
    (hl : l.prod = N) (hpr : ∀ p ∈ l, p.Prime) : ∃ p ∈ l, d ∣ N / p := by
  obtain ⟨q, hq⟩ := hd
  have hq1 : q ≠ 1 := by rintro rfl; simp at hq; exact hne hq.symm
  obtain ⟨r, hr, hrq⟩ := Nat.exists_prime_and_dvd hq1
  have : r ∣ l.prod := by rw [hl, hq]; exact Dvd.dvd.mul_left hrq d
  obtain ⟨p, hp, hrp⟩ := (Prime.dvd_prod_iff hr.prime).1 this
  have : r = p := (Nat.prime_dvd_prime_iff_eq hr (hpr p hp)).1 hrp
  subst this
  refine ⟨r, hp, ?_⟩
  obtain ⟨t, rfl⟩ := hrq
  rw [hq, show d * (r * t) = r * (d * t) by ring, Nat.mul_div_cancel_left _ hr.pos]
  exact Dvd.intro t rfl

/-- A linear map annihilated by `P` with a period certificate: every non-zero vector has period exactly `N`. -/
theorem linear_period {V : Type*} [AddCommGroup V] (h2 : ∀ v : V, v + v = 0) (T : AddMonoid.End V)
    (n P N : Nat) (l : List (Nat × Nat)) (hn : 0 < n) (hP1 : 2 ^ n ≤ P) (hP2 : P < 2 ^ (n + 1)) (hN0 : 0 < N)
    (hN : N < 2 ^ n) (hP : ev T P = 0) (hl : (l.map Prod.fst).prod = N) (hpr : ∀ p ∈ l.map Prod.fst, p.Prime)
    (hc : periodCert n P N l = true) (v : V) (hv : v ≠ 0) (k : Nat) : T^[k] v = v ↔ N ∣ k := by
  have hlt := polyPow_lt n P hn hP1 hP2
  unfold periodCert at hc
  rw [Bool.and_eq_true, beq_iff_eq, List.all_eq_true] at hc
  have hTN : T ^ N = 1 := by rw [← ev_polyPow h2 T n P n N hP hN hlt, hc.1, ev_one]
  have happ : ∀ m, T^[m] v = (T ^ m) v := fun m => by rw [AddMonoid.End.coe_pow]
  have hfix : T^[N] v = v := by rw [happ, hTN]; rfl
  have hmin : minimalPeriod T v = N := by
    by_contra hne
    have hd : minimalPeriod T v ∣ N := IsPeriodicPt.minimalPeriod_dvd hfix
    obtain ⟨p, hp, hdp⟩ := dvd_div_of_dvd_of_ne hN0 hd hne _ hl hpr
    obtain ⟨⟨p', u⟩, hpu, rfl⟩ := List.mem_map.1 hp
    have h1 : T^[N / p'] v = v := (isPeriodicPt_minimalPeriod T v).trans_dvd hdp
    have hcu := hc.2 _ hpu
    rw [beq_iff_eq] at hcu
    have hlt2 : N / p' < 2 ^ n := lt_of_le_of_lt (Nat.div_le_self _ _) hN
    have he := congrArg (ev T) hcu
    simp only at he
    rw [ev_polyMul h2 T n P _ _ _ hP (Nat.xor_lt_two_pow (hlt _ _) (Nat.one_lt_two_pow (by omega))), ev_xor h2,
      ev_polyPow h2 T n P n _ hP hlt2 hlt, ev_one] at he
    -- (T^(N/p) + 1) * ev u = 1, and the two factors commute
    have hcomm : ∀ m, T ^ m * ev T u = ev T u * T ^ m := by
      intro m
      induction m with
      | zero => simp
      | succ m ih => rw [pow_succ, mul_assoc, ev_comm, ← mul_assoc, ih, mul_assoc]
    have he2 : ev T u * (T ^ (N / p') + 1) = 1 := by
      rw [mul_add, ← hcomm, mul_one]; rw [add_mul, one_mul] at he; exact he
    have := congrArg (fun A : AddMonoid.End V => A v) he2
    change ev T u ((T ^ (N / p')) v + v) = v at this
    rw [← happ, h1, h2, map_zero] at this
    exact hv this.symm
  constructor
  · intro h; rw [← hmin]; exact IsPeriodicPt.minimalPeriod_dvd h
  · rintro ⟨q, rfl⟩
    rw [← hmin]
    exact (isPeriodicPt_minimalPeriod T v).mul_const q

end TFR
