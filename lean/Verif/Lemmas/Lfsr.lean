import Mathlib.Data.ZMod.Basic
import Mathlib.Algebra.BigOperators.Ring.Finset
import Mathlib.Algebra.BigOperators.Intervals
import Mathlib.Algebra.Field.ZMod
import Mathlib.Tactic.Ring
import Mathlib.Tactic.Linarith
/-
The mathematics of shortest linear recurrences over GF(2) (Massey's lemma and update).
-/
namespace TFR.Lfsr
open Finset

abbrev F2 := ZMod 2

theorem f2_cases (a : F2) : a = 0 ∨ a = 1 := by revert a; decide
theorem f2_ne_zero {a : F2} (h : a ≠ 0) : a = 1 := (f2_cases a).resolve_left h

/-- Discrepancy at index `n` of the connection polynomial `c` of length `L`. -/
def disc (u c : Nat → F2) (L n : Nat) : F2 := ∑ j ∈ range (L + 1), c j * u (n - j)

/-- `c` (length `L`) generates `u 0 .. u (N-1)`. -/
structure Gen (u c : Nat → F2) (L N : Nat) : Prop where
  one : c 0 = 1
  deg : ∀ j, L < j → c j = 0
  gen : ∀ n, L ≤ n → n < N → disc u c L n = 0

theorem disc_extend {u c : Nat → F2} {L L' n : Nat} (hdeg : ∀ j, L < j → c j = 0) (h : L ≤ L') :
    disc u c L' n = disc u c L n := by
  unfold disc
  symm
  apply sum_subset
  · intro j hj; simp at hj ⊢; omega
  · intro j _ hj
    simp at hj
    rw [hdeg j (by omega), zero_mul]

/-- Massey's lemma. -/
theorem massey {u c c' : Nat → F2} {L L' N : Nat} (h : Gen u c L N) (hL : L ≤ N) (hd : disc u c L N ≠ 0)
    (h' : Gen u c' L' (N + 1)) : N + 1 ≤ L + L' := by
  by_contra hc
  apply hd
  have hLL : L + L' ≤ N := by omega
  have e1 : ∑ j ∈ range (L + 1), ∑ k ∈ range (L' + 1), c j * c' k * u (N - j - k) = 0 := by
    apply sum_eq_zero
    intro j hj
    simp at hj
    have := h'.gen (N - j) (by omega) (by omega)
    unfold disc at this
    calc _ = c j * ∑ k ∈ range (L' + 1), c' k * u (N - j - k) := by
          rw [mul_sum]; apply sum_congr rfl; intro k _; ring
      _ = 0 := by rw [this, mul_zero]
  rw [sum_comm] at e1
  rw [sum_eq_single 0] at e1
  · rw [← e1]
    unfold disc
    apply sum_congr rfl
    intro j _
    rw [h'.one, mul_one, Nat.sub_zero]
  · intro k hk hk0
    simp at hk
    have := h.gen (N - k) (by omega) (by omega)
    unfold disc at this
    calc _ = c' k * ∑ j ∈ range (L + 1), c j * u (N - k - j) := by
          rw [mul_sum]; apply sum_congr rfl; intro j _
          rw [show N - j - k = N - k - j by omega]; ring
      _ = 0 := by rw [this, mul_zero]
  · simp

/-- The state of the algorithm after `N` symbols: `c` of length `l` is a shortest generator; `b` is the generator used
before the last length change, which failed at symbol `m - 1`. `m = 0` before the first non-zero symbol. -/
structure Inv (u : Nat → F2) (N : Nat) (c b : Nat → F2) (l lb m : Nat) : Prop where
  gen : Gen u c l N
  least : ∀ c' L', Gen u c' L' N → l ≤ L'
  mle : m ≤ N
  lm : l + lb = m
  lble : lb ≤ l
  bone : b 0 = 1
  bdeg : ∀ j, lb < j → b j = 0
  start : m = 0 → ∀ n, n < N → u n = 0
  bgen : 0 < m → ∀ n, lb ≤ n → n < m - 1 → disc u b lb n = 0
  bfail : 0 < m → disc u b lb (m - 1) ≠ 0 ∧ lb ≤ m - 1

theorem Inv.l_le {u : Nat → F2} {N : Nat} {c b : Nat → F2} {l lb m : Nat} (h : Inv u N c b l lb m) : l ≤ N := by
  have := h.mle; have := h.lm; omega

/-- `1`. -/
def unit : Nat → F2 := fun j => if j = 0 then 1 else 0

theorem inv_zero (u : Nat → F2) : Inv u 0 unit unit 0 0 0 where
  gen := ⟨by simp [unit], by intro j hj; simp [unit]; omega, by intro n _ h; omega⟩
  least := by intros; omega
  mle := le_rfl
  lm := rfl
  lble := le_rfl
  bone := by simp [unit]
  bdeg := by intro j hj; simp [unit]; omega
  start := by intro _ n h; omega
  bgen := by intro h; omega
  bfail := by intro h; omega

theorem Gen.mono {u c : Nat → F2} {L N N' : Nat} (h : Gen u c L N) (hN : N' ≤ N) : Gen u c L N' :=
  ⟨h.one, h.deg, fun n a b => h.gen n a (by omega)⟩

/-- No discrepancy: nothing changes. -/
theorem inv_keep {u c b : Nat → F2} {N l lb m : Nat} (h : Inv u N c b l lb m) (hd : disc u c l N = 0) :
    Inv u (N + 1) c b l lb m where
  gen := ⟨h.gen.one, h.gen.deg, by
    intro n a q
    rcases Nat.lt_succ_iff_lt_or_eq.1 q with q | q
    · exact h.gen.gen n a q
    · rw [q]; exact hd⟩
  least := fun c' L' g => h.least c' L' (g.mono (by omega))
  mle := by have := h.mle; omega
  lm := h.lm
  lble := h.lble
  bone := h.bone
  bdeg := h.bdeg
  start := by
    intro hm n hn
    rcases Nat.lt_succ_iff_lt_or_eq.1 hn with q | q
    · exact h.start hm n q
    · subst q
      have hl : l = 0 := by have := h.lm; omega
      subst hl
      simpa [disc, h.gen.one] using hd
  bgen := h.bgen
  bfail := h.bfail

/-- The updated polynomial `c + x^(N+1-m) b`. -/
def upd (c b : Nat → F2) (s : Nat) : Nat → F2 := fun j => c j + if s ≤ j then b (j - s) else 0

theorem disc_upd {u c b : Nat → F2} {l lb s L n : Nat} (hc : ∀ j, l < j → c j = 0) (hb : ∀ j, lb < j → b j = 0)
    (h1 : l ≤ L) (h2 : lb + s ≤ L) : disc u (upd c b s) L n = disc u c l n + disc u b lb (n - s) := by
  have e1 : disc u (upd c b s) L n = disc u c L n + ∑ j ∈ range (L + 1), (if s ≤ j then b (j - s) else 0) * u (n - j) := by
    unfold disc upd
    rw [← sum_add_distrib]
    apply sum_congr rfl
    intro j _; ring
  rw [e1, disc_extend hc h1]
  congr 1
  have e2 : L + 1 = s + (L + 1 - s) := by omega
  rw [e2, sum_range_add]
  have z : ∑ x ∈ range s, (if s ≤ x then b (x - s) else 0) * u (n - x) = 0 := by
    apply sum_eq_zero
    intro j hj
    simp at hj
    rw [if_neg (by omega), zero_mul]
  rw [z, zero_add]
  have : ∀ x ∈ range (L + 1 - s), (if s ≤ s + x then b (s + x - s) else 0) * u (n - (s + x)) = b x * u (n - s - x) := by
    intro x _
    rw [if_pos (by omega), Nat.add_sub_cancel_left, Nat.sub_sub]
  rw [sum_congr rfl this]
  have := disc_extend (u := u) (c := b) (L := lb) (L' := L - s) (n := n - s) hb (by omega)
  unfold disc at this ⊢
  rw [← this, show L + 1 - s = L - s + 1 by omega]

/-- A discrepancy: the new polynomial generates one symbol more with length `max l (N + 1 - l)`. -/
theorem gen_upd {u c b : Nat → F2} {N l lb m : Nat} (h : Inv u N c b l lb m) (hd : disc u c l N ≠ 0) :
    Gen u (upd c b (N + 1 - m)) (max l (N + 1 - l)) (N + 1) := by
  have h1 := h.mle; have h2 := h.lm; have h3 := h.lble; have h4 := h.l_le
  constructor
  · have : ¬ (N + 1 - m ≤ 0) := by omega
    simp [upd, this, h.gen.one]
  · intro j hj
    unfold upd
    rw [h.gen.deg j (by omega)]
    by_cases q : N + 1 - m ≤ j
    · rw [if_pos q, h.bdeg _ (by omega)]; simp
    · rw [if_neg q]; simp
  · intro n hn1 hn2
    rw [disc_upd h.gen.deg h.bdeg (by omega) (by omega)]
    rcases Nat.eq_zero_or_pos m with hm | hm
    · -- first non-zero symbol: length becomes N + 1
      have : l = 0 := by omega
      omega
    · obtain ⟨f1, f2⟩ := h.bfail hm
      rcases Nat.lt_succ_iff_lt_or_eq.1 hn2 with q | q
      · rw [h.gen.gen n (by omega) q, h.bgen hm (n - (N + 1 - m)) (by omega) (by omega)]; simp
      · subst q
        rw [f2_ne_zero hd, show n - (n + 1 - m) = m - 1 by omega, f2_ne_zero f1]
        decide

/-- A discrepancy makes the shortest length exactly `max l (N + 1 - l)`. -/
theorem least_upd {u c b : Nat → F2} {N l lb m : Nat} (h : Inv u N c b l lb m) (hd : disc u c l N ≠ 0) :
    ∀ c' L', Gen u c' L' (N + 1) → max l (N + 1 - l) ≤ L' := by
  intro c' L' g
  have a := h.least c' L' (g.mono (by omega))
  have b := massey h.gen h.l_le hd g
  omega

/-- A discrepancy with `2 l ≤ N + 1`: the length changes to `N + 1 - l`. -/
theorem inv_change {u c b : Nat → F2} {N l lb m : Nat} (h : Inv u N c b l lb m) (hd : disc u c l N ≠ 0)
    (hl : 2 * l ≤ N + 1) : Inv u (N + 1) (upd c b (N + 1 - m)) c (N + 1 - l) l (N + 1) := by
  have hmax : max l (N + 1 - l) = N + 1 - l := by omega
  have h4 := h.l_le
  exact {
    gen := hmax ▸ gen_upd h hd
    least := hmax ▸ least_upd h hd
    mle := le_rfl
    lm := by omega
    lble := by omega
    bone := h.gen.one
    bdeg := h.gen.deg
    start := by intro q; omega
    bgen := by intro _ n a q; exact h.gen.gen n a (by omega)
    bfail := by intro _; exact ⟨by simpa using hd, by omega⟩ }

/-- A discrepancy with `2 l > N + 1`: the length stays. -/
theorem inv_same {u c b : Nat → F2} {N l lb m : Nat} (h : Inv u N c b l lb m) (hd : disc u c l N ≠ 0)
    (hl : N + 1 < 2 * l) : Inv u (N + 1) (upd c b (N + 1 - m)) b l lb m := by
  have hmax : max l (N + 1 - l) = l := by omega
  have h1 := h.mle; have h2 := h.lm
  exact {
    gen := hmax ▸ gen_upd h hd
    least := hmax ▸ least_upd h hd
    mle := by omega
    lm := h.lm
    lble := h.lble
    bone := h.bone
    bdeg := h.bdeg
    start := by intro q; omega
    bgen := h.bgen
    bfail := h.bfail }

end TFR.Lfsr
