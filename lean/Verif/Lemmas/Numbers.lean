import Verif.Spec.Decimal
import Verif.Model.Console
import Mathlib.Tactic.Linarith
import Mathlib.Tactic.FieldSimp
import Mathlib.Tactic.Ring
import Mathlib.Tactic.NormNum
import Mathlib.Tactic.IntervalCases
import Mathlib.Tactic.Positivity
/-
Lemmas for C127: reading back what `formatDouble` writes.
-/
namespace TFR
open Spec

/-! #### digits -/

theorem digitValue_digitChar (d : Nat) (h : d < 10) : digitValue (Nat.digitChar d) = some d := by
  interval_cases d <;> decide

theorem digitsOf_map (ds : List Nat) (h : ∀ d ∈ ds, d < 10) : digitsOf (ds.map Nat.digitChar) = some ds := by
  induction ds with
  | nil => rfl
  | cons d ds ih =>
    rw [List.map_cons, digitsOf, digitValue_digitChar d (h d List.mem_cons_self), ih fun x hx => h x (List.mem_cons_of_mem _ hx)]
    rfl

theorem digitChar_ne (d : Nat) (h : d < 10) : Nat.digitChar d ≠ '.' ∧ Nat.digitChar d ≠ 'e' ∧ (Nat.digitChar d = '0' ↔ d = 0) ∧
    Nat.digitChar d ≠ ' ' ∧ Nat.digitChar d ≠ '-' := by
  interval_cases d <;> decide

theorem ofDigits_foldl (ds : List Nat) (n : Nat) : ds.foldl (fun n d => 10 * n + d) n = n * 10 ^ ds.length + ofDigits ds := by
  unfold ofDigits
  induction ds generalizing n with
  | nil => simp
  | cons d ds ih =>
    rw [List.foldl_cons, List.foldl_cons, ih, ih (10 * 0 + d), List.length_cons, pow_succ]
    ring

theorem ofDigits_append (a b : List Nat) : ofDigits (a ++ b) = ofDigits a * 10 ^ b.length + ofDigits b := by
  rw [ofDigits, List.foldl_append, ofDigits_foldl]; rfl

theorem ofDigits_zeros (k : Nat) : ofDigits (List.replicate k 0) = 0 := by
  induction k with
  | zero => rfl
  | succ k ih => rw [List.replicate_succ, ← List.singleton_append, ofDigits_append, ih]; simp [ofDigits]

/-- The digits of a number below 10^6. -/
def sixOf (m : Nat) : List Nat := [5, 4, 3, 2, 1, 0].map fun i => m / 10 ^ i % 10

theorem sixDigits_eq (m : Nat) : sixDigits m = (sixOf m).map Nat.digitChar := by
  simp [sixDigits, sixOf]

theorem sixOf_lt (m : Nat) : ∀ d ∈ sixOf m, d < 10 := by
  intro d hd
  simp only [sixOf, List.mem_map] at hd
  obtain ⟨i, _, rfl⟩ := hd
  exact Nat.mod_lt _ (by norm_num)

theorem ofDigits_sixOf (m : Nat) (h : m < 10 ^ 6) : ofDigits (sixOf m) = m := by
  simp only [ofDigits, sixOf, List.map_cons, List.map_nil, List.foldl_cons, List.foldl_nil]
  omega

/-! #### texts of digits -/

theorem takeWhile_digits (p : Char) (a : List Nat) (hp : ∀ d, d < 10 → Nat.digitChar d ≠ p) (ha : ∀ d ∈ a, d < 10) (rest : List Char)
    (hr : rest = [] ∨ ∃ r, rest = p :: r) :
    (a.map Nat.digitChar ++ rest).takeWhile (· ≠ p) = a.map Nat.digitChar ∧
    (a.map Nat.digitChar ++ rest).dropWhile (· ≠ p) = rest := by
  induction a with
  | nil => rcases hr with rfl | ⟨r, rfl⟩ <;> simp
  | cons d a ih =>
    have h1 := hp d (ha d List.mem_cons_self)
    obtain ⟨h2, h3⟩ := ih fun x hx => ha x (List.mem_cons_of_mem _ hx)
    rw [List.map_cons, List.cons_append, List.takeWhile_cons_of_pos (by simpa using h1), List.dropWhile_cons_of_pos (by simpa using h1), h2, h3]
    exact ⟨rfl, rfl⟩

/-- Dropping the trailing zeros. -/
theorem strip_digits (f : List Nat) (hf : ∀ d ∈ f, d < 10) :
    ∃ g k, f = g ++ List.replicate k 0 ∧ ((f.map Nat.digitChar).reverse.dropWhile (· = '0')).reverse = g.map Nat.digitChar := by
  induction f using List.reverseRecOn with
  | nil => exact ⟨[], 0, rfl, rfl⟩
  | append_singleton f d ih =>
    have hd := hf d (by simp)
    obtain ⟨g, k, h1, h2⟩ := ih fun x hx => hf x (by simp [hx])
    rw [List.map_append, List.map_singleton, List.reverse_append, List.reverse_singleton, List.singleton_append]
    by_cases hz : d = 0
    · refine ⟨g, k + 1, ?_, ?_⟩
      · rw [h1, hz, List.replicate_succ', List.append_assoc]
      · rw [List.dropWhile_cons_of_pos (by simp [hz])]
        exact h2
    · refine ⟨f ++ [d], 0, by simp, ?_⟩
      rw [List.dropWhile_cons_of_neg (by simpa using fun h => hz ((digitChar_ne d hd).2.2.1.1 h))]
      simp

/-- A number with a decimal point is read as it was written; what follows is kept for the exponent. -/
theorem read_withPoint (w f : List Nat) (hw : w ≠ []) (hwd : ∀ d ∈ w, d < 10) (hfd : ∀ d ∈ f, d < 10) :
    readMantissa (withPoint (w.map Nat.digitChar) (f.map Nat.digitChar)) = some ((ofDigits (w ++ f) : ℚ) / 10 ^ f.length) ∧
    ∀ rest, (rest = [] ∨ ∃ r, rest = 'e' :: r) →
      (withPoint (w.map Nat.digitChar) (f.map Nat.digitChar) ++ rest).takeWhile (· ≠ 'e') =
        withPoint (w.map Nat.digitChar) (f.map Nat.digitChar) ∧
      (withPoint (w.map Nat.digitChar) (f.map Nat.digitChar) ++ rest).dropWhile (· ≠ 'e') = rest := by
  obtain ⟨g, k, hg, hs⟩ := strip_digits f hfd
  have hgd : ∀ d ∈ g, d < 10 := fun d hd => hfd d (by rw [hg]; simp [hd])
  obtain ⟨d, ds, rfl⟩ := List.exists_cons_of_ne_nil hw
  have hval : ((ofDigits (d :: ds ++ g) : ℚ) / 10 ^ g.length) = (ofDigits (d :: ds ++ f) : ℚ) / 10 ^ f.length := by
    rw [hg, ← List.append_assoc, ofDigits_append _ (List.replicate k 0), ofDigits_zeros, List.length_append, List.length_replicate, pow_add]
    push_cast
    field_simp
    ring
  unfold withPoint
  rw [hs]
  rcases g with _ | ⟨g0, g⟩
  · simp only [List.map_nil]
    constructor
    · obtain ⟨h1, h2⟩ := takeWhile_digits '.' (d :: ds) (fun d h => (digitChar_ne d h).1) hwd [] (Or.inl rfl)
      rw [List.append_nil] at h1 h2
      rw [readMantissa, h1, h2, digitsOf_map _ hwd]
      simp only [List.drop_nil, digitsOf, List.append_nil, List.length_nil] at hval ⊢
      rw [hval]
    · exact fun rest hr => takeWhile_digits 'e' (d :: ds) (fun d h => (digitChar_ne d h).2.1) hwd rest hr
  · simp only [List.map_cons]
    constructor
    · obtain ⟨h1, h2⟩ := takeWhile_digits '.' (d :: ds) (fun d h => (digitChar_ne d h).1) hwd ('.' :: (g0 :: g).map Nat.digitChar)
        (Or.inr ⟨_, rfl⟩)
      simp only [List.map_cons] at h1 h2
      rw [readMantissa, h1, h2]
      have h3 := digitsOf_map _ hwd
      have h4 := digitsOf_map _ hgd
      simp only [List.map_cons] at h3 h4
      rw [h3, List.drop_one, List.tail_cons, h4]
      simp only
      rw [hval]
    · intro rest hr
      obtain ⟨h1, h2⟩ := takeWhile_digits 'e' (g0 :: g) (fun d h => (digitChar_ne d h).2.1) hgd rest hr
      have : ∀ a : List Nat, (∀ x ∈ a, x < 10) →
          (a.map Nat.digitChar ++ '.' :: ((g0 :: g).map Nat.digitChar ++ rest)).takeWhile (· ≠ 'e') =
            a.map Nat.digitChar ++ '.' :: (g0 :: g).map Nat.digitChar ∧
          (a.map Nat.digitChar ++ '.' :: ((g0 :: g).map Nat.digitChar ++ rest)).dropWhile (· ≠ 'e') = rest := by
        intro a ha
        induction a with
        | nil =>
          rw [List.map_nil, List.nil_append, List.takeWhile_cons_of_pos (by decide), List.dropWhile_cons_of_pos (by decide), h1, h2]
          exact ⟨rfl, rfl⟩
        | cons x a ih =>
          obtain ⟨i1, i2⟩ := ih fun y hy => ha y (List.mem_cons_of_mem _ hy)
          have hx := (digitChar_ne x (ha x List.mem_cons_self)).2.1
          rw [List.map_cons, List.cons_append, List.takeWhile_cons_of_pos (by simpa using hx),
            List.dropWhile_cons_of_pos (by simpa using hx), i1, i2]
          exact ⟨rfl, rfl⟩
      have h5 := this (d :: ds) hwd
      simp only [List.map_cons, List.cons_append, List.append_assoc] at h5 ⊢
      exact h5

theorem toDigits_read (n : Nat) : ∃ l : List Nat, Nat.toDigits 10 n = l.map Nat.digitChar ∧ (∀ d ∈ l, d < 10) ∧ ofDigits l = n := by
  induction n using Nat.strongRecOn with
  | _ n ih =>
    by_cases h : n < 10
    · exact ⟨[n], by rw [Nat.toDigits_of_lt_base h]; rfl, by simpa using h, by simp [ofDigits]⟩
    · obtain ⟨l, h1, h2, h3⟩ := ih (n / 10) (by omega)
      refine ⟨l ++ [n % 10], ?_, ?_, ?_⟩
      · rw [Nat.toDigits_of_base_le (by norm_num) (by omega), h1]; simp
      · intro d hd
        rcases List.mem_append.1 hd with hd | hd
        · exact h2 d hd
        · rw [List.mem_singleton.1 hd]; exact Nat.mod_lt _ (by norm_num)
      · rw [ofDigits_append, h3]; simp [ofDigits]; omega

theorem read_exponent (e : Int) : readExponent (exponentText e) = some e := by
  obtain ⟨l, h1, h2, h3⟩ := toDigits_read e.natAbs
  have hz : digitsOf ((if e.natAbs < 10 then ['0'] else []) ++ l.map Nat.digitChar) =
      some ((if e.natAbs < 10 then [0] else []) ++ l) := by
    split
    · have := digitsOf_map (0 :: l) (by intro d hd; rcases List.mem_cons.1 hd with rfl | hd; · norm_num
                                        · exact h2 d hd)
      exact this
    · exact digitsOf_map l h2
  have hv : ofDigits ((if e.natAbs < 10 then [0] else []) ++ l) = e.natAbs := by
    rw [ofDigits_append, h3]; split <;> simp [ofDigits]
  unfold exponentText
  rw [h1]
  split
  · show (digitsOf ((if e.natAbs < 10 then ['0'] else []) ++ l.map Nat.digitChar)).map _ = _
    rw [hz]
    simp only [Option.map_some, hv]
    congr 1; omega
  · show (digitsOf ((if e.natAbs < 10 then ['0'] else []) ++ l.map Nat.digitChar)).map _ = _
    rw [hz]
    simp only [Option.map_some, hv]
    congr 1; omega

/-- `%g` is read back as the number its digits and exponent stand for. -/
theorem read_generalText (m : Nat) (e : Int) (hm : m < 10 ^ 6) :
    readDecimal (generalText m e) = some ((m : ℚ) * 10 ^ (e - 5)) := by
  have hlen : (sixOf m).length = 6 := rfl
  have hlt := sixOf_lt m
  unfold generalText
  simp only [sixDigits_eq]
  have plain : ∀ (w f : List Nat) (k : ℤ), w ≠ [] → (∀ d ∈ w, d < 10) → (∀ d ∈ f, d < 10) → ofDigits (w ++ f) = m → (f.length : ℤ) = 5 - e →
      readDecimal (withPoint (w.map Nat.digitChar) (f.map Nat.digitChar)) = some ((m : ℚ) * 10 ^ (e - 5)) := by
    intro w f _ hw hwd hfd hv hl
    obtain ⟨h1, h2⟩ := read_withPoint w f hw hwd hfd
    obtain ⟨h3, h4⟩ := h2 [] (Or.inl rfl)
    rw [List.append_nil] at h4
    rw [readDecimal, h4, h1, hv]
    rw [show e - 5 = -(f.length : ℤ) by omega, zpow_neg, zpow_natCast]
    rfl
  split
  · split
    · rw [← List.map_take, ← List.map_drop]
      refine plain _ _ 0 ?_ (fun d hd => hlt d (List.mem_of_mem_take hd)) (fun d hd => hlt d (List.mem_of_mem_drop hd)) ?_ ?_
      · intro h
        have := congrArg List.length h
        simp [hlen] at this
      · rw [List.take_append_drop, ofDigits_sixOf m hm]
      · rw [List.length_drop, hlen]; omega
    · rename_i h1 h2
      have hrep : List.replicate ((-e).toNat - 1) '0' = (List.replicate ((-e).toNat - 1) 0).map Nat.digitChar := by simp
      rw [hrep, ← List.map_append]
      refine plain [0] _ 0 (by simp) (by simp) ?_ ?_ ?_
      · intro d hd
        rcases List.mem_append.1 hd with hd | hd
        · rw [(List.mem_replicate.1 hd).2]; norm_num
        · exact hlt d hd
      · rw [ofDigits_append, ofDigits_append, ofDigits_zeros, ofDigits_sixOf m hm]; simp [ofDigits]
      · rw [List.length_append, List.length_replicate, hlen]; omega
  · rw [← List.map_take, ← List.map_drop]
    obtain ⟨h1, h2⟩ := read_withPoint ((sixOf m).take 1) ((sixOf m).drop 1) (by simp [sixOf])
      (fun d hd => hlt d (List.mem_of_mem_take hd)) (fun d hd => hlt d (List.mem_of_mem_drop hd))
    obtain ⟨h3, h4⟩ := h2 ('e' :: exponentText e) (Or.inr ⟨_, rfl⟩)
    rw [readDecimal, h4]
    simp only
    rw [h3, h1, read_exponent]
    simp only
    rw [List.take_append_drop, ofDigits_sixOf m hm, List.length_drop, hlen, zpow_sub₀ (by norm_num)]
    congr 1
    norm_num
    ring

/-! #### rounding -/
section
variable {K : Type} [Field K] [LinearOrder K] [IsStrictOrderedRing K] [FloorRing K]

theorem roundHalfEven_near (y : K) (h : 0 ≤ y) : |(roundHalfEven y : K) - y| ≤ 1 / 2 := by
  have h1 := Nat.floor_le h
  have h2 := Nat.lt_floor_add_one y
  unfold roundHalfEven
  simp only
  split
  · rw [abs_le]; constructor <;> linarith
  · split
    · push_cast; rw [abs_le]; constructor <;> linarith
    · have : y - (⌊y⌋₊ : K) = 1 / 2 := le_antisymm (not_lt.1 ‹_›) (not_lt.1 ‹_›)
      split
      · rw [abs_le]; constructor <;> linarith
      · push_cast; rw [abs_le]; constructor <;> linarith

theorem roundHalfEven_mono (x y : K) (h : x ≤ y) : roundHalfEven x ≤ roundHalfEven y := by
  have hb : ∀ z : K, ⌊z⌋₊ ≤ roundHalfEven z ∧ roundHalfEven z ≤ ⌊z⌋₊ + 1 := by
    intro z
    unfold roundHalfEven
    simp only
    split <;> [skip; split <;> [skip; split]] <;> omega
  rcases (Nat.floor_mono h).lt_or_eq with hlt | heq
  · have := (hb x).2; have := (hb y).1; omega
  · unfold roundHalfEven
    simp only [heq]
    have : x - (⌊y⌋₊ : K) ≤ y - ⌊y⌋₊ := by linarith
    split <;> split <;> (try split) <;> (try split) <;> (try split) <;> (try omega) <;> (exfalso; simp_all; linarith)

theorem roundHalfEven_natCast (n : Nat) : roundHalfEven (n : K) = n := by
  unfold roundHalfEven
  simp

end
end TFR
