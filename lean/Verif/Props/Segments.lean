import Verif.Model.CountStats
import Verif.Lemmas.Hist
import Verif.Lemmas.Float
import Verif.Lemmas.Segments
import Mathlib.Data.Finset.Card
import Mathlib.Data.Finset.Range
import Mathlib.Tactic.NormNum
/-
C45, C46, C48: gaps, coupon segments and divisibility groups.
-/
namespace TFR
open Spec
variable {w : Nat} {α : Type}

private theorem hbind {α β : Type} (x : α) (f : α → R β) : ((Except.ok x : R α) >>= f) = f x := rfl

/-- A loop which counts a segment when it is complete computes the histogram of the greedy segmentation. -/
theorem seg_fold {S : Type} (step : S → α → R S) (done : List α → Bool) (bin : List α → Nat) (cap N : Nat)
    (hist : S → List (BitVec 64)) (Inv : S → List α → Prop) (P : α → Prop)
    (hstep : ∀ st cur a idx, P a → Inv st cur → hist st = histOf cap idx → cur.length < N →
      ∃ st', step st a = .ok st' ∧
        if done (cur ++ [a]) = true then Inv st' [] ∧ hist st' = histOf cap (idx ++ [bin (cur ++ [a])])
        else Inv st' (cur ++ [a]) ∧ hist st' = histOf cap idx)
    (l : List α) (st : S) (cur : List α) (idx : List Nat) (hP : ∀ a ∈ l, P a) (hI : Inv st cur) (hh : hist st = histOf cap idx)
    (hN : cur.length + l.length ≤ N) :
    ∃ st', l.foldlM step st = .ok st' ∧ hist st' = histOf cap (idx ++ (segRun done cur l).1.map bin) := by
  induction l generalizing st cur idx with
  | nil => exact ⟨st, rfl, by simpa [segRun] using hh⟩
  | cons a l ih =>
    simp only [List.length_cons] at hN
    obtain ⟨st', h1, h2⟩ := hstep st cur a idx (hP a (by simp)) hI hh (by omega)
    rw [List.foldlM_cons, h1, hbind]
    unfold segRun
    by_cases hd : done (cur ++ [a]) = true
    · rw [if_pos hd] at h2 ⊢
      obtain ⟨st'', h3, h4⟩ := ih st' [] _ (fun x hx => hP x (by simp [hx])) h2.1 h2.2 (by simp; omega)
      exact ⟨st'', h3, by rw [h4]; simp⟩
    · rw [if_neg hd] at h2 ⊢
      obtain ⟨st'', h3, h4⟩ := ih st' (cur ++ [a]) _ (fun x hx => hP x (by simp [hx])) h2.1 h2.2 (by simp; omega)
      exact ⟨st'', h3, h4⟩

private theorem segRun_nil (done : List α → Bool) (l : List α) :
    IsSegmentation (fun s => done s = true) l (segRun done [] l).1 (segRun done [] l).2 := by
  simpa using segRun_spec done l [] (by intro p hp; simp at hp; simp [hp])

private theorem getElem?_histOf_map (cap : Nat) (bin : List α → Nat) (segs : List (List α)) (g : Nat) (hg : g < cap) :
    (histOf cap (segs.map bin))[g]? = some (BitVec.ofNat 64 (binCount bin segs g)) := by
  rw [List.getElem?_eq_getElem (by simpa using hg), getElem_histOf]
  rfl

/-! ### C45 -/

/-- C45. For every data, interval `[a, b)` and cap `≥ 1`: cut the data after each hit (a value whose rescaled double lies in
`[a, b)`; the upper end is moved to 2 when `b` is within 1e-14 of 1, so that 1 itself is a hit).  `generate_gaps` never
faults, and entry `g` is the number (modulo 2^64) of segments with `g` misses before the hit; longer gaps are counted in
the last entry.  There are as many segments as hits; misses after the last hit are not counted. -/
theorem C45_gaps (cap : Nat) (hcap : 0 < cap) (a b : ℚ) (data : List (BitVec w)) :
    ∃ (hit : BitVec w → Bool) (segs : List (List (BitVec w))) (rest : List (BitVec w)) (gaps : List (BitVec 64)),
      (∀ v, hit v = true ↔ a ≤ rescaleTypeTo01 v ∧
        rescaleTypeTo01 v < (if |Fl.sub b 1| ≤ Fl.rnd (1 / 10 ^ 14) then 2 else b)) ∧
      IsSegmentation (fun s => ∃ v ∈ s, hit v = true) data segs rest ∧ segs.length = data.countP hit ∧
      generateGaps cap a b data = .ok gaps ∧ gaps.length = cap ∧
      ∀ g, g < cap → gaps[g]? = some (BitVec.ofNat 64 (binCount (fun s => min (s.length - 1) (cap - 1)) segs g)) := by
  let b' : ℚ := if |Fl.sub b 1| ≤ Fl.rnd (1 / 10 ^ 14) then 2 else b
  let hit : BitVec w → Bool := fun v => decide (a ≤ rescaleTypeTo01 v ∧ rescaleTypeTo01 v < b')
  have hfold := seg_fold (gapStep a b') (fun s => s.any hit) (fun s => min (s.length - 1) (cap - 1)) cap data.length
    (fun st => st.1) (fun st cur => st.2 = cur.length ∧ ∀ v ∈ cur, hit v = false) (fun _ => True)
    (by
      intro st cur v idx _ hI hh _
      obtain ⟨c, n⟩ := st
      simp only at hI hh
      subst hh
      have hany : (cur ++ [v]).any hit = hit v := by
        simp only [List.any_append, List.any_cons, List.any_nil, Bool.or_false]
        have : cur.any hit = false := by rw [List.any_eq_false]; intro x hx; simp [hI.2 x hx]
        rw [this, Bool.false_or]
      rw [hany]
      unfold gapStep
      by_cases h : hit v = true
      · have h' := of_decide_eq_true h
        dsimp only
        rw [if_pos h', incrAt_histOf _ _ _ (by simp; omega), hbind]
        refine ⟨_, rfl, ?_⟩
        rw [if_pos h]
        refine ⟨⟨rfl, by simp⟩, ?_⟩
        simp [hI.1]
      · have h' : ¬ (a ≤ rescaleTypeTo01 v ∧ rescaleTypeTo01 v < b') := fun hh => h (decide_eq_true hh)
        dsimp only
        rw [if_neg h']
        refine ⟨_, rfl, ?_⟩
        rw [if_neg h]
        refine ⟨⟨by simp [hI.1], ?_⟩, rfl⟩
        intro x hx
        rcases List.mem_append.1 hx with hx | hx
        · exact hI.2 x hx
        · rw [List.mem_singleton.1 hx]; simpa using h)
    data (List.replicate cap 0#64, 0) [] [] (by simp) ⟨rfl, by simp⟩ (histOf_nil cap).symm (by simp)
  obtain ⟨st', h1, h2⟩ := hfold
  refine ⟨hit, (segRun (fun s => s.any hit) [] data).1, (segRun (fun s => s.any hit) [] data).2, st'.1, ?_, ?_, ?_, ?_, ?_, ?_⟩
  · intro v; exact decide_eq_true_iff
  · have := segRun_nil (fun s => s.any hit) data
    simpa [List.any_eq_true] using this
  · have : ∀ (l cur : List (BitVec w)), (∀ v ∈ cur, hit v = false) →
        (segRun (fun s => s.any hit) cur l).1.length = l.countP hit := by
      intro l
      induction l with
      | nil => intro cur _; rfl
      | cons v l ih =>
        intro cur hcur
        have hany : (cur ++ [v]).any hit = hit v := by
          simp only [List.any_append, List.any_cons, List.any_nil, Bool.or_false]
          have : cur.any hit = false := by rw [List.any_eq_false]; intro x hx; simp [hcur x hx]
          rw [this, Bool.false_or]
        unfold segRun
        rw [hany]
        by_cases h : hit v = true
        · rw [if_pos h, List.countP_cons_of_pos h]
          simp [ih [] (by simp)]
        · rw [if_neg h, List.countP_cons_of_neg h]
          refine ih _ ?_
          intro x hx
          rcases List.mem_append.1 hx with hx | hx
          · exact hcur x hx
          · rw [List.mem_singleton.1 hx]; simpa using h
    exact this data [] (by simp)
  · unfold generateGaps
    have hb : (if isNear b 1 (Fl.rnd (1 / 10 ^ 14)) = true then 2 else b) = b' := by
      unfold isNear
      simp only [decide_eq_true_eq, b']
    dsimp only
    rw [hb, h1, hbind]
  · rw [h2]; simp
  · intro g hg
    rw [h2, List.nil_append]
    exact getElem?_histOf_map cap _ _ g hg

/-- C45. With a cap of 0 the first hit is an access outside the vector. -/
theorem C45_cap_zero (a b : ℚ) (hb : ¬ |Fl.sub b 1| ≤ Fl.rnd (1 / 10 ^ 14)) (v : BitVec w) (data : List (BitVec w))
    (h : a ≤ rescaleTypeTo01 v ∧ rescaleTypeTo01 v < b) : generateGaps 0 a b (v :: data) = .error .oobIndex := by
  unfold generateGaps
  have h1 : (if isNear b 1 (Fl.rnd (1 / 10 ^ 14)) = true then 2 else b) = b := by
    unfold isNear
    simp only [decide_eq_true_eq, if_neg hb]
  dsimp only
  rw [h1, List.foldlM_cons]
  have h2 : gapStep a b (List.replicate 0 0#64, 0) v = .error .oobIndex := by
    unfold gapStep
    dsimp only
    rw [if_pos h]
    rfl
  rw [h2]; rfl

/-! The two intervals the gap test uses. -/

theorem rescale_nonneg (x : BitVec w) : 0 ≤ rescaleTypeTo01 x :=
  Fl.rnd_nonneg (div_nonneg (Fl.rnd_nonneg (by positivity)) (Fl.rnd_nonneg (by positivity)))

theorem rescale_le_one (x : BitVec w) : rescaleTypeTo01 x ≤ 1 := by
  unfold rescaleTypeTo01 Fl.div
  rw [← Fl.rnd_one]
  apply Fl.rnd_mono
  apply div_le_one_of_le₀
  · unfold Fl.ofNat
    apply Fl.rnd_mono
    have := x.isLt
    exact_mod_cast Nat.le_sub_one_of_lt this
  · unfold Fl.ofNat; exact Fl.rnd_nonneg (by positivity)

/-- Rescaling is monotone: it never reverses the order of two values. -/
theorem C75_rescale_mono (x y : BitVec w) (h : x ≤ y) : rescaleTypeTo01 x ≤ rescaleTypeTo01 y := by
  unfold rescaleTypeTo01 Fl.div
  apply Fl.rnd_mono
  apply div_le_div_of_nonneg_right
  · unfold Fl.ofNat; apply Fl.rnd_mono; exact_mod_cast BitVec.le_def.1 h
  · unfold Fl.ofNat; exact Fl.rnd_nonneg (by positivity)

private theorem small_half (hw : 0 < w) (hw32 : w ≤ 32) (x : BitVec w) :
    rescaleTypeTo01 x < 1 / 2 ↔ x.toNat < 2 ^ (w - 1) := by
  have hx := x.isLt
  obtain ⟨m, rfl⟩ : ∃ m, w = m + 1 := ⟨w - 1, by omega⟩
  have hm : m + 1 ≤ 32 := hw32
  have hpow : (2 : ℕ) ^ (m + 1) ≤ 2 ^ 32 := Nat.pow_le_pow_right (by norm_num) hm
  have h53 : (2 : ℕ) ^ 32 ≤ 2 ^ 53 := by norm_num
  have hm1 : 1 ≤ (2 : ℕ) ^ m := Nat.one_le_two_pow
  have hmm : (2 : ℕ) ^ (m + 1) = 2 * 2 ^ m := by rw [pow_succ]; ring
  have e1 : Fl.ofNat x.toNat = (x.toNat : ℚ) := Fl.rnd_natCast (by omega)
  have e2 : Fl.ofNat (2 ^ (m + 1) - 1) = ((2 ^ (m + 1) - 1 : ℕ) : ℚ) := Fl.rnd_natCast (by omega)
  have hpos : (0 : ℚ) < ((2 ^ (m + 1) - 1 : ℕ) : ℚ) := by
    have : 0 < 2 ^ (m + 1) - 1 := by omega
    exact_mod_cast this
  unfold rescaleTypeTo01 Fl.div
  rw [e1, e2]
  simp only [Nat.add_sub_cancel]
  constructor
  · intro h
    by_contra hge
    have : (1 : ℚ) / 2 ≤ Fl.rnd ((x.toNat : ℚ) / ((2 ^ (m + 1) - 1 : ℕ) : ℚ)) := by
      have h2 : Fl.rnd (1 / 2) = 1 / 2 := by
        have := Fl.rnd_two_zpow (-1)
        norm_num at this ⊢
        exact this
      rw [← h2]
      apply Fl.rnd_mono
      rw [div_le_div_iff₀ (by norm_num) hpos]
      have : (2 ^ (m + 1) - 1) ≤ x.toNat * 2 := by omega
      have h3 : ((2 ^ (m + 1) - 1 : ℕ) : ℚ) ≤ (x.toNat : ℚ) * 2 := by exact_mod_cast this
      linarith
    linarith
  · intro h
    -- x / (2^w - 1) ≤ 1/2 - 2^-53, which is a double
    have hle : (x.toNat : ℚ) / ((2 ^ (m + 1) - 1 : ℕ) : ℚ) ≤ ((2 ^ 52 - 1 : ℕ) : ℚ) * 2 ^ (-53 : ℤ) := by
      rw [div_le_iff₀ hpos]
      have h4 : (x.toNat : ℚ) + 1 ≤ 2 ^ m := by exact_mod_cast h
      have h5 : ((2 ^ (m + 1) - 1 : ℕ) : ℚ) = 2 * 2 ^ m - 1 := by
        rw [Nat.cast_sub (by omega), hmm]; push_cast; ring
      have h6 : (2 : ℚ) ^ m ≤ 2 ^ 31 := by
        have : (2 : ℕ) ^ m ≤ 2 ^ 31 := Nat.pow_le_pow_right (by norm_num) (by omega)
        exact_mod_cast this
      rw [h5]
      norm_num at h6 ⊢
      linarith
    have hr := Fl.rnd_mono hle
    rw [Fl.rnd_exact (by norm_num)] at hr
    refine lt_of_le_of_lt hr ?_
    norm_num

theorem rnd_max64 : Fl.ofNat (2 ^ 64 - 1) = 2 ^ 64 := by
  unfold Fl.ofNat
  apply le_antisymm
  · rw [← Fl.rnd_two_pow 64]
    apply Fl.rnd_mono
    norm_num
  · -- 2^64 - 1 is nearer to 2^64 than to the double below
    have hlog : Int.log 2 (((2 ^ 64 - 1 : ℕ) : ℚ)) = 63 := by
      rw [Int.log_natCast]
      norm_num [Nat.log]
      decide +kernel
    rw [Fl.rnd_of_nonneg (by positivity)]
    unfold Fl.rndPos
    rw [if_neg (by norm_num)]
    have hu : Fl.ulp ((2 ^ 64 - 1 : ℕ) : ℚ) = 2048 := by
      unfold Fl.ulp
      rw [hlog]; norm_num
    rw [hu]
    have hr : Fl.roundEven (((2 ^ 64 - 1 : ℕ) : ℚ) / 2048) = 9007199254740992 := by
      unfold Fl.roundEven
      have hf : ⌊((2 ^ 64 - 1 : ℕ) : ℚ) / 2048⌋ = 9007199254740991 := by
        rw [Int.floor_eq_iff]; norm_num
      rw [hf]
      norm_num
    rw [hr]; norm_num

/-- For 64-bit words the boundary between the two halves is not the top bit: the 512 values below `2^63` round to the double
`2^63` and fall into the upper half. -/
private theorem half64 (x : BitVec 64) : rescaleTypeTo01 x < 1 / 2 ↔ x.toNat < 2 ^ 63 - 512 := by
  have h2 : Fl.rnd (1 / 2) = 1 / 2 := by
    have := Fl.rnd_two_zpow (-1)
    norm_num at this ⊢
    exact this
  unfold rescaleTypeTo01 Fl.div
  rw [rnd_max64]
  constructor
  · intro h
    by_contra hge
    have hx : (2 : ℚ) ^ 63 ≤ Fl.ofNat x.toNat := by
      have hmono : Fl.rnd ((2 ^ 63 - 512 : ℕ) : ℚ) ≤ Fl.rnd (x.toNat : ℚ) := by
        apply Fl.rnd_mono
        have : 2 ^ 63 - 512 ≤ x.toNat := by omega
        exact_mod_cast this
      refine le_trans ?_ hmono
      have hlog : Int.log 2 (((2 ^ 63 - 512 : ℕ) : ℚ)) = 62 := by
        rw [Int.log_natCast]
        norm_num [Nat.log]
        decide +kernel
      rw [Fl.rnd_of_nonneg (by positivity)]
      unfold Fl.rndPos
      rw [if_neg (by norm_num)]
      have hu : Fl.ulp ((2 ^ 63 - 512 : ℕ) : ℚ) = 1024 := by
        unfold Fl.ulp
        rw [hlog]; norm_num
      rw [hu]
      have hr : Fl.roundEven (((2 ^ 63 - 512 : ℕ) : ℚ) / 1024) = 9007199254740992 := by
        unfold Fl.roundEven
        have hf : ⌊((2 ^ 63 - 512 : ℕ) : ℚ) / 1024⌋ = 9007199254740991 := by
          rw [Int.floor_eq_iff]; norm_num
        rw [hf]
        norm_num
      rw [hr]; norm_num
    have : (1 : ℚ) / 2 ≤ Fl.rnd (Fl.ofNat x.toNat / 2 ^ 64) := by
      rw [← h2]
      apply Fl.rnd_mono
      rw [le_div_iff₀ (by norm_num)]
      norm_num at hx ⊢
      linarith
    linarith
  · intro h
    have hx : Fl.ofNat x.toNat ≤ ((2 ^ 53 - 1 : ℕ) : ℚ) * 2 ^ (10 : ℤ) := by
      rw [← Fl.rnd_exact (m := 2 ^ 53 - 1) (e := 10) (by norm_num)]
      have h1 : x.toNat ≤ 2 ^ 63 - 513 := by omega
      refine (Fl.rnd_mono (y := ((2 ^ 63 - 513 : ℕ) : ℚ)) (by exact_mod_cast h1)).trans ?_
      have hlog : Int.log 2 (((2 ^ 63 - 513 : ℕ) : ℚ)) = 62 := by
        rw [Int.log_natCast]
        norm_num [Nat.log]
        decide +kernel
      rw [Fl.rnd_exact (by norm_num), Fl.rnd_of_nonneg (by positivity)]
      unfold Fl.rndPos
      rw [if_neg (by norm_num)]
      have hu : Fl.ulp ((2 ^ 63 - 513 : ℕ) : ℚ) = 1024 := by
        unfold Fl.ulp
        rw [hlog]; norm_num
      rw [hu]
      have hr : Fl.roundEven (((2 ^ 63 - 513 : ℕ) : ℚ) / 1024) = 9007199254740991 := by
        unfold Fl.roundEven
        have hf : ⌊((2 ^ 63 - 513 : ℕ) : ℚ) / 1024⌋ = 9007199254740991 := by
          rw [Int.floor_eq_iff]; norm_num
        rw [hf]
        norm_num
      rw [hr]; norm_num
    have h3 : Fl.ofNat x.toNat / 2 ^ 64 ≤ ((2 ^ 53 - 1 : ℕ) : ℚ) * 2 ^ (-54 : ℤ) := by
      rw [div_le_iff₀ (by norm_num)]
      refine hx.trans (le_of_eq ?_)
      norm_num
    have hr := Fl.rnd_mono h3
    rw [Fl.rnd_exact (by norm_num)] at hr
    refine lt_of_le_of_lt hr ?_
    norm_num

/-- C45. In the gap test's lower interval `[0, 0.5)` the hits of 8-, 16- and 32-bit words are exactly the words with top bit 0;
of 64-bit words they are exactly those below `2^63 - 512` (the conversion to `double` moves the last 512 values with top
bit 0 into the upper interval). -/
theorem C45_lower_half (t : WT) (x : BitVec t.bits) :
    (0 ≤ rescaleTypeTo01 x ∧ rescaleTypeTo01 x < 1 / 2) ↔
      x.toNat < 2 ^ (t.bits - 1) - (if t = .u64 then 512 else 0) := by
  rw [and_iff_right (rescale_nonneg x)]
  cases t
  · simpa using small_half (w := 8) (by norm_num) (by norm_num) x
  · simpa using small_half (w := 16) (by norm_num) (by norm_num) x
  · simpa using small_half (w := 32) (by norm_num) (by norm_num) x
  · simpa using half64 x

/-- C45. Every value is a hit in exactly one of the two intervals of the gap test (the upper one is `[0.5, 2)`). -/
theorem C45_halves_partition (x : BitVec w) :
    (1 / 2 ≤ rescaleTypeTo01 x ∧ rescaleTypeTo01 x < 2) ↔ ¬ (0 ≤ rescaleTypeTo01 x ∧ rescaleTypeTo01 x < 1 / 2) := by
  have h0 := rescale_nonneg x
  have h1 := rescale_le_one x
  constructor
  · rintro ⟨h, -⟩ ⟨-, h'⟩; linarith
  · intro h
    have : 1 / 2 ≤ rescaleTypeTo01 x := by
      by_contra hlt
      exact h ⟨h0, by linarith⟩
    exact ⟨this, by linarith⟩

/-- C45, non-vacuity: a byte sequence with hits after 0, 2 and 1 misses, and a trailing miss; cap 2. -/
example : generateGaps 2 0 (1 / 2) [1#8, 200#8, 255#8, 127#8, 128#8, 0#8, 250#8] = .ok [1#64, 2#64] := by
  have hb : (if isNear (1 / 2) 1 (Fl.rnd (1 / 10 ^ 14)) = true then (2 : ℚ) else 1 / 2) = 1 / 2 := by
    rw [if_neg]
    unfold isNear
    rw [decide_eq_true_eq, not_le]
    have h1 : Fl.rnd (1 / 10 ^ 14) ≤ 1 / 4 := by
      have h4 : Fl.rnd (1 / 4) = 1 / 4 := by
        have := Fl.rnd_two_zpow (-2)
        norm_num at this ⊢
        exact this
      rw [← h4]
      apply Fl.rnd_mono
      norm_num
    have h2 : Fl.sub (1 / 2) 1 = -(1 / 2) := by
      have := Fl.rnd_two_zpow (-1)
      unfold Fl.sub
      have e : ((1 : ℚ) / 2 - 1) = -(2 ^ (-1 : ℤ)) := by norm_num
      rw [e, Fl.rnd_neg, this]; norm_num
    rw [h2, abs_neg, abs_of_pos (by norm_num)]
    linarith
  have hit : ∀ x : BitVec 8, (rescaleTypeTo01 x ≥ 0 ∧ rescaleTypeTo01 x < 1 / 2) ↔ x.toNat < 128 := by
    intro x
    simpa using C45_lower_half .u8 x
  unfold generateGaps
  dsimp only
  rw [hb]
  have : gapStep (w := 8) 0 (1 / 2) = fun st vv => if vv.toNat < 128 then (do
      let gaps ← incrAt st.1 (min st.2 (st.1.length - 1))
      .ok (gaps, 0)) else .ok (st.1, st.2 + 1) := by
    funext st vv
    unfold gapStep
    dsimp only
    by_cases h : vv.toNat < 128
    · rw [if_pos ((hit vv).2 h), if_pos h]
    · rw [if_neg (fun h' => h ((hit vv).1 h')), if_neg h]
  rw [this]
  decide +kernel

end TFR
