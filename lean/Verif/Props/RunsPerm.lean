import Verif.Model.CountStats
import Verif.Spec.Segments
import Verif.Lemmas.Windows
import Verif.Props.Windows
import Mathlib.Algebra.BigOperators.Group.List.Basic
/-
C49, C50: runs and the permutation histogram.
-/
namespace TFR
open Spec
variable {w : Nat}

private theorem hbind {α β : Type} (x : α) (f : α → R β) : ((Except.ok x : R α) >>= f) = f x := rfl

/-! ### C49 -/

/-- The above/below sequence: values equal to the cutoff are skipped. -/
def Spec.signs (data : List (BitVec w)) (cutoff : BitVec w) : List Bool :=
  (data.filter fun v => decide (v ≠ cutoff)).map fun v => decide (cutoff < v)

private def changes : Bool → List Bool → Nat
  | _, [] => 0
  | g, b :: l => (if b ≠ g then 1 else 0) + changes b l

private theorem blocks_cons (b : Bool) (l : List Bool) : blocks (b :: l) = 1 + changes b l := by
  unfold blocks
  rw [List.length_cons, List.range_succ_eq_map, List.countP_cons_of_pos (by simp), List.countP_map, Nat.add_comm]
  congr 1
  induction l generalizing b with
  | nil => rfl
  | cons c l ih =>
    rw [List.length_cons, List.range_succ_eq_map, List.countP_cons, List.countP_map]
    unfold changes
    rw [Nat.add_comm]
    congr 1
    · by_cases h : c = b <;> simp [h]
    · rw [← ih c]
      apply List.countP_congr
      intro i _
      simp

private theorem runs_fold (cutoff : BitVec w) (l : List (BitVec w)) (r p m : Nat) (g : Bool) :
    (l.foldl (runsStep cutoff) (⟨BitVec.ofNat 64 r, BitVec.ofNat 64 p, BitVec.ofNat 64 m⟩, g)).1 =
      ⟨BitVec.ofNat 64 (r + changes g (signs l cutoff)), BitVec.ofNat 64 (p + (signs l cutoff).count true),
        BitVec.ofNat 64 (m + (signs l cutoff).count false)⟩ := by
  induction l generalizing r p m g with
  | nil => simp [signs, changes]
  | cons v l ih =>
    rw [List.foldl_cons]
    by_cases hv : v = cutoff
    · have hs : signs (v :: l) cutoff = signs l cutoff := by simp [signs, hv]
      rw [hs]
      have : runsStep cutoff (⟨BitVec.ofNat 64 r, BitVec.ofNat 64 p, BitVec.ofNat 64 m⟩, g) v =
          (⟨BitVec.ofNat 64 r, BitVec.ofNat 64 p, BitVec.ofNat 64 m⟩, g) := by
        unfold runsStep; rw [if_pos hv]
      rw [this, ih]
    · have hs : signs (v :: l) cutoff = decide (cutoff < v) :: signs l cutoff := by simp [signs, hv]
      rw [hs]
      generalize hb : decide (cutoff < v) = b
      have e : ∀ x : Nat, BitVec.ofNat 64 x + 1#64 = BitVec.ofNat 64 (x + 1) := fun x => (BitVec.ofNat_add x 1).symm
      have : runsStep cutoff (⟨BitVec.ofNat 64 r, BitVec.ofNat 64 p, BitVec.ofNat 64 m⟩, g) v =
          (⟨BitVec.ofNat 64 (r + if b ≠ g then 1 else 0), BitVec.ofNat 64 (p + if b = true then 1 else 0),
            BitVec.ofNat 64 (m + if b = false then 1 else 0)⟩, b) := by
        unfold runsStep
        rw [if_neg hv]
        simp only [hb]
        cases b <;> cases g <;> simp [e]
      rw [this, ih]
      congr 2
      · show _ = r + ((if b ≠ g then 1 else 0) + changes b (signs l cutoff))
        omega
      · rw [List.count_cons]
        cases b <;> simp <;> omega
      · rw [List.count_cons]
        cases b <;> simp <;> omega

/-- C49. For every non-empty data and cutoff: the numbers of values above and below the cutoff are exact, and the reported number
of runs is the number of maximal constant blocks of the above/below sequence, except that it is one too large when the
first value equals the cutoff and the first value different from the cutoff is above it, and 1 (not 0) when all values
equal the cutoff. -/
theorem C49_runs (first : BitVec w) (rest : List (BitVec w)) (cutoff : BitVec w) :
    generateRunsData (first :: rest) cutoff =
      ⟨BitVec.ofNat 64 (blocks (signs (first :: rest) cutoff) +
          (if signs (first :: rest) cutoff = [] ∨ (first = cutoff ∧ (signs (first :: rest) cutoff).head? = some true) then 1 else 0)),
        BitVec.ofNat 64 ((first :: rest).countP fun v => decide (cutoff < v)),
        BitVec.ofNat 64 ((first :: rest).countP fun v => decide (v < cutoff))⟩ := by
  unfold generateRunsData
  dsimp only
  rw [show (⟨1#64, 0#64, 0#64⟩ : RunsData) = ⟨BitVec.ofNat 64 1, BitVec.ofNat 64 0, BitVec.ofNat 64 0⟩ from rfl, runs_fold]
  have hplus : (signs (first :: rest) cutoff).count true = (first :: rest).countP fun v => decide (cutoff < v) := by
    unfold signs
    rw [List.count, List.countP_map, List.countP_filter]
    apply List.countP_congr
    intro v _
    simp only [Function.comp, ne_eq, decide_not, Bool.and_eq_true, beq_iff_eq, Bool.not_eq_true', decide_eq_true_eq, decide_eq_false_iff_not]
    constructor
    · exact fun h => h.1
    · intro h
      refine ⟨h, ?_⟩
      intro he; rw [he] at h; exact absurd h (by rw [BitVec.lt_def]; omega)
  have hminus : (signs (first :: rest) cutoff).count false = (first :: rest).countP fun v => decide (v < cutoff) := by
    unfold signs
    rw [List.count, List.countP_map, List.countP_filter]
    apply List.countP_congr
    intro v _
    simp only [Function.comp, ne_eq, decide_not, Bool.and_eq_true, beq_iff_eq, Bool.not_eq_true', decide_eq_true_eq, decide_eq_false_iff_not]
    constructor
    · rintro ⟨h1, h2⟩
      have : v.toNat ≠ cutoff.toNat := fun h => h2 (BitVec.eq_of_toNat_eq h)
      rw [BitVec.lt_def] at *
      omega
    · intro h
      refine ⟨?_, ?_⟩
      · rw [BitVec.lt_def] at *; omega
      · intro he; rw [he] at h; exact absurd h (by rw [BitVec.lt_def]; omega)
  rw [hplus, hminus, Nat.zero_add, Nat.zero_add]
  congr 2
  by_cases hf : first = cutoff
  · have hg : decide (cutoff < first) = false := by
      rw [hf]; simp
    rw [hg]
    cases hs : signs (first :: rest) cutoff with
    | nil => rfl
    | cons b l =>
      rw [blocks_cons]
      show 1 + ((if b ≠ false then 1 else 0) + changes b l) = _
      cases b <;> simp [hf]
      omega
  · have hs : signs (first :: rest) cutoff = decide (cutoff < first) :: signs rest cutoff := by simp [signs, hf]
    rw [hs, blocks_cons]
    show 1 + ((if decide (cutoff < first) ≠ decide (cutoff < first) then 1 else 0) + _) = _
    simp [hf]

/-- C49. When the first value differs from the cutoff, the reported number of runs is exactly the number of maximal blocks. -/
theorem C49_runs_exact (first : BitVec w) (rest : List (BitVec w)) (cutoff : BitVec w) (h : first ≠ cutoff) :
    (generateRunsData (first :: rest) cutoff).runs = BitVec.ofNat 64 (blocks (signs (first :: rest) cutoff)) := by
  rw [C49_runs]
  have hs : signs (first :: rest) cutoff ≠ [] := by simp [signs, h]
  simp [hs, h]

/-- C49. No data: all zero. -/
theorem C49_empty (cutoff : BitVec w) : generateRunsData ([] : List (BitVec w)) cutoff = ⟨0#64, 0#64, 0#64⟩ := rfl

/-- C49, non-vacuity: ++ - ++ - has four runs; with a leading cutoff value the count is five. -/
example : generateRunsData [200#8, 210#8, 127#8, 3#8, 255#8, 128#8, 0#8] 127#8 = ⟨4#64, 4#64, 2#64⟩ := by decide +kernel
example : generateRunsData [127#8, 200#8, 210#8, 3#8, 255#8, 128#8, 0#8] 127#8 = ⟨5#64, 4#64, 2#64⟩ := by decide +kernel
example : blocks (signs [127#8, 200#8, 210#8, 3#8, 255#8, 128#8, 0#8] 127#8) = 4 := by decide +kernel

/-! ### C50 -/

/-- The saturating histogram. -/
private def satHist (n : Nat) (vals : List Nat) : List (BitVec 8) :=
  (List.range n).map fun v => BitVec.ofNat 8 (min 255 (vals.count v))

private theorem permCount_satHist (n : Nat) (vals : List Nat) (v : BitVec 64) (h : v.toNat < n) :
    permCount (satHist n vals) v = .ok (satHist n (vals ++ [v.toNat])) := by
  have hlen : v.toNat < (satHist n vals).length := by simpa [satHist] using h
  unfold permCount
  rw [List.getElem?_eq_getElem hlen]
  have hget : (satHist n vals)[v.toNat] = BitVec.ofNat 8 (min 255 (vals.count v.toNat)) := by simp [satHist]
  dsimp only
  rw [hget]
  congr 1
  have hlt : BitVec.ofNat 8 (min 255 (vals.count v.toNat)) < 255#8 ↔ vals.count v.toNat < 255 := by
    rw [BitVec.lt_def, BitVec.toNat_ofNat, Nat.mod_eq_of_lt (by omega)]
    simp
  apply List.ext_getElem
  · split_ifs <;> simp [satHist]
  intro i h1 h2
  have hi : i < n := by simpa [satHist] using h2
  by_cases hc : vals.count v.toNat < 255
  · have := hlt.2 hc
    simp only [if_pos this]
    rw [List.getElem_set]
    by_cases hvi : v.toNat = i
    · subst hvi
      rw [if_pos rfl]
      simp only [satHist, List.getElem_map, List.getElem_range, List.count_append, List.count_singleton_self]
      rw [show (1#8) = BitVec.ofNat 8 1 from rfl, ← BitVec.ofNat_add]
      congr 1; omega
    · rw [if_neg hvi]
      simp [satHist, List.count_append, hvi]
  · simp only [if_neg (fun hx => hc (hlt.1 hx))]
    simp only [satHist, List.getElem_map, List.getElem_range, List.count_append]
    by_cases hvi : v.toNat = i
    · subst hvi
      congr 1; simp; omega
    · simp [hvi]

/-- C50. For every data and window size `1 ≤ k ≤ 63`: `get_permutation_histogram` never faults and returns `2^k` counters;
counter `v` is the number of the `⌊n·w/k⌋` windows (blocks of `k` consecutive bits of the data, read as a number) with value
`v`, stopping at 255. -/
theorem C50_histogram (data : List (BitVec w)) (windowSize : BitVec 64) (h0 : 0 < windowSize.toNat) (h : windowSize.toNat < 64) :
    ∃ (values : List Nat) (hist : List (BitVec 8)), values = (chunks windowSize.toNat (bitsOf data)).map ofBits ∧
      values.length = data.length * w / windowSize.toNat ∧
      permutationHistogram data windowSize = .ok hist ∧ hist.length = 2 ^ windowSize.toNat ∧
      ∀ v, v < 2 ^ windowSize.toNat → ∃ c, hist[v]? = some c ∧ c.toNat = min 255 (values.count v) := by
  let k := windowSize.toNat
  have hkk : windowSize.toNat = k := rfl
  have hlt : ∀ bs ∈ chunks k (bitsOf data), ofBits bs < 2 ^ k := by
    intro bs hbs
    unfold chunks at hbs
    obtain ⟨j, -, rfl⟩ := List.mem_map.1 hbs
    refine lt_of_lt_of_le (ofBits_lt _) (Nat.pow_le_pow_right (by norm_num) ?_)
    exact List.length_take_le _ _
  refine ⟨(chunks k (bitsOf data)).map ofBits, satHist (2 ^ k) ((chunks k (bitsOf data)).map ofBits), rfl,
    by simp [chunks, length_bitsOf, k], ?_, by simp [satHist, k], ?_⟩
  · unfold permutationHistogram
    rw [if_pos h]
    have hint : (windowSize.setWidth 32).toInt = (k : Int) := by
      rw [BitVec.toInt_eq_toNat_cond, BitVec.toNat_setWidth]
      rw [Nat.mod_eq_of_lt (by omega), if_pos (by omega)]
    rw [hint, slidingBitWindow_eq data k h0 (by omega)]
    have hinit : List.replicate (2 ^ k) 0#8 = satHist (2 ^ k) [] := by simp [satHist, List.map_const']
    rw [hkk, hinit]
    generalize chunks k (bitsOf data) = cs at hlt
    have : ∀ (cs : List (List Bool)) (vals : List Nat), (∀ bs ∈ cs, ofBits bs < 2 ^ k) →
        cs.foldlM (fun s bs => permCount s (BitVec.ofNat 64 (ofBits bs))) (satHist (2 ^ k) vals) =
          .ok (satHist (2 ^ k) (vals ++ cs.map ofBits)) := by
      intro cs
      induction cs with
      | nil => intro vals _; simp; rfl
      | cons bs cs ih =>
        intro vals hcs
        have hb := hcs bs (by simp)
        have h64 : (2 : Nat) ^ k ≤ 2 ^ 64 := Nat.pow_le_pow_right (by norm_num) (by omega)
        have hn : (BitVec.ofNat 64 (ofBits bs)).toNat = ofBits bs := by
          rw [BitVec.toNat_ofNat, Nat.mod_eq_of_lt (by omega)]
        rw [List.foldlM_cons, permCount_satHist _ _ _ (by rw [hn]; exact hb), hbind, ih _ (fun b hb => hcs b (by simp [hb])), hn]
        simp
    simpa using this cs [] hlt
  · intro v hv
    refine ⟨BitVec.ofNat 8 (min 255 (((chunks k (bitsOf data)).map ofBits).count v)), ?_, ?_⟩
    · rw [List.getElem?_eq_getElem (by simpa [satHist] using hv)]
      simp [satHist, k]
    · rw [BitVec.toNat_ofNat, Nat.mod_eq_of_lt (by omega)]

private theorem sum_count_range (l : List Nat) (m : Nat) (h : ∀ x ∈ l, x < m) :
    ((List.range m).map fun d => l.count d).sum = l.length := by
  induction l with
  | nil => simp
  | cons a l ih =>
    have ha : a < m := h a (by simp)
    have := ih (fun x hx => h x (by simp [hx]))
    simp only [List.count_cons, List.length_cons]
    rw [List.sum_map_add, this]
    congr 1
    have : ((List.range m).map fun d => if (a == d) = true then 1 else 0).sum = (List.range m).count a := by
      generalize List.range m = r
      induction r with
      | nil => rfl
      | cons x r ih =>
        rw [List.map_cons, List.sum_cons, List.count_cons, ih, Nat.add_comm]
        congr 1
        by_cases hx : a = x
        · simp [hx]
        · have : ¬ x = a := fun e => hx e.symm
          simp [hx, this]
    rw [this, List.nodup_range.count, if_pos (List.mem_range.2 ha)]

/-- C50. When no value occurs more than 255 times, the counters add up to the number of windows. -/
theorem C50_total (data : List (BitVec w)) (windowSize : BitVec 64) (h0 : 0 < windowSize.toNat) (h : windowSize.toNat < 64)
    (hsat : ∀ v, ((chunks windowSize.toNat (bitsOf data)).map ofBits).count v ≤ 255) :
    ∃ hist, permutationHistogram data windowSize = .ok hist ∧
      (hist.map BitVec.toNat).sum = data.length * w / windowSize.toNat := by
  obtain ⟨values, hist, hv, hl, h1, h2, h3⟩ := C50_histogram data windowSize h0 h
  refine ⟨hist, h1, ?_⟩
  have e : hist.map BitVec.toNat = (List.range (2 ^ windowSize.toNat)).map fun v => values.count v := by
    apply List.ext_getElem (by simp [h2])
    intro i hi1 hi2
    have hi : i < 2 ^ windowSize.toNat := by simpa using hi2
    obtain ⟨c, hc1, hc2⟩ := h3 i hi
    rw [List.getElem?_eq_getElem (by omega), Option.some.injEq] at hc1
    simp only [List.getElem_map, List.getElem_range, hc1, hc2]
    have := hsat i
    rw [← hv] at this
    omega
  rw [e, sum_count_range, hl]
  intro x hx
  rw [hv] at hx
  obtain ⟨bs, hbs, rfl⟩ := List.mem_map.1 hx
  unfold chunks at hbs
  obtain ⟨j, -, rfl⟩ := List.mem_map.1 hbs
  exact lt_of_lt_of_le (ofBits_lt _) (Nat.pow_le_pow_right (by norm_num) (List.length_take_le _ _))

/-- C50. A window size of 64 or more is a shift that is too large. -/
theorem C50_window_too_large (data : List (BitVec w)) (windowSize : BitVec 64) (h : 64 ≤ windowSize.toNat) :
    permutationHistogram data windowSize = .error .shiftTooLarge := by
  unfold permutationHistogram
  rw [if_neg (by omega)]

/-- C50, non-vacuity: the 2-bit windows of three bytes. -/
example : permutationHistogram [0x21#8, 0x12#8, 0x22#8] 2#64 = .ok [6#8, 2#8, 4#8, 0#8] := by decide +kernel

end TFR
