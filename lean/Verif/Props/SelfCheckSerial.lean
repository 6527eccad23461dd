import Verif.Props.AvalancheTests
import Verif.Props.SelfCheckUniform
/-
C133. What the serial avalanche test rejects, and what the self-check of `-inspect-test` prints about it.
-/
namespace TFR
open Spec Finset
variable {w : Nat}

/-! ### Merging -/

theorem sum_nonneg_map (e : Nat → ℝ) (he : ∀ i, 0 ≤ e i) (l : List Nat) : 0 ≤ (l.map e).sum :=
  List.sum_nonneg fun x hx => by obtain ⟨i, -, rfl⟩ := List.mem_map.1 hx; exact he i

theorem next_in_range (m a b : Nat) (L R : List Nat) (h : List.range m = L ++ a :: b :: R) : b = a + 1 := by
  have h1 : (List.range m)[L.length]? = some a := by rw [h]; simp
  have h2 : (List.range m)[L.length + 1]? = some b := by
    rw [h, List.getElem?_append_right (by omega)]; simp
  obtain ⟨_, h1'⟩ := List.getElem?_eq_some_iff.1 h1
  obtain ⟨_, h2'⟩ := List.getElem?_eq_some_iff.1 h2
  rw [List.getElem_range] at h1' h2'
  omega

/-- A cell that reaches the threshold on its own, between two others that do, is a group of its own. -/
theorem greedy_single (e : Nat → ℝ) (he : ∀ i, 0 ≤ e i) (thr : ℝ) (m : Nat) (G : List (List Nat)) (hG : GreedyMerge e thr m G) (j : Nat)
    (hj : j + 2 < m) (h0 : thr ≤ e j) (h1 : thr ≤ e (j + 1)) (h2 : thr ≤ e (j + 2)) : [j + 1] ∈ G := by
  obtain ⟨gs, rest, hr, hgs, hrest, -, hlast⟩ := hG
  have hnr : ∀ i, thr ≤ e i → i ∉ rest := by
    intro i hi hm
    obtain ⟨a, b, rfl⟩ := List.append_of_mem hm
    have := hrest (a ++ [i]) ⟨b, by simp⟩ (by simp)
    rw [List.map_append, List.sum_append] at this
    have := sum_nonneg_map e he a
    simp at *
    linarith
  have hmem : j + 1 ∈ gs.flatten ++ rest := by rw [← hr]; exact List.mem_range.2 (by omega)
  obtain ⟨g, hg, hjg⟩ := List.mem_flatten.1 ((List.mem_append.1 hmem).resolve_right (hnr _ h1))
  obtain ⟨p, b, rfl⟩ := List.append_of_mem hjg
  obtain ⟨-, -, hmin⟩ := hgs _ hg
  have hb : b = [] := by
    by_contra hb
    have := hmin (p ++ [j + 1]) ⟨b, by simp⟩ (by simp) (by simpa using hb)
    rw [List.map_append, List.sum_append] at this
    have := sum_nonneg_map e he p
    simp at *
    linarith
  subst hb
  obtain ⟨A, B, rfl⟩ := List.append_of_mem hg
  have hp : p = [] := by
    rcases List.eq_nil_or_concat p with rfl | ⟨p', x, rfl⟩
    · rfl
    exfalso
    have hx : j + 1 = x + 1 := next_in_range m x (j + 1) (A.flatten ++ p') (B.flatten ++ rest) (by rw [hr]; simp)
    obtain rfl : x = j := by omega
    have := hmin (p' ++ [x]) ⟨[x + 1], by simp⟩ (by simp) (by simp)
    rw [List.map_append, List.sum_append] at this
    have := sum_nonneg_map e he p'
    simp at *
    linarith
  subst hp
  have hB : B ≠ [] := by
    rintro rfl
    have hmem2 : j + 2 ∈ List.range m := List.mem_range.2 hj
    have hr' : List.range m = A.flatten ++ (j + 1) :: rest := by rw [hr]; simp
    cases rest with
    | nil =>
      have h3 := congrArg List.getLast? hr'
      rw [List.getLast?_append, List.getLast?_range] at h3
      simp at h3
      have : m ≠ 0 := by omega
      simp [this] at h3
      omega
    | cons x r =>
      have := next_in_range m (j + 1) x A.flatten r hr'
      subst this
      exact hnr _ h2 List.mem_cons_self
  rw [hlast (by simp)]
  apply List.mem_append_left
  rw [List.dropLast_append_of_ne_nil (by simp)]
  apply List.mem_append_right
  rw [List.nil_append, List.dropLast_cons_of_ne_nil hB]
  exact List.mem_cons_self

theorem greedy_length (e : Nat → ℝ) (thr : ℝ) (m : Nat) (G : List (List Nat)) (hG : GreedyMerge e thr m G) : G.length ≤ m := by
  obtain ⟨gs, rest, hr, hgs, -, hnil, hlast⟩ := hG
  have h1 : gs.length ≤ gs.flatten.length := by
    have : ∀ l : List (List Nat), (∀ g ∈ l, g ≠ []) → l.length ≤ l.flatten.length := by
      intro l
      induction l with
      | nil => simp
      | cons g l ih =>
        intro h
        have := List.length_pos_iff.2 (h g List.mem_cons_self)
        have := ih fun x hx => h x (List.mem_cons_of_mem _ hx)
        simp only [List.length_cons, List.flatten_cons, List.length_append]
        omega
    exact this gs fun g hg => (hgs g hg).1
  have h2 := congrArg List.length hr
  rw [List.length_range, List.length_append] at h2
  by_cases h : gs = []
  · rw [hnil h]; simp
  · rw [hlast h]
    have := List.length_pos_iff.2 h
    simp
    omega

/-- The row of words with half of their bits set is tested, and each of its middle cells is a group of its own. -/
theorem middle_row (t : WT) (n : Nat) (hn : 2 ^ 16 ≤ n) (G : List (List Nat)) (hG : GreedyMerge (pairExpected t.bits n (t.bits / 2)) 5 (t.bits + 1) G) :
    ¬ ((G.length : ℝ) / ((t.bits + 1 : ℕ) : ℝ) < 35 / 100) ∧ (∀ b, t.bits / 2 ≤ b + 1 → b ≤ t.bits / 2 + 1 → [b] ∈ G) ∧
    ∀ b, t.bits / 2 ≤ b + 1 → b ≤ t.bits / 2 + 1 → 200 ≤ pairExpected t.bits n (t.bits / 2) b := by
  have hbig : ∀ (d b : Nat), d * (2 ^ t.bits * 2 ^ t.bits) ≤ 2 ^ 16 * (t.bits.choose (t.bits / 2) * t.bits.choose b) →
      (d : ℝ) ≤ pairExpected t.bits n (t.bits / 2) b := by
    intro d b h
    unfold pairExpected
    rw [mul_assoc, div_mul_div_comm, ← mul_div_assoc, le_div_iff₀ (by positivity)]
    have h' : ((d * (2 ^ t.bits * 2 ^ t.bits) : ℕ) : ℝ) ≤ ((2 ^ 16 * (t.bits.choose (t.bits / 2) * t.bits.choose b) : ℕ) : ℝ) := Nat.cast_le.2 h
    push_cast at h'
    refine h'.trans (mul_le_mul_of_nonneg_right ?_ (by positivity))
    exact_mod_cast hn
  have hcomp : ∃ lo len : Nat, 35 * (t.bits + 1) ≤ 100 * len ∧ lo + len + 1 < t.bits + 1 ∧ lo + 2 ≤ t.bits / 2 ∧ t.bits / 2 + 1 < lo + len + 1 ∧
      (∀ i < len + 2, 5 * (2 ^ t.bits * 2 ^ t.bits) ≤ 2 ^ 16 * (t.bits.choose (t.bits / 2) * t.bits.choose (lo + i))) ∧
      ∀ i < 3, 200 * (2 ^ t.bits * 2 ^ t.bits) ≤ 2 ^ 16 * (t.bits.choose (t.bits / 2) * t.bits.choose (t.bits / 2 - 1 + i)) := by
    simp only [Nat.choose_eq_descFactorial_div_factorial]
    cases t
    · exact ⟨1, 5, by decide +kernel⟩
    · exact ⟨4, 7, by decide +kernel⟩
    · exact ⟨9, 13, by decide +kernel⟩
    · exact ⟨20, 23, by decide +kernel⟩
  obtain ⟨lo, len, c1, c2, c3, c4, c5, c6⟩ := hcomp
  have he : ∀ i, 0 ≤ pairExpected t.bits n (t.bits / 2) i := fun i => by unfold pairExpected; positivity
  have h5 : ∀ i < len + 2, (5 : ℝ) ≤ pairExpected t.bits n (t.bits / 2) (lo + i) := fun i hi => by
    have := hbig 5 (lo + i) (c5 i hi)
    exact_mod_cast this
  have hin : ∀ i < len, [lo + i + 1] ∈ G := fun i hi =>
    greedy_single _ he 5 _ G hG (lo + i) (by omega) (h5 i (by omega)) (h5 (i + 1) (by omega)) (h5 (i + 2) (by omega))
  refine ⟨?_, ?_, ?_⟩
  · have hsub : ((List.range len).map fun i => [lo + i + 1]) ⊆ G := by
      intro g hg
      obtain ⟨i, hi, rfl⟩ := List.mem_map.1 hg
      exact hin i (List.mem_range.1 hi)
    have hnd : ((List.range len).map fun i => [lo + i + 1]).Nodup := by
      refine List.Nodup.map (fun a b h => ?_) List.nodup_range
      simpa using h
    have hlen := (List.subperm_of_subset hnd hsub).length_le
    rw [List.length_map, List.length_range] at hlen
    rw [not_lt, le_div_iff₀ (by positivity)]
    have h1 : ((35 * (t.bits + 1) : ℕ) : ℝ) ≤ ((100 * G.length : ℕ) : ℝ) := Nat.cast_le.2 (by omega)
    push_cast at h1 ⊢
    linarith
  · intro b h1 h2
    have := hin (b - lo - 1) (by omega)
    rwa [show lo + (b - lo - 1) + 1 = b by omega] at this
  · intro b h1 h2
    have := hbig 200 (t.bits / 2 - 1 + (b + 1 - t.bits / 2)) (c6 _ (by omega))
    rw [show t.bits / 2 - 1 + (b + 1 - t.bits / 2) = b by omega] at this
    exact_mod_cast this

/-- C133. The serial avalanche test rejects every sequence of 65536 pairs or more in which a word with half of its bits set is never followed by
one with `b` bits set, for a `b` that differs from the half by at most one. -/
theorem C133_serial_avalanche (t : WT) (n : BitVec 64) (hn : 2 ^ 16 ≤ n.toNat) (s : Stream (BitVec t.bits)) (b : Nat) (hb1 : t.bits / 2 ≤ b + 1)
    (hb2 : b ≤ t.bits / 2 + 1) (h : ∀ q < n.toNat, ones (s.nth (2 * q)) = t.bits / 2 → ones (s.nth (2 * q + 1)) ≠ b) :
    ∃ res st, serialAvalanche chi2DistributionCdf n s = .ok res ∧ ⟨"bit(" ++ toString (t.bits / 2) ++ ")", some st⟩ ∈ res ∧
      st.pValue ≤ 1 / 10 ^ 9 ∧ statPass st = false := by
  obtain ⟨G, hG, hs⟩ := C81_serial_avalanche (w := t.bits) chi2DistributionCdf n
  have hlt : t.bits / 2 < t.bits := by cases t <;> decide
  have hGm := hG (t.bits / 2) hlt
  obtain ⟨h1, h2, h3⟩ := middle_row t n.toNat hn _ hGm
  have hzero : pairHits s.nth n.toNat (t.bits / 2) b = 0 := by
    unfold pairHits
    rw [List.countP_eq_zero]
    intro q hq
    simp only [decide_eq_true_eq, not_and]
    exact h q (List.mem_range.1 hq)
  set e := pairExpected t.bits n.toNat (t.bits / 2) with he
  set f : List Nat → ℝ × ℝ := fun g => ((((g.map (pairHits s.nth n.toNat (t.bits / 2))).sum : ℕ) : ℝ), (g.map e).sum) with hf
  have hsome : ∃ st, pearson chi2DistributionCdf ((G (t.bits / 2)).map f) 0 = some st := by
    unfold pearson
    rw [if_neg]
    · exact ⟨_, rfl⟩
    rw [not_lt]
    unfold usedCells
    rw [List.filter_map, List.length_map]
    have hsub : [[t.bits / 2], [t.bits / 2 + 1]] ⊆ (G (t.bits / 2)).filter (((fun c => decide (0 < c.2)) : ℝ × ℝ → Bool) ∘ f) := by
      intro g hg
      simp only [List.mem_cons, List.not_mem_nil, or_false] at hg
      rcases hg with rfl | rfl
      · refine List.mem_filter.2 ⟨h2 _ (by omega) (by omega), ?_⟩
        have := h3 (t.bits / 2) (by omega) (by omega)
        simp only [Function.comp, hf, decide_eq_true_eq, List.map_cons, List.map_nil, List.sum_cons, List.sum_nil]
        linarith
      · refine List.mem_filter.2 ⟨h2 _ (by omega) (by omega), ?_⟩
        have := h3 (t.bits / 2 + 1) (by omega) (by omega)
        simp only [Function.comp, hf, decide_eq_true_eq, List.map_cons, List.map_nil, List.sum_cons, List.sum_nil]
        linarith
    refine (List.subperm_of_subset ?_ hsub).length_le.trans (le_of_eq ?_)
    · simp
    · exact congrArg List.length (List.filter_congr fun x _ => by simp)
  obtain ⟨st, hst⟩ := hsome
  obtain ⟨p1, p2, p3, p4, p5⟩ := pearson_some _ _ 0 le_rfl st hst
  refine ⟨_, st, hs s, List.mem_filterMap.2 ⟨t.bits / 2, List.mem_range.2 hlt, ?_⟩, reject_of_value st p1 p5 p2 ?_⟩
  · rw [if_neg h1]
    exact congrArg (Option.map _) hst
  · have hcell := pearson_cell _ _ 0 le_rfl st hst (f [b]) (List.mem_map_of_mem (h2 b hb1 hb2)) (by
      have := h3 b hb1 hb2
      simp only [hf, List.map_cons, List.map_nil, List.sum_cons, List.sum_nil]
      linarith)
    have hlen : ((G (t.bits / 2)).length : ℝ) ≤ 65 := by
      have h4 := greedy_length _ _ _ _ hGm
      have h5 : t.bits ≤ 64 := by cases t <;> decide
      have : (G (t.bits / 2)).length ≤ 65 := by omega
      exact_mod_cast this
    have h200 := h3 b hb1 hb2
    have hval : (f [b]).1 = 0 ∧ (f [b]).2 = e b := by
      simp [hf, hzero]
    rw [hval.1, hval.2] at hcell
    have h6 : (0 - e b) ^ 2 / e b = e b := by
      have : e b ≠ 0 := by linarith
      field_simp
      ring
    rw [h6] at hcell
    rw [List.length_map] at p3
    linarith

/-! ### The bits of a counter -/

/-- The number of one bits among the lowest `w`. -/
def lowOnes (w m : Nat) : Nat := (List.range w).countP fun i => m.testBit i

theorem lowOnes_succ (w m : Nat) : lowOnes (w + 1) m = (m % 2) + lowOnes w (m / 2) := by
  unfold lowOnes
  rw [List.range_succ_eq_map, List.countP_cons, List.countP_map]
  have h1 : (fun i => m.testBit i) ∘ Nat.succ = fun i => (m / 2).testBit i := by
    funext i
    exact Nat.testBit_succ m i
  rw [h1, Nat.testBit_zero]
  have := Nat.mod_two_eq_zero_or_one m
  rcases this with h | h <;> simp [h, add_comm]

theorem lowOnes_next (w m : Nat) : lowOnes w (m + 1) ≤ lowOnes w m + 1 := by
  induction w generalizing m with
  | zero => simp [lowOnes]
  | succ w ih =>
    rw [lowOnes_succ, lowOnes_succ]
    rcases Nat.even_or_odd' m with ⟨k, rfl | rfl⟩
    · rw [show (2 * k + 1) / 2 = k by omega, show 2 * k / 2 = k by omega]; omega
    · rw [show (2 * k + 1 + 1) / 2 = k + 1 by omega, show (2 * k + 1) / 2 = k by omega]
      have := ih k
      omega

theorem lowOnes_pair (w q : Nat) : lowOnes w (2 * q + 2) ≤ lowOnes w (2 * q + 1) := by
  cases w with
  | zero => simp [lowOnes]
  | succ w =>
    rw [lowOnes_succ, lowOnes_succ, show (2 * q + 2) / 2 = q + 1 by omega, show (2 * q + 1) / 2 = q by omega]
    have := lowOnes_next w q
    omega

theorem ones_permute (t : WT) (m rot : Nat) (hrot : rot < t.bits) (ty : RrcType) :
    ones (permute t (BitVec.ofNat t.bits m) rot ty) = if complements ty then t.bits - lowOnes t.bits m else lowOnes t.bits m := by
  unfold ones lowOnes
  rw [List.countP_congr (q := fun p => m.testBit (fromBit t.bits rot ty p) != complements ty)]
  swap
  · intro p hp
    have hp := List.mem_range.1 hp
    rw [permute_bit t _ rot ty p hp, BitVec.getLsbD_ofNat]
    simp [fromBit_lt t.bits rot (by omega) ty p]
  have hperm : ((List.range t.bits).map (fromBit t.bits rot ty)).Perm (List.range t.bits) := by
    refine (List.subperm_of_subset List.nodup_range ?_).perm_of_length_le (by simp) |>.symm
    intro l hl
    obtain ⟨p, hp, rfl⟩ := fromBit_onto t.bits rot hrot ty l (List.mem_range.1 hl)
    exact List.mem_map_of_mem (List.mem_range.2 hp)
  have h2 : (List.range t.bits).countP (fun p => m.testBit (fromBit t.bits rot ty p) != complements ty) =
      (List.range t.bits).countP (fun l => m.testBit l != complements ty) := by
    rw [← hperm.countP_eq (fun l => m.testBit l != complements ty), List.countP_map]
    rfl
  rw [h2]
  cases complements ty
  · simp
  · have := List.length_eq_countP_add_countP (fun i => m.testBit i) (l := List.range t.bits)
    rw [List.length_range] at this
    rw [if_pos rfl]
    simp only [Bool.bne_true]
    have h3 : (List.range t.bits).countP (fun i => decide ¬ m.testBit i = true) = (List.range t.bits).countP (fun i => !m.testBit i) :=
      List.countP_congr fun i _ => by simp
    omega

/-- C133. Every view of a counter is rejected. -/
theorem C133_counter (t : WT) (ty : RrcType) (rot : Nat) (hrot : rot < t.bits) (n : BitVec 64) (hn : 2 ^ 16 ≤ n.toNat) (s : Stream (BitVec t.bits))
    (hs : ∀ i, s.nth i = permute t (BitVec.ofNat t.bits (i + 1)) rot ty) :
    ∃ res st, serialAvalanche chi2DistributionCdf n s = .ok res ∧ ⟨"bit(" ++ toString (t.bits / 2) ++ ")", some st⟩ ∈ res ∧
      st.pValue ≤ 1 / 10 ^ 9 ∧ statPass st = false := by
  refine C133_serial_avalanche t n hn s (if complements ty then t.bits / 2 - 1 else t.bits / 2 + 1) (by split <;> omega) (by split <;> omega) ?_
  intro q _ h1
  rw [hs, ones_permute t _ rot hrot] at h1 ⊢
  have := lowOnes_pair t.bits q
  have hle : lowOnes t.bits (2 * q + 1) ≤ t.bits := by
    unfold lowOnes
    exact (List.countP_le_length).trans (by simp)
  have h8 : 8 ≤ t.bits := by cases t <;> decide
  rw [show 2 * q + 1 + 1 = 2 * q + 2 by omega]
  by_cases hc : complements ty = true
  · rw [if_pos hc] at h1 ⊢
    rw [if_pos hc]
    omega
  · rw [if_neg hc] at h1 ⊢
    rw [if_neg hc]
    omega

/-- C133. The self-check prints `PASS` for the serial avalanche test. -/
theorem C133_self_check (t : WT) (hw : BitVec 32) (analyse : Battery ℝ → List ResultAnalysis) (ha : Analyses analyse)
    (eval : TestRow → Stream (BitVec t.bits) → BitVec 64 → Battery ℝ) (h : SelfCheckRuns t hw eval) (sources : List (Stream (BitVec t.bits)))
    (hs : createFailSources t = .ok sources) (lines : List InspectLine) (hl : inspectTests t analyse eval sources false = .ok lines) :
    lines.filter (fun l => decide (lineTest l = "serial-avalanche")) = [.pass "serial-avalanche"] := by
  have hth := defaultMaxThreads_pos hw
  refine pass_of_none t hw analyse ha eval h sources lines hl ⟨.serialAvalanche, true, false, .none, "serial-avalanche"⟩ (by decide) fun s hmem =>
      not_accepted _ 25 (by norm_num) le_rfl ?_
  rw [if_neg (by decide)] at hmem
  obtain ⟨ty, rot, hrot, hsrc⟩ := fail_source_cases t sources hs s hmem
  have hrej : ∃ res st, serialAvalanche chi2DistributionCdf (BitVec.ofNat 64 (2 ^ 25)) (mixerStream s ⟨"identity", fun x => x⟩) = .ok res ∧
      ⟨"bit(" ++ toString (t.bits / 2) ++ ")", some st⟩ ∈ res ∧ st.pValue ≤ 1 / 10 ^ 9 ∧ statPass st = false := by
    rcases hsrc with rfl | ⟨c, rfl⟩
    · exact C133_counter t ty rot hrot _ (by decide) _ fun i => mixed_nth t ⟨"identity", fun x => x⟩ ty rot i
    · refine C133_serial_avalanche t _ (by decide) _ (t.bits / 2 + 1) (by omega) le_rfl fun q _ h1 => ?_
      rw [view_constant] at h1 ⊢
      omega
  obtain ⟨res, st, g1, g2, g3, -⟩ := hrej
  exact battery_rejects chi2DistributionCdf .serialAvalanche _ (inspectSetup (defaultMaxThreads hw) ⟨.serialAvalanche, true, false, .none, "serial-avalanche"⟩ s)
    (by show 0 < defaultMaxThreads hw; omega) _ (h _ s 25 (by norm_num) le_rfl) List.mem_cons_self s List.mem_cons_self _ rfl
    res (congrArg some g1) _ st g2 g3

-- C133, non-vacuity: a constant and every view of a counter meet the hypotheses.
example : (∀ q < (65536#64).toNat, ones ((constantStream 5#32).nth (2 * q)) = WT.u32.bits / 2 → ones ((constantStream 5#32).nth (2 * q + 1)) ≠ 17) ∧
    ∃ s : Stream (BitVec WT.u64.bits), ∀ i, s.nth i = permute .u64 (BitVec.ofNat WT.u64.bits (i + 1)) 11 .reverseComplement := by
  refine ⟨fun q _ _ => ?_, mixerStream (addRrc .u64 (counterStream WT.u64.bits 1 0) 11 .reverseComplement) ⟨"identity", fun x => x⟩,
    fun i => mixed_nth .u64 ⟨"identity", fun x => x⟩ .reverseComplement 11 i⟩
  rw [constantStream_nth]
  decide

-- C133, non-vacuity: the sources exist for every size, and so do runs of the self-check on them.
example (t : WT) (hw : BitVec 32) (analyse : Battery ℝ → List ResultAnalysis) (ha : Analyses analyse) :
    ∃ sources eval lines, createFailSources t = .ok sources ∧ SelfCheckRuns t hw eval ∧ inspectTests t analyse eval sources false = .ok lines := by
  obtain ⟨c, s0, s1, s2, s3, hs, -⟩ := C97_fail_sources t
  choose f hf using fun (test : TestRow) (s : Stream (BitVec t.bits)) n =>
    C35_terminates (suiteDef chi2DistributionCdf) n (inspectSetup (defaultMaxThreads hw) test s)
  exact ⟨_, f, _, hs, fun test s k _ _ => hf test s _, (C97_inspect chi2DistributionCdf t hw analyse ha f (fun test s k _ _ => hf test s _) _).1⟩

end TFR
