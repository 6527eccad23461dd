import Verif.Props.Segments
import Mathlib.Data.Finset.Image
import Mathlib.Tactic.IntervalCases
import Mathlib.Analysis.SpecificLimits.Normed
/-
C45 (probabilities), C46, C48: gap probabilities, coupon segments, divisibility groups.
-/
namespace TFR
open Spec
variable {w : Nat} {α : Type}

private theorem hbind {α β : Type} (x : α) (f : α → R β) : ((Except.ok x : R α) >>= f) = f x := rfl

private theorem segRun_nil (done : List α → Bool) (l : List α) :
    IsSegmentation (fun s => done s = true) l (segRun done [] l).1 (segRun done [] l).2 := by
  simpa using segRun_spec done l [] (by intro p hp; simp at hp; simp [hp])

private theorem getElem?_histOf_map (cap : Nat) (bin : List α → Nat) (segs : List (List α)) (g : Nat) (hg : g < cap) :
    (histOf cap (segs.map bin))[g]? = some (BitVec.ofNat 64 (binCount bin segs g)) := by
  rw [List.getElem?_eq_getElem (by simpa using hg), getElem_histOf]
  rfl

/-! ### C45: probabilities -/

private theorem gapLoop_eq (a b : ℝ) (k i : Nat) (ps : List ℝ) (hik : i ≤ k)
    (hlt : ∀ j, j < k → 1 - (1 - b + a) ^ j < 99 / 100) (hge : ¬ 1 - (1 - b + a) ^ k < 99 / 100) :
    gapProbLoop a b ps (1 - (1 - b + a) ^ i) i =
      some (ps ++ (List.range (k - i)).map (fun j => (b - a) * (1 - b + a) ^ (i + j)), 1 - (1 - b + a) ^ k) := by
  induction hd : k - i generalizing i ps with
  | zero =>
    have : i = k := by omega
    subst this
    rw [gapProbLoop, if_neg hge]
    simp
  | succ d ih =>
    have hi : i < k := by omega
    rw [gapProbLoop, if_pos (hlt i hi)]
    dsimp only
    have hs : 1 - (1 - b + a) ^ i + (b - a) * (1 - b + a) ^ i = 1 - (1 - b + a) ^ (i + 1) := by ring
    rw [hs, ih (i + 1) _ (by omega) (by omega)]
    congr 2
    rw [List.append_assoc, List.range_succ_eq_map]
    simp only [List.map_cons, List.map_map, List.singleton_append, Nat.add_zero]
    congr 2
    apply List.map_congr_left
    intro j _
    simp only [Function.comp, Nat.succ_eq_add_one]
    congr 2
    omega

/-- C45. For every interval with `0 < b - a ≤ 1` the probability list exists (the loop ends): with `p = b - a` and `k` the
least number with `1 - (1-p)^k ≥ 0.99` it is `p, p(1-p), ..., p(1-p)^(k-1), (1-p)^k`, i.e. the geometric probabilities of a
gap of `0, ..., k-1` misses and of at least `k` misses; all are non-negative and they sum to 1. -/
theorem C45_probabilities (a b : ℝ) (h0 : 0 < b - a) (h1 : b - a ≤ 1) :
    ∃ k ps, gapProbabilities a b = some ps ∧ ps.length = k + 1 ∧
      (∀ j, j < k → 1 - (1 - (b - a)) ^ j < 99 / 100) ∧ 99 / 100 ≤ 1 - (1 - (b - a)) ^ k ∧
      (∀ j, j < k → ps[j]? = some ((b - a) * (1 - (b - a)) ^ j)) ∧ ps[k]? = some ((1 - (b - a)) ^ k) ∧
      (∀ p ∈ ps, 0 ≤ p) ∧ ps.sum = 1 := by
  have hq : 1 - (b - a) = 1 - b + a := by ring
  have hex : ∃ k : ℕ, ¬ 1 - (1 - b + a) ^ k < 99 / 100 := by
    obtain ⟨k, hk⟩ := exists_pow_lt_of_lt_one (show (0 : ℝ) < 1 / 100 by norm_num) (show 1 - b + a < 1 by linarith)
    exact ⟨k, by rw [not_lt]; linarith⟩
  classical
  let k := Nat.find hex
  have hk := Nat.find_spec hex
  have hmin : ∀ j, j < k → 1 - (1 - b + a) ^ j < 99 / 100 := fun j hj => not_not.1 (Nat.find_min hex hj)
  have hloop := gapLoop_eq a b k 0 [] (by omega) hmin hk
  simp only [pow_zero, sub_self, Nat.sub_zero, List.nil_append, Nat.zero_add] at hloop
  have hqn : 0 ≤ 1 - b + a := by linarith
  refine ⟨k, (List.range k).map (fun j => (b - a) * (1 - b + a) ^ j) ++ [(1 - b + a) ^ k], ?_, by simp, ?_, ?_, ?_, ?_, ?_, ?_⟩
  · unfold gapProbabilities
    rw [hloop]
    show some _ = some _
    congr 2
    simp
  · rw [hq]; exact hmin
  · rw [hq]; exact not_lt.1 hk
  · intro j hj
    rw [hq, List.getElem?_append_left (by simpa using hj)]
    simp [hj]
  · rw [hq, List.getElem?_append_right (by simp)]
    simp
  · intro p hp
    rcases List.mem_append.1 hp with hp | hp
    · obtain ⟨j, -, rfl⟩ := List.mem_map.1 hp
      exact mul_nonneg h0.le (pow_nonneg hqn j)
    · rw [List.mem_singleton.1 hp]; exact pow_nonneg hqn k
  · rw [List.sum_append, List.sum_singleton]
    have : ∀ m : ℕ, ((List.range m).map (fun j => (b - a) * (1 - b + a) ^ j)).sum = 1 - (1 - b + a) ^ m := by
      intro m
      induction m with
      | zero => simp
      | succ m ih => rw [List.range_succ, List.map_append, List.sum_append, ih]; simp; ring
    rw [this]; ring

/-- C45. For an empty interval the loop never ends. -/
theorem C45_probabilities_empty (a : ℝ) : gapProbabilities a a = none := by
  have key : ∀ ps sum i r, gapProbLoop a a ps sum i = some r → 99 / 100 ≤ sum := by
    apply gapProbLoop.partial_correctness (K := ℝ) a a (motive := fun _ sum _ _ => 99 / 100 ≤ sum)
    intro f ih ps sum i r hr
    by_cases h : sum < 99 / 100
    · rw [if_pos h] at hr
      have := ih _ _ _ _ hr
      simpa using this
    · exact not_lt.1 h
  unfold gapProbabilities
  cases h : gapProbLoop a a [] 0 0 with
  | none => rfl
  | some r =>
    have := key _ _ _ _ h
    norm_num at this

/-- C45, non-vacuity: for the intervals of the gap test there are 8 probabilities, 1/2, ..., 1/128, 1/128. -/
theorem C45_probabilities_half (a b : ℝ) (h : b - a = 1 / 2) :
    gapProbabilities a b = some [1/2, 1/4, 1/8, 1/16, 1/32, 1/64, 1/128, 1/128] := by
  have hq : 1 - b + a = 1 / 2 := by linarith
  have hloop := gapLoop_eq a b 7 0 [] (by omega) (by
    intro j hj
    rw [hq]
    interval_cases j <;> norm_num) (by rw [hq]; norm_num)
  simp only [pow_zero, sub_self, Nat.sub_zero, List.nil_append, Nat.zero_add] at hloop
  unfold gapProbabilities
  rw [hloop]
  show some _ = some _
  rw [hq, h]
  simp only [List.range_succ, List.range_zero, List.nil_append, List.map_append, List.map_cons, List.map_nil, List.append_assoc,
    List.cons_append]
  norm_num

/-! ### C46 -/

/-- The double product whose integer part is the coupon number is at least 0 and at most `2^63`. -/
private theorem coupon_bounds (wanted : BitVec 64) (h : wanted.toNat ≤ 2 ^ 63) (v : BitVec w) :
    0 ≤ Fl.mul (Fl.ofNat wanted.toNat) (rescaleTypeTo01 v) ∧ Fl.mul (Fl.ofNat wanted.toNat) (rescaleTypeTo01 v) ≤ 2 ^ 63 := by
  have hw0 : 0 ≤ Fl.ofNat wanted.toNat := Fl.rnd_nonneg (by positivity)
  have hw1 : Fl.ofNat wanted.toNat ≤ 2 ^ 63 := by
    rw [← Fl.rnd_two_pow 63]
    apply Fl.rnd_mono
    exact_mod_cast h
  refine ⟨Fl.rnd_nonneg (mul_nonneg hw0 (rescale_nonneg v)), ?_⟩
  rw [← Fl.rnd_two_pow 63]
  apply Fl.rnd_mono
  calc Fl.ofNat wanted.toNat * rescaleTypeTo01 v ≤ Fl.ofNat wanted.toNat * 1 :=
        mul_le_mul_of_nonneg_left (rescale_le_one v) hw0
    _ ≤ _ := by rw [mul_one]; exact hw1

/-- The number of the coupon a value stands for. -/
def Spec.coupon (d : Nat) (v : BitVec w) : Nat := min ⌊Fl.mul (Fl.ofNat d) (rescaleTypeTo01 v)⌋.toNat (d - 1)

private theorem couponId_eq (wanted : BitVec 64) (h0 : 0 < wanted.toNat) (h : wanted.toNat ≤ 2 ^ 63) (v : BitVec w) :
    couponId wanted v = .ok (BitVec.ofNat 64 (Spec.coupon wanted.toNat v)) := by
  obtain ⟨hl, hu⟩ := coupon_bounds wanted h v
  unfold couponId toU64
  dsimp only
  have hlt : Fl.mul (Fl.ofNat wanted.toNat) (rescaleTypeTo01 v) < 2 ^ 64 := lt_of_le_of_lt hu (by norm_num)
  rw [if_pos ⟨hl, hlt⟩, hbind]
  congr 1
  unfold Spec.coupon
  have hf : ⌊Fl.mul (Fl.ofNat wanted.toNat) (rescaleTypeTo01 v)⌋ ≤ 2 ^ 63 := by
    have : ⌊Fl.mul (Fl.ofNat wanted.toNat) (rescaleTypeTo01 v)⌋ ≤ ⌊(2 : ℚ) ^ 63⌋ := Int.floor_mono hu
    refine this.trans ?_
    have h2 : (2 : ℚ) ^ 63 = (((2 : ℤ) ^ 63 : ℤ) : ℚ) := by push_cast; rfl
    rw [h2, Int.floor_intCast]
  have hf0 : 0 ≤ ⌊Fl.mul (Fl.ofNat wanted.toNat) (rescaleTypeTo01 v)⌋ := Int.floor_nonneg.2 hl
  generalize ⌊Fl.mul (Fl.ofNat wanted.toNat) (rescaleTypeTo01 v)⌋ = z at hf hf0
  have hsub : (wanted - 1#64).toNat = wanted.toNat - 1 := by
    rw [BitVec.toNat_sub]
    have := wanted.isLt
    simp
    omega
  have hz : (BitVec.ofNat 64 z.toNat).toNat = z.toNat := by
    rw [BitVec.toNat_ofNat, Nat.mod_eq_of_lt (by omega)]
  apply BitVec.eq_of_toNat_eq
  rw [BitVec.toNat_ofNat, Nat.mod_eq_of_lt (by have := wanted.isLt; omega)]
  by_cases hc : wanted - 1#64 < BitVec.ofNat 64 z.toNat
  · rw [if_pos hc, hsub]
    rw [BitVec.lt_def, hsub, hz] at hc
    omega
  · rw [if_neg hc, hz]
    rw [BitVec.lt_def, hsub, hz] at hc
    omega

theorem Spec.coupon_lt (d : Nat) (h : 0 < d) (v : BitVec w) : Spec.coupon d v < d := by
  unfold Spec.coupon
  omega

/-- A duplicate-free list of numbers below `d` has length `d` exactly when it contains all of them. -/
private theorem nodup_full (d : Nat) (l : List Nat) (hn : l.Nodup) (hlt : ∀ x ∈ l, x < d) :
    l.length = d ↔ ∀ c, c < d → c ∈ l := by
  have hsub : l.toFinset ⊆ Finset.range d := fun x hx => Finset.mem_range.2 (hlt x (List.mem_toFinset.1 hx))
  have hcard : l.toFinset.card = l.length := List.toFinset_card_of_nodup hn
  constructor
  · intro h c hc
    have : l.toFinset = Finset.range d := Finset.eq_of_subset_of_card_le hsub (by rw [hcard, h]; simp)
    rw [← List.mem_toFinset, this]
    exact Finset.mem_range.2 hc
  · intro h
    have : l.toFinset = Finset.range d :=
      Finset.Subset.antisymm hsub (fun x hx => List.mem_toFinset.2 (h x (Finset.mem_range.1 hx)))
    rw [← hcard, this, Finset.card_range]

/-- C46. For every data, number of coupons `1 ≤ d ≤ 2^63` and cap `≥ 1`: cut the data after each value that completes the set
of all `d` coupons (coupon of a value: the integer part of the double product `d·v`, at most `d - 1`).  `collect_coupons`
never faults, and entry `g` is the number (modulo 2^64) of segments of length `d + g`; longer ones are counted in the last
entry. -/
theorem C46_coupons (wanted : BitVec 64) (h0 : 0 < wanted.toNat) (h : wanted.toNat ≤ 2 ^ 63) (cap : Nat) (hcap : 0 < cap)
    (data : List (BitVec w)) (hlen : data.length < 2 ^ 64) :
    ∃ (segs : List (List (BitVec w))) (rest : List (BitVec w)) (hist : List (BitVec 64)),
      IsSegmentation (fun s => ∀ c, c < wanted.toNat → ∃ v ∈ s, Spec.coupon wanted.toNat v = c) data segs rest ∧
      (∀ s ∈ segs, wanted.toNat ≤ s.length) ∧
      collectCoupons wanted cap data = .ok hist ∧ hist.length = cap ∧
      ∀ g, g < cap → hist[g]? = some (BitVec.ofNat 64 (binCount (fun s => min (cap - 1) (s.length - wanted.toNat)) segs g)) := by
  let id : BitVec w → Nat := Spec.coupon wanted.toNat
  have hid : ∀ v, id v < wanted.toNat := Spec.coupon_lt _ h0
  have hw64 : wanted.toNat < 2 ^ 64 := wanted.isLt
  let done : List (BitVec w) → Bool := fun s => decide (∀ c, c < wanted.toNat → ∃ v ∈ s, id v = c)
  have hdone_len : ∀ s, done s = true → wanted.toNat ≤ s.length := by
    intro s hs
    have hs := of_decide_eq_true hs
    have hsub : Finset.range wanted.toNat ⊆ (s.map id).toFinset := by
      intro c hc
      obtain ⟨v, hv, hvc⟩ := hs c (Finset.mem_range.1 hc)
      exact List.mem_toFinset.2 (List.mem_map.2 ⟨v, hv, hvc⟩)
    have := (Finset.card_le_card hsub).trans (List.toFinset_card_le _)
    simpa using this
  have hfold := seg_fold (couponStep wanted) done (fun s => min (cap - 1) (s.length - wanted.toNat)) cap (2 ^ 64 - 1)
    (fun st => st.hist)
    (fun st cur => st.drawCount = BitVec.ofNat 64 cur.length ∧ done cur = false ∧
      ∃ ids : List Nat, st.collected = ids.map (BitVec.ofNat 64) ∧ ids.Nodup ∧ ∀ c, c ∈ ids ↔ ∃ v ∈ cur, id v = c)
    (fun _ => True)
    (by
      intro st cur v idx _ hI hh hN
      obtain ⟨hdc, hnd, ids, hcol, hnodup, hmem⟩ := hI
      obtain ⟨coll, hist, dc⟩ := st
      simp only at hdc hcol hh
      subst hh hdc hcol
      have hltd : ∀ x ∈ ids, x < wanted.toNat := by
        intro x hx
        obtain ⟨u, -, rfl⟩ := (hmem x).1 hx
        exact hid u
      have hinj : ∀ x, x < wanted.toNat → (BitVec.ofNat 64 x ∈ ids.map (BitVec.ofNat 64) ↔ x ∈ ids) := by
        intro x hx
        constructor
        · intro hx'
          obtain ⟨y, hy, hxy⟩ := List.mem_map.1 hx'
          have := congrArg BitVec.toNat hxy
          rw [BitVec.toNat_ofNat, BitVec.toNat_ofNat, Nat.mod_eq_of_lt (by have := hltd y hy; omega),
            Nat.mod_eq_of_lt (by omega)] at this
          exact this ▸ hy
        · intro hx'; exact List.mem_map.2 ⟨x, hx', rfl⟩
      have hdc' : BitVec.ofNat 64 cur.length + 1#64 = BitVec.ofNat 64 (cur ++ [v]).length := by
        rw [List.length_append, List.length_singleton, BitVec.ofNat_add]
      unfold couponStep
      rw [couponId_eq wanted h0 h v, hbind]
      dsimp only
      by_cases hin : id v ∈ ids
      · rw [if_pos ((hinj _ (hid v)).2 hin)]
        have hnd' : done (cur ++ [v]) = false := by
          simp only [done, decide_eq_false_iff_not] at hnd ⊢
          intro hall
          apply hnd
          intro c hc
          obtain ⟨u, hu, huc⟩ := hall c hc
          rcases List.mem_append.1 hu with hu | hu
          · exact ⟨u, hu, huc⟩
          · rw [List.mem_singleton.1 hu] at huc
            rw [← huc]
            exact (hmem _).1 hin
        refine ⟨_, rfl, ?_⟩
        rw [if_neg (by rw [hnd']; simp)]
        refine ⟨⟨hdc', hnd', ids, rfl, hnodup, ?_⟩, rfl⟩
        intro c
        rw [hmem]
        constructor
        · rintro ⟨u, hu, huc⟩; exact ⟨u, by simp [hu], huc⟩
        · rintro ⟨u, hu, huc⟩
          rcases List.mem_append.1 hu with hu | hu
          · exact ⟨u, hu, huc⟩
          · rw [List.mem_singleton.1 hu] at huc
            rw [← huc]
            exact (hmem _).1 hin
      · rw [if_neg (fun hx => hin ((hinj _ (hid v)).1 hx))]
        have hnodup' : (id v :: ids).Nodup := List.nodup_cons.2 ⟨hin, hnodup⟩
        have hlt' : ∀ x ∈ id v :: ids, x < wanted.toNat := by
          intro x hx
          rcases List.mem_cons.1 hx with rfl | hx
          · exact hid v
          · exact hltd x hx
        have hmem' : ∀ c, c ∈ id v :: ids ↔ ∃ u ∈ cur ++ [v], id u = c := by
          intro c
          rw [List.mem_cons, hmem]
          constructor
          · rintro (rfl | ⟨u, hu, huc⟩)
            · exact ⟨v, by simp, rfl⟩
            · exact ⟨u, by simp [hu], huc⟩
          · rintro ⟨u, hu, huc⟩
            rcases List.mem_append.1 hu with hu | hu
            · exact Or.inr ⟨u, hu, huc⟩
            · rw [List.mem_singleton.1 hu] at huc; exact Or.inl huc.symm
        have hfull := nodup_full wanted.toNat _ hnodup' hlt'
        have hle : (id v :: ids).length ≤ wanted.toNat := by
          have hsub : (id v :: ids).toFinset ⊆ Finset.range wanted.toNat :=
            fun x hx => Finset.mem_range.2 (hlt' x (List.mem_toFinset.1 hx))
          have := Finset.card_le_card hsub
          rwa [List.toFinset_card_of_nodup hnodup', Finset.card_range] at this
        have hcount : BitVec.ofNat 64 (BitVec.ofNat 64 (id v) :: ids.map (BitVec.ofNat 64)).length = wanted ↔
            done (cur ++ [v]) = true := by
          have hl : (BitVec.ofNat 64 (id v) :: ids.map (BitVec.ofNat 64)).length = (id v :: ids).length := by simp
          rw [hl]
          have : BitVec.ofNat 64 (id v :: ids).length = wanted ↔ (id v :: ids).length = wanted.toNat := by
            constructor
            · intro h
              have := congrArg BitVec.toNat h
              rwa [BitVec.toNat_ofNat, Nat.mod_eq_of_lt (by omega)] at this
            · intro h; rw [h]; simp
          rw [this, hfull]
          simp only [done, decide_eq_true_eq]
          constructor
          · intro h c hc; exact (hmem' c).1 (h c hc)
          · intro h c hc; exact (hmem' c).2 (h c hc)
        by_cases hd : done (cur ++ [v]) = true
        · have hlen' := hdone_len _ hd
          rw [if_pos (hcount.2 hd)]
          have hidx : (BitVec.ofNat 64 cur.length + 1#64 - wanted).toNat = (cur ++ [v]).length - wanted.toNat := by
            have hN' : (cur ++ [v]).length < 2 ^ 64 := by simp; omega
            rw [hdc', BitVec.toNat_sub, BitVec.toNat_ofNat, Nat.mod_eq_of_lt hN']
            omega
          rw [hidx, incrAt_histOf _ _ _ (by simp; omega), hbind]
          refine ⟨_, rfl, ?_⟩
          rw [if_pos hd]
          refine ⟨⟨rfl, ?_, [], rfl, List.nodup_nil, by simp⟩, by simp⟩
          simp only [done, decide_eq_false_iff_not]
          intro hall
          obtain ⟨u, hu, -⟩ := hall 0 h0
          simp at hu
        · rw [if_neg (fun hx => hd (hcount.1 hx))]
          refine ⟨_, rfl, ?_⟩
          rw [if_neg hd]
          exact ⟨⟨hdc', by simpa using hd, id v :: ids, by simp; rfl, hnodup', hmem'⟩, rfl⟩)
    data ⟨[], List.replicate cap 0#64, 0#64⟩ [] [] (by simp)
    ⟨rfl, by
      simp only [done, decide_eq_false_iff_not]
      intro hall
      obtain ⟨u, hu, -⟩ := hall 0 h0
      simp at hu, [], rfl, List.nodup_nil, by simp⟩ (histOf_nil cap).symm (by simp; omega)
  obtain ⟨st', h1, h2⟩ := hfold
  have hseg := segRun_nil done data
  refine ⟨(segRun done [] data).1, (segRun done [] data).2, st'.hist, ?_, ?_, ?_, ?_, ?_⟩
  · simpa only [done, decide_eq_true_eq] using hseg
  · intro s hs; exact hdone_len s (hseg.complete s hs).2
  · unfold collectCoupons
    rw [h1, hbind]
  · rw [h2]; simp
  · intro g hg
    rw [h2, List.nil_append]
    exact getElem?_histOf_map cap _ _ g hg

/-- C46. The segmentation is determined by the data: any other greedy cut has the same segments. -/
theorem C46_unique (wanted : Nat) (data : List (BitVec w)) (segs segs' : List (List (BitVec w))) (rest rest' : List (BitVec w))
    (h : IsSegmentation (fun s => ∀ c, c < wanted → ∃ v ∈ s, Spec.coupon wanted v = c) data segs rest)
    (h' : IsSegmentation (fun s => ∀ c, c < wanted → ∃ v ∈ s, Spec.coupon wanted v = c) data segs' rest') :
    segs = segs' ∧ rest = rest' := h.unique h'

/-- C46. Tracking no draws: completing the first segment is an access outside the vector. -/
theorem C46_cap_zero (v : BitVec w) (data : List (BitVec w)) : collectCoupons 1#64 0 (v :: data) = .error .oobIndex := by
  unfold collectCoupons
  rw [List.foldlM_cons]
  have : couponStep 1#64 ⟨[], List.replicate 0 0#64, 0#64⟩ v = .error .oobIndex := by
    unfold couponStep
    rw [couponId_eq 1#64 (by decide) (by decide) v, hbind]
    dsimp only
    rw [if_neg (by simp), if_pos (by simp)]
    rfl
  rw [this]; rfl

/-- C46, non-vacuity: two coupons (upper and lower half of the bytes), segments of length 2, 3 and 4, cap 2. -/
example : collectCoupons 2#64 2 [1#8, 200#8, 130#8, 129#8, 3#8, 4#8, 5#8, 6#8, 255#8, 7#8] = .ok [1#64, 2#64] := by
  decide +kernel

/-! ### C48 -/

/-- C48. For every data, divisor `≥ 1`, group size `wanted` and cap `≥ 1`: cut the data after each value that completes a group
of `max(wanted, 1)` values divisible by the divisor.  `collect_divisible` never faults; entry `g` is the number (modulo 2^64)
of segments of length `wanted + g`, longer ones are counted in the last entry; the number of segments is
`⌊#divisible / max(wanted, 1)⌋`. -/
theorem C48_divisible (divisor wanted : BitVec 64) (hdiv : divisor ≠ 0#64) (cap : Nat) (hcap : 0 < cap)
    (data : List (BitVec w)) (hlen : data.length < 2 ^ 64 - 1) :
    ∃ (segs : List (List (BitVec w))) (rest : List (BitVec w)) (hist : List (BitVec 64)),
      IsSegmentation (fun s => max wanted.toNat 1 ≤ s.countP (fun v => decide (divisor.toNat ∣ v.toNat))) data segs rest ∧
      segs.length = data.countP (fun v => decide (divisor.toNat ∣ v.toNat)) / max wanted.toNat 1 ∧
      collectDivisible divisor wanted cap data = .ok hist ∧ hist.length = cap ∧
      ∀ g, g < cap → hist[g]? = some (BitVec.ofNat 64 (binCount (fun s => min (cap - 1) (s.length - wanted.toNat)) segs g)) := by
  let dv : BitVec w → Bool := fun v => decide (divisor.toNat ∣ v.toNat)
  let m := max wanted.toNat 1
  have hm : m = max wanted.toNat 1 := rfl
  let done : List (BitVec w) → Bool := fun s => decide (m ≤ s.countP dv)
  have hw64 : wanted.toNat < 2 ^ 64 := wanted.isLt
  have hfold := seg_fold (divStep divisor wanted) done (fun s => min (cap - 1) (s.length - wanted.toNat)) cap (2 ^ 64 - 1)
    (fun st => st.hist)
    (fun st cur => st.drawCount = BitVec.ofNat 64 cur.length ∧ st.collected = BitVec.ofNat 64 (cur.countP dv) ∧ cur.countP dv < m)
    (fun _ => True)
    (by
      intro st cur v idx _ hI hh hN
      obtain ⟨hdc, hcol, hnd⟩ := hI
      obtain ⟨hist, dc, coll⟩ := st
      simp only at hdc hcol hh
      subst hh hdc hcol
      have hcl : cur.countP dv ≤ cur.length := List.countP_le_length
      have hdc' : BitVec.ofNat 64 cur.length + 1#64 = BitVec.ofNat 64 (cur ++ [v]).length := by
        rw [List.length_append, List.length_singleton, BitVec.ofNat_add]
      have hcp : (cur ++ [v]).countP dv = cur.countP dv + (if dv v then 1 else 0) := by
        rw [List.countP_append, List.countP_singleton]
      unfold divStep
      dsimp only
      rw [if_neg hdiv]
      by_cases hv : dv v = true
      · have hmod : ¬ v.toNat % divisor.toNat ≠ 0 := by
          rw [not_not]; exact Nat.mod_eq_zero_of_dvd (of_decide_eq_true hv)
        rw [if_neg hmod]
        have hcol' : BitVec.ofNat 64 (cur.countP dv) + 1#64 = BitVec.ofNat 64 ((cur ++ [v]).countP dv) := by
          rw [hcp, if_pos hv, BitVec.ofNat_add]
        rw [if_pos hv] at hcp
        have hlt : BitVec.ofNat 64 (cur.countP dv) + 1#64 < wanted ↔ (cur ++ [v]).countP dv < wanted.toNat := by
          rw [hcol', BitVec.lt_def, BitVec.toNat_ofNat, Nat.mod_eq_of_lt (by omega)]
        by_cases hc : (cur ++ [v]).countP dv < wanted.toNat
        · rw [if_pos (hlt.2 hc)]
          have hd : ¬ done (cur ++ [v]) = true := by
            simp only [done, decide_eq_true_eq]; omega
          refine ⟨_, rfl, ?_⟩
          rw [if_neg hd]
          exact ⟨⟨hdc', hcol', by omega⟩, rfl⟩
        · rw [if_neg (fun hx => hc (hlt.1 hx))]
          have hd : done (cur ++ [v]) = true := by
            simp only [done, decide_eq_true_eq]; omega
          have hN' : (cur ++ [v]).length < 2 ^ 64 := by simp; omega
          have hle : wanted.toNat ≤ (cur ++ [v]).length := by
            have : (cur ++ [v]).countP dv ≤ (cur ++ [v]).length := List.countP_le_length
            omega
          have hidx : (BitVec.ofNat 64 cur.length + 1#64 - wanted).toNat = (cur ++ [v]).length - wanted.toNat := by
            rw [hdc', BitVec.toNat_sub, BitVec.toNat_ofNat, Nat.mod_eq_of_lt hN']
            omega
          rw [hidx, incrAt_histOf _ _ _ (by simp; omega), hbind]
          refine ⟨_, rfl, ?_⟩
          rw [if_pos hd]
          exact ⟨⟨rfl, rfl, by simp; omega⟩, by simp⟩
      · have hmod : v.toNat % divisor.toNat ≠ 0 := by
          intro h; exact hv (decide_eq_true (Nat.dvd_of_mod_eq_zero h))
        rw [if_pos hmod]
        rw [if_neg hv] at hcp
        have hd : ¬ done (cur ++ [v]) = true := by
          simp only [done, decide_eq_true_eq]; omega
        refine ⟨_, rfl, ?_⟩
        rw [if_neg hd]
        exact ⟨⟨hdc', by rw [hcp]; rfl, by omega⟩, rfl⟩)
    data ⟨List.replicate cap 0#64, 0#64, 0#64⟩ [] [] (by simp) ⟨rfl, rfl, by simp; omega⟩ (histOf_nil cap).symm (by simp; omega)
  obtain ⟨st', h1, h2⟩ := hfold
  have hseg := segRun_nil done data
  refine ⟨(segRun done [] data).1, (segRun done [] data).2, st'.hist, ?_, ?_, ?_, ?_, ?_⟩
  · simpa only [done, decide_eq_true_eq, dv] using hseg
  · have : ∀ (l cur : List (BitVec w)), cur.countP dv < m →
        (segRun done cur l).1.length = (cur.countP dv + l.countP dv) / m := by
      intro l
      induction l with
      | nil => intro cur hc; simp [segRun, Nat.div_eq_of_lt hc]
      | cons v l ih =>
        intro cur hc
        have hcp : (cur ++ [v]).countP dv = cur.countP dv + (if dv v then 1 else 0) := by
          rw [List.countP_append, List.countP_singleton]
        have hcv : (v :: l).countP dv = l.countP dv + (if dv v then 1 else 0) := List.countP_cons
        unfold segRun
        by_cases hd : done (cur ++ [v]) = true
        · rw [if_pos hd]
          simp only [done, decide_eq_true_eq] at hd
          have : cur.countP dv + (if dv v then 1 else 0) = m := by split_ifs at * <;> omega
          simp only [List.length_cons]
          rw [ih [] (by simp; omega), hcv]
          have e : cur.countP dv + (l.countP dv + if dv v then 1 else 0) = l.countP dv + m := by omega
          rw [e, Nat.add_div_right _ (by omega)]
          simp
        · rw [if_neg hd]
          simp only [done, decide_eq_true_eq] at hd
          rw [ih _ (by omega), hcp, hcv]
          congr 1; omega
    have := this data [] (by simp; omega)
    simpa using this
  · unfold collectDivisible
    rw [h1, hbind]
  · rw [h2]; simp
  · intro g hg
    rw [h2, List.nil_append]
    exact getElem?_histOf_map cap _ _ g hg

/-- C48. Divisor 0 is a division by zero on the first value. -/
theorem C48_divisor_zero (wanted : BitVec 64) (cap : Nat) (v : BitVec w) (data : List (BitVec w)) :
    collectDivisible 0#64 wanted cap (v :: data) = .error .divByZero := by
  unfold collectDivisible
  rw [List.foldlM_cons]
  rfl

/-- C48, non-vacuity: groups of two even values, lengths 3, 2 and 5, cap 2. -/
example : collectDivisible 2#64 2#64 2 [1#8, 2#8, 4#8, 6#8, 8#8, 10#8, 1#8, 3#8, 5#8, 0#8, 7#8] = .ok [1#64, 2#64] := by
  decide +kernel

end TFR
