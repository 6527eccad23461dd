import Verif.Model.TestSuite
import Verif.Lemmas.Pearson
import Verif.Props.Avalanche
import Verif.Props.MergeBins
import Verif.Props.Binomial
import Std.Data.String.ToNat
/-
C81, C88: the serial avalanche test and the two mixer avalanche tests from the stream to the reported statistics.
-/
namespace TFR
open Spec
variable {w : Nat}

private theorem hbind {α β : Type} (x : α) (f : α → R β) : ((Except.ok x : R α) >>= f) = f x := rfl

/-! ### C81 -/

/-- `G` is the greedy merging of the cells `0, ..., m - 1` with expectations `e`: consecutive groups, each the shortest
that reaches the threshold; the cells left over at the end join the last group; no group at all if the threshold is never
reached. -/
def Spec.GreedyMerge (e : Nat → ℝ) (thr : ℝ) (m : Nat) (G : List (List Nat)) : Prop :=
  ∃ gs rest, List.range m = gs.flatten ++ rest ∧
    (∀ g ∈ gs, g ≠ [] ∧ thr ≤ (g.map e).sum ∧ ∀ p, p <+: g → p ≠ [] → p ≠ g → (p.map e).sum < thr) ∧
    (∀ p, p <+: rest → p ≠ [] → (p.map e).sum < thr) ∧
    (gs = [] → G = []) ∧ ∀ h : gs ≠ [], G = gs.dropLast ++ [gs.getLast h ++ rest]

/-- The number of one bits. -/
def Spec.ones (x : BitVec w) : Nat := (List.range w).countP fun i => x.getLsbD i

/-- The number of the first `n` pairs of values whose first has `a` and whose second has `b` one bits. -/
def Spec.pairHits (v : Nat → BitVec w) (n a b : Nat) : Nat :=
  (List.range n).countP fun q => ones (v (2 * q)) = a ∧ ones (v (2 * q + 1)) = b

/-- The expected number of such pairs: `n · C(w,a)/2^w · C(w,b)/2^w`. -/
noncomputable def Spec.pairExpected (w n a b : Nat) : ℝ := n * ((w.choose a : ℝ) / 2 ^ w) * ((w.choose b : ℝ) / 2 ^ w)

private theorem unmap {α β : Type} (f : α → β) (l : List α) (gs : List (List β)) (rest : List β)
    (h : l.map f = gs.flatten ++ rest) :
    ∃ (gs' : List (List α)) (rest' : List α), l = gs'.flatten ++ rest' ∧ gs = gs'.map (List.map f) ∧ rest = rest'.map f := by
  induction gs generalizing l with
  | nil => exact ⟨[], l, by simp, by simp, by simpa using h.symm⟩
  | cons g gs ih =>
    rw [List.flatten_cons, List.append_assoc] at h
    obtain ⟨l1, l2, rfl, h1, h2⟩ := List.map_eq_append_iff.1 h
    obtain ⟨gs', rest', rfl, rfl, rfl⟩ := ih l2 h2
    exact ⟨l1 :: gs', rest', by simp, by simp [h1], rfl⟩

private theorem sum_ofNat (l : List Nat) (c : Nat → Nat) :
    (l.map fun b => BitVec.ofNat 64 (c b)).sum = BitVec.ofNat 64 (l.map c).sum := by
  induction l with
  | nil => rfl
  | cons a l ih => rw [List.map_cons, List.sum_cons, ih, List.map_cons, List.sum_cons, BitVec.ofNat_add]

/-- The statistic of one row. -/
private theorem row_stats (cdf : ℝ → ℝ → ℝ) (row : List (BitVec 64)) (c : Nat → Nat) (total : ℝ)
    (hl : row.length = w + 1) (hc : ∀ b, b ≤ w → row[b]? = some (BitVec.ofNat 64 (c b)))
    (hlt : ((List.range (w + 1)).map c).sum < 2 ^ 64) :
    ∃ G, GreedyMerge (fun b => total * ((w.choose b : ℝ) / 2 ^ w)) 5 (w + 1) G ∧
      serialAvalancheStats cdf w row total = .ok
        (if (G.length : ℝ) / ((w + 1 : ℕ) : ℝ) < 35 / 100 then none
         else pearson cdf (G.map fun g => ((((g.map c).sum : ℕ) : ℝ), (g.map fun b => total * ((w.choose b : ℝ) / 2 ^ w)).sum)) 0) := by
  have hrow : row = (List.range (w + 1)).map fun b => BitVec.ofNat 64 (c b) := by
    apply List.ext_getElem?
    intro i
    rcases Nat.lt_or_ge i (w + 1) with h | h
    · rw [hc i (by omega), List.getElem?_map, List.getElem?_range h]; rfl
    · rw [List.getElem?_eq_none (by omega), List.getElem?_eq_none (by simpa using h)]
  set e : Nat → ℝ := fun b => total * ((w.choose b : ℝ) / 2 ^ w) with he
  have hexp : ((List.range row.length).map fun k => total * flipCoinPdf w k) = (List.range (w + 1)).map e := by
    rw [hl]
    apply List.map_congr_left
    intro b _
    rw [he, flipCoinPdf, C61_binomial]
  have hzip : row.zip ((List.range (w + 1)).map e) = (List.range (w + 1)).map fun b => (BitVec.ofNat 64 (c b), e b) := by
    rw [hrow, List.zip_map']
  obtain ⟨gs, rest, h1, h2, h3, h4⟩ := C64_merge_bins row ((List.range (w + 1)).map e) 5 (by rw [hl]; simp)
  rw [hzip] at h1
  obtain ⟨gs', rest', h1', rfl, rfl⟩ := unmap _ _ _ _ h1
  have hE : ∀ p : List Nat, groupExpected (p.map fun b => (BitVec.ofNat 64 (c b), e b)) = (p.map e).sum := by
    intro p; unfold groupExpected; rw [List.map_map]; rfl
  have hO : ∀ p : List Nat, groupObserved (p.map fun b => (BitVec.ofNat 64 (c b), e b)) = BitVec.ofNat 64 (p.map c).sum := by
    intro p; unfold groupObserved; rw [List.map_map, ← sum_ofNat]; rfl
  have hg2 : ∀ g ∈ gs', g ≠ [] ∧ 5 ≤ (g.map e).sum ∧ ∀ p, p <+: g → p ≠ [] → p ≠ g → (p.map e).sum < 5 := by
    intro g hg
    obtain ⟨ha, hb, hc'⟩ := h2 _ (List.mem_map_of_mem hg)
    rw [hE] at hb
    refine ⟨by simpa using ha, hb, ?_⟩
    intro p hp hne hpg
    rw [← hE p]
    apply hc' _ (hp.map _) (by simpa using hne)
    intro h
    apply hpg
    have := congrArg List.length h
    rw [List.length_map, List.length_map] at this
    exact hp.eq_of_length this
  have hg3 : ∀ p, p <+: rest' → p ≠ [] → (p.map e).sum < 5 := by
    intro p hp hne
    rw [← hE p]
    exact h3 _ (hp.map _) (by simpa using hne)
  -- the merged groups
  have key : ∀ G : List (List Nat), (∀ g ∈ G, (g.map c).sum < 2 ^ 64) →
      mergeBins row ((List.range (w + 1)).map e) 5 = .ok
        (G.map fun g => BitVec.ofNat 64 (g.map c).sum, G.map fun g => (g.map e).sum) →
      serialAvalancheStats cdf w row total = .ok
        (if (G.length : ℝ) / ((w + 1 : ℕ) : ℝ) < 35 / 100 then none
         else pearson cdf (G.map fun g => ((((g.map c).sum : ℕ) : ℝ), (g.map e).sum)) 0) := by
    intro G hG hm
    unfold serialAvalancheStats
    dsimp only
    rw [hexp, hm, hbind]
    dsimp only
    rw [List.length_map, hl]
    by_cases hh : (G.length : ℝ) / ((w + 1 : ℕ) : ℝ) < 35 / 100
    · rw [if_pos hh, if_pos hh]
    · rw [if_neg hh, if_neg hh, chi2Stats_eq_pearson]
      congr 2
      apply List.ext_getElem (by simp)
      intro i hi1 hi2
      have hi : i < G.length := by simpa using hi2
      simp only [List.getElem_map, List.getElem_range, toData]
      rw [List.getD_eq_getElem?_getD, List.getD_eq_getElem?_getD, List.getElem?_map, List.getElem?_map,
        List.getElem?_eq_getElem hi]
      simp only [Option.map_some, Option.getD_some, BitVec.toNat_ofNat]
      rw [Nat.mod_eq_of_lt (hG _ (List.getElem_mem hi))]
  have hsub : ∀ G : List (List Nat), G.flatten = List.range (w + 1) → ∀ g ∈ G, (g.map c).sum < 2 ^ 64 := by
    intro G hG g hg
    refine lt_of_le_of_lt ?_ hlt
    rw [← hG]
    exact List.Sublist.sum_le_sum ((List.sublist_flatten_of_mem hg).map c) (fun _ _ => Nat.zero_le _)
  by_cases hnil : gs' = []
  · refine ⟨[], ⟨gs', rest', h1', hg2, hg3, fun _ => rfl, fun h => absurd hnil h⟩, ?_⟩
    apply key [] (by simp)
    rw [h4, dif_pos (by simp [hnil])]; rfl
  · refine ⟨gs'.dropLast ++ [gs'.getLast hnil ++ rest'], ⟨gs', rest', h1', hg2, hg3, fun h => absurd h hnil, fun _ => rfl⟩, ?_⟩
    apply key
    · apply hsub
      rw [h1', List.flatten_append, List.flatten_singleton, ← List.append_assoc]
      congr 1
      conv_rhs => rw [← List.dropLast_append_getLast hnil, List.flatten_append, List.flatten_singleton]
    · have hne : ¬ (gs'.map (List.map fun b => (BitVec.ofNat 64 (c b), e b))) = [] := by simpa using hnil
      rw [h4, dif_neg hne]
      have hlist : ((gs'.map (List.map fun b => (BitVec.ofNat 64 (c b), e b))).dropLast ++
          [(gs'.map (List.map fun b => (BitVec.ofNat 64 (c b), e b))).getLast hne ++ rest'.map fun b => (BitVec.ofNat 64 (c b), e b)]) =
          (gs'.dropLast ++ [gs'.getLast hnil ++ rest']).map (List.map fun b => (BitVec.ofNat 64 (c b), e b)) := by
        rw [List.map_append, List.map_dropLast, List.map_singleton, List.map_append, List.getLast_map]
      rw [hlist, List.map_map, List.map_map]
      congr 2
      · apply List.map_congr_left; intro g _; exact hO g
      · apply List.map_congr_left; intro g _; exact hE g

private theorem foldlM_rows (stat : Nat → Option (Statistic ℝ)) (f : List (SubTest ℝ) → Nat → R (List (SubTest ℝ))) (rows : List Nat)
    (acc : List (SubTest ℝ))
    (h : ∀ a ∈ rows, ∀ acc, f acc a = .ok (match stat a with
      | some st => acc ++ [⟨"bit(" ++ toString a ++ ")", some st⟩]
      | none => acc)) :
    rows.foldlM f acc = .ok (acc ++ rows.filterMap fun a => (stat a).map fun st => ⟨"bit(" ++ toString a ++ ")", some st⟩) := by
  induction rows generalizing acc with
  | nil => simp; rfl
  | cons a rows ih =>
    rw [List.foldlM_cons, h a (by simp), hbind, ih _ (fun b hb => h b (List.mem_cons_of_mem _ hb))]
    cases ha : stat a with
    | none => rw [List.filterMap_cons, ha]; rfl
    | some st => rw [List.filterMap_cons, ha]; simp

private theorem serial_eq (cdf : ℝ → ℝ → ℝ) (n : BitVec 64) (s : Stream (BitVec w)) :
    ∃ G : Nat → List (List Nat), (∀ a, a < w → GreedyMerge (pairExpected w n.toNat a) 5 (w + 1) (G a)) ∧
      serialAvalanche cdf n s = .ok ((List.range w).filterMap fun a =>
        (if ((G a).length : ℝ) / ((w + 1 : ℕ) : ℝ) < 35 / 100 then none
         else pearson cdf ((G a).map fun g =>
           ((((g.map (pairHits s.nth n.toNat a)).sum : ℕ) : ℝ), (g.map (pairExpected w n.toNat a)).sum)) 0).map
            fun st => ⟨"bit(" ++ toString a ++ ")", some st⟩) := by
  classical
  obtain ⟨table, ht, htl, hrows⟩ := C44_serialCounts n s
  have hbound : ∀ a, ((List.range (w + 1)).map (pairHits s.nth n.toNat a)).sum < 2 ^ 64 := by
    intro a
    have h1 : ∀ m : Nat, ((List.range m).map (pairHits s.nth n.toNat a)).sum ≤
        (List.range n.toNat).countP fun q => decide (ones (s.nth (2 * q + 1)) < m) := by
      intro m
      induction m with
      | zero => simp
      | succ m ih =>
        rw [List.range_succ, List.map_append, List.sum_append, List.map_singleton, List.sum_singleton]
        refine le_trans (Nat.add_le_add_right ih _) ?_
        unfold pairHits
        generalize List.range n.toNat = l
        clear ih
        induction l with
        | nil => simp
        | cons q l ih =>
          simp only [List.countP_cons, decide_eq_true_eq]
          split <;> split <;> split <;> omega
    refine lt_of_le_of_lt (h1 (w + 1)) (lt_of_le_of_lt List.countP_le_length ?_)
    rw [List.length_range]; exact n.isLt
  have hrow : ∀ a, a < w → ∃ G row, table[a]? = some row ∧ GreedyMerge (pairExpected w n.toNat a) 5 (w + 1) G ∧
      serialAvalancheStats cdf w row ((n.toNat : ℝ) * flipCoinPdf w a) = .ok
        (if (G.length : ℝ) / ((w + 1 : ℕ) : ℝ) < 35 / 100 then none
         else pearson cdf (G.map fun g => ((((g.map (pairHits s.nth n.toNat a)).sum : ℕ) : ℝ), (g.map (pairExpected w n.toNat a)).sum)) 0) := by
    intro a ha
    obtain ⟨row, h1, h2, h3⟩ := hrows a (by omega)
    obtain ⟨G, hG, hs⟩ := row_stats cdf row (pairHits s.nth n.toNat a) ((n.toNat : ℝ) * flipCoinPdf w a) h2
      (by intro b hb; exact h3 b hb) (hbound a)
    rw [flipCoinPdf, C61_binomial] at hG hs
    refine ⟨G, row, h1, hG, ?_⟩
    rw [flipCoinPdf, C61_binomial, hs]
    rfl
  choose! G row h1 h2 h3 using hrow
  refine ⟨G, h2, ?_⟩
  unfold serialAvalanche
  rw [ht, hbind]
  refine (foldlM_rows (fun a => if ((G a).length : ℝ) / ((w + 1 : ℕ) : ℝ) < 35 / 100 then none
         else pearson cdf ((G a).map fun g =>
           ((((g.map (pairHits s.nth n.toNat a)).sum : ℕ) : ℝ), (g.map (pairExpected w n.toNat a)).sum)) 0) _ (List.range w) [] ?_).trans
    (by rw [List.nil_append])
  intro a ha acc
  have ha := List.mem_range.1 ha
  dsimp only
  rw [h1 a ha]
  dsimp only
  rw [h3 a ha, hbind]
  split <;> rename_i h <;> rw [h]

private theorem greedy_unique_aux (e : Nat → ℝ) (thr : ℝ) (gs gs' : List (List Nat)) (rest rest' : List Nat)
    (h : gs.flatten ++ rest = gs'.flatten ++ rest')
    (h1 : ∀ g ∈ gs, g ≠ [] ∧ thr ≤ (g.map e).sum ∧ ∀ p, p <+: g → p ≠ [] → p ≠ g → (p.map e).sum < thr)
    (h1' : ∀ g ∈ gs', g ≠ [] ∧ thr ≤ (g.map e).sum ∧ ∀ p, p <+: g → p ≠ [] → p ≠ g → (p.map e).sum < thr)
    (h2 : ∀ p, p <+: rest → p ≠ [] → (p.map e).sum < thr)
    (h2' : ∀ p, p <+: rest' → p ≠ [] → (p.map e).sum < thr) : gs = gs' ∧ rest = rest' := by
  induction gs generalizing gs' with
  | nil =>
    cases gs' with
    | nil => exact ⟨rfl, by simpa using h⟩
    | cons g' gs' =>
      exfalso
      obtain ⟨a, b, -⟩ := h1' g' (by simp)
      have := h2 g' (by
        simp only [List.flatten_nil, List.nil_append, List.flatten_cons, List.append_assoc] at h
        rw [h]; exact List.prefix_append _ _) a
      linarith
  | cons g gs ih =>
    cases gs' with
    | nil =>
      exfalso
      obtain ⟨a, b, -⟩ := h1 g (by simp)
      have := h2' g (by
        simp only [List.flatten_nil, List.nil_append, List.flatten_cons, List.append_assoc] at h
        rw [← h]; exact List.prefix_append _ _) a
      linarith
    | cons g' gs' =>
      simp only [List.flatten_cons, List.append_assoc] at h
      obtain ⟨a, b, c⟩ := h1 g (by simp)
      obtain ⟨a', b', c'⟩ := h1' g' (by simp)
      have hg : g = g' := by
        have p1 : g <+: g ++ (gs.flatten ++ rest) := List.prefix_append _ _
        have p2 : g' <+: g ++ (gs.flatten ++ rest) := by rw [h]; exact List.prefix_append _ _
        by_contra hne
        rcases List.prefix_or_prefix_of_prefix p1 p2 with hp | hp
        · have := c' g hp a hne; linarith
        · have := c g' hp a' (Ne.symm hne); linarith
      subst hg
      obtain ⟨r1, r2⟩ := ih gs' (List.append_cancel_left h) (fun x hx => h1 x (by simp [hx])) (fun x hx => h1' x (by simp [hx]))
      exact ⟨by rw [r1], r2⟩

/-- C81. The greedy merging is unique. -/
theorem C81_greedy_unique (e : Nat → ℝ) (thr : ℝ) (m : Nat) (G G' : List (List Nat)) (h : GreedyMerge e thr m G)
    (h' : GreedyMerge e thr m G') : G = G' := by
  obtain ⟨gs, rest, a, b, c, d, f⟩ := h
  obtain ⟨gs', rest', a', b', c', d', f'⟩ := h'
  obtain ⟨rfl, rfl⟩ := greedy_unique_aux e thr gs gs' rest rest' (a.symm.trans a') b b' c c'
  by_cases hn : gs = []
  · rw [d hn, d' hn]
  · rw [f hn, f' hn]

/-- C81. For every stream and `n` the serial avalanche test does not fault.  It takes `n` pairs of successive values, and for
each number `a = 0, ..., w - 1` of one bits in the first value of a pair it merges the numbers of one bits of the second
value greedily into groups with expectation at least 5.  With fewer than 35 % of `w + 1` groups there is no sub test for `a`;
otherwise sub test `bit(a)` is Pearson's test of the groups, with binomial expectations.  (Pairs whose first value has all
bits set are not tested.) -/
theorem C81_serial_avalanche (cdf : ℝ → ℝ → ℝ) (n : BitVec 64) :
    ∃ G : Nat → List (List Nat), (∀ a, a < w → GreedyMerge (pairExpected w n.toNat a) 5 (w + 1) (G a)) ∧
      ∀ s : Stream (BitVec w), serialAvalanche cdf n s = .ok ((List.range w).filterMap fun a =>
        (if ((G a).length : ℝ) / ((w + 1 : ℕ) : ℝ) < 35 / 100 then none
         else pearson cdf ((G a).map fun g =>
           ((((g.map (pairHits s.nth n.toNat a)).sum : ℕ) : ℝ), (g.map (pairExpected w n.toNat a)).sum)) 0).map
            fun st => ⟨"bit(" ++ toString a ++ ")", some st⟩) := by
  obtain ⟨G, hG, -⟩ := serial_eq cdf n (counterStream w 1 0)
  refine ⟨G, hG, fun s => ?_⟩
  obtain ⟨G', hG', hs⟩ := serial_eq cdf n s
  rw [hs]
  congr 1
  apply List.filterMap_congr
  intro a ha
  rw [C81_greedy_unique _ _ _ _ _ (hG a (List.mem_range.1 ha)) (hG' a (List.mem_range.1 ha))]

/-- C81. A row for which fewer than 5 pairs are expected is not tested. -/
theorem C81_rare (cdf : ℝ → ℝ → ℝ) (n : BitVec 64) (s : Stream (BitVec w)) (a : Nat)
    (h : (n.toNat : ℝ) * ((w.choose a : ℝ) / 2 ^ w) < 5) :
    ∃ res, serialAvalanche cdf n s = .ok res ∧ ∀ x ∈ res, x.name ≠ "bit(" ++ toString a ++ ")" := by
  obtain ⟨G, hG, hs⟩ := C81_serial_avalanche (w := w) cdf n
  refine ⟨_, hs s, ?_⟩
  intro x hx hxa
  obtain ⟨b, hb, hx⟩ := List.mem_filterMap.1 hx
  have hb := List.mem_range.1 hb
  obtain ⟨st, hst, rfl⟩ := Option.map_eq_some_iff.1 hx
  have hab : b = a := by
    have h1 := congrArg String.toList hxa
    simp only [String.toList_append] at h1
    have h2 := List.append_cancel_right h1
    have h3 := List.append_cancel_left h2
    have h4 : (toString b : String) = toString a := String.toList_injective h3
    exact Nat.repr_inj.1 h4
  subst hab
  obtain ⟨gs, rest, h1, h2, h3, h4, h5⟩ := hG b hb
  have hnil : gs = [] := by
    by_contra hne
    obtain ⟨g, gs', rfl⟩ := List.exists_cons_of_ne_nil hne
    have h6 := (h2 g (by simp)).2.1
    have h7 : (g.map (pairExpected w n.toNat b)).sum ≤ ((List.range (w + 1)).map (pairExpected w n.toNat b)).sum := by
      rw [h1]
      apply List.Sublist.sum_le_sum
      · apply List.Sublist.map
        rw [List.flatten_cons, List.append_assoc]
        exact List.sublist_append_left _ _
      · intro x hx
        obtain ⟨c, -, rfl⟩ := List.mem_map.1 hx
        unfold pairExpected; positivity
    have h8 : ((List.range (w + 1)).map (pairExpected w n.toNat b)).sum = (n.toNat : ℝ) * ((w.choose b : ℝ) / 2 ^ w) := by
      have h9 := (C61_flip_coin w).2.1
      have h10 : ∀ m, ((List.range m).map (pairExpected w n.toNat b)).sum =
          (n.toNat : ℝ) * ((w.choose b : ℝ) / 2 ^ w) * ∑ k ∈ Finset.range m, flipCoinPdf w k := by
        intro m
        induction m with
        | zero => simp
        | succ m ih =>
          rw [List.range_succ, List.map_append, List.sum_append, ih, Finset.sum_range_succ, mul_add]
          simp [pairExpected, flipCoinPdf, C61_binomial]
      rw [h10, h9, mul_one]
    linarith
  rw [h4 hnil] at hst
  rw [if_pos (by norm_num)] at hst
  exact absurd hst (by simp)

-- 1024 bytes: four pairs are expected to start with 0, so row 0 is not tested.
example (cdf : ℝ → ℝ → ℝ) (s : Stream (BitVec 8)) : ∃ res, serialAvalanche cdf 1024 s = .ok res ∧ ∀ x ∈ res, x.name ≠ "bit(0)" :=
  C81_rare cdf 1024 s 0 (by have : (1024 : BitVec 64).toNat = 1024 := by decide
                            rw [this]; norm_num)

/-! ### C88 -/

/-- The number of pairs of call number `q < n` and input bit `j` for which flipping bit `j` of the probe input changes exactly `d`
output bits. -/
def Spec.flipHits (m : BitVec w → BitVec w) (v : Nat → BitVec w) (n d : Nat) : Nat :=
  (List.range n ×ˢ List.range w).countP fun p => decide (flipDistance m (m (v p.1)) p.2 = d)

/-- C88. For every mixer and source and every `n` with `n·w < 2^64` the strict avalanche test does not fault; its one unnamed sub
test is Pearson's test of the numbers of changed output bits, `0, ..., w`, against the binomial expectations
`n·w·C(w,d)/2^w`, over the cells with expectation above 5. -/
theorem C88_sac (hw : w ≤ 64) (cdf : ℝ → ℝ → ℝ) (n : BitVec 64) (hn : n.toNat * w < 2 ^ 64) (s : Stream (BitVec w)) (m : Mixer w) :
    sacTest cdf n s m = .ok [⟨"", pearson cdf ((List.range (w + 1)).map fun d =>
      ((flipHits m.mix s.nth n.toNat d : ℝ), (n.toNat : ℝ) * w * ((w.choose d : ℝ) / 2 ^ w))) 5⟩] := by
  obtain ⟨sac, h1, h2, h3⟩ := C42_sac hw n s m.mix
  unfold sacTest avalancheSacStats mainSubTest
  rw [h1, hbind]
  dsimp only
  rw [chi2Stats_counts cdf sac (w + 1) (fun d => flipHits m.mix s.nth n.toNat d) _ 5 h2
    (by
      intro i hi
      rw [List.getElem?_eq_getElem (by omega), h3 i (by omega)]; rfl)
    (by
      intro i _
      refine lt_of_le_of_lt List.countP_le_length ?_
      rw [List.length_product, List.length_range, List.length_range]; exact hn)]
  congr 5
  funext d
  rw [flipCoinPdf, C61_binomial]

/-- The number of calls `q < n` for which flipping bit `j` of the probe input changes output bit `k`. -/
def Spec.changeHits (m : BitVec w → BitVec w) (v : Nat → BitVec w) (n j k : Nat) : Nat :=
  (List.range n).countP fun q => (m (m (v q))).getLsbD k != (m (m (v q) ^^^ BitVec.twoPow w j)).getLsbD k

/-- C88. For every mixer of at least two bits and every source: with no samples the bit independence test has no result; with
`n ≥ 1` it does not fault and its one unnamed sub test is chi-square with `w² - 1` degrees of freedom and the value
`Σ (2c - n)² / n` over all pairs of input bit `j` and output bit `k`, where `c` is the number of calls for which flipping `j`
changes `k`.  That is the two-category chi-square statistic (changed or not, each expected `n/2` times) summed over the cells. -/
theorem C88_bic (hw : w ≤ 64) (hw2 : 2 ≤ w) (cdf : ℝ → ℝ → ℝ) (n : BitVec 64) (s : Stream (BitVec w)) (m : Mixer w) :
    ∃ stat, bicTest cdf n s m = .ok [⟨"", stat⟩] ∧ (n = 0#64 → stat = none) ∧
      (n ≠ 0#64 → ∃ st, stat = some st ∧ st.type = .chi2 ∧ st.df = (w : ℝ) ^ 2 - 1 ∧ st.pValue = cdf st.value st.df ∧
        st.value = ∑ j ∈ Finset.range w, ∑ k ∈ Finset.range w,
          (((changeHits m.mix s.nth n.toNat j k : ℝ) - n.toNat / 2) ^ 2 / (n.toNat / 2) +
           ((n.toNat - (changeHits m.mix s.nth n.toNat j k : ℝ)) - n.toNat / 2) ^ 2 / (n.toNat / 2))) := by
  obtain ⟨bic, h1, h2, h3⟩ := C43_bic hw n s m.mix
  unfold bicTest avalancheBicStats mainSubTest
  rw [h1, hbind, chi2Stats_eq_pearson, h2]
  have hcell : ∀ i, i < w * w → toData bic i = ((changeHits m.mix s.nth n.toNat (i / w) (i % w) : ℕ) : ℝ) := by
    intro i hi
    have hw0 : 0 < w := by omega
    have h4 := h3 (i / w) (i % w) (Nat.div_lt_of_lt_mul hi) (Nat.mod_lt _ hw0)
    rw [Nat.mul_comm (i / w) w, Nat.div_add_mod] at h4
    unfold toData
    rw [List.getD_eq_getElem?_getD, h4, Option.getD_some, BitVec.toNat_ofNat, Nat.mod_eq_of_lt]
    · rfl
    · refine lt_of_le_of_lt List.countP_le_length ?_
      rw [List.length_range]; exact n.isLt
  refine ⟨_, rfl, ?_, ?_⟩
  · intro hn
    subst hn
    unfold pearson
    rw [if_pos]
    have : usedCells 0 ((List.range (w * w)).map fun i => (toData bic i * 2, ((0#64 : BitVec 64).toNat : ℝ))) = [] := by
      unfold usedCells
      rw [List.filter_eq_nil_iff]
      intro c hc
      obtain ⟨i, -, rfl⟩ := List.mem_map.1 hc
      simp
    rw [this]; simp
  · intro hn
    have hn0 : 0 < n.toNat := Nat.pos_of_ne_zero fun h => hn (BitVec.eq_of_toNat_eq (by simpa using h))
    have hn' : (0 : ℝ) < n.toNat := by exact_mod_cast hn0
    have hused : usedCells 0 ((List.range (w * w)).map fun i => (toData bic i * 2, (n.toNat : ℝ))) =
        (List.range (w * w)).map fun i => (toData bic i * 2, (n.toNat : ℝ)) := by
      unfold usedCells
      rw [List.filter_eq_self]
      intro c hc
      obtain ⟨i, -, rfl⟩ := List.mem_map.1 hc
      simpa using hn0
    unfold pearson
    rw [hused, List.length_map, List.length_range, if_neg (by nlinarith)]
    refine ⟨_, rfl, rfl, ?_, rfl, ?_⟩
    · dsimp only; push_cast; ring
    · dsimp only
      unfold chiSquare
      rw [List.map_map]
      have hrange : ∀ (f : Nat → ℝ) (M : Nat), ((List.range M).map f).sum = ∑ i ∈ Finset.range M, f i := by
        intro f M
        induction M with
        | zero => simp
        | succ M ih => rw [List.range_succ, List.map_append, List.sum_append, ih, Finset.sum_range_succ]; simp
      rw [hrange]
      have hdbl : ∀ (f : Nat → ℝ) (M : Nat), ∑ i ∈ Finset.range (M * w), f i =
          ∑ j ∈ Finset.range M, ∑ k ∈ Finset.range w, f (j * w + k) := by
        intro f M
        induction M with
        | zero => simp
        | succ M ih => rw [Nat.add_mul, Nat.one_mul, Finset.sum_range_add, ih, Finset.sum_range_succ]
      rw [hdbl]
      apply Finset.sum_congr rfl
      intro j hj
      apply Finset.sum_congr rfl
      intro k hk
      have hj := Finset.mem_range.1 hj
      have hk := Finset.mem_range.1 hk
      have hi : j * w + k < w * w := by nlinarith
      simp only [Function.comp_apply]
      rw [hcell _ hi, Nat.mul_comm j w, Nat.mul_add_div (by omega), Nat.div_eq_of_lt hk, Nat.mul_add_mod, Nat.mod_eq_of_lt hk,
        Nat.add_zero]
      field_simp
      ring

/-- C88. The bit independence statistic is at most `n·w²`, and a mixer that is affine over GF(2) (such as any composition of
shifts, rotations and exclusive-ors with each other or constants) always gets exactly this largest value. -/
theorem C88_affine (hw : w ≤ 64) (hw2 : 2 ≤ w) (cdf : ℝ → ℝ → ℝ) (n : BitVec 64) (hn : n ≠ 0#64) (s : Stream (BitVec w)) (m : Mixer w) :
    ∃ st, bicTest cdf n s m = .ok [⟨"", some st⟩] ∧ st.value ≤ n.toNat * (w : ℝ) ^ 2 ∧
      ((∀ x y, m.mix (x ^^^ y) = m.mix x ^^^ m.mix y ^^^ m.mix 0#w) → st.value = n.toNat * (w : ℝ) ^ 2) := by
  obtain ⟨stat, h1, -, h2⟩ := C88_bic hw hw2 cdf n s m
  obtain ⟨st, rfl, -, -, -, hv⟩ := h2 hn
  have hn0 : 0 < n.toNat := Nat.pos_of_ne_zero fun h => hn (BitVec.eq_of_toNat_eq (by simpa using h))
  have hn' : (0 : ℝ) < n.toNat := by exact_mod_cast hn0
  have hsum : ∑ _j ∈ Finset.range w, ∑ _k ∈ Finset.range w, (n.toNat : ℝ) = n.toNat * (w : ℝ) ^ 2 := by
    simp only [Finset.sum_const, Finset.card_range, nsmul_eq_mul]; ring
  refine ⟨st, h1, ?_, ?_⟩
  · rw [hv, ← hsum]
    apply Finset.sum_le_sum
    intro j _
    apply Finset.sum_le_sum
    intro k _
    have hc : (changeHits m.mix s.nth n.toNat j k : ℝ) ≤ n.toNat := by
      have : changeHits m.mix s.nth n.toNat j k ≤ n.toNat := le_trans List.countP_le_length (by simp)
      exact_mod_cast this
    have hc0 : (0 : ℝ) ≤ (changeHits m.mix s.nth n.toNat j k : ℝ) := Nat.cast_nonneg _
    generalize (changeHits m.mix s.nth n.toNat j k : ℝ) = c at hc hc0
    have : (c - n.toNat / 2) ^ 2 / (n.toNat / 2) + ((n.toNat - c) - n.toNat / 2) ^ 2 / (n.toNat / 2) =
        n.toNat - 4 * c * (n.toNat - c) / n.toNat := by
      field_simp; ring
    rw [this]
    have : 0 ≤ 4 * c * (n.toNat - c) / n.toNat := by
      apply div_nonneg _ hn'.le
      have := sub_nonneg.2 hc
      positivity
    linarith
  · intro haff
    rw [hv, ← hsum]
    apply Finset.sum_congr rfl
    intro j _
    apply Finset.sum_congr rfl
    intro k _
    -- the effect of the flip does not depend on the value
    have hconst : ∀ q, ((m.mix (m.mix (s.nth q))).getLsbD k != (m.mix (m.mix (s.nth q) ^^^ BitVec.twoPow w j)).getLsbD k) =
        ((m.mix (BitVec.twoPow w j)).getLsbD k != (m.mix 0#w).getLsbD k) := by
      intro q
      rw [haff, BitVec.getLsbD_xor, BitVec.getLsbD_xor]
      generalize (m.mix (m.mix (s.nth q))).getLsbD k = a
      generalize (m.mix (BitVec.twoPow w j)).getLsbD k = b
      generalize (m.mix 0#w).getLsbD k = c
      cases a <;> cases b <;> cases c <;> rfl
    have hcases : changeHits m.mix s.nth n.toNat j k = 0 ∨ changeHits m.mix s.nth n.toNat j k = n.toNat := by
      unfold changeHits
      simp only [hconst]
      cases ((m.mix (BitVec.twoPow w j)).getLsbD k != (m.mix 0#w).getLsbD k)
      · left; simp
      · right; simp
    rcases hcases with h | h
    · rw [h]; push_cast; field_simp; ring
    · rw [h]; field_simp; ring

/-- C88, non-vacuity: the identity mixer on bytes and a counting source. -/
example (cdf : ℝ → ℝ → ℝ) : ∃ st, bicTest cdf 3#64 ⟨BitVec 8, "c", 5#8, fun x => (x, x + 1#8)⟩ ⟨"id", fun x => x⟩ = .ok [⟨"", some st⟩] ∧
    st.value = 192 := by
  obtain ⟨st, h1, -, h2⟩ := C88_affine (w := 8) (by norm_num) (by norm_num) cdf 3#64 (by decide)
    ⟨BitVec 8, "c", 5#8, fun x => (x, x + 1#8)⟩ ⟨"id", fun x => x⟩
  refine ⟨st, h1, ?_⟩
  rw [h2 (by intro x y; simp)]
  norm_num

end TFR
