import Verif.Props.CalibrationBlocks
import Verif.Props.AvalancheTests
import Mathlib.Data.Fintype.Powerset
/-
C102, C103: calibration of the avalanche tests.
-/
namespace TFR
open Spec Finset
variable {w : Nat}

/-- The number of words with `a` one bits. -/
theorem card_ones (a : Nat) : (univ.filter fun x : BitVec w => ones x = a).card = w.choose a := by
  classical
  have hc : w.choose a = (powersetCard a (univ : Finset (Fin w))).card := by rw [card_powersetCard, card_fin]
  rw [hc]
  apply card_bij (fun (x : BitVec w) _ => univ.filter fun i : Fin w => x.getLsbD i = true)
  · intro x hx
    rw [mem_powersetCard]
    refine ⟨subset_univ _, ?_⟩
    rw [← (mem_filter.1 hx).2]
    unfold ones
    rw [countP_range_fin]
  · intro x _ y _ h
    apply BitVec.eq_of_getLsbD_eq
    intro i hi
    have h1 : (⟨i, hi⟩ : Fin w) ∈ (univ.filter fun i : Fin w => x.getLsbD i = true) ↔ (⟨i, hi⟩ : Fin w) ∈ (univ.filter fun i : Fin w => y.getLsbD i = true) := by
      rw [h]
    rw [mem_filter, mem_filter] at h1
    exact Bool.eq_iff_iff.2 (by simpa only [mem_univ, true_and] using h1)
  · intro s hs
    refine ⟨(bitsEquiv w).symm fun i => decide (i ∈ s), ?_, ?_⟩
    · rw [mem_filter]
      refine ⟨mem_univ _, ?_⟩
      rw [← (mem_powersetCard.1 hs).2]
      unfold ones
      rw [countP_range_fin]
      congr 1
      ext i
      have h : ((bitsEquiv w).symm fun i => decide (i ∈ s)).getLsbD i = decide (i ∈ s) := congrFun ((bitsEquiv w).apply_symm_apply fun i => decide (i ∈ s)) i
      rw [mem_filter, h]
      simp
    · ext i
      have h : ((bitsEquiv w).symm fun i => decide (i ∈ s)).getLsbD i = decide (i ∈ s) := congrFun ((bitsEquiv w).apply_symm_apply fun i => decide (i ∈ s)) i
      rw [mem_filter, h]
      simp

theorem fraction_ones (a : Nat) : fraction (fun x : BitVec w => ones x = a) = (w.choose a : ℝ) / 2 ^ w := by
  unfold fraction
  rw [card_ones, card_bv, Nat.cast_pow, Nat.cast_ofNat]

/-- Successive pairs of random words are random pairs. -/
theorem average_pairs {Ω : Type} [Fintype Ω] [Nonempty Ω] (n : Nat) (F : (Fin n → Ω × Ω) → ℝ) :
    average (fun x : Fin (2 * n) → Ω => F fun q => (x ⟨2 * q, by omega⟩, x ⟨2 * q + 1, by omega⟩)) = average F := by
  let e : Fin n × Bool → Fin (2 * n) := fun p => ⟨2 * p.1 + p.2.toNat, by have := p.1.isLt; have := Bool.toNat_le p.2; omega⟩
  have he : Function.Injective e := by
    rintro ⟨q, b⟩ ⟨q', b'⟩ h
    have h1 : 2 * q.val + b.toNat = 2 * q'.val + b'.toNat := congrArg Fin.val h
    have hb := Bool.toNat_le b
    have hb' := Bool.toNat_le b'
    have hq : q.val = q'.val := by omega
    have hbb : b.toNat = b'.toNat := by omega
    exact Prod.ext (Fin.ext hq) (by cases b <;> cases b' <;> simp_all)
  have h1 := average_comp_injective (Ω := Ω) e he fun g : Fin n × Bool → Ω => F fun q => (g (q, false), g (q, true))
  let E : (Fin n × Bool → Ω) ≃ (Fin n → Ω × Ω) :=
    { toFun := fun g q => (g (q, false), g (q, true))
      invFun := fun f p => if p.2 then (f p.1).2 else (f p.1).1
      left_inv := by intro g; funext ⟨q, b⟩; cases b <;> rfl
      right_inv := by intro f; rfl }
  exact h1.trans (average_equiv E F)

/-! ### C102 -/

/-- The groups of a greedy merging are disjoint and contain all cells, unless there is none. -/
private theorem greedy_perm {e : Nat → ℝ} {thr : ℝ} {m : Nat} {G : List (List Nat)} (h : GreedyMerge e thr m G) (hne : G ≠ []) :
    G.flatten = List.range m ∧ ∀ g ∈ G, ∃ g', g' <+: g ∧ thr ≤ (g'.map e).sum := by
  obtain ⟨gs, rest, h1, h2, -, h4, h5⟩ := h
  have hgs : gs ≠ [] := fun hc => hne (h4 hc)
  rw [h5 hgs]
  constructor
  · rw [List.flatten_append, h1]
    conv_rhs => rw [← List.dropLast_append_getLast hgs, List.flatten_append]
    simp
  · intro g hg
    rcases List.mem_append.1 hg with hg | hg
    · exact ⟨g, List.prefix_rfl, (h2 g (List.dropLast_subset _ hg)).2.1⟩
    · rw [List.mem_singleton.1 hg]
      exact ⟨gs.getLast hgs, List.prefix_append _ _, (h2 _ (List.getLast_mem hgs)).2.1⟩

private theorem sum_countP (g : List Nat) (hg : g.Nodup) (n : Nat) (f : Nat → Nat) (p : Nat → Prop) [DecidablePred p] :
    (g.map fun b => (List.range n).countP fun q => decide (p q ∧ f q = b)).sum = (List.range n).countP fun q => decide (p q ∧ f q ∈ g) := by
  have h1 : ∀ (P : Prop) [Decidable P] (v : Nat), (g.map fun b => if P ∧ v = b then 1 else 0).sum = if P ∧ v ∈ g then 1 else 0 := by
    intro P _ v
    by_cases hP : P
    · simp only [hP, true_and]
      induction g with
      | nil => simp
      | cons b g ih =>
        rw [List.nodup_cons] at hg
        rw [List.map_cons, List.sum_cons, ih hg.2]
        by_cases hb : v = b
        · subst hb; simp [hg.1]
        · simp [hb]
    · simp [hP]
  induction n with
  | zero => simp
  | succ n ih =>
    simp only [List.range_succ, List.countP_append, List.countP_singleton, decide_eq_true_eq]
    rw [List.sum_map_add, ih, h1 (p n) (f n)]

/-- C102. The serial avalanche test: which rows `a` are reported and with how many degrees of freedom does not depend on the data, and over
all sequences of `2n` words the statistic of row `a` exceeds its degrees of freedom on average by exactly `1 - C(w,a)/2^w`, the probability
that a pair is *not* in this row.  (The number of pairs in a row is itself random, so no degree of freedom is lost.) -/
theorem C102_serial_avalanche (cdf : ℝ → ℝ → ℝ) (n : BitVec 64) (hn : n ≠ 0#64)
    (src : (Fin (2 * n.toNat) → BitVec w) → Stream (BitVec w)) (hsrc : Continues src) :
    ∃ (rows : List Nat) (df : Nat → ℝ) (value : Nat → (Fin (2 * n.toNat) → BitVec w) → ℝ), rows.Sublist (List.range w) ∧
      (∀ x, ∃ st : Nat → Statistic ℝ, serialAvalanche cdf n (src x) = .ok (rows.map fun a => ⟨"bit(" ++ toString a ++ ")", some (st a)⟩) ∧
        ∀ a, (st a).type = .chi2 ∧ (st a).df = df a ∧ (st a).value = value a x) ∧
      ∀ a ∈ rows, average (value a) = df a + (1 - (w.choose a : ℝ) / 2 ^ w) := by
  classical
  have hn0 : 0 < n.toNat := Nat.pos_of_ne_zero fun h => hn (BitVec.eq_of_toNat_eq (by simpa using h))
  have hn' : (0 : ℝ) < n.toNat := by exact_mod_cast hn0
  obtain ⟨G, hG, hs⟩ := C81_serial_avalanche (w := w) cdf n
  let rep : Nat → Prop := fun a => ¬ ((G a).length : ℝ) / ((w + 1 : ℕ) : ℝ) < 35 / 100 ∧ 2 ≤ (G a).length
  let cells : Nat → (Fin (2 * n.toNat) → BitVec w) → List (ℝ × ℝ) := fun a x => (G a).map fun g =>
    ((((g.map (pairHits (src x).nth n.toNat a)).sum : ℕ) : ℝ), (g.map (pairExpected w n.toNat a)).sum)
  -- the groups of a row that is reported
  have hgroups : ∀ a, a < w → 2 ≤ (G a).length → (G a).flatten = List.range (w + 1) ∧ ∀ g ∈ G a, g.Nodup ∧ 0 < (g.map (pairExpected w n.toNat a)).sum := by
    intro a ha h2
    obtain ⟨h3, h4⟩ := greedy_perm (hG a ha) (by rintro h; rw [h] at h2; simp at h2)
    refine ⟨h3, fun g hg => ⟨?_, ?_⟩⟩
    · have hnd : (G a).flatten.Nodup := by rw [h3]; exact List.nodup_range
      exact (List.nodup_flatten.1 hnd).1 g hg
    · obtain ⟨g', ⟨r, hr⟩, h5⟩ := h4 g hg
      rw [← hr, List.map_append, List.sum_append]
      have : 0 ≤ (r.map (pairExpected w n.toNat a)).sum := by
        apply List.sum_nonneg
        intro y hy
        obtain ⟨b, _, rfl⟩ := List.mem_map.1 hy
        unfold pairExpected
        positivity
      linarith
  have hstat : ∀ x, serialAvalanche cdf n (src x) = .ok (((List.range w).filter fun a => decide (rep a)).map fun a =>
      ⟨"bit(" ++ toString a ++ ")", some ⟨.chi2, chiSquare (cells a x), cdf (chiSquare (cells a x)) ((G a).length - 1), (G a).length - 1⟩⟩) := by
    intro x
    rw [hs, ← List.filterMap_eq_map, List.filterMap_filter]
    congr 1
    apply List.filterMap_congr
    intro a ha
    have ha := List.mem_range.1 ha
    by_cases h35 : ((G a).length : ℝ) / ((w + 1 : ℕ) : ℝ) < 35 / 100
    · rw [if_pos h35, if_neg (by rw [decide_eq_true_eq]; exact fun h => h.1 h35)]; rfl
    · rw [if_neg h35]
      by_cases h2 : 2 ≤ (G a).length
      · rw [if_pos (by simp only [rep, decide_eq_true_eq]; exact ⟨h35, h2⟩)]
        have hp := pearson_all_used cdf (cells a x) 0 (by
          intro c hc
          obtain ⟨g, hg, rfl⟩ := List.mem_map.1 hc
          exact ((hgroups a ha h2).2 g hg).2) (by rw [List.length_map]; exact h2)
        rw [show (cells a x).length = (G a).length from List.length_map _] at hp
        rw [show pearson cdf ((G a).map fun g => ((((g.map (pairHits (src x).nth n.toNat a)).sum : ℕ) : ℝ),
          (g.map (pairExpected w n.toNat a)).sum)) 0 = _ from hp]
        rfl
      · rw [if_neg (by rw [decide_eq_true_eq]; exact fun h => h2 h.2)]
        have : pearson cdf ((G a).map fun g => ((((g.map (pairHits (src x).nth n.toNat a)).sum : ℕ) : ℝ),
          (g.map (pairExpected w n.toNat a)).sum)) 0 = none := by
          unfold pearson
          rw [if_pos]
          refine lt_of_le_of_lt (List.length_filter_le _ _) ?_
          rw [List.length_map]; omega
        rw [this]; rfl
  refine ⟨_, fun a => (G a).length - 1, fun a x => chiSquare (cells a x), List.filter_sublist, fun x => ⟨_, hstat x, fun a => ⟨rfl, rfl, rfl⟩⟩, ?_⟩
  intro a ha
  obtain ⟨ha1, ha2⟩ := List.mem_filter.1 ha
  have ha := List.mem_range.1 ha1
  have hrep : rep a := by simpa using ha2
  obtain ⟨hflat, hgr⟩ := hgroups a ha hrep.2
  -- the cells as events on pairs
  let cell : List Nat → BitVec w × BitVec w → Prop := fun g p => ones p.1 = a ∧ ones p.2 ∈ g
  have hfrac : ∀ g : List Nat, g.Nodup → fraction (cell g) = (g.map fun b => ((w.choose a : ℝ) / 2 ^ w) * ((w.choose b : ℝ) / 2 ^ w)).sum := by
    intro g hg
    have hcard : (univ.filter (cell g)).card = (g.map fun b => w.choose a * w.choose b).sum := by
      have h1 : univ.filter (cell g) = (univ.filter fun u : BitVec w => ones u = a) ×ˢ (univ.filter fun v : BitVec w => ones v ∈ g) := by
        ext ⟨u, v⟩; simp [cell]
      have h2 : (univ.filter fun v : BitVec w => ones v ∈ g).card = (g.map fun b => w.choose b).sum := by
        have h3 : (univ.filter fun v : BitVec w => ones v ∈ g) = g.toFinset.biUnion fun b => univ.filter fun v : BitVec w => ones v = b := by
          ext v; simp
        rw [h3, card_biUnion]
        · rw [sum_congr rfl fun b _ => card_ones b, List.sum_toFinset _ hg]
        · intro b _ c _ hbc
          refine Finset.disjoint_left.2 ?_
          intro v hv hv'
          exact hbc ((mem_filter.1 hv).2.symm.trans (mem_filter.1 hv').2)
      rw [h1, card_product, card_ones, h2, List.sum_map_mul_left]
    unfold fraction
    rw [hcard, Fintype.card_prod, card_bv]
    clear hcard hg
    induction g with
    | nil => simp
    | cons b g ih =>
      rw [List.map_cons, List.sum_cons, List.map_cons, List.sum_cons, ← ih]
      push_cast
      field_simp
  have hvalue : ∀ x, chiSquare (cells a x) = (fun y : Fin n.toNat → BitVec w × BitVec w => chiSquare ((G a).map fun g =>
      (((univ.filter fun i => cell g (y i)).card : ℝ), n.toNat * fraction (cell g)))) (fun q => (x ⟨2 * q, by omega⟩, x ⟨2 * q + 1, by omega⟩)) := by
    intro x
    dsimp only
    congr 1
    apply List.map_congr_left
    intro g hg
    have hnd := (hgr g hg).1
    congr 1
    · have : (g.map (pairHits (src x).nth n.toNat a)).sum = (List.range n.toNat).countP fun q =>
          decide (ones ((src x).nth (2 * q)) = a ∧ ones ((src x).nth (2 * q + 1)) ∈ g) :=
        sum_countP g hnd n.toNat (fun q => ones ((src x).nth (2 * q + 1))) (fun q => ones ((src x).nth (2 * q)) = a)
      rw [this, countP_range_fin]
      congr 2
      ext q
      simp only [mem_filter, mem_univ, true_and, decide_eq_true_eq, cell]
      rw [← hsrc x ⟨2 * q, by omega⟩, ← hsrc x ⟨2 * q + 1, by omega⟩]
    · rw [hfrac g hnd, ← List.sum_map_mul_left]
      congr 1
      apply List.map_congr_left
      intro b _
      unfold pairExpected
      ring
  rw [average_congr _ _ hvalue]
  refine (average_pairs n.toNat (fun y : Fin n.toNat → BitVec w × BitVec w => chiSquare ((G a).map fun g =>
      (((univ.filter fun i => cell g (y i)).card : ℝ), n.toNat * fraction (cell g))))).trans ?_
  rw [average_chiSquare_exact n.toNat hn0 (G a) cell]
  · have htot : ((G a).map fun g => fraction (cell g)).sum = (w.choose a : ℝ) / 2 ^ w := by
      rw [List.map_congr_left fun g hg => hfrac g (hgr g hg).1]
      have h1 : ∀ (L : List (List Nat)) (f : Nat → ℝ), (L.map fun g => (g.map f).sum).sum = (L.flatten.map f).sum := by
        intro L f
        induction L with
        | nil => simp
        | cons g L ih => simp [ih]
      rw [h1, hflat]
      have h2 : ∀ m, ((List.range m).map fun b => ((w.choose a : ℝ) / 2 ^ w) * ((w.choose b : ℝ) / 2 ^ w)).sum =
          ((w.choose a : ℝ) / 2 ^ w) * ((∑ b ∈ range m, w.choose b : ℕ) : ℝ) / 2 ^ w := by
        intro m
        induction m with
        | zero => simp
        | succ m ih => rw [List.range_succ, List.map_append, List.sum_append, ih, sum_range_succ]; push_cast; simp; ring
      rw [h2, Nat.sum_range_choose]
      push_cast
      field_simp
    rw [htot]; ring
  · intro g hg
    have h1 := (hgr g hg).2
    have h2 : (g.map (pairExpected w n.toNat a)).sum = n.toNat * fraction (cell g) := by
      rw [hfrac g (hgr g hg).1, ← List.sum_map_mul_left]
      congr 1
      apply List.map_congr_left
      intro b _
      unfold pairExpected
      ring
    rw [h2] at h1
    exact (mul_pos_iff_of_pos_left hn').1 h1

example : (1024#64 : BitVec 64) ≠ 0#64 ∧ Continues (thenZeros (w := 8) (2 * (1024#64).toNat)) := ⟨by decide, thenZeros_continues _⟩

/-! ### C103 -/

/-- For a random function `m` the difference `m(u) xor m(u xor b)` at the point `u = m(v)` is a random word. -/
theorem average_flip (v b : BitVec w) (hb : b ≠ 0#w) (F : BitVec w → ℝ) :
    average (fun m : BitVec w → BitVec w => F (m (m v) ^^^ m (m v ^^^ b))) = average F := by
  classical
  -- the one of the two points that is not `v`
  let p : (BitVec w → BitVec w) → BitVec w := fun m => if m v ^^^ b = v then m v else m v ^^^ b
  have hp : ∀ m, p m ≠ v := by
    intro m
    show (if m v ^^^ b = v then m v else m v ^^^ b) ≠ v
    split_ifs with h
    · intro hc
      rw [hc] at h
      exact hb (by rw [← BitVec.xor_zero (x := b)]; have := congrArg (v ^^^ ·) h; simpa [← BitVec.xor_assoc] using this)
    · exact h
  let T : BitVec w → (BitVec w → BitVec w) → (BitVec w → BitVec w) := fun z m => Function.update m (p m) (m (p m) ^^^ z)
  have hTv : ∀ z m, T z m v = m v := fun z m => Function.update_of_ne (hp m).symm _ _
  have hTp : ∀ z m, p (T z m) = p m := by intro z m; show (if T z m v ^^^ b = v then T z m v else T z m v ^^^ b) = _; rw [hTv]
  have hTT : ∀ z m, T z (T z m) = m := by
    intro z m
    show Function.update (T z m) (p (T z m)) (T z m (p (T z m)) ^^^ z) = m
    rw [hTp]
    show Function.update (Function.update m (p m) (m (p m) ^^^ z)) (p m) (Function.update m (p m) (m (p m) ^^^ z) (p m) ^^^ z) = m
    rw [Function.update_self, Function.update_idem, BitVec.xor_assoc, BitVec.xor_self, BitVec.xor_zero, Function.update_eq_self]
  have hD : ∀ z m, T z m (T z m v) ^^^ T z m (T z m v ^^^ b) = (m (m v) ^^^ m (m v ^^^ b)) ^^^ z := by
    intro z m
    rw [hTv]
    have hne : m v ≠ m v ^^^ b := fun hc => hb (by have := congrArg (m v ^^^ ·) hc; simpa [← BitVec.xor_assoc] using this.symm)
    by_cases h : m v ^^^ b = v
    · have hpm : p m = m v := if_pos h
      show Function.update m (p m) (m (p m) ^^^ z) (m v) ^^^ Function.update m (p m) (m (p m) ^^^ z) (m v ^^^ b) = _
      rw [hpm, Function.update_self, Function.update_of_ne hne.symm, BitVec.xor_assoc, BitVec.xor_comm z, ← BitVec.xor_assoc]
    · have hpm : p m = m v ^^^ b := if_neg h
      show Function.update m (p m) (m (p m) ^^^ z) (m v) ^^^ Function.update m (p m) (m (p m) ^^^ z) (m v ^^^ b) = _
      rw [hpm, Function.update_self, Function.update_of_ne hne, BitVec.xor_assoc]
  have h1 : ∀ z, average (fun m : BitVec w → BitVec w => F (m (m v) ^^^ m (m v ^^^ b))) =
      average (fun m : BitVec w → BitVec w => F ((m (m v) ^^^ m (m v ^^^ b)) ^^^ z)) := by
    intro z
    let E : (BitVec w → BitVec w) ≃ (BitVec w → BitVec w) := ⟨T z, T z, hTT z, hTT z⟩
    rw [← average_equiv E fun m : BitVec w → BitVec w => F (m (m v) ^^^ m (m v ^^^ b))]
    exact average_congr _ _ fun m => congrArg F (hD z m)
  have h2 : average (fun _z : BitVec w => average (fun m : BitVec w → BitVec w => F (m (m v) ^^^ m (m v ^^^ b)))) =
      average (fun z : BitVec w => average (fun m : BitVec w → BitVec w => F ((m (m v) ^^^ m (m v ^^^ b)) ^^^ z))) :=
    average_congr _ _ h1
  rw [average_const] at h2
  rw [h2]
  have h3 : average (fun z : BitVec w => average (fun m : BitVec w → BitVec w => F ((m (m v) ^^^ m (m v ^^^ b)) ^^^ z))) =
      average (fun m : BitVec w → BitVec w => average (fun z : BitVec w => F ((m (m v) ^^^ m (m v ^^^ b)) ^^^ z))) := by
    unfold average
    rw [← sum_div, ← sum_div, sum_comm]
    ring
  rw [h3]
  have h4 : ∀ m : BitVec w → BitVec w, average (fun z : BitVec w => F ((m (m v) ^^^ m (m v ^^^ b)) ^^^ z)) = average F := by
    intro m
    let d := m (m v) ^^^ m (m v ^^^ b)
    let E : BitVec w ≃ BitVec w := ⟨fun z => d ^^^ z, fun z => d ^^^ z, fun z => by simp [← BitVec.xor_assoc], fun z => by simp [← BitVec.xor_assoc]⟩
    exact average_equiv E F
  rw [average_congr _ _ h4, average_const]

private theorem twoPow_ne (j : Nat) (hj : j < w) : BitVec.twoPow w j ≠ 0#w := by
  intro h
  have := congrArg (fun x => BitVec.getLsbD x j) h
  simp [BitVec.getLsbD_twoPow, hj] at this

/-- C103. The expectations of the strict avalanche test are right: for every source, the number of times `d` output bits change is, on
average over all functions on words as mixer, exactly the expected number the test uses. -/
theorem C103_sac (hw : w ≤ 64) (cdf : ℝ → ℝ → ℝ) (n : BitVec 64) (hn : n.toNat * w < 2 ^ 64) (s : Stream (BitVec w)) :
    ∃ (observed : (BitVec w → BitVec w) → Nat → ℝ) (expected : Nat → ℝ),
      (∀ m name, sacTest cdf n s ⟨name, m⟩ = .ok [⟨"", pearson cdf ((List.range (w + 1)).map fun d => (observed m d, expected d)) 5⟩]) ∧
      (∀ m d, observed m d = flipHits m s.nth n.toNat d) ∧
      ∀ d, d ≤ w → average (fun m => observed m d) = expected d := by
  refine ⟨fun m d => flipHits m s.nth n.toNat d, fun d => (n.toNat : ℝ) * w * ((w.choose d : ℝ) / 2 ^ w),
    fun m name => C88_sac hw cdf n hn s ⟨name, m⟩, fun _ _ => rfl, fun d _ => ?_⟩
  have hlist : ∀ (l : List (Nat × Nat)) (P : (BitVec w → BitVec w) → Nat × Nat → Bool) (c : ℝ),
      (∀ p ∈ l, average (fun m => if P m p = true then (1 : ℝ) else 0) = c) →
      average (fun m => ((l.countP fun p => P m p : ℕ) : ℝ)) = l.length * c := by
    intro l P c
    induction l with
    | nil => intro _; simp [average]
    | cons p l ih =>
      intro h
      have h1 := h p List.mem_cons_self
      have h2 := ih fun q hq => h q (List.mem_cons_of_mem _ hq)
      rw [average_congr _ (fun m => ((l.countP fun p => P m p : ℕ) : ℝ) + (if P m p = true then (1 : ℝ) else 0)) fun m => by
        rw [List.countP_cons]; push_cast; rfl, average_add, h1, h2, List.length_cons]
      push_cast; ring
  unfold flipHits
  rw [hlist (List.range n.toNat ×ˢ List.range w) (fun m p => decide (flipDistance m (m (s.nth p.1)) p.2 = d)) ((w.choose d : ℝ) / 2 ^ w)]
  · rw [List.length_product, List.length_range, List.length_range]; push_cast; ring
  · rintro ⟨q, j⟩ hp
    have hj : j < w := List.mem_range.1 (List.mem_product.1 hp).2
    have h := average_flip (s.nth q) (BitVec.twoPow w j) (twoPow_ne j hj) fun x => if ones x = d then (1 : ℝ) else 0
    rw [average_indicator (fun x : BitVec w => ones x = d), fraction_ones] at h
    rw [← h]
    apply average_congr
    intro m
    have : flipDistance m (m (s.nth q)) j = ones (m (m (s.nth q)) ^^^ m (m (s.nth q) ^^^ BitVec.twoPow w j)) := by
      unfold flipDistance ones
      apply List.countP_congr
      intro k _
      rw [BitVec.getLsbD_xor]
    simp only [decide_eq_true_eq, this]

/-- C103. Likewise the bit independence test: on average over all functions, flipping input bit `j` changes output bit `k` in exactly half of
the calls, for every source. -/
theorem C103_bic (n : Nat) (s : Stream (BitVec w)) (j k : Nat) (hj : j < w) (hk : k < w) :
    average (fun m : BitVec w → BitVec w => (changeHits m s.nth n j k : ℝ)) = n / 2 := by
  have hhalf : average (fun x : BitVec w => if x.getLsbD k = true then (1 : ℝ) else 0) = 1 / 2 := by
    have h1 := average_equiv (bitsEquiv w) fun f : Fin w → Bool => if f ⟨k, hk⟩ = true then (1 : ℝ) else 0
    refine (Eq.trans ?_ h1).trans ?_
    · rfl
    · rw [average_coord (⟨k, hk⟩ : Fin w) fun b : Bool => if b = true then (1 : ℝ) else 0]
      unfold average
      simp
  unfold changeHits
  induction n with
  | zero => simp [average]
  | succ n ih =>
    have h := average_flip (s.nth n) (BitVec.twoPow w j) (twoPow_ne j hj) fun x => if x.getLsbD k = true then (1 : ℝ) else 0
    rw [hhalf] at h
    rw [average_congr _ (fun m : BitVec w → BitVec w => (((List.range n).countP fun q =>
        (m (m (s.nth q))).getLsbD k != (m (m (s.nth q) ^^^ BitVec.twoPow w j)).getLsbD k : ℕ) : ℝ) +
        (if (m (m (s.nth n)) ^^^ m (m (s.nth n) ^^^ BitVec.twoPow w j)).getLsbD k = true then (1 : ℝ) else 0)) fun m => by
      rw [List.range_succ, List.countP_append, List.countP_singleton, BitVec.getLsbD_xor]
      push_cast
      rfl, average_add, ih, h]
    push_cast; ring

example : (1000#64).toNat * 32 < 2 ^ 64 := by decide

end TFR
