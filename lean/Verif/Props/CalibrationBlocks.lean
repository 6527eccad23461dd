import Verif.Props.Calibration
import Verif.Props.BlockTests
/-
C100, continued: the linear complexity and the binary rank test.
-/
namespace TFR
open Spec Finset
variable {w : Nat}

theorem average_fst {α β : Type} [Fintype α] [Fintype β] [Nonempty β] (F : α → ℝ) : average (fun p : α × β => F p.1) = average F := by
  unfold average
  have hβ : (Fintype.card β : ℝ) ≠ 0 := by exact_mod_cast Fintype.card_ne_zero
  rw [Fintype.sum_prod_type, Fintype.card_prod]
  simp only [sum_const, card_univ, nsmul_eq_mul]
  rw [← mul_sum]
  push_cast
  by_cases hα : (Fintype.card α : ℝ) = 0
  · rw [hα]; simp
  · field_simp

/-- Reading some of the coordinates of a random function gives a random function. -/
theorem average_comp_injective {A B Ω : Type} [Fintype A] [Fintype B] [Fintype Ω] [DecidableEq A] [DecidableEq B] [Nonempty Ω] (e : B → A)
    (he : Function.Injective e) (F : (B → Ω) → ℝ) : average (fun f : A → Ω => F (fun b => f (e b))) = average F := by
  classical
  let E : B ⊕ ((Set.range e)ᶜ : Set A) ≃ A := (Equiv.sumCongr (Equiv.ofInjective e he) (Equiv.refl _)).trans (Equiv.Set.sumCompl (Set.range e))
  have hE : ∀ b, E (Sum.inl b) = e b := fun b => rfl
  let G : (A → Ω) ≃ (B → Ω) × (((Set.range e)ᶜ : Set A) → Ω) := (Equiv.arrowCongr E.symm (Equiv.refl Ω)).trans (Equiv.sumArrowEquivProdArrow _ _ _)
  have hG : ∀ f : A → Ω, (G f).1 = fun b => f (e b) := fun f => rfl
  rw [← average_fst (β := ((Set.range e)ᶜ : Set A) → Ω) F, ← average_equiv G]
  exact average_congr _ _ fun f => by rw [hG]

/-- The bits of a word. -/
noncomputable def bitsEquiv (w : Nat) : BitVec w ≃ (Fin w → Bool) :=
  Equiv.ofBijective (fun x i => x.getLsbD i) ((Fintype.bijective_iff_injective_and_card _).2 ⟨by
    intro x y h
    exact BitVec.eq_of_getLsbD_eq fun i hi => congrFun h ⟨i, hi⟩, by
    rw [card_bv, Fintype.card_fun, Fintype.card_bool, Fintype.card_fin]⟩)

/-- Blocks of bits at distinct places of a random sequence of words are independent random blocks. -/
theorem average_bit_blocks {L N : Nat} {B : Type} [Fintype B] [DecidableEq B] (pos : Fin N → B → Fin L × Fin w)
    (hpos : Function.Injective fun q : Fin N × B => pos q.1 q.2) (F : (Fin N → B → Bool) → ℝ) :
    average (fun x : Fin L → BitVec w => F fun k b => (x (pos k b).1).getLsbD (pos k b).2) = average F := by
  let E : (Fin L → BitVec w) ≃ (Fin L × Fin w → Bool) := (Equiv.arrowCongr (Equiv.refl _) (bitsEquiv w)).trans (Equiv.curry _ _ _).symm
  have h1 := average_equiv E fun f : Fin L × Fin w → Bool => F fun k b => f (pos k b)
  have h2 := average_comp_injective (Ω := Bool) (fun q : Fin N × B => pos q.1 q.2) hpos (fun g : Fin N × B → Bool => F fun k b => g (k, b))
  have h3 := average_equiv (Equiv.curry (Fin N) B Bool) F
  exact h1.trans (h2.trans h3)

/-- Pearson's test with exact expectations and a threshold: on average the statistic exceeds the degrees of freedom by the probability of the
cells that are left out. -/
theorem average_pearson {Ω κ : Type} [Fintype Ω] [Nonempty Ω] (N : Nat) (hN : 0 < N) (cells : List κ) (cell : κ → Ω → Prop)
    [∀ c, DecidablePred (cell c)] (thr : ℝ) (hthr : 0 ≤ thr) (cdf : ℝ → ℝ → ℝ) (htot : (cells.map fun c => fraction (cell c)).sum = 1) :
    ∃ (df : ℝ) (value : (Fin N → Ω) → ℝ), (∀ x st, pearson cdf (cells.map fun c =>
        (((univ.filter fun i => cell c (x i)).card : ℝ), fraction (cell c) * N)) thr = some st → st.type = .chi2 ∧ st.df = df ∧ st.value = value x) ∧
      average value = df + ((cells.map fun c => if fraction (cell c) * N ≤ thr then fraction (cell c) else 0)).sum := by
  classical
  have hN' : (0 : ℝ) < N := by exact_mod_cast hN
  set used := cells.filter fun c => decide (thr < fraction (cell c) * N) with hused
  have hu : ∀ x : Fin N → Ω, usedCells thr (cells.map fun c => (((univ.filter fun i => cell c (x i)).card : ℝ), fraction (cell c) * N)) =
      used.map fun c => (((univ.filter fun i => cell c (x i)).card : ℝ), N * fraction (cell c)) := by
    intro x
    unfold usedCells
    rw [List.filter_map, hused]
    simp only [Function.comp_def, mul_comm (N : ℝ)]
  have hpos : ∀ c ∈ used, 0 < fraction (cell c) := by
    intro c hc
    have h1 := (List.mem_filter.1 hc).2
    have h2 : thr < fraction (cell c) * N := by simpa using h1
    exact (mul_pos_iff_of_pos_right hN').1 (lt_of_le_of_lt hthr h2)
  refine ⟨used.length - 1, fun x => chiSquare (used.map fun c => (((univ.filter fun i => cell c (x i)).card : ℝ), N * fraction (cell c))), ?_, ?_⟩
  · intro x st h
    unfold pearson at h
    rw [hu x, List.length_map] at h
    split_ifs at h
    rw [← Option.some.inj h]
    exact ⟨rfl, rfl, rfl⟩
  rw [average_chiSquare_exact N hN used cell hpos]
  have hsplit : ∀ l : List κ, (l.map fun c => fraction (cell c)).sum =
      ((l.filter fun c => decide (thr < fraction (cell c) * N)).map fun c => fraction (cell c)).sum +
      ((l.map fun c => if fraction (cell c) * N ≤ thr then fraction (cell c) else 0)).sum := by
    intro l
    induction l with
    | nil => simp
    | cons c l ih =>
      rw [List.map_cons, List.sum_cons, ih, List.map_cons, List.sum_cons]
      by_cases h : thr < fraction (cell c) * N
      · rw [List.filter_cons_of_pos (by simpa using h), List.map_cons, List.sum_cons, if_neg (by linarith)]; ring
      · rw [List.filter_cons_of_neg (by simpa using h), if_pos (by linarith)]; ring
  have h := hsplit cells
  rw [htot, ← hused] at h
  linarith

/-- Cells that form a partition have total probability one. -/
theorem fraction_partition {Ω : Type} [Fintype Ω] [Nonempty Ω] (m : Nat) (cell : Nat → Ω → Prop) [∀ c, DecidablePred (cell c)]
    (h : ∀ o, ∃ l, l < m ∧ cell l o ∧ ∀ l', l' < m → cell l' o → l' = l) : ((List.range m).map fun c => fraction (cell c)).sum = 1 := by
  choose f hf using h
  have hsum : ∑ c ∈ range m, (univ.filter fun o => cell c o).card = Fintype.card Ω := by
    rw [← card_univ, card_eq_sum_card_fiberwise (f := f) (t := range m) (fun o _ => by simpa using (hf o).1)]
    apply sum_congr rfl
    intro c hcm
    congr 1
    ext o
    simp only [mem_filter, mem_univ, true_and]
    exact ⟨fun hc => ((hf o).2.2 c (mem_range.1 hcm) hc).symm, fun hc => hc ▸ (hf o).2.1⟩
  have hls : ∀ (g : Nat → ℝ) (m : Nat), ((List.range m).map g).sum = ∑ j ∈ range m, g j := by
    intro g m
    induction m with
    | zero => simp
    | succ m ih => rw [sum_range_succ, List.range_succ, List.map_append, List.sum_append, ih]; simp
  have hne : (Fintype.card Ω : ℝ) ≠ 0 := by exact_mod_cast Fintype.card_ne_zero
  rw [hls]
  unfold fraction
  rw [← sum_div, div_eq_one_iff_eq hne]
  exact_mod_cast hsum

/-- C100. The linear complexity test: over all sequences of `n ≥ 8192` words the statistic exceeds its degrees of freedom on average by
exactly the probability of the complexities left out for being expected at most 5 times. -/
theorem C100_linear_complexity (cdf : ℝ → ℝ → ℝ) (hw : 0 < w) (n : BitVec 64) (hn : 8192 ≤ n.toNat)
    (src : (Fin n.toNat → BitVec w) → Stream (BitVec w)) (hsrc : Continues src) :
    ∃ (df : ℝ) (value : (Fin n.toNat → BitVec w) → ℝ),
      (∀ x, ∃ st, linearComplexityTest cdf n (src x) = .ok [⟨toString (n.toNat / 1024) ++ ":bit(0)", some st⟩] ∧
        st.type = .chi2 ∧ st.df = df ∧ st.value = value x) ∧
      average value = df + ((List.range (n.toNat / 1024 + 1)).map fun l =>
        if complexityShare (n.toNat / 1024) l * ((n.toNat / (n.toNat / 1024) : ℕ) : ℝ) ≤ 5 then complexityShare (n.toNat / 1024) l else 0).sum := by
  classical
  set b := n.toNat / 1024 with hb
  set N := n.toNat / b with hN
  have hb0 : 0 < b := by omega
  have hN0 : 0 < N := Nat.div_pos (by rw [hb]; exact Nat.div_le_self _ _) hb0
  have hshare : ∀ l, complexityShare b l = fraction (fun u : Fin b → Bool => IsLinearComplexity (List.ofFn u) l) := by
    intro l
    unfold complexityShare fraction
    rw [Nat.card_eq_fintype_card, Nat.card_eq_fintype_card, Fintype.card_subtype]
  obtain ⟨df, value, hv, hav⟩ := average_pearson (Ω := Fin b → Bool) N hN0 (List.range (b + 1))
    (fun l u => IsLinearComplexity (List.ofFn u) l) 5 (by norm_num) cdf
    (fraction_partition (b + 1) _ fun u => by
      obtain ⟨l, h1, h2⟩ := C54_unique (List.ofFn u)
      refine ⟨l, ?_, h1, fun l' _ => h2 l'⟩
      have := h1.2 b ⟨fun _ => false, fun i h3 h4 => by rw [List.length_ofFn] at h4; omega⟩
      omega)
  have hlt : ∀ (k : Fin N) (i : Fin b), k.val * b + i.val < n.toNat := by
    intro k i
    have h1 : (k.val + 1) * b ≤ N * b := Nat.mul_le_mul_right _ k.isLt
    have h2 : N * b ≤ n.toNat := Nat.div_mul_le_self _ _
    have := i.isLt
    rw [Nat.add_mul] at h1
    omega
  have hblocks := average_bit_blocks (w := w) (L := n.toNat) (N := N) (B := Fin b) (fun k i => (⟨k.val * b + i.val, hlt k i⟩, ⟨0, hw⟩)) (by
    rintro ⟨k, i⟩ ⟨k', i'⟩ h
    have h1 : k.val * b + i.val = k'.val * b + i'.val := congrArg (fun q : Fin n.toNat × Fin w => q.1.val) h
    have hk : k.val = k'.val := by
      have e := congrArg (· / b) h1
      simpa [Nat.add_comm, Nat.add_mul_div_right _ _ hb0, Nat.div_eq_of_lt i.isLt, Nat.div_eq_of_lt i'.isLt] using e
    rw [hk] at h1
    exact Prod.ext (Fin.ext hk) (Fin.ext (Nat.add_left_cancel h1))) value
  refine ⟨df, fun x => value fun k i => (x ⟨k.val * b + i.val, hlt k i⟩).getLsbD 0, fun x => ?_, ?_⟩
  swap
  · rw [hblocks, hav]
    simp only [hshare]
  · obtain ⟨st, h1, h2⟩ := (C87_linear_complexity cdf hw n (src x)).2 hn
    refine ⟨st, h1, hv _ st ?_⟩
    rw [← h2]
    congr 1
    unfold complexityCells
    apply List.map_congr_left
    intro l _
    rw [hshare l, countP_range_fin]
    congr 3
    ext k
    simp only [mem_filter, mem_univ, true_and, decide_eq_true_eq]
    have : bitBlock (src x).nth 0 b k = List.ofFn fun i : Fin b => (x ⟨k.val * b + i.val, hlt k i⟩).getLsbD 0 := by
      unfold bitBlock
      apply List.ext_getElem
      · simp
      · intro i h3 h4
        rw [List.length_ofFn] at h4
        simp only [List.getElem_map, List.getElem_range, List.getElem_ofFn]
        rw [← hsrc x ⟨k.val * b + i, hlt k ⟨i, h4⟩⟩]
    rw [this]

example : 8192 ≤ (10000#64).toNat := by decide

/-- The matrix with the given bits. -/
private def bitsMatrix {m : Nat} (u : Fin m × Fin m → Bool) : Matrix (Fin m) (Fin m) (ZMod 2) := fun i j => if u (i, j) then 1 else 0

private theorem bitsMatrix_bijective (m : Nat) : Function.Bijective (bitsMatrix (m := m)) := by
  constructor
  · intro u v h
    funext ⟨i, j⟩
    have := congrFun (congrFun h i) j
    unfold bitsMatrix at this
    cases hu : u (i, j) <;> cases hv : v (i, j) <;> simp [hu, hv] at this ⊢
  · intro A
    refine ⟨fun q => decide (A q.1 q.2 = 1), ?_⟩
    funext i j
    unfold bitsMatrix
    have h2 : ∀ a : ZMod 2, (if decide (a = 1) = true then (1 : ZMod 2) else 0) = a := by decide
    exact h2 _

private theorem rankShare_eq (m r : Nat) : rankShare m r = fraction (fun u : Fin m × Fin m → Bool => (bitsMatrix u).rank = r) := by
  unfold rankShare fraction
  have h1 : Nat.card (Matrix (Fin m) (Fin m) (ZMod 2)) = Fintype.card (Fin m × Fin m → Bool) := by
    rw [← Nat.card_eq_fintype_card, Nat.card_congr (Equiv.ofBijective _ (bitsMatrix_bijective m))]
  have h2 : Nat.card {A : Matrix (Fin m) (Fin m) (ZMod 2) // A.rank = r} =
      (univ.filter fun u : Fin m × Fin m → Bool => (bitsMatrix u).rank = r).card := by
    rw [← Fintype.card_subtype, ← Nat.card_eq_fintype_card]
    exact (Nat.card_congr ((Equiv.ofBijective _ (bitsMatrix_bijective m)).subtypeEquiv fun _ => Iff.rfl)).symm
  rw [h1, h2]

/-- The excess of the average of the rank statistic over its degrees of freedom: the probability of the ranks left out. -/
noncomputable def Spec.rankExcess (m N : Nat) : ℝ :=
  ((List.range (m + 1)).map fun s => if rankShare m (m - s) * (N : ℝ) ≤ 5 then rankShare m (m - s) else 0).sum

private theorem average_rank (cdf : ℝ → ℝ → ℝ) (m N L : Nat) (hN : 0 < N)
    (pos : Fin N → Fin m × Fin m → Fin L × Fin w) (hpos : Function.Injective fun q : Fin N × (Fin m × Fin m) => pos q.1 q.2)
    (M : (Fin L → BitVec w) → Nat → Matrix (Fin m) (Fin m) (ZMod 2))
    (hM : ∀ x (k : Fin N), M x k = bitsMatrix fun q => (x (pos k q).1).getLsbD (pos k q).2) :
    ∃ (df : ℝ) (value : (Fin L → BitVec w) → ℝ),
      (∀ x st, pearson cdf (rankCells m N (M x)) 5 = some st → st.type = .chi2 ∧ st.df = df ∧ st.value = value x) ∧
      average value = df + rankExcess m N := by
  classical
  obtain ⟨df, value, hv, hav⟩ := average_pearson (Ω := Fin m × Fin m → Bool) N hN (List.range (m + 1))
    (fun s u => (bitsMatrix u).rank = m - s) 5 (by norm_num) cdf
    (fraction_partition (m + 1) _ fun u => by
      have hr : (bitsMatrix u).rank ≤ m := by simpa using Matrix.rank_le_width (bitsMatrix u)
      exact ⟨m - (bitsMatrix u).rank, by omega, by omega, fun l' h1 h2 => by omega⟩)
  have hblocks := average_bit_blocks (w := w) pos hpos value
  refine ⟨df, fun x => value fun k q => (x (pos k q).1).getLsbD (pos k q).2, fun x st h => hv _ st ?_, ?_⟩
  · rw [← h]
    congr 1
    unfold rankCells
    apply List.map_congr_left
    intro s _
    rw [rankShare_eq, countP_range_fin]
    congr 3
    ext k
    simp only [mem_filter, mem_univ, true_and, beq_iff_eq]
    rw [hM]
  · rw [hblocks, hav]
    unfold rankExcess
    simp only [rankShare_eq]

/-- C100. The binary rank test: over all sequences of `n·w` words (`n ≥ 1024`) the statistic of each of its two sub tests exceeds its degrees
of freedom on average by exactly the probability of the ranks left out for being expected at most 5 times. -/
theorem C100_binary_rank (cdf : ℝ → ℝ → ℝ) (hw8 : 8 ≤ w) (hw64 : w ≤ 64) (n : BitVec 64) (hn : 1024 ≤ n.toNat)
    (hov : n.toNat * w < 2 ^ 64) (src : (Fin (n.toNat * w) → BitVec w) → Stream (BitVec w)) (hsrc : Continues src) :
    ∃ (m : Nat) (df₁ df₂ : ℝ) (value₁ value₂ : (Fin (n.toNat * w) → BitVec w) → ℝ),
      (∀ x, ∃ st₁ st₂, binaryRankTest cdf n (src x) = .ok [⟨toString m, some st₁⟩, ⟨toString m ++ ":bit(0)", some st₂⟩] ∧
        (st₁.type = .chi2 ∧ st₁.df = df₁ ∧ st₁.value = value₁ x) ∧ (st₂.type = .chi2 ∧ st₂.df = df₂ ∧ st₂.value = value₂ x)) ∧
      average value₁ = df₁ + rankExcess m (n.toNat * w / (m * m)) ∧
      average value₂ = df₂ + rankExcess m (n.toNat * w / (m * m)) := by
  obtain ⟨j, -, hblk, -, hs⟩ := C86_binary_rank cdf hw8 hw64 n hn hov
  set m := 2 ^ j with hm
  set N := n.toNat * w / (m * m) with hN
  have hm0 : 0 < m := by positivity
  have hlt : ∀ (k : Fin N) (q : Fin m × Fin m), k.val * (m * m) + (q.1.val * m + q.2.val) < n.toNat * w := by
    intro k q
    have h0 : q.1.val * m + q.2.val < m * m := by
      have : (q.1.val + 1) * m ≤ m * m := Nat.mul_le_mul_right _ q.1.isLt
      rw [Nat.add_mul] at this
      have := q.2.isLt
      omega
    have h1 : (k.val + 1) * (m * m) ≤ N * (m * m) := Nat.mul_le_mul_right _ k.isLt
    have h2 : N * (m * m) ≤ n.toNat * w := Nat.div_mul_le_self _ _
    rw [Nat.add_mul] at h1
    omega
  have hinj : ∀ (k k' : Fin N) (q q' : Fin m × Fin m),
      k.val * (m * m) + (q.1.val * m + q.2.val) = k'.val * (m * m) + (q'.1.val * m + q'.2.val) → (k, q) = (k', q') := by
    intro k k' q q' h
    have hq : ∀ q : Fin m × Fin m, q.1.val * m + q.2.val < m * m := by
      intro q
      have : (q.1.val + 1) * m ≤ m * m := Nat.mul_le_mul_right _ q.1.isLt
      rw [Nat.add_mul] at this
      have := q.2.isLt
      omega
    have hk : k.val = k'.val := by
      have e := congrArg (· / (m * m)) h
      simp only [Nat.add_comm (_ * (m * m)), Nat.add_mul_div_right _ _ (Nat.mul_pos hm0 hm0), Nat.div_eq_of_lt (hq _)] at e
      omega
    rw [hk] at h
    have h := Nat.add_left_cancel h
    have h1 : q.1.val = q'.1.val := by
      have e := congrArg (· / m) h
      simp only [Nat.add_comm (_ * m), Nat.add_mul_div_right _ _ hm0, Nat.div_eq_of_lt (Fin.isLt _)] at e
      omega
    rw [h1] at h
    have h2 := Nat.add_left_cancel h
    rw [Fin.ext hk, Prod.ext (Fin.ext h1) (Fin.ext h2)]
  have hw0 : 0 < w := by omega
  obtain ⟨df₁, value₁, hv₁, hav₁⟩ := average_rank (w := w) cdf m N (n.toNat * w) (by omega)
    (fun k q => (⟨(k.val * (m * m) + (q.1.val * m + q.2.val)) / w, lt_of_le_of_lt (Nat.div_le_self _ _) (hlt k q)⟩,
      ⟨(k.val * (m * m) + (q.1.val * m + q.2.val)) % w, Nat.mod_lt _ hw0⟩))
    (by
      rintro ⟨k, q⟩ ⟨k', q'⟩ h
      have h1 := congrArg (fun a : Fin (n.toNat * w) × Fin w => a.1.val) h
      have h2 := congrArg (fun a : Fin (n.toNat * w) × Fin w => a.2.val) h
      dsimp only at h1 h2
      apply hinj
      rw [← Nat.div_add_mod (k.val * (m * m) + (q.1.val * m + q.2.val)) w, h1, h2, Nat.div_add_mod])
    (fun x => blockMatrix ((src x).take n.toNat) m)
    (by
      intro x k
      funext i j
      unfold blockMatrix bitsMatrix
      dsimp only
      set p := k.val * (m * m) + (i.val * m + j.val) with hp
      have hpn : p / w < n.toNat := by
        rw [Nat.div_lt_iff_lt_mul hw0]
        exact hlt k (i, j)
      have hb : (bitsOf ((src x).take n.toNat))[p]? = some ((x ⟨p / w, lt_of_le_of_lt (Nat.div_le_self _ _) (hlt k (i, j))⟩).getLsbD (p % w)) := by
        have h1 := getElem?_bitsOf ((src x).take n.toNat) (p / w) (p % w) (Nat.mod_lt _ hw0) ((src x).nth (p / w)) (by
          rw [Stream.take_eq_map]; simp [hpn])
        rw [Nat.mul_comm, Nat.div_add_mod] at h1
        rw [h1, ← hsrc x ⟨p / w, lt_of_le_of_lt (Nat.div_le_self _ _) (hlt k (i, j))⟩]
      rw [hb]
      congr 1
      exact propext ⟨Option.some.inj, fun h => congrArg some h⟩)
  obtain ⟨df₂, value₂, hv₂, hav₂⟩ := average_rank (w := w) cdf m N (n.toNat * w) (by omega)
    (fun k q => (⟨k.val * (m * m) + (q.1.val * m + q.2.val), hlt k q⟩, ⟨0, hw0⟩))
    (by
      rintro ⟨k, q⟩ ⟨k', q'⟩ h
      have h1 := congrArg (fun a : Fin (n.toNat * w) × Fin w => a.1.val) h
      exact hinj _ _ _ _ h1)
    (fun x => bitMatrix (src x).nth 0 m)
    (by
      intro x k
      funext i j
      unfold bitMatrix bitsMatrix
      dsimp only
      have h := hsrc x ⟨k.val * (m * m) + (i.val * m + j.val), hlt k (i, j)⟩
      dsimp only at h
      simp only [h])
  refine ⟨m, df₁, df₂, value₁, value₂, fun x => ?_, hav₁, hav₂⟩
  obtain ⟨st₁, st₂, h1, h2, h3⟩ := hs (src x)
  exact ⟨st₁, st₂, h1, hv₁ x st₁ h2, hv₂ x st₂ h3⟩

example : 1024 ≤ (1024#64).toNat ∧ (1024#64).toNat * 32 < 2 ^ 64 := by decide

end TFR
