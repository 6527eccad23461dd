import Verif.Model.BinaryRank
import Verif.Lemmas.Windows
import Mathlib.LinearAlgebra.Matrix.Rank
import Mathlib.Data.ZMod.Basic
import Mathlib.Algebra.Field.ZMod
import Mathlib.Tactic.Ring
/-
Reading the flat matrix as cells, and what the loops of row_reduce_and_rank do to the cells.
-/
namespace TFR
namespace BinMatrix

/-- The matrix has the layout its constructor gives it. -/
def Shape (m : BinMatrix) (n : Nat) : Prop := m.size = n ∧ m.data.length = n * n

/-- The byte at (r, c). -/
def cell (m : BinMatrix) (r c : Nat) : BitVec 8 := m.data.getD (r * m.size + c) 0#8

theorem idx_lt {n r c : Nat} (hr : r < n) (hc : c < n) : r * n + c < n * n := by
  have : (r + 1) * n ≤ n * n := Nat.mul_le_mul_right n hr
  have : (r + 1) * n = r * n + n := Nat.succ_mul r n
  omega

theorem idx_inj {n r c r' c' : Nat} (hc : c < n) (hc' : c' < n) (h : r * n + c = r' * n + c') : r = r' ∧ c = c' := by
  have h1 := congrArg (· / n) h
  have h2 := congrArg (· % n) h
  have hn : 0 < n := by omega
  simp only [Nat.mul_comm _ n] at h1 h2
  rw [Nat.mul_add_div hn, Nat.mul_add_div hn, Nat.div_eq_of_lt hc, Nat.div_eq_of_lt hc'] at h1
  rw [Nat.mul_add_mod, Nat.mul_add_mod, Nat.mod_eq_of_lt hc, Nat.mod_eq_of_lt hc'] at h2
  exact ⟨by simpa using h1, h2⟩

theorem get_ok {m : BinMatrix} {n r c : Nat} (h : m.Shape n) (hr : r < n) (hc : c < n) :
    m.get r c = .ok (m.cell r c) := by
  obtain ⟨rfl, h2⟩ := h
  have := idx_lt hr hc
  unfold get cell
  rw [List.getElem?_eq_getElem (by omega), List.getD_eq_getElem?_getD, List.getElem?_eq_getElem (by omega)]
  rfl

theorem put_ok {m : BinMatrix} {n r c : Nat} (h : m.Shape n) (hr : r < n) (hc : c < n) (v : BitVec 8) :
    ∃ m', m.put r c v = .ok m' ∧ m'.Shape n ∧
      ∀ i j, j < n → m'.cell i j = if i = r ∧ j = c then v else m.cell i j := by
  obtain ⟨rfl, h2⟩ := h
  have := idx_lt hr hc
  refine ⟨{ m with data := m.data.set (r * m.size + c) v }, ?_, ⟨rfl, by simpa using h2⟩, ?_⟩
  · unfold put; rw [if_pos (by omega)]
  · intro i j hj
    unfold cell
    simp only [List.getD_eq_getElem?_getD, List.getElem?_set]
    by_cases h : r * m.size + c = i * m.size + j
    · obtain ⟨a, b⟩ := idx_inj hc hj h
      subst a; subst b
      have hlt : r * m.size + c < m.data.length := by omega
      simp [hlt]
    · have : ¬ (i = r ∧ j = c) := by rintro ⟨rfl, rfl⟩; exact h rfl
      simp [h, this]

end BinMatrix
open BinMatrix

theorem findPivot_ok {m : BinMatrix} {n row : Nat} (h : m.Shape n) (hr : row < n) :
    ∀ (fuel col : Nat), n ≤ fuel + col → col ≤ n → (∀ j < col, m.cell row j = 0#8) →
      ∃ p, findPivot m row fuel col = .ok p ∧ p ≤ n ∧ (∀ j < p, m.cell row j = 0#8) ∧
        (p < n → m.cell row p ≠ 0#8) := by
  intro fuel
  induction fuel with
  | zero =>
    intro col h1 h2 h3
    exact ⟨col, rfl, h2, h3, fun q => by omega⟩
  | succ fuel ih =>
    intro col h1 h2 h3
    unfold findPivot
    rw [h.1]
    by_cases hc : col < n
    · rw [if_pos hc, get_ok h hr hc]
      show ∃ p, (if m.cell row col = 0#8 then findPivot m row fuel (col + 1) else .ok col) = _ ∧ _
      by_cases hz : m.cell row col = 0#8
      · rw [if_pos hz]
        refine ih (col + 1) (by omega) (by omega) ?_
        intro j hj
        rcases Nat.lt_succ_iff_lt_or_eq.1 hj with q | q
        · exact h3 j q
        · rw [q]; exact hz
      · rw [if_neg hz]
        exact ⟨col, rfl, h2, h3, fun _ => hz⟩
    · rw [if_neg hc]
      exact ⟨col, rfl, h2, h3, fun q => by omega⟩

theorem xorRow_ok {m : BinMatrix} {n row r col : Nat} (h : m.Shape n) (hrow : row < n) (hr : r < n) (hne : r ≠ row)
    (hcol : col ≤ n) :
    ∃ m', xorRow m row r col = .ok m' ∧ m'.Shape n ∧ ∀ i j, j < n →
      m'.cell i j = if i = r ∧ col ≤ j then m.cell i j ^^^ m.cell row j else m.cell i j := by
  have key : ∀ (k c : Nat) (m : BinMatrix), m.Shape n → c + k = n →
      ∃ m', (List.range' c k).foldlM (fun (m : BinMatrix) c => do
        let a ← m.get r c
        let b ← m.get row c
        m.put r c (a ^^^ b)) m = .ok m' ∧ m'.Shape n ∧ ∀ i j, j < n →
      m'.cell i j = if i = r ∧ c ≤ j then m.cell i j ^^^ m.cell row j else m.cell i j := by
    intro k
    induction k with
    | zero =>
      intro c m h hk
      refine ⟨m, rfl, h, ?_⟩
      intro i j hj
      rw [if_neg (by omega)]
    | succ k ih =>
      intro c m h hk
      obtain ⟨m1, e1, s1, c1⟩ := put_ok h hr (show c < n by omega) (m.cell r c ^^^ m.cell row c)
      obtain ⟨m2, e2, s2, c2⟩ := ih (c + 1) m1 s1 (by omega)
      refine ⟨m2, ?_, s2, ?_⟩
      · rw [List.range'_succ, List.foldlM_cons, get_ok h hr (by omega), get_ok h hrow (by omega)]
        show (m.put r c (m.cell r c ^^^ m.cell row c) >>= _) = _
        rw [e1]
        exact e2
      · intro i j hj
        rw [c2 i j hj, c1 i j hj, c1 row j hj]
        have hn : ¬ (row = r ∧ j = c) := fun q => hne q.1.symm
        rw [if_neg hn]
        by_cases hi : i = r
        · subst hi
          by_cases hjc : j = c
          · subst hjc
            simp
          · by_cases hlt : c + 1 ≤ j
            · have : c ≤ j := by omega
              simp [hlt, hjc, this]
            · have : ¬ c ≤ j := by omega
              simp [hlt, hjc, this]
        · simp [hi]
  unfold xorRow
  rw [h.1]
  exact key (n - col) col m h (by omega)

theorem eliminateBelow_ok {m : BinMatrix} {n row col : Nat} (h : m.Shape n) (hrow : row < n) (hcol : col < n) :
    ∃ m', eliminateBelow m row col = .ok m' ∧ m'.Shape n ∧ ∀ i j, i < n → j < n →
      m'.cell i j = if row < i ∧ m.cell i col = 1#8 ∧ col ≤ j then m.cell i j ^^^ m.cell row j else m.cell i j := by
  have key : ∀ (k r : Nat) (m : BinMatrix), m.Shape n → r + k = n → row < r →
      ∃ m', (List.range' r k).foldlM (fun (m : BinMatrix) r => do
        let v ← m.get r col
        if v = 1#8 then xorRow m row r col else .ok m) m = .ok m' ∧ m'.Shape n ∧ ∀ i j, i < n → j < n →
      m'.cell i j = if r ≤ i ∧ m.cell i col = 1#8 ∧ col ≤ j then m.cell i j ^^^ m.cell row j else m.cell i j := by
    intro k
    induction k with
    | zero =>
      intro r m h hk hr
      refine ⟨m, rfl, h, ?_⟩
      intro i j hi hj
      rw [if_neg (by omega)]
    | succ k ih =>
      intro r m h hk hr
      rw [List.range'_succ, List.foldlM_cons, get_ok h (show r < n by omega) hcol]
      show ∃ m', ((if m.cell r col = 1#8 then xorRow m row r col else .ok m) >>= _) = _ ∧ _
      by_cases hv : m.cell r col = 1#8
      · rw [if_pos hv]
        obtain ⟨m1, e1, s1, c1⟩ := xorRow_ok h hrow (show r < n by omega) (show r ≠ row by omega) hcol.le
        obtain ⟨m2, e2, s2, c2⟩ := ih (r + 1) m1 s1 (by omega) (by omega)
        refine ⟨m2, by rw [e1]; exact e2, s2, ?_⟩
        intro i j hi hj
        rw [c2 i j hi hj, c1 i j hj, c1 row j hj, c1 i col hcol]
        have hn : ¬ (row = r ∧ col ≤ j) := by omega
        rw [if_neg hn]
        by_cases hir : i = r
        · subst hir
          have h1 : ¬ i + 1 ≤ i := by omega
          simp [h1, hv]
        · have h1 : (r + 1 ≤ i) ↔ (r ≤ i) := by omega
          simp [hir, h1]
      · rw [if_neg hv]
        obtain ⟨m2, e2, s2, c2⟩ := ih (r + 1) m h (by omega) (by omega)
        refine ⟨m2, e2, s2, ?_⟩
        intro i j hi hj
        rw [c2 i j hi hj]
        by_cases hir : i = r
        · subst hir
          have h1 : ¬ i + 1 ≤ i := by omega
          simp [h1, hv]
        · have h1 : (r + 1 ≤ i) ↔ (r ≤ i) := by omega
          simp [h1]
  unfold eliminateBelow
  rw [h.1]
  obtain ⟨m', a, b, c⟩ := key (n - (row + 1)) (row + 1) m h (by omega) (by omega)
  exact ⟨m', a, b, c⟩

/-- The matrix over GF(2) with entry 1 exactly where the byte is 1. -/
def gf2 (m : BinMatrix) (n : Nat) : Matrix (Fin n) (Fin n) (ZMod 2) := fun i j => if m.cell i j = 1#8 then 1 else 0

/-- All cells hold 0 or 1. -/
def Binary (m : BinMatrix) (n : Nat) : Prop := ∀ i j, i < n → j < n → m.cell i j = 0#8 ∨ m.cell i j = 1#8

theorem zmod2_cases (a : ZMod 2) : a = 0 ∨ a = 1 := by
  revert a; decide

/-- Adding multiples of one row to other rows keeps the row span. -/
theorem span_rows_add {n : Nat} (A B : Fin n → Fin n → ZMod 2) (row : Fin n) (a : Fin n → ZMod 2) (ha : a row = 0)
    (h : ∀ i, B i = A i + a i • A row) : Submodule.span (ZMod 2) (Set.range B) = Submodule.span (ZMod 2) (Set.range A) := by
  have hrow : B row = A row := by rw [h, ha]; simp
  apply le_antisymm
  · rw [Submodule.span_le]
    rintro _ ⟨i, rfl⟩
    rw [h]
    exact Submodule.add_mem _ (Submodule.subset_span ⟨i, rfl⟩) (Submodule.smul_mem _ _ (Submodule.subset_span ⟨row, rfl⟩))
  · rw [Submodule.span_le]
    rintro _ ⟨i, rfl⟩
    have : A i = B i - a i • B row := by rw [hrow, h]; simp
    rw [this]
    exact Submodule.sub_mem _ (Submodule.subset_span ⟨i, rfl⟩) (Submodule.smul_mem _ _ (Submodule.subset_span ⟨row, rfl⟩))

/-- Rows in echelon position: the non-zero rows are independent. -/
theorem finrank_echelon {n : Nat} (A : Fin n → Fin n → ZMod 2)
    (h : ∀ i, A i ≠ 0 → ∃ p, A i p = 1 ∧ ∀ r, i < r → A r p = 0) :
    Module.finrank (ZMod 2) (Submodule.span (ZMod 2) (Set.range A)) =
      (Finset.univ.filter fun i => A i ≠ 0).card := by
  classical
  let B : {i // A i ≠ 0} → Fin n → ZMod 2 := fun i => A i
  have hspan : Submodule.span (ZMod 2) (Set.range A) = Submodule.span (ZMod 2) (Set.range B) := by
    apply le_antisymm
    · rw [Submodule.span_le]
      rintro _ ⟨i, rfl⟩
      by_cases hz : A i = 0
      · rw [hz]; exact Submodule.zero_mem _
      · exact Submodule.subset_span ⟨⟨i, hz⟩, rfl⟩
    · apply Submodule.span_mono
      rintro _ ⟨i, rfl⟩
      exact ⟨i, rfl⟩
  have hli : LinearIndependent (ZMod 2) B := by
    rw [Fintype.linearIndependent_iff]
    intro g hg
    have key : ∀ (k : Nat) (i : {i // A i ≠ 0}), i.1.val = k → g i = 0 := by
      intro k
      induction k using Nat.strong_induction_on with
      | _ k ih =>
        intro i hi
        obtain ⟨p, hp1, hp2⟩ := h i.1 i.2
        have := congrFun hg p
        rw [Finset.sum_apply] at this
        rw [Finset.sum_eq_single i] at this
        · simpa [B, hp1] using this
        · intro j _ hne
          rcases lt_trichotomy j.1.val i.1.val with q | q | q
          · rw [ih j.1.val (by omega) j rfl]; simp
          · exact absurd (Subtype.ext (Fin.ext q)) hne
          · simp [B, hp2 j.1 q]
        · simp
    exact fun i => key _ i rfl
  rw [hspan, finrank_span_eq_card hli, Fintype.card_subtype]

theorem gf2_row_ne_zero {m : BinMatrix} {n : Nat} (hb : Binary m n) (i : Fin n) :
    gf2 m n i ≠ 0 ↔ ∃ j < n, m.cell i j ≠ 0#8 := by
  constructor
  · intro h
    by_contra hc
    apply h
    funext j
    have : m.cell i j = 0#8 := by
      by_contra q; exact hc ⟨j, j.2, q⟩
    simp [gf2, this]
  · rintro ⟨j, hj, h⟩ h0
    have := congrFun h0 ⟨j, hj⟩
    rcases hb i j i.2 hj with q | q
    · exact h q
    · simp [gf2, q] at this

open Classical in
/-- Invariant of the outer loop after `k` rows. -/
structure ReduceInv (m0 : BinMatrix) (n k rank : Nat) (m : BinMatrix) : Prop where
  shape : m.Shape n
  bin : Binary m n
  span : Submodule.span (ZMod 2) (Set.range (gf2 m n)) = Submodule.span (ZMod 2) (Set.range (gf2 m0 n))
  echelon : ∀ i : Fin n, i.val < k → gf2 m n i ≠ 0 → ∃ p, gf2 m n i p = 1 ∧ ∀ r, i < r → gf2 m n r p = 0
  count : rank = (Finset.univ.filter fun i : Fin n => i.val < k ∧ gf2 m n i ≠ 0).card

theorem reduceStep_inv {m0 m : BinMatrix} {n k rank : Nat} (hk : k < n) (h : ReduceInv m0 n k rank m) :
    ∃ rank' m', reduceStep (rank, m) k = .ok (rank', m') ∧ ReduceInv m0 n (k + 1) rank' m' := by
  classical
  obtain ⟨p, e1, hp1, hp2, hp3⟩ := findPivot_ok h.shape hk n 0 (by omega) (by omega) (by simp)
  unfold reduceStep
  simp only [h.shape.1, e1]
  show ∃ rank' m', (if p < n then (do let m ← eliminateBelow m k p; .ok (rank + 1, m)) else .ok (rank, m)) = _ ∧ _
  by_cases hp : p < n
  · rw [if_pos hp]
    obtain ⟨m', e2, hs', hc'⟩ := eliminateBelow_ok h.shape hk hp
    have hrow1 : m.cell k p = 1#8 := (h.bin k p hk hp).resolve_left (hp3 hp)
    have hbin' : Binary m' n := by
      intro i j hi hj
      rw [hc' i j hi hj]
      split
      · rcases h.bin i j hi hj with q | q <;> rcases h.bin k j hk hj with q' | q' <;> simp [q, q']
      · exact h.bin i j hi hj
    -- the step as row operation
    have hstep : ∀ i : Fin n, gf2 m' n i = gf2 m n i +
        (if k < i.val then gf2 m n i ⟨p, hp⟩ else 0) • gf2 m n ⟨k, hk⟩ := by
      intro i
      funext j
      simp only [gf2, Pi.add_apply, Pi.smul_apply, smul_eq_mul]
      rw [hc' i j i.2 j.2]
      by_cases h1 : k < i.val
      · simp only [h1, if_true, true_and]
        by_cases h2 : m.cell i p = 1#8
        · simp only [h2, if_true, true_and, one_mul]
          by_cases h3 : p ≤ j.val
          · rw [if_pos h3]
            rcases h.bin i j i.2 j.2 with q | q <;> rcases h.bin k j hk j.2 with q' | q' <;> rw [q, q'] <;> decide
          · rw [if_neg h3, hp2 j (by omega)]; simp
        · simp [h2]
      · simp [h1]
    have hfix : ∀ i : Fin n, i.val ≤ k → gf2 m' n i = gf2 m n i := by
      intro i hi; rw [hstep, if_neg (by omega)]; simp
    have hzero_row : ∀ (q : Fin n), (∀ r : Fin n, k ≤ r.val → gf2 m n r q = 0) →
        ∀ r : Fin n, k ≤ r.val → gf2 m' n r q = 0 := by
      intro q hq r hr
      rw [hstep r]
      simp only [Pi.add_apply, Pi.smul_apply, smul_eq_mul, hq r hr, hq ⟨k, hk⟩ le_rfl]
      simp
    refine ⟨rank + 1, m', by rw [e2]; rfl, hs', hbin', ?_, ?_, ?_⟩
    · rw [← h.span]
      exact span_rows_add _ _ ⟨k, hk⟩ _ (by simp) hstep
    · intro i hi hne
      rcases Nat.lt_succ_iff_lt_or_eq.1 hi with q | q
      · rw [hfix i q.le] at hne ⊢
        obtain ⟨c, hc1, hc2⟩ := h.echelon i q hne
        refine ⟨c, hc1, ?_⟩
        intro r hr
        by_cases hrk : r.val ≤ k
        · rw [hfix r hrk]; exact hc2 r hr
        · exact hzero_row c (fun r' hr' => hc2 r' (by show i.val < r'.val; omega)) r (by omega)
      · refine ⟨⟨p, hp⟩, ?_, ?_⟩
        · rw [hfix i q.le]; simp [gf2, q, hrow1]
        · intro r hr
          have hr' : k < r.val := by rw [← q]; exact hr
          rw [hstep r, if_pos hr']
          have : gf2 m n ⟨k, hk⟩ ⟨p, hp⟩ = 1 := by simp [gf2, hrow1]
          simp only [Pi.add_apply, Pi.smul_apply, smul_eq_mul, this, mul_one]
          rcases zmod2_cases (gf2 m n r ⟨p, hp⟩) with q | q <;> rw [q] <;> decide
    · have hnz : gf2 m' n ⟨k, hk⟩ ≠ 0 := by
        rw [hfix _ le_rfl, gf2_row_ne_zero h.bin]; exact ⟨p, hp, hp3 hp⟩
      have : (Finset.univ.filter fun i : Fin n => i.val < k + 1 ∧ gf2 m' n i ≠ 0) =
          insert ⟨k, hk⟩ (Finset.univ.filter fun i : Fin n => i.val < k ∧ gf2 m n i ≠ 0) := by
        ext i
        simp only [Finset.mem_filter, Finset.mem_univ, true_and, Finset.mem_insert]
        constructor
        · rintro ⟨a, b⟩
          rcases Nat.lt_succ_iff_lt_or_eq.1 a with q | q
          · right; exact ⟨q, by rwa [hfix i q.le] at b⟩
          · left; exact Fin.ext q
        · rintro (rfl | ⟨a, b⟩)
          · exact ⟨Nat.lt_succ_self _, hnz⟩
          · exact ⟨by omega, by rwa [hfix i a.le]⟩
      rw [this, Finset.card_insert_of_notMem (by simp), h.count]
  · rw [if_neg hp]
    have hz : gf2 m n ⟨k, hk⟩ = 0 := by
      by_contra q
      obtain ⟨j, hj, hjn⟩ := (gf2_row_ne_zero h.bin ⟨k, hk⟩).1 q
      exact hjn (hp2 j (by omega))
    refine ⟨rank, m, rfl, h.shape, h.bin, h.span, ?_, ?_⟩
    · intro i hi hne
      rcases Nat.lt_succ_iff_lt_or_eq.1 hi with q | q
      · exact h.echelon i q hne
      · exact absurd hz (by rw [show (⟨k, hk⟩ : Fin n) = i from Fin.ext q.symm]; exact hne)
    · rw [h.count]
      congr 1
      ext i
      simp only [Finset.mem_filter, Finset.mem_univ, true_and]
      constructor
      · rintro ⟨a, b⟩; exact ⟨by omega, b⟩
      · rintro ⟨a, b⟩
        refine ⟨?_, b⟩
        rcases Nat.lt_succ_iff_lt_or_eq.1 a with q | q
        · exact q
        · exact absurd hz (by rw [show (⟨k, hk⟩ : Fin n) = i from Fin.ext q.symm]; exact b)

theorem rowReduce_ok {m : BinMatrix} {n : Nat} (hs : m.Shape n) (hb : Binary m n) :
    ∃ m', rowReduceAndRank m = .ok ((gf2 m n).rank, m') ∧ ReduceInv m n n (gf2 m n).rank m' := by
  classical
  have hrank : ∀ rank m', ReduceInv m n n rank m' → rank = (gf2 m n).rank := by
    intro rank m' h
    rw [Matrix.rank_eq_finrank_span_row]
    show rank = Module.finrank (ZMod 2) (Submodule.span (ZMod 2) (Set.range (gf2 m n)))
    rw [← h.span, finrank_echelon _ (fun i => h.echelon i i.2), h.count]
    congr 1
    ext i; simp
  unfold rowReduceAndRank BinMatrix.empty
  rw [hs.1]
  have key : ∀ k, k ≤ n → ∃ rank m', (List.range k).foldlM reduceStep (0, m) = .ok (rank, m') ∧
      ReduceInv m n k rank m' := by
    intro k
    induction k with
    | zero => intro _; exact ⟨0, m, rfl, hs, hb, rfl, by simp, by simp⟩
    | succ k ih =>
      intro hk
      obtain ⟨rank, m', e, i⟩ := ih (by omega)
      obtain ⟨rank', m'', e', i'⟩ := reduceStep_inv (by omega) i
      refine ⟨rank', m'', ?_, i'⟩
      rw [List.range_succ, List.foldlM_append, e]
      show (reduceStep (rank, m') k >>= pure) = _
      rw [e']; rfl
  obtain ⟨rank, m', e, i⟩ := key n le_rfl
  have hr := hrank rank m' i
  subst hr
  by_cases h0 : n = 0
  · subst h0
    rw [if_pos (by simp)]
    refine ⟨m', ?_, i⟩
    exact e
  · rw [if_neg (by simpa using h0)]
    exact ⟨m', e, i⟩

theorem rowReduce_shape {m m' : BinMatrix} {n r : Nat} (hs : m.Shape n) (h : rowReduceAndRank m = .ok (r, m')) :
    m'.Shape n := by
  unfold rowReduceAndRank at h
  split at h
  · cases h; exact hs
  · rw [hs.1] at h
    have key : ∀ k, k ≤ n → ∃ rank m', (List.range k).foldlM reduceStep (0, m) = .ok (rank, m') ∧ m'.Shape n := by
      intro k
      induction k with
      | zero => intro _; exact ⟨0, m, rfl, hs⟩
      | succ k ih =>
        intro hk
        obtain ⟨rank, m1, e, i⟩ := ih (by omega)
        obtain ⟨p, e1, hp1, _, _⟩ := findPivot_ok i (show k < n by omega) n 0 (by omega) (by omega) (by simp)
        have hstep : ∃ rank' m2, reduceStep (rank, m1) k = .ok (rank', m2) ∧ m2.Shape n := by
          unfold reduceStep
          simp only [i.1, e1]
          show ∃ rank' m', (if p < n then (do let m ← eliminateBelow m1 k p; .ok (rank + 1, m)) else .ok (rank, m1)) = _ ∧ _
          by_cases hp : p < n
          · obtain ⟨m2, e2, s2, _⟩ := eliminateBelow_ok i (show k < n by omega) hp
            rw [if_pos hp, e2]
            exact ⟨_, _, rfl, s2⟩
          · rw [if_neg hp]; exact ⟨_, _, rfl, i⟩
        obtain ⟨rank', m2, e2, s2⟩ := hstep
        refine ⟨rank', m2, ?_, s2⟩
        rw [List.range_succ, List.foldlM_append, e]
        show (reduceStep (rank, m1) k >>= pure) = _
        rw [e2]; rfl
    obtain ⟨rank, m1, e, i⟩ := key n le_rfl
    rw [e] at h
    cases h
    exact i

end TFR
