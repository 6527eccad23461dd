import Verif.Model.LinearComplexity
import Verif.Lemmas.Lfsr
import Mathlib.Data.List.GetD
/-
The code of berlekamp_massey follows the abstract algorithm of Lemmas/Lfsr.
-/
namespace TFR
open Lfsr Finset

def toF (b : Bool) : F2 := if b then 1 else 0

theorem toF_xor (a b : Bool) : toF (a ^^ b) = toF a + toF b := by cases a <;> cases b <;> decide
theorem toF_and (a b : Bool) : toF (a && b) = toF a * toF b := by cases a <;> cases b <;> decide
theorem toF_inj {a b : Bool} (h : toF a = toF b) : a = b := by revert h; cases a <;> cases b <;> decide
theorem toF_eq_zero {a : Bool} : toF a = 0 ↔ a = false := by cases a <;> decide
theorem exists_toF (a : F2) : ∃ b, toF b = a := by
  rcases f2_cases a with h | h <;> subst h
  · exact ⟨false, rfl⟩
  · exact ⟨true, rfl⟩

/-- A list of bits as a sequence over GF(2). -/
def lift (v : List Bool) : Nat → F2 := fun i => toF (v.getD i false)

theorem atInt_ok (v : List Bool) (i : Nat) (h : i < v.length) : atInt v (i : Int) = .ok (v.getD i false) := by
  unfold atInt
  rw [if_neg (by omega), Int.toNat_natCast, List.getElem?_eq_getElem h, List.getD_eq_getElem _ _ h]

theorem bmDisc_ok (u c : List Bool) (n : Nat) (hc : c.length = u.length) (hn : n ≤ u.length) :
    ∀ (count j : Nat) (s : Bool), j + count ≤ n → 
      ∃ s', bmDisc u c n count j s = .ok s' ∧
        toF s' = toF s + ∑ i ∈ range count, lift c (j + i) * lift u (n - (j + i) - 1) := by
  intro count
  induction count with
  | zero => intro j s _; exact ⟨s, rfl, by simp⟩
  | succ k ih =>
    intro j s h
    obtain ⟨s', e, hs⟩ := ih (j + 1) (s ^^ (c.getD j false && u.getD (n - j - 1) false)) (by omega)
    refine ⟨s', ?_, ?_⟩
    · unfold bmDisc
      rw [atInt_ok c j (by omega), show (n : Int) - j - 1 = ((n - j - 1 : Nat) : Int) by omega,
        atInt_ok u (n - j - 1) (by omega)]
      exact e
    · rw [hs, sum_range_succ', toF_xor, toF_and, Nat.add_zero]
      have : ∀ i ∈ range k, lift c (j + 1 + i) * lift u (n - (j + 1 + i) - 1) =
          lift c (j + (i + 1)) * lift u (n - (j + (i + 1)) - 1) := by
        intro i _; rw [show j + 1 + i = j + (i + 1) by omega]
      rw [sum_congr rfl this]
      simp only [lift]
      rw [add_assoc]; congr 1; rw [add_comm]; rfl

theorem bmUpdate_ok (t : List Bool) (f : Nat) : ∀ (count j : Nat) (c : List Bool), f ≤ j → j + count ≤ c.length →
      j - f + count ≤ t.length →
      ∃ c', bmUpdate t f count j c = .ok c' ∧ c'.length = c.length ∧
        ∀ k, k < c.length → c'.getD k false = (c.getD k false ^^ (if j ≤ k ∧ k < j + count then t.getD (k - f) false else false)) := by
  intro count
  induction count with
  | zero => intro j c _ _ _; exact ⟨c, rfl, rfl, fun k _ => by rw [if_neg (by omega)]; simp⟩
  | succ n ih =>
    intro j c h1 h2 h3
    obtain ⟨c', e, hl, hc⟩ := ih (j + 1) (c.set j (c.getD j false ^^ t.getD (j - f) false)) (by omega)
      (by simp; omega) (by omega)
    refine ⟨c', ?_, by simpa using hl, ?_⟩
    · unfold bmUpdate xorAt
      rw [show (j : Int) - f = ((j - f : Nat) : Int) by omega, atInt_ok t (j - f) (by omega), atInt_ok c j (by omega)]
      exact e
    · intro k hk
      rw [hc k (by simpa using hk)]
      have hset : (c.set j (c.getD j false ^^ t.getD (j - f) false)).getD k false =
          if j = k then (c.getD j false ^^ t.getD (j - f) false) else c.getD k false := by
        rw [List.getD_eq_getElem _ _ (by simpa using hk), List.getElem_set]
        split
        · rfl
        · rw [List.getD_eq_getElem _ _ hk]
      rw [hset]
      by_cases q : j = k
      · subst q
        have a : ¬ (j + 1 ≤ j ∧ j < j + 1 + n) := by omega
        have b : j ≤ j ∧ j < j + (n + 1) := by omega
        rw [if_pos rfl, if_neg a, if_pos b]; simp
      · rw [if_neg q]
        have : (j + 1 ≤ k ∧ k < j + 1 + n) ↔ (j ≤ k ∧ k < j + (n + 1)) := by omega
        simp only [this]

/-- The state of the code after `N` iterations. -/
def BMInv (u : List Bool) (N : Nat) (st : BM) : Prop :=
  ∃ (C B : Nat → F2) (l lb m : Nat), st.l = l ∧ st.m = m ∧ Inv (lift u) N C B l lb m ∧
    st.c.length = u.length ∧ st.b.length = u.length ∧ st.bTmp.length = u.length ∧
    (∀ j, j < u.length → lift st.c j = C j) ∧ (∀ j, j < u.length → lift st.b j = B j)

theorem bmStep_ok (u : List Bool) (N : Nat) (hN : N < u.length) (st : BM) (h : BMInv u N st) :
    ∃ st', bmStep u st ((N + 1 : Nat) : Int) = .ok st' ∧ BMInv u (N + 1) st' := by
  obtain ⟨C, B, l, lb, m, e1, e2, inv, hc, hb, ht, hC, hB⟩ := h
  have hl := inv.l_le
  have hm := inv.mle
  have hlm := inv.lm
  have hlb := inv.lble
  obtain ⟨s, es, hs⟩ := bmDisc_ok u st.c (N + 1) hc (by omega) l 1 (u.getD N false) (by omega)
  have hdisc : toF s = disc (lift u) C l N := by
    rw [hs]
    unfold disc
    rw [sum_range_succ', inv.gen.one, one_mul, Nat.sub_zero, add_comm]
    congr 1
    apply sum_congr rfl
    intro i hi
    simp at hi
    rw [hC (1 + i) (by omega), show 1 + i = i + 1 by omega, show N + 1 - (i + 1) - 1 = N - (i + 1) by omega]
  unfold bmStep
  rw [show ((N + 1 : Nat) : Int) - 1 = (N : Int) by omega, atInt_ok u N hN]
  simp only [e1, Int.toNat_natCast]
  show ∃ st', (bmDisc u st.c ((N + 1 : Nat) : Int) l ((1 : Nat) : Int) (u.getD N false) >>= _) = _ ∧ _
  rw [es]
  show ∃ st', (if s = true then _ else _ : R BM) = _ ∧ _
  by_cases hz : s = true
  · rw [if_pos hz]
    have hd : disc (lift u) C l N ≠ 0 := by rw [← hdisc, hz]; decide
    rw [if_pos ⟨by rw [hb]; omega, by rw [ht]; omega⟩]
    have ht1 : ((l : Int) + 1).toNat = l + 1 := by omega
    rw [ht1, e2]
    let t : List Bool := st.b.take (l + 1) ++ st.bTmp.drop (l + 1)
    have htlen : t.length = u.length := by simp [t, hb, ht]; omega
    have htget : ∀ j, j ≤ l → t.getD j false = st.b.getD j false := by
      intro j hj
      rw [List.getD_eq_getElem _ _ (by rw [htlen]; omega), List.getD_eq_getElem _ _ (by rw [hb]; omega)]
      simp only [t]
      rw [List.getElem_append_left (by simp [hb]; omega)]
      simp
    have hfrom : ((N + 1 : Nat) : Int) - (m : Int) = ((N + 1 - m : Nat) : Int) := by omega
    have hcount : ((min (u.length : Int) (((N + 1 - m : Nat) : Int) + (l : Int) + 1)) - ((N + 1 - m : Nat) : Int)).toNat =
        min (u.length) (N + 1 - m + l + 1) - (N + 1 - m) := by omega
    rw [hfrom, hcount]
    obtain ⟨c', ec, hcl, hcg⟩ := bmUpdate_ok t (N + 1 - m) (min (u.length) (N + 1 - m + l + 1) - (N + 1 - m)) (N + 1 - m) st.c
      le_rfl (by rw [hc]; omega) (by rw [htlen]; omega)
    have hupd : ∀ j, j < u.length → lift c' j = upd C B (N + 1 - m) j := by
      intro j hj
      unfold lift upd
      rw [hcg j (by omega), toF_xor]
      have := hC j hj
      unfold lift at this
      rw [this]
      congr 1
      by_cases q : N + 1 - m ≤ j
      · rw [if_pos q]
        by_cases q2 : j - (N + 1 - m) ≤ l
        · rw [if_pos (by omega), htget _ q2]
          exact hB _ (by omega)
        · rw [if_neg (by omega), inv.bdeg _ (by omega)]; rfl
      · rw [if_neg q, if_neg (by omega)]; rfl
    by_cases h2 : 2 * l ≤ N + 1
    · have h2' : 2 * (l : Int) ≤ ((N + 1 : Nat) : Int) := by omega
      simp only [if_pos h2']
      refine ⟨⟨st.c, c', t, ((N + 1 : Nat) : Int) - l, ((N + 1 : Nat) : Int)⟩, ?_, ?_⟩
      · show (bmUpdate t _ _ _ st.c >>= _) = _
        rw [ec]; rfl
      · exact ⟨upd C B (N + 1 - m), C, N + 1 - l, l, N + 1, by show _ - _ = _; omega, rfl, inv_change inv hd h2,
          by rw [hcl, hc], hc, htlen, hupd, hC⟩
    · have h2' : ¬ 2 * (l : Int) ≤ ((N + 1 : Nat) : Int) := by omega
      simp only [if_neg h2']
      refine ⟨⟨st.b, c', t, l, m⟩, ?_, ?_⟩
      · show (bmUpdate t _ _ _ st.c >>= _) = _
        rw [ec]; rfl
      · exact ⟨upd C B (N + 1 - m), B, l, lb, m, rfl, rfl, inv_same inv hd (by omega),
          by rw [hcl, hc], hb, htlen, hupd, hB⟩
  · rw [if_neg hz]
    have hd : disc (lift u) C l N = 0 := by rw [← hdisc, toF_eq_zero]; simpa using hz
    exact ⟨st, rfl, C, B, l, lb, m, e1, e2, inv_keep inv hd, hc, hb, ht, hC, hB⟩

theorem berlekampMassey_ok (u : List Bool) (h : u ≠ []) :
    ∃ (C B : Nat → F2) (l lb m : Nat), berlekampMassey u = .ok (l : Int) ∧ Inv (lift u) u.length C B l lb m := by
  have hlen : 0 < u.length := List.length_pos_of_ne_nil h
  have key : ∀ N, N ≤ u.length → ∃ st, (List.range N).foldlM (fun st (i : Nat) => bmStep u st (i + 1))
      ⟨(List.replicate u.length false).set 0 true, (List.replicate u.length false).set 0 true,
        List.replicate u.length false, 0, 0⟩ = .ok st ∧ BMInv u N st := by
    intro N
    induction N with
    | zero =>
      intro _
      refine ⟨_, rfl, unit, unit, 0, 0, 0, rfl, rfl, inv_zero _, by simp, by simp, by simp, ?_, ?_⟩
      all_goals
        intro j hj
        unfold lift
        rw [List.getD_eq_getElem _ _ (by simpa using hj), List.getElem_set]
        by_cases q : j = 0
        · subst q; rfl
        · rw [if_neg (by omega)]; simp [unit, q, toF]
    | succ N ih =>
      intro hN
      obtain ⟨st, e, i⟩ := ih (by omega)
      obtain ⟨st', e', i'⟩ := bmStep_ok u N (by omega) st i
      refine ⟨st', ?_, i'⟩
      rw [List.range_succ, List.foldlM_append, e]
      refine Eq.trans (bind_pure (m := Except Fault) _) ?_
      exact e'
  obtain ⟨st, e, C, B, l, lb, m, e1, _, inv, _⟩ := key u.length le_rfl
  refine ⟨C, B, l, lb, m, ?_, inv⟩
  unfold berlekampMassey
  simp only
  rw [if_neg (by omega), e]
  show Except.ok st.l = _
  rw [e1]

end TFR
