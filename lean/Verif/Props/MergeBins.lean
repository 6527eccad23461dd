import Verif.Model.RealStats
import Mathlib.Algebra.Order.BigOperators.Group.List
import Mathlib.Algebra.BigOperators.Group.List.Basic
import Mathlib.Data.BitVec
/-
C64: merge_bins (exact arithmetic for the expectations, 64-bit counters for the observations).
-/
namespace TFR

/-- The total observed count (a 64-bit counter) of a group of bins. -/
def Spec.groupObserved (g : List (BitVec 64 × ℝ)) : BitVec 64 := (g.map Prod.fst).sum
/-- The total expected count of a group of bins. -/
noncomputable def Spec.groupExpected (g : List (BitVec 64 × ℝ)) : ℝ := (g.map Prod.snd).sum
/-- A greedy group: its expectation reaches the threshold, and no proper non-empty initial part of it does. -/
def Spec.GreedyGroup (thr : ℝ) (g : List (BitVec 64 × ℝ)) : Prop :=
  g ≠ [] ∧ thr ≤ Spec.groupExpected g ∧ ∀ p, p <+: g → p ≠ [] → p ≠ g → Spec.groupExpected p < thr
/-- A tail that never reaches the threshold. -/
def Spec.TooSmall (thr : ℝ) (g : List (BitVec 64 × ℝ)) : Prop :=
  ∀ p, p <+: g → p ≠ [] → Spec.groupExpected p < thr
open Spec

private theorem merge_fold (thr : ℝ) (l cur : List (BitVec 64 × ℝ)) (O : List (BitVec 64)) (E : List ℝ)
    (hcur : TooSmall thr cur) :
    ∃ (gs : List (List (BitVec 64 × ℝ))) (rest : List (BitVec 64 × ℝ)),
      cur ++ l = gs.flatten ++ rest ∧
      l.foldl (mergeStep thr) ⟨O, E, groupObserved cur, groupExpected cur⟩ =
        ⟨O ++ gs.map groupObserved, E ++ gs.map groupExpected, groupObserved rest, groupExpected rest⟩ ∧
      (∀ g ∈ gs, GreedyGroup thr g) ∧ TooSmall thr rest := by
  induction l generalizing cur O E with
  | nil => exact ⟨[], cur, by simp, by simp, by simp, hcur⟩
  | cons a l ih =>
    rw [List.foldl_cons]
    have hO : groupObserved cur + a.1 = groupObserved (cur ++ [a]) := by simp [groupObserved]
    have hE : groupExpected cur + a.2 = groupExpected (cur ++ [a]) := by simp [groupExpected]
    have hstep : mergeStep thr ⟨O, E, groupObserved cur, groupExpected cur⟩ a =
        if thr ≤ groupExpected (cur ++ [a]) then
          ⟨O ++ [groupObserved (cur ++ [a])], E ++ [groupExpected (cur ++ [a])], groupObserved [], groupExpected []⟩
        else ⟨O, E, groupObserved (cur ++ [a]), groupExpected (cur ++ [a])⟩ := by
      unfold mergeStep
      dsimp only
      rw [hO, hE]
      rfl
    have hpre : ∀ p, p <+: cur ++ [a] → p ≠ [] → p ≠ cur ++ [a] → groupExpected p < thr := by
      intro p hp hne hpa
      refine hcur p ?_ hne
      rcases List.prefix_concat_iff.1 hp with h | h
      · exact absurd h hpa
      · exact h
    rw [hstep]
    by_cases h : thr ≤ groupExpected (cur ++ [a])
    · rw [if_pos h]
      obtain ⟨gs, rest, h1, h2, h3, h5⟩ := ih [] (O ++ [groupObserved (cur ++ [a])]) (E ++ [groupExpected (cur ++ [a])])
        (by intro p hp hne; exact absurd (List.prefix_nil.1 hp) hne)
      refine ⟨(cur ++ [a]) :: gs, rest, ?_, ?_, ?_, h5⟩
      · simp only [List.nil_append] at h1
        rw [List.flatten_cons, List.append_assoc, ← h1]; simp
      · rw [h2]; simp
      · intro g hg
        rcases List.mem_cons.1 hg with rfl | hg
        · exact ⟨by simp, h, hpre⟩
        · exact h3 g hg
    · rw [if_neg h]
      obtain ⟨gs, rest, h1, h2, h3, h5⟩ := ih (cur ++ [a]) O E (by
        intro p hp hne
        by_cases hpa : p = cur ++ [a]
        · rw [hpa]; exact not_le.1 h
        · exact hpre p hp hne hpa)
      refine ⟨gs, rest, ?_, h2, h3, h5⟩
      rw [← h1]; simp

/-- **C64 (the merge).**  For as many observed counts as expected counts, `merge_bins` cuts the bins
into consecutive groups: every group is the shortest run of bins (from where the previous one ended)
whose expectation reaches the threshold, and the bins left over at the end, which never reach it, are
added to the last group.  If no group exists at all, the result is empty.  The merged bins are the
sums of observed and of expected counts of those groups. -/
theorem C64_merge_bins (observed : List (BitVec 64)) (expected : List ℝ) (thr : ℝ)
    (hlen : observed.length = expected.length) :
    ∃ gs rest, observed.zip expected = gs.flatten ++ rest ∧
      (∀ g ∈ gs, GreedyGroup thr g) ∧ TooSmall thr rest ∧
      mergeBins observed expected thr = .ok
        (if h : gs = [] then ([], [])
         else ((gs.dropLast ++ [gs.getLast h ++ rest]).map groupObserved,
               (gs.dropLast ++ [gs.getLast h ++ rest]).map groupExpected)) := by
  obtain ⟨gs, rest, h1, h2, h3, h5⟩ := merge_fold thr (observed.zip expected) [] [] []
    (by intro p hp hne; exact absurd (List.prefix_nil.1 hp) hne)
  refine ⟨gs, rest, by simpa using h1, h3, h5, ?_⟩
  have h0 : (⟨[], [], groupObserved [], groupExpected []⟩ : MergeState) = ⟨[], [], 0#64, 0⟩ := rfl
  rw [h0] at h2
  unfold mergeBins
  rw [if_neg (by omega), h2]
  by_cases hg : gs = []
  · subst hg; simp
  · have hsplit := List.dropLast_append_getLast hg
    have hb : ∀ {α : Type} [Add α] (f : List (BitVec 64 × ℝ) → α) (x : α),
        addBack (gs.map f) x = gs.dropLast.map f ++ [f (gs.getLast hg) + x] := by
      intro α _ f x
      unfold addBack
      have : gs.map f = gs.dropLast.map f ++ [f (gs.getLast hg)] := by
        conv_lhs => rw [← hsplit]
        simp
      rw [this]; simp
    have hne : ¬ (([] : List ℝ) ++ gs.map groupExpected) = [] := by simpa using hg
    simp only [if_neg hne, dif_neg hg]
    simp only [List.nil_append, hb]
    simp [groupObserved, groupExpected]

/-- **C64 (nothing lost).**  Unless the result is empty, merging loses no observation and no
expectation, and with non-negative expectations every merged bin reaches the threshold. -/
theorem C64_sums (observed : List (BitVec 64)) (expected : List ℝ) (thr : ℝ)
    (hlen : observed.length = expected.length) :
    ∃ O E, mergeBins observed expected thr = .ok (O, E) ∧ O.length = E.length ∧
      (E ≠ [] → O.sum = observed.sum ∧ E.sum = expected.sum) ∧
      ((∀ e ∈ expected, 0 ≤ e) → ∀ e ∈ E, thr ≤ e) := by
  obtain ⟨gs, rest, h1, h2, h3, h4⟩ := C64_merge_bins observed expected thr hlen
  have hfst : (observed.zip expected).map Prod.fst = observed := List.map_fst_zip (by omega)
  have hsnd : (observed.zip expected).map Prod.snd = expected := List.map_snd_zip (by omega)
  by_cases hg : gs = []
  · subst hg
    exact ⟨[], [], by simpa using h4, rfl, by simp, by simp⟩
  · rw [dif_neg hg] at h4
    refine ⟨_, _, h4, by simp, fun _ => ?_, ?_⟩
    · have hfl : (gs.dropLast ++ [gs.getLast hg ++ rest]).flatten = observed.zip expected := by
        rw [h1]
        conv_rhs => rw [← List.dropLast_append_getLast hg]
        simp
      have hsum : ∀ {α : Type} [AddMonoid α] (f : BitVec 64 × ℝ → α) (l : List (List (BitVec 64 × ℝ))),
          (l.map (fun g => (g.map f).sum)).sum = (l.flatten.map f).sum := by
        intro α _ f l
        induction l with
        | nil => simp
        | cons a l ih => simp [ih]
      constructor
      · refine (hsum Prod.fst _).trans ?_
        rw [hfl, hfst]
      · refine (hsum Prod.snd _).trans ?_
        rw [hfl, hsnd]
    · intro hpos e he
      obtain ⟨g, hgm, rfl⟩ := List.mem_map.1 he
      rcases List.mem_append.1 hgm with h | h
      · exact (h2 g (List.mem_of_mem_dropLast h)).2.1
      · rw [List.mem_singleton] at h
        subst h
        have := (h2 _ (List.getLast_mem hg)).2.1
        have hr : 0 ≤ groupExpected rest := by
          apply List.sum_nonneg
          intro x hx
          obtain ⟨oe, hoe, rfl⟩ := List.mem_map.1 hx
          apply hpos
          rw [← hsnd]
          exact List.mem_map_of_mem (by rw [h1]; simp [hoe])
        have : groupExpected (gs.getLast hg ++ rest) = groupExpected (gs.getLast hg) + groupExpected rest := by
          simp [groupExpected]
        linarith

/-- **C64 (empty result).**  With non-negative expectations and a positive threshold the result is
empty exactly when all the expectations together stay below the threshold. -/
theorem C64_empty (observed : List (BitVec 64)) (expected : List ℝ) (thr : ℝ)
    (hlen : observed.length = expected.length) (hpos : ∀ e ∈ expected, 0 ≤ e) (hthr : 0 < thr) :
    mergeBins observed expected thr = .ok ([], []) ↔ expected.sum < thr := by
  have hsnd : (observed.zip expected).map Prod.snd = expected := List.map_snd_zip (by omega)
  obtain ⟨O, E, hm, _, hs, hge⟩ := C64_sums observed expected thr hlen
  obtain ⟨gs, rest, h1, h2, h3, h4⟩ := C64_merge_bins observed expected thr hlen
  constructor
  · intro h
    by_cases hg : gs = []
    · subst hg
      have hr : rest = observed.zip expected := by simpa using h1.symm
      by_cases hn : rest = []
      · rw [hn] at hr
        rw [← hsnd, ← hr]; simpa using hthr
      · have := h3 rest (List.prefix_refl _) hn
        rwa [hr, groupExpected, hsnd] at this
    · rw [h4, dif_neg hg] at h
      simp at h
  · intro h
    by_cases hE : E = []
    · subst hE
      rw [hm]
      have : O = [] := by
        have : O.length = 0 := by simpa using ‹O.length = ([] : List ℝ).length›
        exact List.length_eq_zero_iff.1 this
      rw [this]
    · exfalso
      have hse := (hs hE).2
      obtain ⟨e, t, rfl⟩ := List.exists_cons_of_ne_nil hE
      have ha := hge hpos
      have h0 : 0 ≤ t.sum := List.sum_nonneg fun x hx => le_trans hthr.le (ha x (List.mem_cons_of_mem _ hx))
      have h1 := ha e List.mem_cons_self
      rw [List.sum_cons] at hse
      linarith

/-- Fewer expected than observed counts: the code reads past the end. -/
theorem C64_short (observed : List (BitVec 64)) (expected : List ℝ) (thr : ℝ)
    (hlen : expected.length < observed.length) : mergeBins observed expected thr = .error .oobIndex := by
  unfold mergeBins; rw [if_pos hlen]

-- The unit test {1,2,3,4,5}/{1,1,1,1,1} with threshold 2 : ({3,12},{2,3}).
example : mergeBins [1#64, 2#64, 3#64, 4#64, 5#64] [1, 1, 1, 1, 1] 2 = .ok ([3#64, 12#64], [2, 3]) := by
  unfold mergeBins
  rw [if_neg (by simp)]
  norm_num [mergeStep, addBack]
  rw [if_neg (by simp)]
  rfl

end TFR
