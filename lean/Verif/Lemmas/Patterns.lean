import Verif.Spec.Segments
import Mathlib.Data.List.Count
import Mathlib.Data.List.Infix
import Mathlib.Data.List.GetD
import Mathlib.Tactic.Ring
/-
Segments of a sequence that can only end at places where the sequence shows a given pattern.
-/
namespace TFR
open Spec

/-- The number of places where a pattern starts. -/
def patternCount (pat : List Bool → Bool) : List Bool → Nat
  | [] => 0
  | x :: l => (if pat (x :: l) then 1 else 0) + patternCount pat l

theorem patternCount_suffix (pat : List Bool → Bool) (a b : List Bool) : patternCount pat b ≤ patternCount pat (a ++ b) := by
  induction a with
  | nil => exact le_rfl
  | cons x a ih => rw [List.cons_append, patternCount]; omega

theorem patternCount_hit (pat : List Bool → Bool) (a b : List Bool) (k : Nat) (hk : k < a.length) (h : pat ((a ++ b).drop k) = true) :
    patternCount pat b + 1 ≤ patternCount pat (a ++ b) := by
  induction a generalizing k with
  | nil => simp at hk
  | cons x a ih =>
    rw [List.cons_append, patternCount]
    cases k with
    | zero =>
      rw [List.drop_zero] at h
      rw [List.cons_append] at h
      rw [if_pos h]
      have := patternCount_suffix pat a b
      omega
    | succ k =>
      have := ih k (by simpa using hk) (by simpa using h)
      omega

theorem patternCount_cons_le (pat : List Bool → Bool) (x : Bool) (l : List Bool) : patternCount pat (x :: l) ≤ patternCount pat l + 1 := by
  rw [patternCount]; split <;> omega

/-- The places of a pattern in a sequence of known values. -/
theorem patternCount_map (pat : List Bool → Bool) (f : Nat → Bool) (n : Nat) (bad : Nat → Bool)
    (h : ∀ i < n, pat (((List.range n).map f).drop i) = true → bad i = true) :
    patternCount pat ((List.range n).map f) ≤ (List.range n).countP bad := by
  have gen : ∀ m ≤ n, patternCount pat (((List.range n).map f).drop (n - m)) ≤ ((List.range n).drop (n - m)).countP bad := by
    intro m
    induction m with
    | zero =>
      intro _
      rw [Nat.sub_zero, List.drop_of_length_le (by simp)]
      exact Nat.zero_le _
    | succ m ih =>
      intro hm
      have h1 : n - (m + 1) < n := by omega
      have e1 : ((List.range n).map f).drop (n - (m + 1)) = f (n - (m + 1)) :: ((List.range n).map f).drop (n - m) := by
        rw [List.drop_eq_getElem_cons (by simpa using h1)]
        rw [show n - (m + 1) + 1 = n - m by omega]
        simp
      have e2 : (List.range n).drop (n - (m + 1)) = (n - (m + 1)) :: (List.range n).drop (n - m) := by
        rw [List.drop_eq_getElem_cons (by simpa using h1)]
        rw [show n - (m + 1) + 1 = n - m by omega]
        simp
      have hb := h _ h1
      rw [e1] at hb ⊢
      rw [e2, patternCount, List.countP_cons]
      have := ih (by omega)
      by_cases hp : pat (f (n - (m + 1)) :: ((List.range n).map f).drop (n - m)) = true
      · rw [if_pos hp, if_pos (hb hp)]; omega
      · rw [if_neg hp]; omega
  simpa using gen n le_rfl

/-- If every segment ends with a marked value, and every segment in bin `b`, with the marked value before it, shows the pattern, then
there are at most as many segments in bin `b` as there are places with the pattern, and one more. -/
theorem binCount_le_patternCount {α : Type} (f : α → Bool) (pat : List Bool → Bool) (hpat : ∀ x y, pat x = true → pat (x ++ y) = true)
    (bin : List α → Nat) (b : Nat) (segs : List (List α)) (rest : List α)
    (hend : ∀ s ∈ segs, ∃ s' v, s = s' ++ [v] ∧ f v = true)
    (hbin : ∀ s ∈ segs, bin s = b → ∃ k < s.length, pat ((true :: s.map f).drop k) = true) :
    binCount bin segs b ≤ patternCount pat ((segs.flatten ++ rest).map f) + 1 := by
  refine le_trans ?_ (patternCount_cons_le pat true _)
  unfold binCount
  induction segs with
  | nil => simp
  | cons s segs ih =>
    have ih := ih (fun x hx => hend x (List.mem_cons_of_mem _ hx)) (fun x hx => hbin x (List.mem_cons_of_mem _ hx))
    obtain ⟨s', v, hs, hv⟩ := hend s List.mem_cons_self
    have e : true :: (((s :: segs).flatten ++ rest).map f) = (true :: s'.map f) ++ true :: ((segs.flatten ++ rest).map f) := by
      rw [List.flatten_cons, hs]
      simp [hv]
    rw [e, List.map_cons, List.count_cons]
    by_cases hb : bin s = b
    · obtain ⟨k, hk, hp⟩ := hbin s List.mem_cons_self hb
      have hl : s.length = (true :: s'.map f).length := by rw [hs]; simp
      have := patternCount_hit pat (true :: s'.map f) (true :: ((segs.flatten ++ rest).map f)) k (by omega) (by
        have h1 : (true :: s'.map f) ++ true :: ((segs.flatten ++ rest).map f) = (true :: s.map f) ++ (segs.flatten ++ rest).map f := by
          rw [hs]; simp [hv]
        rw [h1, List.drop_append_of_le_length (by rw [List.length_cons, List.length_map]; omega)]
        exact hpat _ _ hp)
      rw [if_pos (by simpa using hb)]
      omega
    · rw [if_neg (by simpa using hb)]
      have := patternCount_suffix pat (true :: s'.map f) (true :: ((segs.flatten ++ rest).map f))
      omega

/-- Two marked values in a row. -/
def twoInRow : List Bool → Bool
  | true :: true :: _ => true
  | _ => false

/-- A single unmarked value. -/
def loneMiss : List Bool → Bool
  | true :: false :: true :: _ => true
  | _ => false

theorem twoInRow_append (x y : List Bool) (h : twoInRow x = true) : twoInRow (x ++ y) = true := by
  unfold twoInRow at h
  split at h
  · rfl
  · cases h

theorem loneMiss_append (x y : List Bool) (h : loneMiss x = true) : loneMiss (x ++ y) = true := by
  unfold loneMiss at h
  split at h
  · rfl
  · cases h

theorem twoInRow_drop (f : Nat → Bool) (n i : Nat) (h : twoInRow (((List.range n).map f).drop i) = true) :
    i + 1 < n ∧ f i = true ∧ f (i + 1) = true := by
  generalize hd : ((List.range n).map f).drop i = d at h
  unfold twoInRow at h
  split at h
  · rename_i t
    have h0 : ((List.range n).map f)[i]? = some true := by rw [← List.head?_drop, hd]; rfl
    have h1 : ((List.range n).map f)[i + 1]? = some true := by
      have := congrArg (fun l => l[1]?) hd
      simpa [List.getElem?_drop] using this
    rw [List.getElem?_map] at h0 h1
    by_cases hi : i + 1 < n
    · rw [List.getElem?_range (by omega)] at h0
      rw [List.getElem?_range hi] at h1
      simpa [hi] using And.intro h0 h1
    · rw [List.getElem?_eq_none (by simpa using hi)] at h1
      cases h1
  · cases h

theorem loneMiss_drop (f : Nat → Bool) (n i : Nat) (h : loneMiss (((List.range n).map f).drop i) = true) :
    i + 2 < n ∧ f i = true ∧ f (i + 1) = false ∧ f (i + 2) = true := by
  generalize hd : ((List.range n).map f).drop i = d at h
  unfold loneMiss at h
  split at h
  · rename_i t
    have h0 : ((List.range n).map f)[i]? = some true := by rw [← List.head?_drop, hd]; rfl
    have h1 : ((List.range n).map f)[i + 1]? = some false := by
      have := congrArg (fun l => l[1]?) hd
      simpa [List.getElem?_drop] using this
    have h2 : ((List.range n).map f)[i + 2]? = some true := by
      have := congrArg (fun l => l[2]?) hd
      simpa [List.getElem?_drop] using this
    rw [List.getElem?_map] at h0 h1 h2
    by_cases hi : i + 2 < n
    · rw [List.getElem?_range (by omega)] at h0 h1
      rw [List.getElem?_range hi] at h2
      simpa [hi] using And.intro h0 (And.intro h1 h2)
    · rw [List.getElem?_eq_none (by simpa using hi)] at h2
      cases h2
  · cases h

end TFR
