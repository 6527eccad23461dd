import Verif.Model.Hist
import Mathlib.Data.List.Basic
/-
Histograms: what a sequence of increments produces.
-/
namespace TFR

theorem incrAt_ok (counts : List (BitVec 64)) (i : Nat) (h : i < counts.length) :
    incrAt counts i = .ok (counts.set i (counts[i] + 1)) := by
  unfold incrAt
  rw [List.getElem?_eq_getElem h]

theorem incrAt_oob (counts : List (BitVec 64)) (i : Nat) (h : counts.length ≤ i) : incrAt counts i = .error .oobIndex := by
  unfold incrAt
  rw [List.getElem?_eq_none h]

/-- The histogram with `n` entries of a list of indices. -/
def histOf (n : Nat) (idx : List Nat) : List (BitVec 64) := (List.range n).map fun s => BitVec.ofNat 64 (idx.count s)

theorem histOf_nil (n : Nat) : histOf n [] = List.replicate n 0#64 := by
  unfold histOf
  simp [List.map_const']

@[simp] theorem length_histOf (n : Nat) (idx : List Nat) : (histOf n idx).length = n := by simp [histOf]

theorem getElem_histOf (n : Nat) (idx : List Nat) (s : Nat) (h : s < (histOf n idx).length) :
    (histOf n idx)[s] = BitVec.ofNat 64 (idx.count s) := by simp [histOf]

theorem incrAt_histOf (n : Nat) (idx : List Nat) (i : Nat) (h : i < n) :
    incrAt (histOf n idx) i = .ok (histOf n (idx ++ [i])) := by
  rw [incrAt_ok _ _ (by simpa using h)]
  congr 1
  apply List.ext_getElem (by simp)
  intro s h1 h2
  rw [List.getElem_set]
  by_cases hs : i = s
  · subst hs
    rw [if_pos rfl]
    simp only [getElem_histOf, List.count_append, List.count_singleton_self]
    rw [BitVec.ofNat_add]; rfl
  · rw [if_neg hs]
    simp [getElem_histOf, List.count_append, hs]

/-- A run of increments. -/
theorem foldlM_incrAt {α : Type} (n : Nat) (f : α → Nat) (l : List α) (idx : List Nat) (h : ∀ a ∈ l, f a < n) :
    l.foldlM (fun c a => incrAt c (f a)) (histOf n idx) = .ok (histOf n (idx ++ l.map f)) := by
  induction l generalizing idx with
  | nil => simp; rfl
  | cons a l ih =>
    rw [List.foldlM_cons, incrAt_histOf n idx (f a) (h a (by simp))]
    show l.foldlM _ (histOf n (idx ++ [f a])) = _
    rw [ih _ (fun b hb => h b (by simp [hb]))]
    simp

end TFR
