import Mathlib.Analysis.Calculus.Deriv.Mul
import Mathlib.Analysis.Calculus.Deriv.Add
import Mathlib.Tactic.LinearCombination
import Mathlib.Tactic.Positivity
/-
Polynomials with integer coefficients as lists (lowest degree first), so that the kernel can compute with them.
-/
namespace TFR.PolyList

noncomputable def ev : List ℤ → ℝ → ℝ
  | [], _ => 0
  | c :: l, z => (c : ℝ) + z * ev l z

def padd : List ℤ → List ℤ → List ℤ
  | [], b => b
  | a, [] => a
  | x :: a, y :: b => (x + y) :: padd a b

def pscale (k : ℤ) (a : List ℤ) : List ℤ := a.map (k * ·)

def pmul : List ℤ → List ℤ → List ℤ
  | [], _ => []
  | x :: a, b => padd (pscale x b) (0 :: pmul a b)

def pder : List ℤ → List ℤ
  | [] => []
  | _ :: l => padd l (0 :: pder l)

theorem ev_padd (a b : List ℤ) (z : ℝ) : ev (padd a b) z = ev a z + ev b z := by
  induction a generalizing b with
  | nil => simp [padd, ev]
  | cons x a ih =>
    cases b with
    | nil => simp [padd, ev]
    | cons y b => simp only [padd, ev, ih]; push_cast; ring

theorem ev_pscale (k : ℤ) (a : List ℤ) (z : ℝ) : ev (pscale k a) z = k * ev a z := by
  induction a with
  | nil => simp [pscale, ev]
  | cons x a ih =>
    unfold pscale at ih ⊢
    simp only [List.map_cons, ev, ih]; push_cast; ring

theorem ev_pmul (a b : List ℤ) (z : ℝ) : ev (pmul a b) z = ev a z * ev b z := by
  induction a with
  | nil => simp [pmul, ev]
  | cons x a ih => simp only [pmul, ev, ev_padd, ev_pscale, ih]; push_cast; ring

theorem hasDerivAt_ev (a : List ℤ) (z : ℝ) : HasDerivAt (ev a) (ev (pder a) z) z := by
  induction a with
  | nil =>
    have : ev [] = fun _ => (0 : ℝ) := by funext z; rfl
    rw [this]; simpa [pder, ev] using hasDerivAt_const z (0 : ℝ)
  | cons x a ih =>
    have : ev (x :: a) = fun z => (x : ℝ) + z * ev a z := by funext z; rfl
    rw [this]
    refine (((hasDerivAt_id z).mul ih).const_add (x : ℝ)).congr_deriv ?_
    simp only [pder, ev_padd, ev, id]
    push_cast; ring

theorem ev_nonneg (a : List ℤ) (h : ∀ c ∈ a, 0 ≤ c) (z : ℝ) (hz : 0 ≤ z) : 0 ≤ ev a z := by
  induction a with
  | nil => exact le_refl _
  | cons x a ih =>
    have h1 : (0 : ℝ) ≤ x := by exact_mod_cast h x (by simp)
    have h2 := ih (fun c hc => h c (by simp [hc]))
    unfold ev; positivity

theorem ev_pos (c : ℤ) (a : List ℤ) (hc : 0 < c) (h : ∀ c ∈ a, 0 ≤ c) (z : ℝ) (hz : 0 ≤ z) : 0 < ev (c :: a) z := by
  have h1 : (0 : ℝ) < c := by exact_mod_cast hc
  have h2 := ev_nonneg a h z hz
  unfold ev; positivity

/-- A polynomial with non-negative coefficients grows at most like its degree. -/
theorem ev_pder_le (a : List ℤ) (h : ∀ c ∈ a, 0 ≤ c) (z : ℝ) (hz : 0 ≤ z) :
    0 ≤ ev (pder a) z ∧ z * ev (pder a) z ≤ a.length * ev a z := by
  induction a with
  | nil => simp [pder, ev]
  | cons x a ih =>
    have h1 : (0 : ℝ) ≤ x := by exact_mod_cast h x (by simp)
    obtain ⟨h2, h3⟩ := ih (fun c hc => h c (by simp [hc]))
    have h4 := ev_nonneg a (fun c hc => h c (by simp [hc])) z hz
    simp only [pder, ev_padd, ev, List.length_cons]
    push_cast
    constructor
    · positivity
    · have : 0 ≤ (a.length : ℝ) * x := by positivity
      nlinarith

end TFR.PolyList
