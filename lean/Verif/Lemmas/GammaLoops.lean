import Verif.Model.Gamma
import Verif.Lemmas.LentzStop
/-
The two loops of the incomplete gamma function follow the sequences of Lemmas/IncGamma and Lemmas/Lentz.
-/
namespace TFR.IncGamma
variable {s z : ℝ}

theorem gammapLoop_eq (s z : ℝ) (fuel j : Nat) :
    (∃ i, j < i ∧ i ≤ j + fuel ∧ gammapLoop s z fuel (j + 1) (psum s z j) (term s z j) = (i, psum s z i) ∧
      term s z i / psum s z i < kfGammaEps ∧ ∀ m, j < m → m < i → ¬ term s z m / psum s z m < kfGammaEps) ∨
    (∀ m, j < m → m ≤ j + fuel → ¬ term s z m / psum s z m < kfGammaEps) := by
  induction fuel generalizing j with
  | zero => right; intro m h1 h2; omega
  | succ fuel ih =>
    have e1 : term s z j * (z / (s + ((j + 1 : ℕ) : ℝ))) = term s z (j + 1) := rfl
    have e2 : psum s z j + term s z (j + 1) = psum s z (j + 1) := rfl
    have e : gammapLoop s z (fuel + 1) (j + 1) (psum s z j) (term s z j) =
        if term s z (j + 1) / psum s z (j + 1) < kfGammaEps then (j + 1, psum s z (j + 1))
        else gammapLoop s z fuel (j + 1 + 1) (psum s z (j + 1)) (term s z (j + 1)) := by
      rw [gammapLoop]
      simp only [e1, e2]
    by_cases h : term s z (j + 1) / psum s z (j + 1) < kfGammaEps
    · left
      refine ⟨j + 1, by omega, by omega, ?_, h, fun m h1 h2 => by omega⟩
      rw [e, if_pos h]
    · rw [e, if_neg h]
      rcases ih (j + 1) with ⟨i, h1, h2, h3, h4, h5⟩ | h'
      · left
        refine ⟨i, by omega, by omega, h3, h4, fun m m1 m2 => ?_⟩
        rcases Nat.eq_or_lt_of_le (show j + 1 ≤ m by omega) with rfl | hm
        · exact h
        · exact h5 m hm m2
      · right
        intro m m1 m2
        rcases Nat.eq_or_lt_of_le (show j + 1 ≤ m by omega) with rfl | hm
        · exact h
        · exact h' m hm (by omega)

private theorem tiny_lt : kfTiny < 1 := by
  unfold kfTiny
  rw [div_lt_one (by positivity)]
  exact one_lt_pow₀ (by norm_num) (by norm_num)

/-- The clamps never fire. -/
theorem lentzStep_eq (hzs : s ≤ z) (hz : 1 ≤ z) (j : Nat) :
    lentzStep s z (j + 1) ⟨lC s z j, lD s z j, lF s z j⟩ =
      (⟨lC s z (j + 1), lD s z (j + 1), lF s z (j + 1)⟩, lC s z (j + 1) * lD s z (j + 1)) := by
  have h1 := den_ge hzs hz j
  have h2 := lC_ge hzs hz (j + 1)
  have ht := tiny_lt
  have hj : (0 : ℝ) ≤ j := by positivity
  have eb : (((2 * (j + 1) : ℕ) : ℝ) + 1 + z - s) = cb s z (j + 1) := by unfold cb; push_cast; ring
  have ea : ((j + 1 : ℕ) : ℝ) * (s - ((j + 1 : ℕ) : ℝ)) = ca s (j + 1) := rfl
  have eC : cb s z (j + 1) + ca s (j + 1) / lC s z j = lC s z (j + 1) := rfl
  unfold lentzStep
  simp only [eb, ea, eC]
  rw [if_neg (by linarith), if_neg (by push_cast at h2; linarith)]
  rfl

theorem gammaqLoop_eq (hzs : s ≤ z) (hz : 1 ≤ z) (fuel j : Nat) :
    (∃ i, j < i ∧ i ≤ j + fuel ∧ gammaqLoop s z fuel (j + 1) ⟨lC s z j, lD s z j, lF s z j⟩ = (i, lF s z i) ∧
      lE s z i < kfGammaEps) ∨
    (∀ m, j < m → m ≤ j + fuel → ¬ lE s z m < kfGammaEps) := by
  induction fuel generalizing j with
  | zero => right; intro m h1 h2; omega
  | succ fuel ih =>
    have e : gammaqLoop s z (fuel + 1) (j + 1) ⟨lC s z j, lD s z j, lF s z j⟩ =
        if lE s z (j + 1) < kfGammaEps then (j + 1, lF s z (j + 1))
        else gammaqLoop s z fuel (j + 1 + 1) ⟨lC s z (j + 1), lD s z (j + 1), lF s z (j + 1)⟩ := by
      rw [gammaqLoop]
      simp only [lentzStep_eq hzs hz]
      rfl
    by_cases h : lE s z (j + 1) < kfGammaEps
    · left
      exact ⟨j + 1, by omega, by omega, by rw [e, if_pos h], h⟩
    · rw [e, if_neg h]
      rcases ih (j + 1) with ⟨i, h1, h2, h3, h4⟩ | h'
      · exact Or.inl ⟨i, by omega, by omega, h3, h4⟩
      · right
        intro m m1 m2
        rcases Nat.eq_or_lt_of_le (show j + 1 ≤ m by omega) with rfl | hm
        · exact h
        · exact h' m hm (by omega)

/-- Outcome of the series loop. -/
theorem gammap_run (hs : 0 < s) (hs2 : s ≤ 550000) (hz0 : 0 ≤ z) (hz : z ≤ 1 ∨ z < s) :
    ∃ k, k + 1 ≤ 9999 ∧ gammapLoop s z (kfMaxIterations - 1) 1 1 1 = (k + 1, psum s z (k + 1)) ∧
      term s z (k + 1) / psum s z (k + 1) < 1 / 10 ^ 14 := by
  have hst := series_stops hs hs2 hz0 hz
  rcases gammapLoop_eq s z (kfMaxIterations - 1) 0 with ⟨i, h1, h2, h3, h4, -⟩ | h
  · obtain ⟨k, rfl⟩ : ∃ k, i = k + 1 := ⟨i - 1, by omega⟩
    have : kfMaxIterations - 1 = 9999 := rfl
    exact ⟨k, by omega, h3, h4⟩
  · exact absurd hst (h 9999 (by norm_num) (by decide))

/-- Outcome of the continued fraction loop. -/
theorem gammaq_run (hs : 0 < s) (hs2 : s ≤ 550000) (hzs : s ≤ z) (hz : 1 ≤ z) :
    ∃ k, k + 1 ≤ 9999 ∧ gammaqLoop s z (kfMaxIterations - 1) 1 (lentzStart s z) = (k + 1, lF s z (k + 1)) ∧
      lE s z (k + 1) < 1 / 10 ^ 14 := by
  obtain ⟨j, hj, hst⟩ := fraction_stops hs hs2 hzs hz
  rcases gammaqLoop_eq hzs hz (kfMaxIterations - 1) 0 with ⟨i, h1, h2, h3, h4⟩ | h
  · obtain ⟨k, rfl⟩ : ∃ k, i = k + 1 := ⟨i - 1, by omega⟩
    have : kfMaxIterations - 1 = 9999 := rfl
    exact ⟨k, by omega, h3, h4⟩
  · have : kfMaxIterations - 1 = 9999 := rfl
    exact absurd hst (h (j + 1) (by omega) (by omega))

end TFR.IncGamma
