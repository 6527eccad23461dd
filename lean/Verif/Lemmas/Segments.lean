import Verif.Spec.Segments
/-
The greedy segmentation exists and is unique; a loop that emits at each completion computes it.
-/
namespace TFR.Spec
variable {α : Type}

/-- The greedy cut, as a loop. -/
def segRun (done : List α → Bool) : List α → List α → List (List α) × List α
  | cur, [] => ([], cur)
  | cur, a :: l =>
    if done (cur ++ [a]) then
      let r := segRun done [] l
      ((cur ++ [a]) :: r.1, r.2)
    else segRun done (cur ++ [a]) l

theorem segRun_spec (done : List α → Bool) (l cur : List α) (hcur : ∀ p, p <+: cur → p ≠ [] → done p = false) :
    IsSegmentation (fun s => done s = true) (cur ++ l) (segRun done cur l).1 (segRun done cur l).2 := by
  induction l generalizing cur with
  | nil => exact ⟨by simp [segRun], by simp [segRun], by simp [segRun], by simpa [segRun] using hcur⟩
  | cons a l ih =>
    unfold segRun
    by_cases h : done (cur ++ [a]) = true
    · rw [if_pos h]
      have := ih [] (by intro p hp; simp at hp; simp [hp])
      refine ⟨?_, ?_, ?_, ?_⟩
      · have h2 := this.cover
        simp only [List.nil_append] at h2
        conv_lhs => rw [h2]
        simp
      · intro s hs
        rcases List.mem_cons.1 hs with rfl | hs
        · exact ⟨by simp, h⟩
        · exact this.complete s hs
      · intro s hs p hp hne hps
        rcases List.mem_cons.1 hs with rfl | hs
        · rcases (List.prefix_concat_iff.1 hp) with h1 | h1
          · exact absurd (by simpa using h1) hps
          · simp [hcur p h1 hne]
        · exact this.minimal s hs p hp hne hps
      · exact this.rest_open
    · rw [if_neg h]
      have := ih (cur ++ [a]) (by
        intro p hp hne
        rcases (List.prefix_concat_iff.1 hp) with h1 | h1
        · rw [h1]; simpa using h
        · exact hcur p h1 hne)
      simpa using this

/-- There is only one greedy segmentation. -/
theorem IsSegmentation.unique {done : List α → Prop} {l : List α} {s1 s2 : List (List α)} {r1 r2 : List α}
    (h1 : IsSegmentation done l s1 r1) (h2 : IsSegmentation done l s2 r2) : s1 = s2 ∧ r1 = r2 := by
  induction s1 generalizing l s2 with
  | nil =>
    have c1 := h1.cover
    simp only [List.flatten_nil, List.nil_append] at c1
    subst c1
    cases s2 with
    | nil => exact ⟨rfl, by simpa using h2.cover⟩
    | cons b s2 =>
      exfalso
      have hb := h2.complete b (by simp)
      refine h1.rest_open b ?_ hb.1 hb.2
      rw [h2.cover]; simp [List.append_assoc]
  | cons a s1 ih =>
    have ha := h1.complete a (by simp)
    have pa : a <+: l := by rw [h1.cover]; simp [List.append_assoc]
    cases s2 with
    | nil =>
      exfalso
      have c2 := h2.cover
      simp only [List.flatten_nil, List.nil_append] at c2
      subst c2
      exact h2.rest_open a pa ha.1 ha.2
    | cons b s2 =>
      have hb := h2.complete b (by simp)
      have pb : b <+: l := by rw [h2.cover]; simp [List.append_assoc]
      have hab : a = b := by
        rcases List.prefix_or_prefix_of_prefix pa pb with h | h
        · by_contra hne
          exact h2.minimal b (by simp) a h ha.1 hne ha.2
        · by_contra hne
          exact h1.minimal a (by simp) b h hb.1 (fun e => hne e.symm) hb.2
      subst hab
      have c1 := h1.cover
      have c2 := h2.cover
      simp only [List.flatten_cons, List.append_assoc] at c1 c2
      have hl : s1.flatten ++ r1 = s2.flatten ++ r2 := List.append_cancel_left (c1.symm.trans c2)
      have := ih (l := s1.flatten ++ r1) (s2 := s2)
        ⟨rfl, fun s hs => h1.complete s (by simp [hs]), fun s hs => h1.minimal s (by simp [hs]), h1.rest_open⟩
        ⟨hl, fun s hs => h2.complete s (by simp [hs]), fun s hs => h2.minimal s (by simp [hs]), h2.rest_open⟩
      exact ⟨by rw [this.1], this.2⟩

end TFR.Spec
