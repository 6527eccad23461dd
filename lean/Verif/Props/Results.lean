import Verif.Model.Results
/-
C38, C39: the battery map and the test catalogue.
-/
namespace TFR
variable {K : Type}

/-! ### C38 -/

theorem strLt_irrefl (a : List Char) : strLt a a = false := by
  induction a with
  | nil => rfl
  | cons x xs ih => simp [strLt, ih]

theorem strLt_trans : ∀ {a b c : List Char}, strLt a b = true → strLt b c = true → strLt a c = true
  | [], [], _, h, _ => by simp [strLt] at h
  | [], _ :: _, [], _, h => by simp [strLt] at h
  | [], _ :: _, _ :: _, _, _ => rfl
  | _ :: _, [], _, h, _ => by simp [strLt] at h
  | _ :: _, _ :: _, [], _, h => by simp [strLt] at h
  | x :: xs, y :: ys, z :: zs, h1, h2 => by
    simp only [strLt] at h1 h2 ⊢
    by_cases hxy : x.toNat < y.toNat
    · by_cases hyz : y.toNat < z.toNat
      · rw [if_pos (by omega)]
      · rw [if_neg hyz] at h2
        by_cases hzy : z.toNat < y.toNat
        · rw [if_pos hzy] at h2; cases h2
        · rw [if_pos (by omega)]
    · rw [if_neg hxy] at h1
      by_cases hyx : y.toNat < x.toNat
      · rw [if_pos hyx] at h1; cases h1
      · rw [if_neg hyx] at h1
        by_cases hyz : y.toNat < z.toNat
        · rw [if_pos (by omega)]
        · rw [if_neg hyz] at h2
          by_cases hzy : z.toNat < y.toNat
          · rw [if_pos hzy] at h2; cases h2
          · rw [if_neg hzy] at h2
            rw [if_neg (by omega), if_neg (by omega)]
            exact strLt_trans h1 h2

theorem strLt_total : ∀ {a b : List Char}, strLt a b = false → strLt b a = false → a = b
  | [], [], _, _ => rfl
  | [], _ :: _, h, _ => by simp [strLt] at h
  | _ :: _, [], _, h => by simp [strLt] at h
  | x :: xs, y :: ys, h1, h2 => by
    simp only [strLt] at h1 h2
    by_cases hxy : x.toNat < y.toNat
    · rw [if_pos hxy] at h1; cases h1
    · by_cases hyx : y.toNat < x.toNat
      · rw [if_pos hyx] at h2; cases h2
      · rw [if_neg hxy, if_neg hyx] at h1
        rw [if_neg hyx, if_neg hxy] at h2
        have hx : x = y := by
          apply Char.ext
          apply UInt32.toNat_inj.1
          simp only [Char.toNat] at hxy hyx
          omega
        rw [hx, strLt_total h1 h2]

theorem TestType.val_inj {a b : TestType} (h : a.val = b.val) : a = b := by
  cases a <;> cases b <;> first | rfl | (exact absurd h (by decide))

/-- The order on test keys is a strict total order: irreflexive, transitive, and two keys that do not compare are
equal.  Hence the map never merges different keys. -/
theorem C38_strict_total_order :
    (∀ a : TestKey, a.lt a = false) ∧
    (∀ a b c : TestKey, a.lt b = true → b.lt c = true → a.lt c = true) ∧
    (∀ a b : TestKey, a.lt b = false → b.lt a = false → a = b) := by
  refine ⟨fun a => by simp [TestKey.lt], ?_, ?_⟩
  · rintro ⟨t1, s1⟩ ⟨t2, s2⟩ ⟨t3, s3⟩ h1 h2
    simp only [TestKey.lt] at h1 h2 ⊢
    by_cases h12 : t1 = t2
    · subst h12
      by_cases h13 : t1 = t3
      · subst h13
        simp only [ne_eq, not_true_eq_false, if_false] at h1 h2 ⊢
        by_cases hs12 : s1 = s2
        · simp [hs12] at h1
        · by_cases hs23 : s2 = s3
          · simp [hs23] at h2
          · simp only [hs12, hs23, not_false_eq_true, if_true] at h1 h2
            have h3 := strLt_trans h1 h2
            have hs13 : s1 ≠ s3 := by
              rintro rfl
              rw [strLt_irrefl] at h3; cases h3
            simp only [ne_eq, hs13, not_false_eq_true, if_true, h3]
      · simpa [h13] using h2
    · simp only [ne_eq, h12, not_false_eq_true, if_true, decide_eq_true_eq] at h1
      by_cases h23 : t2 = t3
      · subst h23; simp [h12, h1]
      · simp only [ne_eq, h23, not_false_eq_true, if_true, decide_eq_true_eq] at h2
        have h13 : t1 ≠ t3 := by rintro rfl; omega
        simp only [ne_eq, h13, not_false_eq_true, if_true, decide_eq_true_eq]; omega
  · rintro ⟨t1, s1⟩ ⟨t2, s2⟩ h1 h2
    simp only [TestKey.lt] at h1 h2
    by_cases h12 : t1 = t2
    · subst h12
      by_cases hs : s1 = s2
      · rw [hs]
      · simp only [ne_eq, not_true_eq_false, if_false, hs, not_false_eq_true, if_true, show ¬ s2 = s1 from fun h => hs h.symm] at h1 h2
        exact absurd (String.toList_inj.1 (strLt_total h1 h2)) hs
    · have h21 : ¬ t2 = t1 := fun h => h12 h.symm
      simp only [ne_eq, h12, h21, not_false_eq_true, if_true, decide_eq_false_iff_not] at h1 h2
      exact absurd (TestType.val_inj (by omega)) h12

/-- Map entries in strictly increasing key order. -/
def Ordered (m : ResultMap K) : Prop := m.Pairwise (fun a b => a.1.lt b.1 = true)

theorem mapPush_mem (key : TestKey) (r : TestResult K) (m : ResultMap K) :
    ∀ e ∈ mapPush key r m, e.1 = key ∨ ∃ e' ∈ m, e'.1 = e.1 := by
  induction m with
  | nil => intro e he; simp [mapPush] at he; left; rw [he]
  | cons a m ih =>
    obtain ⟨k, rs⟩ := a
    intro e he
    simp only [mapPush] at he
    split at he
    · rcases List.mem_cons.1 he with rfl | he
      · right; exact ⟨_, List.mem_cons_self, rfl⟩
      · rcases ih e he with h | ⟨e', h1, h2⟩
        · exact Or.inl h
        · exact Or.inr ⟨e', List.mem_cons_of_mem _ h1, h2⟩
    · split at he
      · rcases List.mem_cons.1 he with rfl | he
        · exact Or.inl rfl
        · exact Or.inr ⟨e, he, rfl⟩
      · rcases List.mem_cons.1 he with rfl | he
        · right; exact ⟨_, List.mem_cons_self, rfl⟩
        · exact Or.inr ⟨e, List.mem_cons_of_mem _ he, rfl⟩

theorem mapPush_ordered (key : TestKey) (r : TestResult K) (m : ResultMap K) (h : Ordered m) :
    Ordered (mapPush key r m) := by
  obtain ⟨hirr, htr, htot⟩ := C38_strict_total_order
  induction m with
  | nil => simp [mapPush, Ordered]
  | cons a m ih =>
    obtain ⟨k, rs⟩ := a
    have h' := List.pairwise_cons.1 h
    simp only [mapPush]
    split
    · next hk =>
      apply List.pairwise_cons.2
      refine ⟨fun e he => ?_, ih h'.2⟩
      rcases mapPush_mem key r m e he with he | ⟨e', h1, h2⟩
      · rw [he]; exact hk
      · rw [← h2]; exact h'.1 e' h1
    · split
      · next hk1 hk2 =>
        apply List.pairwise_cons.2
        refine ⟨fun e he => ?_, h⟩
        rcases List.mem_cons.1 he with rfl | he
        · exact hk2
        · exact htr _ _ _ hk2 (h'.1 e he)
      · exact List.pairwise_cons.2 ⟨fun e he => h'.1 e he, h'.2⟩

theorem mapFind_push (key key' : TestKey) (r : TestResult K) (m : ResultMap K) (h : Ordered m) :
    (mapFind key' (mapPush key r m)).getD [] = (mapFind key' m).getD [] ++ (if key = key' then [r] else []) := by
  obtain ⟨hirr, htr, htot⟩ := C38_strict_total_order
  induction m with
  | nil =>
    by_cases hk : key = key'
    · subst hk; simp [mapPush, mapFind, hirr]
    · simp only [mapPush, mapFind, hk, if_false]
      by_cases h1 : key.lt key' = true
      · simp [h1]
      · by_cases h2 : key'.lt key = true
        · simp [h1, h2]
        · exact absurd (htot _ _ (by simpa using h1) (by simpa using h2)) hk
  | cons a m ih =>
    obtain ⟨k, rs⟩ := a
    have h' := List.pairwise_cons.1 h
    simp only [mapPush]
    by_cases hk : k.lt key = true
    · rw [if_pos hk]
      simp only [mapFind]
      by_cases hk' : k.lt key' = true
      · rw [if_pos hk', if_pos hk']; exact ih h'.2
      · rw [if_neg hk', if_neg hk']
        have hne : key ≠ key' := by rintro rfl; exact hk' hk
        rw [if_neg hne, List.append_nil]
    · rw [if_neg hk]
      by_cases hk2 : key.lt k = true
      · rw [if_pos hk2]
        rw [mapFind]
        by_cases h1 : key.lt key' = true
        · have hne : key ≠ key' := by rintro rfl; rw [hirr] at h1; cases h1
          rw [if_pos h1, if_neg hne, List.append_nil]
        · rw [if_neg h1]
          by_cases h2 : key'.lt key = true
          · have hne : key ≠ key' := by rintro rfl; rw [hirr] at h2; cases h2
            have h3 : ¬ k.lt key' = true := fun h3 => by
              have := htr _ _ _ hk2 (htr _ _ _ h3 h2)
              rw [hirr] at this; cases this
            rw [if_pos h2, if_neg hne, mapFind, if_neg h3, if_pos (htr _ _ _ h2 hk2)]; rfl
          · have he := htot _ _ (by simpa using h1) (by simpa using h2)
            subst he
            rw [if_neg h2, mapFind, if_neg hk, if_pos hk2]; simp
      · rw [if_neg hk2]
        have he := htot _ _ (by simpa using hk) (by simpa using hk2)
        subst he
        simp only [mapFind]
        by_cases h1 : k.lt key' = true
        · have hne : k ≠ key' := by rintro rfl; rw [hirr] at h1; cases h1
          rw [if_pos h1, if_pos h1, if_neg hne, List.append_nil]
        · by_cases h2 : key'.lt k = true
          · have hne : k ≠ key' := by rintro rfl; rw [hirr] at h2; cases h2
            rw [if_neg h1, if_neg h1, if_pos h2, if_pos h2, if_neg hne, List.append_nil]
          · have he := htot _ _ (by simpa using h1) (by simpa using h2)
            subst he
            simp [hirr]

theorem ordered_foldl (rs : List (TestResult K)) (b : Battery K) (h : Ordered b.results) :
    Ordered (rs.foldl Battery.add b).results := by
  induction rs generalizing b with
  | nil => exact h
  | cons r rs ih => exact ih _ (mapPush_ordered _ _ _ h)

theorem get_foldl (rs : List (TestResult K)) (b : Battery K) (h : Ordered b.results) (key : TestKey) :
    (rs.foldl Battery.add b).get key = b.get key ++ rs.filter (fun r => r.key = key) := by
  induction rs generalizing b with
  | nil => simp
  | cons r rs ih =>
    rw [List.foldl_cons, ih _ (mapPush_ordered _ _ _ h)]
    have : (b.add r).get key = b.get key ++ (if r.key = key then [r] else []) := mapFind_push r.key key r b.results h
    rw [this, List.append_assoc]
    congr 1
    by_cases hk : r.key = key
    · simp [hk]
    · simp [hk]

/-- An empty battery, then any sequence of `add`s: looking up a key gives exactly the results added with that key, in
the order they were added; nothing is lost and nothing is filed elsewhere. -/
theorem C38_lookup (subject : String) (n : BitVec 64) (samples bits : Nat) (rs : List (TestResult K)) (key : TestKey) :
    (rs.foldl Battery.add ⟨subject, n, samples, bits, []⟩).get key = rs.filter (fun r => r.key = key) := by
  rw [get_foldl rs ⟨subject, n, samples, bits, []⟩ List.Pairwise.nil]; simp [Battery.get, mapFind]

theorem mapFind_of_mem (m : ResultMap K) (h : Ordered m) (e : TestKey × List (TestResult K)) (he : e ∈ m) :
    mapFind e.1 m = some e.2 := by
  obtain ⟨hirr, htr, htot⟩ := C38_strict_total_order
  induction m with
  | nil => cases he
  | cons a m ih =>
    have h' := List.pairwise_cons.1 h
    rcases List.mem_cons.1 he with rfl | hem
    · obtain ⟨k, rs⟩ := e; simp [mapFind, hirr]
    · obtain ⟨k, rs⟩ := a
      simp only [mapFind]
      rw [if_pos (h'.1 e hem)]
      exact ih h'.2 hem

theorem mem_of_mapFind (m : ResultMap K) (key : TestKey) (rs) (h : mapFind key m = some rs) : (key, rs) ∈ m := by
  obtain ⟨hirr, htr, htot⟩ := C38_strict_total_order
  induction m with
  | nil => simp [mapFind] at h
  | cons a m ih =>
    obtain ⟨k, rs'⟩ := a
    simp only [mapFind] at h
    split at h
    · exact List.mem_cons_of_mem _ (ih h)
    · next h1 =>
      split at h
      · cases h
      · next h2 =>
        have := htot _ _ (by simpa using h1) (by simpa using h2)
        subst this
        cases h
        exact List.mem_cons_self

/-- The entries of such a map: keys strictly increasing (so pairwise distinct), every entry non-empty and equal to the
results added with its key, and every added key present.  In particular the number of stored results is the number of
added results. -/
theorem C38_entries (subject : String) (n : BitVec 64) (samples bits : Nat) (rs : List (TestResult K)) :
    let m := (rs.foldl Battery.add ⟨subject, n, samples, bits, []⟩).results
    m.Pairwise (fun a b => a.1.lt b.1 = true) ∧
    (∀ e ∈ m, e.2 ≠ [] ∧ e.2 = rs.filter (fun r => r.key = e.1)) ∧
    (∀ r ∈ rs, ∃ e ∈ m, e.1 = r.key ∧ r ∈ e.2) ∧
    (m.map (fun e => e.2.length)).sum = rs.length := by
  intro m
  have hord : Ordered m := ordered_foldl rs _ List.Pairwise.nil
  have hget : ∀ key, (mapFind key m).getD [] = rs.filter (fun r => r.key = key) := C38_lookup subject n samples bits rs
  have hne : ∀ e ∈ m, e.2 ≠ [] := by
    have : ∀ (rs : List (TestResult K)) (b : Battery K), (∀ e ∈ b.results, e.2 ≠ []) →
        ∀ e ∈ (rs.foldl Battery.add b).results, e.2 ≠ [] := by
      intro rs
      induction rs with
      | nil => intro b h; exact h
      | cons r rs ih =>
        intro b h
        apply ih
        have : ∀ m : ResultMap K, (∀ e ∈ m, e.2 ≠ []) → ∀ e ∈ mapPush r.key r m, e.2 ≠ [] := by
          intro m
          induction m with
          | nil => intro _ e he; simp [mapPush] at he; rw [he]; simp
          | cons a m ih =>
            obtain ⟨k, rs⟩ := a
            intro h e he
            simp only [mapPush] at he
            split at he
            · rcases List.mem_cons.1 he with rfl | he
              · exact h _ List.mem_cons_self
              · exact ih (fun e he => h e (List.mem_cons_of_mem _ he)) e he
            · split at he
              · rcases List.mem_cons.1 he with rfl | he
                · simp
                · exact h e he
              · rcases List.mem_cons.1 he with rfl | he
                · simp
                · exact h e (List.mem_cons_of_mem _ he)
        exact this _ h
    exact this rs _ (by simp)
  have hfil : ∀ e ∈ m, e.2 = rs.filter (fun r => r.key = e.1) := by
    intro e he
    have := hget e.1
    rw [mapFind_of_mem m hord e he] at this
    exact this
  refine ⟨hord, fun e he => ⟨hne e he, hfil e he⟩, ?_, ?_⟩
  · intro r hr
    have hg := hget r.key
    have hmem : r ∈ rs.filter (fun r' => r'.key = r.key) := by simp [hr]
    rcases hf : mapFind r.key m with _ | l
    · rw [hf] at hg; simp only [Option.getD_none] at hg; rw [← hg] at hmem; cases hmem
    · rw [hf] at hg
      exact ⟨(r.key, l), mem_of_mapFind m r.key l hf, rfl, by rw [show l = _ from hg]; exact hmem⟩
  · have key : ∀ (m : ResultMap K) (r : TestResult K), ((mapPush r.key r m).map (fun e => e.2.length)).sum
        = (m.map (fun e => e.2.length)).sum + 1 := by
      intro m r
      induction m with
      | nil => simp [mapPush]
      | cons a m ih =>
        obtain ⟨k, rs⟩ := a
        simp only [mapPush]
        split
        · simp only [List.map_cons, List.sum_cons, ih]; omega
        · split
          · simp only [List.map_cons, List.sum_cons, List.length_singleton]; omega
          · simp only [List.map_cons, List.sum_cons, List.length_append, List.length_singleton]; omega
    have : ∀ (rs : List (TestResult K)) (b : Battery K), (((rs.foldl Battery.add b).results).map (fun e => e.2.length)).sum
        = (b.results.map (fun e => e.2.length)).sum + rs.length := by
      intro rs
      induction rs with
      | nil => intro b; simp
      | cons r rs ih =>
        intro b
        rw [List.foldl_cons, ih, Battery.add, key, List.length_cons]; omega
    rw [this rs _]; simp

/-- Non-vacuity: three results under two keys, added in "wrong" order. -/
example : (([⟨"a", "m", 1#64, ⟨.gap, "x"⟩, ⟨.chi2, 0, 0, 1⟩⟩, ⟨"b", "m", 1#64, ⟨.mean, ""⟩, ⟨.chi2, 1, 0, 1⟩⟩,
    ⟨"c", "m", 1#64, ⟨.gap, "x"⟩, ⟨.chi2, 2, 0, 1⟩⟩] : List (TestResult Nat)).foldl Battery.add ⟨"", 1#64, 1, 8, []⟩).results.map
      (fun e => (e.1, e.2.map (·.streamName))) = [(⟨.mean, ""⟩, ["b"]), (⟨.gap, "x"⟩, ["a", "c"])] := by decide +kernel

/-! ### C39 -/

/-- Every test type has exactly one row in the catalogue, the lookup returns it, and the default test list is exactly the
twelve types, each once. -/
theorem C39_catalogue (t : TestType) :
    (getTests.filter (fun d => d.type = t)).length = 1 ∧ getTestDefinition t ∈ getTests ∧
    (getTestDefinition t).type = t ∧ defaultTestTypes.count t = 1 := by
  cases t <;> decide

/-- Every test can be run somehow, and exactly the last two (sac, bic) are mixer tests. -/
theorem C39_kinds (t : TestType) :
    (getTestDefinition t).hasStream = !(getTestDefinition t).hasMixer ∧
    ((getTestDefinition t).hasMixer = true ↔ t = .sac ∨ t = .bic) := by
  cases t <;> decide

/-- Display names are pairwise distinct. -/
theorem C39_names_injective (a b : TestType) (h : getTestName a = getTestName b) : a = b := by
  cases a <;> cases b <;> first | rfl | exact absurd h (by decide)

theorem name_no_colon (t : TestType) : ':' ∉ (getTestName t).toList := by
  cases t <;> decide

theorem append_colon_inj {a b : List Char} (ha : ':' ∉ a) (hb : ':' ∉ b) {s t : List Char}
    (hs : s = [] ∨ ∃ r, s = ':' :: r) (ht : t = [] ∨ ∃ r, t = ':' :: r) (h : a ++ s = b ++ t) : a = b ∧ s = t := by
  induction a generalizing b with
  | nil =>
    cases b with
    | nil => exact ⟨rfl, h⟩
    | cons x b =>
      rcases hs with rfl | ⟨r, rfl⟩
      · simp at h
      · simp only [List.nil_append, List.cons_append, List.cons.injEq] at h
        exact absurd (by rw [h.1]; exact List.mem_cons_self) hb
  | cons x a ih =>
    cases b with
    | nil =>
      rcases ht with rfl | ⟨r, rfl⟩
      · simp at h
      · simp only [List.nil_append, List.cons_append, List.cons.injEq] at h
        exact absurd (by rw [← h.1]; exact List.mem_cons_self) ha
    | cons y b =>
      simp only [List.cons_append, List.cons.injEq] at h
      obtain ⟨h1, h2⟩ := ih (fun hm => ha (List.mem_cons_of_mem _ hm)) (fun hm => hb (List.mem_cons_of_mem _ hm)) h.2
      exact ⟨by rw [h.1, h1], h2⟩

/-- A printed key identifies its key, whatever the sub-test names. -/
theorem C39_printed_key_injective (a b : TestKey) (h : a.toStr = b.toStr) : a = b := by
  obtain ⟨ta, sa⟩ := a
  obtain ⟨tb, sb⟩ := b
  have hl := congrArg String.toList h
  simp only [TestKey.toStr, String.toList_append] at hl
  have hs : ∀ s : String, (if s.isEmpty = true then "" else ":" ++ s).toList = [] ∨
      ∃ r, (if s.isEmpty = true then "" else ":" ++ s).toList = ':' :: r := by
    intro s
    by_cases hs : s.isEmpty = true
    · left; simp [hs]
    · right; exact ⟨s.toList, by rw [if_neg hs, String.toList_append]; rfl⟩
  obtain ⟨h1, h2⟩ := append_colon_inj (name_no_colon ta) (name_no_colon tb) (hs sa) (hs sb) hl
  have ht := C39_names_injective _ _ (String.toList_inj.1 h1)
  subst ht
  have h3 := String.toList_inj.1 h2
  congr 1
  by_cases hsa : sa.isEmpty = true
  · by_cases hsb : sb.isEmpty = true
    · rw [String.isEmpty_iff] at hsa hsb; rw [hsa, hsb]
    · rw [if_pos hsa, if_neg hsb] at h3
      have := congrArg String.toList h3
      rw [String.toList_append] at this
      simp at this
  · by_cases hsb : sb.isEmpty = true
    · rw [if_neg hsa, if_pos hsb] at h3
      have := congrArg String.toList h3
      rw [String.toList_append] at this
      simp at this
    · rw [if_neg hsa, if_neg hsb] at h3
      have := congrArg String.toList h3
      rw [String.toList_append, String.toList_append] at this
      exact String.toList_inj.1 (List.append_cancel_left this)

example : (⟨.gap, "s1"⟩ : TestKey).toStr = "gap:s1" ∧ (⟨.gap, ""⟩ : TestKey).toStr = "gap" := by decide +kernel

end TFR
