import Verif.Model.Text
import Mathlib.Tactic.IntervalCases
import Mathlib.Data.List.Infix
import Mathlib.Data.List.Intervals
/-
C65: text helpers.
-/
namespace TFR

/-- Replacing every occurrence, scanning from left to right: at each position, an occurrence of `needle` is replaced and skipped,
any other character is kept. -/
def Spec.substitute {α : Type} [DecidableEq α] (needle rep : List α) (hne : needle ≠ []) : List α → List α
  | [] => []
  | a :: s => if needle <+: (a :: s) then rep ++ Spec.substitute needle rep hne ((a :: s).drop needle.length)
      else a :: Spec.substitute needle rep hne s
termination_by s => s.length
decreasing_by
  · have := List.length_pos_iff.2 hne
    simp only [List.length_drop, List.length_cons]; omega
  · simp

open Spec
section
variable {α : Type} [DecidableEq α]

private theorem occ_iff {s needle : List α} {i : Nat} : (s.drop i).take needle.length = needle ↔ needle <+: s.drop i := by
  rw [List.prefix_iff_eq_take]; exact eq_comm

private theorem find_none {s needle : List α} {pos : Nat} (h : strFind s needle pos = none) (i : Nat) (hi : pos ≤ i)
    (hne : needle ≠ []) : ¬ needle <+: s.drop i := by
  intro hp
  unfold strFind at h
  rw [List.find?_eq_none] at h
  have hl := hp.length_le
  have := List.length_pos_iff.2 hne
  rw [List.length_drop] at hl
  have := h i (List.mem_range.2 (by omega))
  simp only [Bool.and_eq_true, decide_eq_true_eq, not_and] at this
  exact this hi (occ_iff.2 hp)

private theorem find_some {s needle : List α} {pos p : Nat} (h : strFind s needle pos = some p) :
    pos ≤ p ∧ needle <+: s.drop p ∧ ∀ i, pos ≤ i → i < p → ¬ needle <+: s.drop i := by
  obtain ⟨h1, h2, h3⟩ := strFind_some h
  refine ⟨h1, occ_iff.1 h3, fun i hi hip hpre => ?_⟩
  unfold strFind at h
  rw [List.find?_eq_some_iff_getElem] at h
  obtain ⟨_, j, hj, hjp, hall⟩ := h
  simp only [List.getElem_range] at hjp
  subst hjp
  have := hall i hip
  simp only [List.getElem_range, Bool.not_eq_true', Bool.and_eq_false_imp, decide_eq_true_eq, decide_eq_false_iff_not] at this
  exact this hi (occ_iff.2 hpre)

/-- `find` without a limit, as a fact about substrings. -/
theorem C65_contains (s needle : List α) : strContains s needle = true ↔ needle <:+: s := by
  unfold strContains
  by_cases hne : needle = []
  · subst hne
    simp [strFind, List.nil_infix, List.range_succ_eq_map]
  constructor
  · intro h
    obtain ⟨p, hp⟩ := Option.isSome_iff_exists.1 h
    exact (find_some hp).2.1.isInfix.trans (List.drop_suffix p s).isInfix
  · rintro ⟨a, b, rfl⟩
    by_contra hcon
    rw [Bool.not_eq_true, Option.isSome_eq_false_iff, Option.isNone_iff_eq_none] at hcon
    exact find_none hcon a.length (Nat.zero_le _) hne ⟨b, by simp⟩

private theorem subst_skip (needle rep : List α) (hne : needle ≠ []) (s : List α) (k : Nat) (hk : k ≤ s.length)
    (h : ∀ i, i < k → ¬ needle <+: s.drop i) :
    substitute needle rep hne s = s.take k ++ substitute needle rep hne (s.drop k) := by
  induction k generalizing s with
  | zero => simp
  | succ k ih =>
    cases s with
    | nil => simp at hk
    | cons a s =>
      rw [substitute]
      rw [if_neg (by simpa using h 0 (by omega))]
      rw [ih s (by simpa using hk) (fun i hi => by simpa using h (i + 1) (by omega))]
      simp

private theorem subst_hit (needle rep : List α) (hne : needle ≠ []) (s : List α) (h : needle <+: s) :
    substitute needle rep hne s = rep ++ substitute needle rep hne (s.drop needle.length) := by
  cases s with
  | nil => exact absurd (List.prefix_nil.1 h) hne
  | cons a s => rw [substitute, if_pos h]

private theorem subst_none (needle rep : List α) (hne : needle ≠ []) (s : List α)
    (h : ∀ i, ¬ needle <+: s.drop i) : substitute needle rep hne s = s := by
  have := subst_skip needle rep hne s s.length le_rfl (fun i _ => h i)
  rw [this]; simp [substitute]

private theorem replaceLoop_eq (needle rep : List α) (hne : needle ≠ []) (s : List α) (start : Nat) (hs : start ≤ s.length) :
    replaceLoop needle rep hne s start = s.take start ++ substitute needle rep hne (s.drop start) := by
  induction s, start using replaceLoop.induct (needle := needle) (rep := rep) (hne := hne) with
  | case1 s start h =>
    rw [replaceLoop]
    split
    · rw [subst_none]
      · simp
      · intro i
        rw [List.drop_drop]
        exact find_none h _ (by omega) hne
    · rename_i p hp; rw [h] at hp; cases hp
  | case2 s start p h ih =>
    rw [replaceLoop]
    split
    · rename_i hn; rw [h] at hn; cases hn
    · rename_i p' hp'
      rw [h] at hp'
      cases hp'
      obtain ⟨h1, h2, h3⟩ := find_some h
      have hp2 := (strFind_some h).2.1
      rw [ih (by simp only [List.length_append, List.length_take, List.length_drop]; omega)]
      rw [subst_skip needle rep hne (s.drop start) (p - start) (by rw [List.length_drop]; omega)
        (fun i hi => by rw [List.drop_drop]; exact h3 _ (by omega) (by omega))]
      rw [List.drop_drop, show start + (p - start) = p by omega, subst_hit needle rep hne _ h2, List.drop_drop]
      have e1 : List.take (p + rep.length) (List.take p s ++ rep ++ List.drop (p + needle.length) s) = List.take p s ++ rep := by
        apply List.take_left'
        simp only [List.length_append, List.length_take]; omega
      have e2 : List.drop (p + rep.length) (List.take p s ++ rep ++ List.drop (p + needle.length) s) =
          List.drop (p + needle.length) s := by
        apply List.drop_left'
        simp only [List.length_append, List.length_take]; omega
      rw [e1, e2, ← List.append_assoc (List.take start s), ← List.append_assoc]
      congr 2
      rw [← List.take_add, show start + (p - start) = p by omega]

/-- C65. `replace_all` replaces every occurrence in one left-to-right scan, and the inserted text is not scanned again; with an
empty needle the text is returned unchanged. -/
theorem C65_replace_all (s needle rep : List α) :
    replaceAll s needle rep = if hne : needle = [] then s else substitute needle rep hne s := by
  unfold replaceAll
  by_cases hne : needle = []
  · rw [dif_pos hne, dif_pos hne]
  · rw [dif_neg hne, dif_neg hne, replaceLoop_eq _ _ _ _ _ (Nat.zero_le _)]; simp

/-- C65. A text in which the needle does not occur is unchanged. -/
theorem C65_replace_none (s needle rep : List α) (h : strContains s needle = false) : replaceAll s needle rep = s := by
  rw [C65_replace_all]
  split
  · rfl
  · apply subst_none
    intro i hi
    have : needle <:+: s := hi.isInfix.trans (List.drop_suffix i s).isInfix
    rw [← C65_contains] at this
    rw [h] at this; cases this

/-- C65. `join` puts the delimiter between the non-empty strings and drops the empty ones. -/
theorem C65_join (strs : List (List α)) (delimiter : List α) :
    strJoin strs delimiter = delimiter.intercalate (strs.filter (· ≠ [])) := by
  have gen : ∀ (strs : List (List α)) (r : List α), r ≠ [] →
      strs.foldl (fun r s => if s = [] then r else (if r = [] then r else r ++ delimiter) ++ s) r =
        r ++ ((strs.filter (· ≠ [])).map (delimiter ++ ·)).flatten := by
    intro strs
    induction strs with
    | nil => simp
    | cons s strs ih =>
      intro r hr
      rw [List.foldl_cons]
      by_cases hs : s = []
      · rw [if_pos hs, ih r hr]; simp [hs]
      · rw [if_neg hs, if_neg hr, ih _ (by simp [hr])]
        simp [hs]
  have inter : ∀ (s : List α) (l : List (List α)), delimiter.intercalate (s :: l) = s ++ (l.map (delimiter ++ ·)).flatten := by
    intro s l
    induction l generalizing s with
    | nil => simp [List.intercalate]
    | cons t l ih =>
      have : delimiter.intercalate (s :: t :: l) = s ++ delimiter ++ delimiter.intercalate (t :: l) := by
        simp [List.intercalate, List.intersperse]
      rw [this, ih]; simp
  unfold strJoin
  induction strs with
  | nil => simp [List.intercalate]
  | cons s strs ih =>
    rw [List.foldl_cons]
    by_cases hs : s = []
    · rw [if_pos hs, ih]; simp [hs]
    · rw [if_neg hs, if_pos rfl, gen _ _ (by simp [hs])]
      simp [hs, inter]

end

private theorem subst_char (c : Char) (rep s : List Char) (h : [c] ≠ []) :
    substitute [c] rep h s = s.flatMap fun d => if d = c then rep else [d] := by
  induction s with
  | nil => simp [substitute]
  | cons a s ih =>
    rw [substitute]
    by_cases hc : a = c
    · subst hc; rw [if_pos (by simp)]; simp [ih]
    · rw [if_neg (by simpa using fun h => hc h.symm), ih]; simp [hc]

private theorem escape_spec (text : List Char) :
    escapeForMd text = text.flatMap fun c => if c ∈ specialChars then ['\\', c] else [c] := by
  -- escaping the characters of `done ∋ '\\'`, then `c ∉ done`
  have step : ∀ (done : List Char) (c : Char), '\\' ∈ done → c ∉ done → ∀ text : List Char,
      replaceAll (text.flatMap fun d => if d ∈ done then ['\\', d] else [d]) [c] ['\\', c] =
        text.flatMap fun d => if d ∈ done ++ [c] then ['\\', d] else [d] := by
    intro done c hb hc text
    rw [C65_replace_all, dif_neg (by simp), subst_char, List.flatMap_assoc]
    congr 1
    funext d
    have hbc : '\\' ≠ c := fun h => hc (h ▸ hb)
    by_cases hd : d ∈ done
    · have hdc : d ≠ c := fun h => hc (h ▸ hd)
      simp [hd, hbc, hdc]
    · by_cases hdc : d = c
      · subst hdc; simp [hd]
      · simp [hd, hdc]
  have all : ∀ (rest done : List Char), '\\' ∈ done → (done ++ rest).Nodup → ∀ text : List Char,
      rest.foldl (fun t c => replaceAll t [c] ['\\', c]) (text.flatMap fun d => if d ∈ done then ['\\', d] else [d]) =
        text.flatMap fun d => if d ∈ done ++ rest then ['\\', d] else [d] := by
    intro rest
    induction rest with
    | nil => intro done _ _ text; simp
    | cons c rest ih =>
      intro done hb hnd text
      rw [List.foldl_cons, step done c hb, ih (done ++ [c]) (by simp [hb]) (by simpa using hnd)]
      · simp
      · intro hc
        have := (List.nodup_append.1 hnd).2.2 c hc c (by simp)
        exact this rfl
  unfold escapeForMd
  have hsplit : specialChars = ['\\'] ++ specialChars.tail := rfl
  conv_lhs => rw [hsplit]
  rw [List.foldl_append, List.foldl_cons, List.foldl_nil]
  have h0 : replaceAll text ['\\'] ['\\', '\\'] = text.flatMap fun d => if d ∈ ['\\'] then ['\\', d] else [d] := by
    rw [C65_replace_all, dif_neg (by simp), subst_char]
    congr 1
    funext d
    by_cases hd : d = '\\' <;> simp [hd]
  rw [h0, all _ _ (by simp) (by decide)]
  rfl

/-- Markdown's reading of a backslash: it makes the next character literal. -/
def Spec.unescape : List Char → List Char
  | [] => []
  | ['\\'] => ['\\']
  | c :: d :: s => if c = '\\' then d :: Spec.unescape s else c :: Spec.unescape (d :: s)
  | [c] => [c]

/-- The characters with a meaning in Markdown. -/
def Spec.markdown : List Char := "\\`*_{}[]()#+-.!".toList

/-- C65. `escape_for_md` puts one backslash in front of every special character (the backslash included) and changes nothing
else. -/
theorem C65_escape (text : List Char) :
    escapeForMd text = text.flatMap fun c => if c ∈ Spec.markdown then ['\\', c] else [c] := by
  rw [escape_spec]
  have : specialChars = Spec.markdown := by decide
  rw [this]

/-- C65. Nothing is lost: reading every backslash as "the next character is literal" gives the original text back; so different
texts have different escaped forms. -/
theorem C65_unescape (text : List Char) : unescape (escapeForMd text) = text := by
  rw [escape_spec]
  induction text with
  | nil => simp [unescape]
  | cons c text ih =>
    rw [List.flatMap_cons]
    by_cases hc : c ∈ specialChars
    · rw [if_pos hc]
      simp only [List.cons_append, List.nil_append]
      rw [unescape, if_pos rfl, ih]
    · rw [if_neg hc]
      have hb : c ≠ '\\' := by rintro rfl; exact hc (by decide)
      simp only [List.cons_append, List.nil_append]
      cases h : (text.flatMap fun c => if c ∈ specialChars then ['\\', c] else [c]) with
      | nil =>
        rw [h] at ih
        rw [← ih]
        unfold unescape
        split <;> simp_all [unescape]
      | cons d s =>
        rw [h] at ih
        rw [unescape, if_neg hb, ih]

theorem C65_escape_injective : Function.Injective escapeForMd := fun a b h => by
  rw [← C65_unescape a, ← C65_unescape b, h]

private theorem toLowerC_eq : toLowerC = Char.toLower := by
  funext c
  unfold toLowerC
  by_cases h : 'A' ≤ c ∧ c ≤ 'Z'
  · have h1 : 65 ≤ c.toNat := h.1
    have h2 : c.toNat ≤ 90 := h.2
    rw [if_pos h]
    apply Char.toNat_inj.1
    have : c = Char.ofNat c.toNat := (Char.ofNat_toNat c).symm
    rw [this]
    generalize c.toNat = k at h1 h2
    interval_cases k <;> rfl
  · rw [if_neg h]
    symm
    unfold Char.toLower
    rw [dif_neg]
    exact h

/-- C65. `contains_ignore_case` finds a substring equal up to ASCII case; searching for the empty string succeeds in every text but
the empty one (where `contains` succeeds). -/
theorem C65_contains_ignore_case (s needle : List Char) :
    containsIgnoreCase s needle = true ↔ needle.map Char.toLower <:+: s.map Char.toLower ∧ (needle = [] → s ≠ []) := by
  rw [← toLowerC_eq]
  unfold containsIgnoreCase
  by_cases hne : needle = []
  · subst hne
    cases s <;> simp [List.nil_infix]
  · have hlen := List.length_pos_iff.2 hne
    simp only [if_neg hne]
    simp only [hne, false_imp_iff, and_true, decide_eq_true_eq]
    cases hf : (List.range (s.length + 1 - needle.length)).find? (fun i =>
        decide (((s.drop i).take needle.length).map toLowerC = needle.map toLowerC)) with
    | none =>
      simp only [Option.getD_none, ne_eq, not_true_eq_false, false_iff]
      rintro ⟨a, b, hab⟩
      rw [List.find?_eq_none] at hf
      have hl := congrArg List.length hab
      simp only [List.length_append, List.length_map] at hl
      have := hf a.length (List.mem_range.2 (by omega))
      rw [decide_eq_true_eq] at this
      apply this
      rw [List.map_take, List.map_drop, ← hab]
      simp
    | some p =>
      have h1 := List.find?_some hf
      have h2 := List.mem_of_find?_eq_some hf
      rw [decide_eq_true_eq] at h1
      rw [List.mem_range] at h2
      simp only [Option.getD_some]
      constructor
      · intro _
        rw [← h1]
        exact (((List.take_prefix _ _).isInfix).trans (List.drop_suffix p s).isInfix).map _
      · intro _; omega

-- Concrete cases: overlapping occurrences, text that contains the inserted text, escaping, joining, case.
example : replaceAll "aaaa".toList "aa".toList "a".toList = "aa".toList := by
  rw [C65_replace_all, dif_neg (by decide)]; simp [substitute]
example : escapeForMd "a_b\\".toList = "a\\_b\\\\".toList := by rw [C65_escape]; decide
example : strJoin ["".toList, "a".toList, "".toList, "b".toList] ", ".toList = "a, b".toList := by decide
example : containsIgnoreCase "Hello World".toList "LO w".toList = true ∧ containsIgnoreCase [] [] = false ∧
    strContains ([] : List Char) [] = true := by decide

end TFR
