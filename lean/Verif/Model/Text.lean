import Verif.Model.Basic
/-
Text helpers of core/src/util/algo.h.  A C++ `std::string` is a list of characters; the element type is
a parameter wherever the code only compares characters (C++ `char`s are bytes, and a UTF-8 text is then
a list of bytes).  `std::string::find` and `std::search` are library functions; they are modelled by
the scan they are specified to perform.
-/
namespace TFR

section
variable {α : Type} [DecidableEq α]

/-- `std::string::find(needle, pos)` (used in algo.h:123, 186, 189): the first position `i ≥ pos` at which `needle` occurs,
`none` for `npos`. -/
def strFind (s needle : List α) (pos : Nat) : Option Nat :=
  (List.range (s.length + 1 - needle.length)).find? fun i => decide (pos ≤ i) && decide ((s.drop i).take needle.length = needle)

/-- `contains`, algo.h:123-125. -/
def strContains (s needle : List α) : Bool := (strFind s needle 0).isSome

/-- The loop of `join`, algo.h:135-143. -/
def strJoin (strs : List (List α)) (delimiter : List α) : List α :=
  strs.foldl (fun r s => if s = [] then r else (if r = [] then r else r ++ delimiter) ++ s) []

theorem strFind_some {s needle : List α} {pos i : Nat} (h : strFind s needle pos = some i) :
    pos ≤ i ∧ i + needle.length ≤ s.length ∧ (s.drop i).take needle.length = needle := by
  have h1 := List.find?_some h
  have h2 := List.mem_of_find?_eq_some h
  simp only [Bool.and_eq_true, decide_eq_true_eq, List.mem_range] at h1 h2
  exact ⟨h1.1, by omega, h1.2⟩

/-- The `while` loop of `replace_all`, algo.h:186-190: `start` is the position the search resumes at.  `str.replace(pos, n, r)` replaces
the `n` characters at `pos` by `r`. -/
def replaceLoop (needle rep : List α) (hne : needle ≠ []) (s : List α) (start : Nat) : List α :=
  match h : strFind s needle start with
  | none => s
  | some p => replaceLoop needle rep hne (s.take p ++ rep ++ s.drop (p + needle.length)) (p + rep.length)
termination_by s.length - start
decreasing_by
  have h' := strFind_some h
  have := List.length_pos_iff.2 hne
  simp only [List.length_append, List.length_take, List.length_drop]
  omega

/-- `replace_all`, algo.h:182-192. -/
def replaceAll (s needle rep : List α) : List α :=
  if h : needle = [] then s else replaceLoop needle rep h s 0

end

/-- `std::tolower` in the "C" locale (algo.h:129), on ASCII. -/
def toLowerC (c : Char) : Char := if 'A' ≤ c ∧ c ≤ 'Z' then Char.ofNat (c.toNat + 32) else c

/-- `contains_ignore_case`, algo.h:127-133.  `std::search` returns the first position of a match, and the end iterator when there is
none; for an empty needle it returns the beginning, which is the end if the text is empty too. -/
def containsIgnoreCase (s needle : List Char) : Bool :=
  let it : Nat := if needle = [] then 0 else
    (((List.range (s.length + 1 - needle.length)).find? fun i =>
      decide (((s.drop i).take needle.length).map toLowerC = needle.map toLowerC))).getD s.length
  it ≠ s.length

/-- `special_chars`, algo.h:195, in the order of the code. -/
def specialChars : List Char := ['\\', '`', '*', '_', '{', '}', '[', ']', '(', ')', '#', '+', '-', '.', '!']

/-- `escape_for_md`, algo.h:194-200. -/
def escapeForMd (text : List Char) : List Char :=
  specialChars.foldl (fun t c => replaceAll t [c] ['\\', c]) text

end TFR
