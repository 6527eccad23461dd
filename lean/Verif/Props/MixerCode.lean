import Verif.Spec.MixerCode
import Verif.Model.SearchText
import Verif.Lemmas.Numbers
import Verif.Props.Construct
/-
C130. The C code and the constants printed for a mixer describe exactly the mixer.
-/
namespace TFR
open Spec

private theorem hbind {α β : Type} (x : α) (f : α → R β) : ((Except.ok x : R α) >>= f) = f x := rfl

theorem digitChar_digit (d : Nat) (h : d < 10) : isDecimalDigit (Nat.digitChar d) = true := by
  unfold isDecimalDigit; rw [digitValue_digitChar d h]; rfl

theorem digits_ne_nil (n : Nat) : Nat.toDigits 10 n ≠ [] := by
  have := Nat.length_toDigits_pos (b := 10) (n := n)
  intro h; rw [h] at this; simp at this

theorem readLiteral_digits (n : Nat) (c : Char) (hc : isDecimalDigit c = false) (rest : List Char) :
    readLiteral (Nat.toDigits 10 n ++ c :: rest) = some (n, c :: rest) := by
  obtain ⟨l, h1, h2, h3⟩ := toDigits_read n
  have hne : l ≠ [] := by rintro rfl; exact digits_ne_nil n (by rw [h1]; rfl)
  have hall : ∀ a ∈ l.map Nat.digitChar, isDecimalDigit a = true := by
    intro a ha
    obtain ⟨d, hd, rfl⟩ := List.mem_map.1 ha
    exact digitChar_digit d (h2 d hd)
  unfold readLiteral
  rw [h1, List.takeWhile_append_of_pos hall, List.dropWhile_append_of_pos hall, List.takeWhile_cons_of_neg (by simp [hc]),
    List.dropWhile_cons_of_neg (by simp [hc]), List.append_nil, digitsOf_map l h2]
  cases l with
  | nil => exact absurd rfl hne
  | cons d ds => dsimp only; rw [h3]

theorem afterPrefix_append (p s : List Char) : afterPrefix p (p ++ s) = some s := by
  unfold afterPrefix
  rw [if_pos (by simp), List.drop_left]

theorem statement_shift (w n : Nat) (h : n < w) :
    statement w ("    x ^= x >> ".toList ++ (Nat.toDigits 10 n ++ ";".toList)) = some fun x : BitVec w => x ^^^ (x >>> n) := by
  unfold statement
  rw [afterPrefix_append, show (";".toList) = ';' :: [] from rfl]
  dsimp only
  rw [readLiteral_digits n ';' (by decide)]
  exact if_pos ⟨rfl, h⟩

theorem statement_multiply (w n : Nat) (e : List Char) (he : e = ";".toList ∨ e = "ull;".toList) :
    statement w ("    x *= ".toList ++ (Nat.toDigits 10 n ++ e)) = some fun x : BitVec w => x * BitVec.ofNat w n := by
  unfold statement
  rw [show afterPrefix "    x ^= x >> ".toList ("    x *= ".toList ++ (Nat.toDigits 10 n ++ e)) = none from rfl, afterPrefix_append]
  dsimp only
  have : readLiteral (Nat.toDigits 10 n ++ e) = some (n, e) := by
    rcases he with rfl | rfl
    · exact readLiteral_digits n ';' (by decide) _
    · exact readLiteral_digits n 'u' (by decide) _
  rw [this]
  exact if_pos he

private def lineStep (a : List (List Char) × List Char) (c : Char) : List (List Char) × List Char :=
  if c = '\n' then (a.1 ++ [a.2], []) else (a.1, a.2 ++ [c])

private theorem fold_line (l : List Char) (h : '\n' ∉ l) (acc : List (List Char)) (cur rest : List Char) :
    (l ++ '\n' :: rest).foldl lineStep (acc, cur) = rest.foldl lineStep (acc ++ [cur ++ l], []) := by
  induction l generalizing cur with
  | nil => simp [lineStep]
  | cons c l ih =>
    simp only [List.mem_cons, not_or] at h
    rw [List.cons_append, List.foldl_cons]
    have : lineStep (acc, cur) c = (acc, cur ++ [c]) := by unfold lineStep; rw [if_neg (Ne.symm h.1)]
    rw [this, ih h.2, List.append_assoc]; rfl

theorem linesOf_lines (ls : List (List Char)) (h : ∀ l ∈ ls, '\n' ∉ l) : linesOf (ls.flatMap fun l => l ++ ['\n']) = some ls := by
  have key : ∀ acc, (ls.flatMap fun l => l ++ ['\n']).foldl lineStep (acc, []) = (acc ++ ls, []) := by
    induction ls with
    | nil => intro acc; simp
    | cons l ls ih =>
      intro acc
      rw [List.flatMap_cons, List.append_assoc, List.singleton_append, fold_line l (h l List.mem_cons_self), List.nil_append,
        ih (fun l' hl => h l' (List.mem_cons_of_mem _ hl)), List.append_assoc]; rfl
  unfold linesOf
  have := key []
  unfold lineStep at this
  rw [this]
  rfl

theorem digits_no_newline (n : Nat) : '\n' ∉ Nat.toDigits 10 n := by
  obtain ⟨l, h1, h2, -⟩ := toDigits_read n
  rw [h1]
  intro h
  obtain ⟨d, hd, he⟩ := List.mem_map.1 h
  have := h2 d hd
  interval_cases d <;> revert he <;> decide

/-- The meaning of a text made of shift and multiplication lines. -/
theorem codeMeaning_lines (w : Nat) (ls : List (List Char)) (fs : List (BitVec w → BitVec w)) (h : ∀ l ∈ ls, '\n' ∉ l)
    (hs : ls.mapM (statement w) = some fs) :
    codeMeaning w (ls.flatMap fun l => l ++ ['\n']) = some fun x => fs.foldl (fun y f => f y) x := by
  unfold codeMeaning
  rw [linesOf_lines ls h, Option.bind_some, hs]; rfl

theorem constantText_digits (t : WT) (ht : t ≠ .u8) (c : BitVec t.bits) : constantText t c = Nat.toDigits 10 c.toNat := by
  cases t
  · exact absurd rfl ht
  all_goals rfl

private def sLine (n : Nat) : List Char := "    x ^= x >> ".toList ++ (Nat.toDigits 10 n ++ ";".toList)
private def mLine (n : Nat) (e : List Char) : List Char := "    x *= ".toList ++ (Nat.toDigits 10 n ++ e)

private theorem sLine_ok (n : Nat) : '\n' ∉ sLine n := by
  unfold sLine
  simp only [List.mem_append, not_or]
  exact ⟨by decide, digits_no_newline n, by decide⟩

private theorem mLine_ok (n : Nat) (e : List Char) (he : '\n' ∉ e) : '\n' ∉ mLine n e := by
  unfold mLine
  simp only [List.mem_append, not_or]
  exact ⟨by decide, digits_no_newline n, he⟩

private theorem shiftLine_eq (t : WT) (ht : t ≠ .u8) (c : BitVec t.bits) : shiftLine t c = sLine c.toNat ++ ['\n'] := by
  unfold shiftLine sLine
  rw [constantText_digits t ht, List.append_assoc, List.append_assoc, List.append_assoc]; rfl

private theorem multiplyLine_eq (t : WT) (ht : t ≠ .u8) (c : BitVec t.bits) (s : String) (e : List Char) (hs : s.toList = e ++ ['\n']) :
    multiplyLine t c s = mLine c.toNat e ++ ['\n'] := by
  unfold multiplyLine mLine
  rw [constantText_digits t ht, List.append_assoc, List.append_assoc, List.append_assoc, hs]

theorem mulAssign_cases (t : WT) (x m : BitVec t.bits) : mulAssign x m = .ok (x * m) ∨ (t = .u16 ∧ mulAssign x m = .error .signedOverflow) := by
  by_cases ht : t = .u16
  · subst ht
    unfold mulAssign
    split
    · split
      · left
        refine congrArg Except.ok (BitVec.eq_of_toNat_eq ?_)
        rw [BitVec.toNat_mul, BitVec.toNat_ofNat]
      · exact Or.inr ⟨rfl, rfl⟩
    · exact Or.inl rfl
  · exact Or.inl (mulAssign_total t x m fun h => absurd h ht)

/-- C130. The code printed for a vector of one of the three constructions (`-search` uses the second), with words of 16, 32 or 64 bits: a
reader of the code gets exactly the function that the mixer computes, for every input; except that with words of 16 bits the mixer has
undefined behaviour for some inputs. -/
theorem C130_code (t : WT) (ht : t ≠ .u8) (v : BitVector) (l : List Bool) (hv : BitVector.Holds v l) :
    (l.length = xmxConfigBits t → ∃ c text f, toXmx t v = .ok c ∧ xmxText t v = .ok text ∧ codeMeaning t.bits text = some f ∧
      ∀ x, xmxMix c x = .ok (f x) ∨ (t = .u16 ∧ xmxMix c x = .error .signedOverflow)) ∧
    (l.length = xm2xConfigBits t → ∃ c text f, toXm2x t v = .ok c ∧ xm2xText t v = .ok text ∧ codeMeaning t.bits text = some f ∧
      ∀ x, xm2xMix c x = .ok (f x) ∨ (t = .u16 ∧ xm2xMix c x = .error .signedOverflow)) ∧
    (l.length = xm3xConfigBits t → ∃ c text f, toXm3x t v = .ok c ∧ xm3xText t v = .ok text ∧ codeMeaning t.bits text = some f ∧
      ∀ x, xm3xMix c x = .ok (f x) ∨ (t = .u16 ∧ xm3xMix c x = .error .signedOverflow)) := by
  have hof : ∀ m : BitVec t.bits, BitVec.ofNat t.bits m.toNat = m := fun m => BitVec.eq_of_toNat_eq (by simp)
  have hull : "ull;\n".toList = "ull;".toList ++ ['\n'] := rfl
  have hplain : ";\n".toList = ";".toList ++ ['\n'] := rfl
  have nu : '\n' ∉ "ull;".toList := by decide
  have np : '\n' ∉ ";".toList := by decide
  refine ⟨fun hl => ?_, fun hl => ?_, fun hl => ?_⟩
  · obtain ⟨c, hc, b1, b2, -⟩ := C16_xmx_decode t v l hv hl
    have hcode := codeMeaning_lines t.bits [sLine c.c1.toNat, mLine c.m1.toNat "ull;".toList, sLine c.c2.toNat] _ (by
        intro l hl
        simp only [List.mem_cons, List.not_mem_nil, or_false] at hl
        rcases hl with rfl | rfl | rfl
        exacts [sLine_ok _, mLine_ok _ _ nu, sLine_ok _]) (by
        simp only [List.mapM_cons, List.mapM_nil]
        unfold sLine mLine
        rw [statement_shift _ _ b1, statement_shift _ _ b2, statement_multiply _ _ _ (Or.inr rfl)]; rfl)
    refine ⟨c, _, _, hc, by unfold xmxText; rw [hc]; rfl, (congrArg _ (?_ : _ = _)).trans hcode, ?_⟩
    · rw [shiftLine_eq t ht, shiftLine_eq t ht, multiplyLine_eq t ht _ _ _ hull]
      simp [List.append_assoc]
    · intro x
      simp only [List.foldl_cons, List.foldl_nil, hof]
      unfold xmxMix
      rw [shrT_ok t _ _ b1, hbind]
      dsimp only
      rcases mulAssign_cases t (x ^^^ x >>> c.c1.toNat) c.m1 with h | ⟨h, e⟩
      · rw [h, hbind, shrT_ok t _ _ b2, hbind]
        exact Or.inl rfl
      · rw [e]; exact Or.inr ⟨h, rfl⟩
  · obtain ⟨c, hc, b1, b2, b3, -⟩ := C16_xm2x_decode t v l hv hl
    have hcode := codeMeaning_lines t.bits [sLine c.c1.toNat, mLine c.m1.toNat ";".toList, sLine c.c2.toNat, mLine c.m1.toNat ";".toList,
        sLine c.c3.toNat] _ (by
        intro l hl
        simp only [List.mem_cons, List.not_mem_nil, or_false] at hl
        rcases hl with rfl | rfl | rfl | rfl | rfl
        exacts [sLine_ok _, mLine_ok _ _ np, sLine_ok _, mLine_ok _ _ np, sLine_ok _]) (by
        simp only [List.mapM_cons, List.mapM_nil]
        unfold sLine mLine
        rw [statement_shift _ _ b1, statement_shift _ _ b2, statement_shift _ _ b3, statement_multiply _ _ _ (Or.inl rfl)]; rfl)
    refine ⟨c, _, _, hc, by unfold xm2xText; rw [hc]; rfl, (congrArg _ (?_ : _ = _)).trans hcode, ?_⟩
    · rw [shiftLine_eq t ht, shiftLine_eq t ht, shiftLine_eq t ht, multiplyLine_eq t ht _ _ _ hplain]
      simp [List.append_assoc]
    · intro x
      simp only [List.foldl_cons, List.foldl_nil, hof]
      unfold xm2xMix
      rw [shrT_ok t _ _ b1, hbind]
      dsimp only
      rcases mulAssign_cases t (x ^^^ x >>> c.c1.toNat) c.m1 with h | ⟨h, e⟩
      · rw [h, hbind, shrT_ok t _ _ b2, hbind]
        generalize (x ^^^ x >>> c.c1.toNat) * c.m1 = y
        rcases mulAssign_cases t (y ^^^ y >>> c.c2.toNat) c.m1 with h | ⟨h, e⟩
        · rw [h, hbind, shrT_ok t _ _ b3, hbind]
          exact Or.inl rfl
        · rw [e]; exact Or.inr ⟨h, rfl⟩
      · rw [e]; exact Or.inr ⟨h, rfl⟩
  · obtain ⟨c, hc, b1, b2, b3, b4, -⟩ := C16_xm3x_decode t v l hv hl
    have hcode := codeMeaning_lines t.bits [sLine c.c1.toNat, mLine c.m1.toNat "ull;".toList, sLine c.c2.toNat, mLine c.m1.toNat "ull;".toList,
        sLine c.c3.toNat, mLine c.m1.toNat "ull;".toList, sLine c.c4.toNat] _ (by
        intro l hl
        simp only [List.mem_cons, List.not_mem_nil, or_false] at hl
        rcases hl with rfl | rfl | rfl | rfl | rfl | rfl | rfl
        exacts [sLine_ok _, mLine_ok _ _ nu, sLine_ok _, mLine_ok _ _ nu, sLine_ok _, mLine_ok _ _ nu, sLine_ok _]) (by
        simp only [List.mapM_cons, List.mapM_nil]
        unfold sLine mLine
        rw [statement_shift _ _ b1, statement_shift _ _ b2, statement_shift _ _ b3, statement_shift _ _ b4,
          statement_multiply _ _ _ (Or.inr rfl)]; rfl)
    refine ⟨c, _, _, hc, by unfold xm3xText; rw [hc]; rfl, (congrArg _ (?_ : _ = _)).trans hcode, ?_⟩
    · rw [shiftLine_eq t ht, shiftLine_eq t ht, shiftLine_eq t ht, shiftLine_eq t ht, multiplyLine_eq t ht _ _ _ hull]
      simp [List.append_assoc]
    · intro x
      simp only [List.foldl_cons, List.foldl_nil, hof]
      unfold xm3xMix
      rw [shrT_ok t _ _ b1, hbind]
      dsimp only
      rcases mulAssign_cases t (x ^^^ x >>> c.c1.toNat) c.m1 with h | ⟨h, e⟩
      · rw [h, hbind, shrT_ok t _ _ b2, hbind]
        generalize (x ^^^ x >>> c.c1.toNat) * c.m1 = y
        rcases mulAssign_cases t (y ^^^ y >>> c.c2.toNat) c.m1 with h | ⟨h, e⟩
        · rw [h, hbind, shrT_ok t _ _ b3, hbind]
          generalize (y ^^^ y >>> c.c2.toNat) * c.m1 = z
          rcases mulAssign_cases t (z ^^^ z >>> c.c3.toNat) c.m1 with h | ⟨h, e⟩
          · rw [h, hbind, shrT_ok t _ _ b4, hbind]
            exact Or.inl rfl
          · rw [e]; exact Or.inr ⟨h, rfl⟩
        · rw [e]; exact Or.inr ⟨h, rfl⟩
      · rw [e]; exact Or.inr ⟨h, rfl⟩

/-! ### The list of constants -/

private def numStep (a : List Nat × Option Nat) (c : Char) : List Nat × Option Nat :=
  match digitValue c with
  | some d => (a.1, some (10 * a.2.getD 0 + d))
  | none => (a.1 ++ a.2.toList, none)

private theorem num_digits (n : Nat) (acc : List Nat) : (Nat.toDigits 10 n).foldl numStep (acc, none) = (acc, some n) := by
  obtain ⟨l, h1, h2, h3⟩ := toDigits_read n
  have hne : l ≠ [] := by rintro rfl; exact digits_ne_nil n (by rw [h1]; rfl)
  have key : ∀ (l : List Nat) (o : Option Nat), (∀ d ∈ l, d < 10) → l ≠ [] →
      (l.map Nat.digitChar).foldl numStep (acc, o) = (acc, some (l.foldl (fun n d => 10 * n + d) (o.getD 0))) := by
    intro l
    induction l with
    | nil => intro o _ h; exact absurd rfl h
    | cons d l ih =>
      intro o hd _
      have hs : numStep (acc, o) (Nat.digitChar d) = (acc, some (10 * o.getD 0 + d)) := by
        unfold numStep; rw [digitValue_digitChar d (hd d List.mem_cons_self)]
      rw [List.map_cons, List.foldl_cons, hs, List.foldl_cons]
      by_cases hl : l = []
      · subst hl; rfl
      · rw [ih _ (fun d h => hd d (List.mem_cons_of_mem _ h)) hl]; rfl
  rw [h1, key l none h2 hne]
  exact congrArg (fun m => (acc, some m)) h3

private theorem num_sep (acc : List Nat) (n : Nat) : (", ".toList).foldl numStep (acc, some n) = (acc ++ [n], none) := by
  rw [show ", ".toList = [',', ' '] from rfl, List.foldl_cons, List.foldl_cons, List.foldl_nil]
  have h1 : numStep (acc, some n) ',' = (acc ++ [n], none) := rfl
  have h2 : numStep (acc ++ [n], none) ' ' = (acc ++ [n] ++ [], none) := rfl
  rw [h1, h2, List.append_nil]

private theorem numbersIn_eq (s : List Char) : numbersIn s = (s.foldl numStep ([], none)).1 ++ (s.foldl numStep ([], none)).2.toList := rfl

/-- C130. The list of constants printed for a vector: the numbers in it are the constants of the mixer, and from them the vector. -/
theorem C130_constants (t : WT) (ht : t ≠ .u8) (v : BitVector) (l : List Bool) (hv : BitVector.Holds v l) :
    (l.length = xmxConfigBits t → ∃ c text, toXmx t v = .ok c ∧ xmxArrayText t v = .ok text ∧
      numbersIn text = [c.c1.toNat, c.c2.toNat, c.m1.toNat]) ∧
    (l.length = xm2xConfigBits t → ∃ c text, toXm2x t v = .ok c ∧ xm2xArrayText t v = .ok text ∧
      numbersIn text = [c.c1.toNat, c.c2.toNat, c.c3.toNat, c.m1.toNat]) ∧
    (l.length = xm3xConfigBits t → ∃ c text, toXm3x t v = .ok c ∧ xm3xArrayText t v = .ok text ∧
      numbersIn text = [c.c1.toNat, c.c2.toNat, c.c3.toNat, c.c4.toNat, c.m1.toNat]) := by
  refine ⟨fun hl => ?_, fun hl => ?_, fun hl => ?_⟩
  · obtain ⟨c, hc, -⟩ := C16_xmx_decode t v l hv hl
    refine ⟨c, _, hc, by unfold xmxArrayText; rw [hc]; rfl, ?_⟩
    simp only [numbersIn_eq, constantText_digits t ht, List.foldl_append, num_digits, num_sep]
    rfl
  · obtain ⟨c, hc, -⟩ := C16_xm2x_decode t v l hv hl
    refine ⟨c, _, hc, by unfold xm2xArrayText; rw [hc]; rfl, ?_⟩
    simp only [numbersIn_eq, constantText_digits t ht, List.foldl_append, num_digits, num_sep]
    rfl
  · obtain ⟨c, hc, -⟩ := C16_xm3x_decode t v l hv hl
    refine ⟨c, _, hc, by unfold xm3xArrayText; rw [hc]; rfl, ?_⟩
    simp only [numbersIn_eq, constantText_digits t ht, List.foldl_append, num_digits, num_sep]
    rfl

/-- C130. With bytes the constants are written as characters: no code printed for a construction over bytes can be read, because a shift is
below 8 and no such character is a digit. -/
theorem C130_code_bytes (v : BitVector) (l : List Bool) (hv : BitVector.Holds v l) (hl : l.length = xm2xConfigBits .u8) :
    ∃ text, xm2xText .u8 v = .ok text ∧ codeMeaning 8 text = none := by
  obtain ⟨c, hc, b1, b2, b3, -⟩ := C16_xm2x_decode .u8 v l hv hl
  refine ⟨_, by unfold xm2xText; rw [hc]; rfl, ?_⟩
  have b1 : c.c1.toNat < 8 := b1
  have hno : '\n' ∉ "    x ^= x >> ".toList ++ ([Char.ofNat c.c1.toNat] ++ ";".toList) := by
    simp only [List.mem_append, not_or]
    refine ⟨by decide, ?_, by decide⟩
    generalize c.c1.toNat = n at b1
    interval_cases n <;> decide
  have hst : statement 8 ("    x ^= x >> ".toList ++ ([Char.ofNat c.c1.toNat] ++ ";".toList)) = none := by
    unfold statement
    rw [afterPrefix_append]
    generalize c.c1.toNat = n at b1
    interval_cases n <;> rfl
  unfold codeMeaning
  have hl : ∀ rest, ∃ ls, (linesOf (shiftLine .u8 c.c1 ++ rest) = none ∨
      linesOf (shiftLine .u8 c.c1 ++ rest) = some (("    x ^= x >> ".toList ++ ([Char.ofNat c.c1.toNat] ++ ";".toList)) :: ls)) := by
    intro rest
    have e : shiftLine .u8 c.c1 ++ rest = ("    x ^= x >> ".toList ++ ([Char.ofNat c.c1.toNat] ++ ";".toList)) ++ '\n' :: rest := by
      unfold shiftLine constantText
      simp only [List.append_assoc]; rfl
    have hpre : ∀ (rest : List Char) (a : List (List Char)) (cur : List Char), ∃ ls, (rest.foldl lineStep (a, cur)).1 = a ++ ls := by
      intro rest
      induction rest with
      | nil => exact fun a cur => ⟨[], by simp⟩
      | cons x rest ih =>
        intro a cur
        rw [List.foldl_cons]
        by_cases hx : x = '\n'
        · obtain ⟨ls, h⟩ := ih (a ++ [cur]) []
          refine ⟨[cur] ++ ls, ?_⟩
          rw [show lineStep (a, cur) x = (a ++ [cur], []) by unfold lineStep; rw [if_pos hx], h, List.append_assoc]
        · obtain ⟨ls, h⟩ := ih a (cur ++ [x])
          exact ⟨ls, by rw [show lineStep (a, cur) x = (a, cur ++ [x]) by unfold lineStep; rw [if_neg hx], h]⟩
    have hf := fold_line _ hno [] [] rest
    obtain ⟨ls, h⟩ := hpre rest ([] ++ [[] ++ ("    x ^= x >> ".toList ++ ([Char.ofNat c.c1.toNat] ++ ";".toList))]) []
    refine ⟨ls, ?_⟩
    have hd : linesOf (shiftLine .u8 c.c1 ++ rest) = if ((shiftLine .u8 c.c1 ++ rest).foldl lineStep ([], [])).2 = [] then
        some ((shiftLine .u8 c.c1 ++ rest).foldl lineStep ([], [])).1 else none := rfl
    rw [hd, e, hf, h]
    split
    · exact Or.inr rfl
    · exact Or.inl rfl
  rw [List.append_assoc, List.append_assoc, List.append_assoc]
  obtain ⟨ls, h | h⟩ := hl (multiplyLine .u8 c.m1 ";\n" ++ (shiftLine .u8 c.c2 ++ (multiplyLine .u8 c.m1 ";\n" ++ shiftLine .u8 c.c3)))
  · rw [h]; rfl
  · rw [h, Option.bind_some, List.mapM_cons, hst]; rfl

-- C130, non-vacuity: every sequence of bits is held by some vector; and the code of a mixer.
example (t : WT) (ht : t ≠ .u8) : ∃ v, BitVector.Holds v (List.replicate (xm2xConfigBits t) true) ∧
    ∃ text f, xm2xText t v = .ok text ∧ codeMeaning t.bits text = some f := by
  obtain ⟨v, hv⟩ := C16_every_string_exists (List.replicate (xm2xConfigBits t) true)
  obtain ⟨c, text, f, -, h1, h2, -⟩ := (C130_code t ht v _ hv).2.1 (by simp)
  exact ⟨v, hv, text, f, h1, h2⟩
example : (codeMeaning 32 "    x ^= x >> 16;\n    x *= 73244475;\n    x ^= x >> 15;\n".toList).map (· 0x12345678#32) =
    some (let x := 0x12345678#32 ^^^ (0x12345678#32 >>> 16); let y := x * 73244475#32; y ^^^ (y >>> 15)) := by decide +kernel

end TFR
