import Verif.Model.Cells
import Verif.Props.Table
import Verif.Props.Numbers
/-
C143: tables can be read back.
-/
namespace TFR
open Spec

/-- Reading a number with an optional minus sign. -/
def Spec.readSigned : List Char → Option ℚ
  | '-' :: s => (readDecimal s).map (- ·)
  | s => readDecimal s

private theorem digits_read (n : Nat) : readDecimal (Nat.toDigits 10 n) = some (n : ℚ) ∧
    ∀ c ∈ Nat.toDigits 10 n, c ≠ ' ' ∧ c ≠ '\n' ∧ c ≠ '-' := by
  obtain ⟨l, h1, h2, h3⟩ := toDigits_read n
  have hne : l ≠ [] := by
    rintro rfl
    have := Nat.length_toDigits_pos (b := 10) (n := n)
    rw [h1] at this; simp at this
  refine ⟨?_, ?_⟩
  · rw [h1]
    have e := takeWhile_digits 'e' l (fun d h => (digitChar_ne d h).2.1) h2 [] (Or.inl rfl)
    have p := takeWhile_digits '.' l (fun d h => (digitChar_ne d h).1) h2 [] (Or.inl rfl)
    rw [List.append_nil] at e p
    unfold readDecimal
    rw [e.2]
    unfold readMantissa
    rw [p.1, p.2, digitsOf_map l h2]
    obtain ⟨d, ds, rfl⟩ := List.exists_cons_of_ne_nil hne
    simp [digitsOf, h3]
  · intro c hc
    rw [h1] at hc
    obtain ⟨d, hd, rfl⟩ := List.mem_map.1 hc
    have := digitChar_ne d (h2 d hd)
    refine ⟨this.2.2.2.1, ?_, this.2.2.2.2⟩
    have := h2 d hd
    interval_cases d <;> decide

private theorem readSigned_of (s : List Char) (h : s.head? ≠ some '-') : readSigned s = readDecimal s := by
  unfold readSigned
  split
  · simp at h
  · rfl

private theorem intText_read (i : Int) : readSigned (intText i) = some (i : ℚ) ∧ ∀ c ∈ intText i, c ≠ ' ' ∧ c ≠ '\n' := by
  obtain ⟨h1, h2⟩ := digits_read i.natAbs
  unfold intText
  split
  · rename_i hi
    refine ⟨?_, ?_⟩
    · show (readDecimal _).map _ = _
      rw [h1, Option.map_some]
      congr 1
      have : i = -((i.natAbs : ℕ) : ℤ) := by omega
      generalize i.natAbs = n at this
      subst this
      push_cast; ring
    · intro c hc
      rcases List.mem_cons.1 hc with rfl | hc
      · decide
      · exact ⟨(h2 c hc).1, (h2 c hc).2.1⟩
  · rename_i hi
    refine ⟨?_, fun c hc => ⟨(h2 c hc).1, (h2 c hc).2.1⟩⟩
    rw [readSigned_of _ (fun h => ?_), h1]
    · congr 1
      have : i = ((i.natAbs : ℕ) : ℤ) := by omega
      generalize i.natAbs = n at this
      subst this
      push_cast; ring
    · exact (h2 '-' (List.mem_of_mem_head? h)).2.2 rfl

/-- C143. The cell made of an integer, of any of the four integer types, reads back as that integer and contains no blank or newline. -/
theorem C143_integer (i : BitVec 32) (j : BitVec 64) :
    (readSigned (CellArg.int i).str = some (i.toInt : ℚ) ∧ readSigned (CellArg.uint i).str = some (i.toNat : ℚ) ∧
      readSigned (CellArg.int64 j).str = some (j.toInt : ℚ) ∧ readSigned (CellArg.uint64 j).str = some (j.toNat : ℚ)) ∧
    ∀ x ∈ [CellArg.int i, .uint i, .int64 j, .uint64 j], ' ' ∉ x.str ∧ '\n' ∉ x.str := by
  refine ⟨⟨(intText_read _).1, ?_, (intText_read _).1, ?_⟩, ?_⟩
  · exact_mod_cast (intText_read (i.toNat : ℤ)).1
  · exact_mod_cast (intText_read (j.toNat : ℤ)).1
  · intro x hx
    have key : ∀ k : Int, ' ' ∉ intText k ∧ '\n' ∉ intText k := fun k =>
      ⟨fun h => ((intText_read k).2 _ h).1 rfl, fun h => ((intText_read k).2 _ h).2 rfl⟩
    simp only [List.mem_cons, List.not_mem_nil, or_false] at hx
    rcases hx with rfl | rfl | rfl | rfl <;> exact key _

/-- C143. The cell made of a floating point number reads back as a number that differs from it by at most five millionths of it. -/
theorem C143_double (x : ℝ) : ∃ q : ℚ, readSigned (CellArg.dbl x).str = some q ∧ |(q : ℝ) - x| ≤ 5 / 10 ^ 6 * |x| := by
  show ∃ q : ℚ, readSigned (formatDouble x) = some q ∧ _
  have nohead : ∀ (s : List Char) (q : ℚ), readDecimal s = some q → s.head? ≠ some '-' := by
    intro s q h hs
    rcases s with _ | ⟨c, s⟩
    · simp at hs
    · simp only [List.head?_cons, Option.some.injEq] at hs
      subst hs
      unfold readDecimal at h
      have hm : ∀ s, readMantissa ('-' :: s) = none := by
        intro s
        unfold readMantissa
        rw [List.takeWhile_cons_of_pos (by decide)]
        have : ∀ l, digitsOf ('-' :: l) = none := fun l => rfl
        rw [this]
      rw [List.dropWhile_cons_of_pos (by decide), List.takeWhile_cons_of_pos (by decide), hm, hm] at h
      split at h <;> simp at h
  rcases le_or_gt 0 x with hx | hx
  · obtain ⟨q, h1, h2⟩ := C127_number x hx
    exact ⟨q, by rw [readSigned_of _ (nohead _ q h1), h1], by rw [abs_of_nonneg hx]; exact h2⟩
  · obtain ⟨q, h1, h2⟩ := C127_number (-x) (by linarith)
    have e := C127_negative (-x) (by linarith)
    rw [neg_neg] at e
    refine ⟨-q, ?_, ?_⟩
    · rw [e]
      show (readDecimal _).map _ = _
      rw [h1]; rfl
    · rw [abs_of_neg hx]
      have : (((-q : ℚ) : ℝ) - x) = -((q : ℝ) - -x) := by push_cast; ring
      rw [this, abs_neg]; exact h2

/-- C143. After any calls that are not undefined, `get_column_size` is two more than the longest cell of the column, and undefined for a
column that does not exist. -/
theorem C143_column_size (headers : List (List Char)) (ops : List TableOp) (t t' : Table) (h2 : 2 ≤ headers.length)
    (hnew : Table.new headers = .ok t) (hrun : t.run ops = .ok t') (j : Nat) :
    (j < headers.length → t'.getColumnSize j = .ok (width t'.rows j)) ∧
    (headers.length ≤ j → t'.getColumnSize j = .error .oobIndex) := by
  unfold Table.getColumnSize
  rw [table_spaces headers ops t t' h2 hnew hrun]
  refine ⟨fun h => ?_, fun h => ?_⟩
  · rw [List.getElem?_map, List.getElem?_range h]; rfl
  · rw [List.getElem?_eq_none (by simpa using h)]

/-! #### one text, one table -/

private theorem split_newline (a b x y : List Char) (ha : '\n' ∉ a) (hb : '\n' ∉ b) (h : a ++ '\n' :: x = b ++ '\n' :: y) : a = b ∧ x = y := by
  induction a generalizing b with
  | nil => cases b with
    | nil => simpa using h
    | cons c b =>
      simp only [List.nil_append, List.cons_append, List.cons.injEq] at h
      exact absurd (by rw [← h.1]; exact List.mem_cons_self) hb
  | cons c a ih => cases b with
    | nil =>
      simp only [List.nil_append, List.cons_append, List.cons.injEq] at h
      exact absurd (by rw [h.1]; exact List.mem_cons_self) ha
    | cons d b =>
      simp only [List.cons_append, List.cons.injEq] at h
      obtain ⟨h1, h2⟩ := ih b (fun hm => ha (List.mem_cons_of_mem _ hm)) (fun hm => hb (List.mem_cons_of_mem _ hm)) h.2
      exact ⟨by rw [h.1, h1], h2⟩

private theorem lines_inj (l m : List (List Char)) (hl : ∀ a ∈ l, '\n' ∉ a) (hm : ∀ a ∈ m, '\n' ∉ a)
    (h : l.flatMap (· ++ ['\n']) = m.flatMap (· ++ ['\n'])) : l = m := by
  induction l generalizing m with
  | nil => cases m with
    | nil => rfl
    | cons b m => simp at h
  | cons a l ih => cases m with
    | nil => simp at h
    | cons b m =>
      simp only [List.flatMap_cons, List.append_assoc, List.singleton_append] at h
      obtain ⟨h1, h2⟩ := split_newline a b _ _ (hl a List.mem_cons_self) (hm b List.mem_cons_self) h
      rw [h1, ih m (fun x hx => hl x (List.mem_cons_of_mem _ hx)) (fun x hx => hm x (List.mem_cons_of_mem _ hx)) h2]

private theorem blanks_inj (p q : Nat) (x y : List Char) (hx : x.head? ≠ some ' ') (hy : y.head? ≠ some ' ')
    (h : List.replicate p ' ' ++ x = List.replicate q ' ' ++ y) : p = q ∧ x = y := by
  induction p generalizing q with
  | zero => cases q with
    | zero => simpa using h
    | succ q => simp [List.replicate_succ] at h; subst h; simp at hx
  | succ p ih => cases q with
    | zero => simp [List.replicate_succ] at h; subst h; simp at hy
    | succ q =>
      rw [List.replicate_succ, List.replicate_succ, List.cons_append, List.cons_append] at h
      injection h with _ h
      obtain ⟨h1, h2⟩ := ih q h
      exact ⟨by rw [h1], h2⟩

/-- The cells of a row, padded to given widths, from column `j` on. -/
private def body (ws : Nat → Nat) (j : Nat) (r : List (List Char)) : List Char := (r.zipIdx j).flatMap fun ci => pad (ws ci.2) ci.1

private theorem body_cons (ws : Nat → Nat) (j : Nat) (c : List Char) (r : List (List Char)) :
    body ws j (c :: r) = c ++ (List.replicate (ws j - c.length) ' ' ++ body ws (j + 1) r) := by
  unfold body
  rw [List.zipIdx_cons, List.flatMap_cons]
  unfold pad
  rw [List.append_assoc]

private theorem body_head (ws : Nat → Nat) (j : Nat) (hs : List (List Char)) (h : ∀ c ∈ hs, c ≠ [] ∧ c.head? ≠ some ' ') :
    (body ws j hs).head? ≠ some ' ' := by
  cases hs with
  | nil => simp [body]
  | cons c hs =>
    obtain ⟨h1, h2⟩ := h c List.mem_cons_self
    obtain ⟨d, c, rfl⟩ := List.exists_cons_of_ne_nil h1
    rw [body_cons]
    simpa using h2

private theorem header_widths (ws ws' : Nat → Nat) (hs : List (List Char)) (h : ∀ c ∈ hs, c ≠ [] ∧ c.head? ≠ some ' ') (j : Nat)
    (hw : ∀ i c, hs[i]? = some c → c.length < ws (j + i) ∧ c.length < ws' (j + i))
    (he : body ws j hs = body ws' j hs) (i : Nat) (hi : i < hs.length) : ws (j + i) = ws' (j + i) := by
  induction hs generalizing j i with
  | nil => simp at hi
  | cons c hs ih =>
    rw [body_cons, body_cons] at he
    have he := List.append_cancel_left he
    have h' : ∀ c ∈ hs, c ≠ [] ∧ c.head? ≠ some ' ' := fun c hc => h c (List.mem_cons_of_mem _ hc)
    obtain ⟨e1, e2⟩ := blanks_inj _ _ _ _ (body_head ws _ hs h') (body_head ws' _ hs h') he
    cases i with
    | zero =>
      have := hw 0 c rfl
      simp only [Nat.add_zero] at this ⊢
      omega
    | succ i =>
      have := ih h' (j + 1) (fun i c hc => by
        have := hw (i + 1) c (by simpa using hc)
        rwa [show j + (i + 1) = j + 1 + i from by omega] at this) e2 i (by simpa using hi)
      rwa [show j + (i + 1) = j + 1 + i from by omega]

private theorem pad_inj (c d : List Char) (p q : Nat) (hc : c.getLast? ≠ some ' ') (hd : d.getLast? ≠ some ' ')
    (h : c ++ List.replicate p ' ' = d ++ List.replicate q ' ') : c = d := by
  have h := congrArg List.reverse h
  rw [List.reverse_append, List.reverse_append, List.reverse_replicate, List.reverse_replicate] at h
  have := (blanks_inj p q _ _ (by rw [List.head?_reverse]; exact hc) (by rw [List.head?_reverse]; exact hd) h).2
  exact List.reverse_injective this

private theorem cells_inj (ws ws' : Nat → Nat) (r r' : List (List Char)) (hlen : r.length = r'.length) (j : Nat)
    (hw : ∀ i, i < r.length → ws (j + i) = ws' (j + i))
    (h1 : ∀ i c, r[i]? = some c → c.length ≤ ws (j + i)) (h2 : ∀ i c, r'[i]? = some c → c.length ≤ ws' (j + i))
    (hb : ∀ c ∈ r, c.getLast? ≠ some ' ') (hb' : ∀ c ∈ r', c.getLast? ≠ some ' ')
    (he : body ws j r = body ws' j r') : r = r' := by
  induction r generalizing r' j with
  | nil => cases r' with
    | nil => rfl
    | cons d r' => simp at hlen
  | cons c r ih => cases r' with
    | nil => simp at hlen
    | cons d r' =>
      rw [body_cons, body_cons, ← List.append_assoc, ← List.append_assoc] at he
      have e0 := hw 0 (by simp)
      have l1 := h1 0 c rfl
      have l2 := h2 0 d rfl
      simp only [Nat.add_zero] at e0 l1 l2
      obtain ⟨e1, e2⟩ := List.append_inj he (by simp; omega)
      have shift : ∀ i, j + (i + 1) = j + 1 + i := fun i => by omega
      rw [pad_inj c d _ _ (hb c List.mem_cons_self) (hb' d List.mem_cons_self) e1]
      rw [ih r' (by simpa using hlen) (j + 1) (fun i hi => by rw [← shift]; exact hw (i + 1) (by simpa using hi))
        (fun i c hc => by rw [← shift]; exact h1 (i + 1) c (by simpa using hc))
        (fun i c hc => by rw [← shift]; exact h2 (i + 1) c (by simpa using hc))
        (fun c hc => hb c (List.mem_cons_of_mem _ hc)) (fun c hc => hb' c (List.mem_cons_of_mem _ hc)) e2]

private theorem width_cell (rows : List (List (List Char))) (r : List (List Char)) (hr : r ∈ rows) (j : Nat) (c : List Char) (hc : r[j]? = some c) :
    c.length + 2 ≤ width rows j := by
  unfold width
  induction rows with
  | nil => simp at hr
  | cons a rows ih =>
    rw [List.foldr_cons]
    rcases List.mem_cons.1 hr with rfl | hr
    · rw [hc]; exact le_max_right _ _
    · exact (ih hr).trans (le_max_left _ _)

private theorem body_newline (ws : Nat → Nat) (r : List (List Char)) (h : ∀ c ∈ r, '\n' ∉ c) (j : Nat) : '\n' ∉ body ws j r := by
  induction r generalizing j with
  | nil => simp [body]
  | cons c r ih =>
    rw [body_cons]
    intro hm
    rcases List.mem_append.1 hm with hm | hm
    · exact h c List.mem_cons_self hm
    · rcases List.mem_append.1 hm with hm | hm
      · have := List.eq_of_mem_replicate hm
        revert this; decide
      · exact ih (fun c hc => h c (List.mem_cons_of_mem _ hc)) _ hm

/-- C143. What is printed determines the table: let two tables have the same headers (at least two, not empty, not starting with a blank)
and full rows of cells that contain no newline and do not end with a blank.  If they are printed as the same text, they have the same
cells. -/
theorem C143_unambiguous (headers : List (List Char)) (h2 : 2 ≤ headers.length)
    (hh : ∀ h ∈ headers, h ≠ [] ∧ h.head? ≠ some ' ' ∧ '\n' ∉ h) (rows rows' : List (List (List Char)))
    (hr : ∀ r ∈ rows ++ rows', r.length = headers.length ∧ ∀ c ∈ r, '\n' ∉ c ∧ c.getLast? ≠ some ' ')
    (hsmall : ∀ j, width (headers :: rows) j < 2 ^ 64 ∧ width (headers :: rows') j < 2 ^ 64) (t t₁ t₂ : Table) (text : List Char)
    (hnew : Table.new headers = .ok t)
    (h₁ : t.run (rows.flatMap fun r => r.flatMap colOps ++ [.row]) = .ok t₁)
    (h₂ : t.run (rows'.flatMap fun r => r.flatMap colOps ++ [.row]) = .ok t₂)
    (e₁ : t₁.toStr = .ok text) (e₂ : t₂.toStr = .ok text) : rows = rows' := by
  have render : ∀ (rs : List (List (List Char))) (t' : Table), (∀ r ∈ rs, r.length = headers.length) →
      (∀ j, width (headers :: rs) j < 2 ^ 64) → t.run (rs.flatMap fun r => r.flatMap colOps ++ [.row]) = .ok t' → t'.toStr = .ok text →
      text = ((headers :: rs).map (body (width (headers :: rs)) 0)).flatMap (· ++ ['\n']) := by
    intro rs t' hrs hs hrun hstr
    obtain ⟨a, b, q1, q2, q3⟩ := C68_render headers rs h2 hrs hs
    rw [hnew] at q1
    injection q1 with q1
    subst q1
    rw [hrun] at q2
    injection q2 with q2
    subst q2
    rw [hstr] at q3
    injection q3 with q3
    rw [q3, List.flatMap_map]
    rfl
  have r1 := render rows t₁ (fun r h => (hr r (List.mem_append_left _ h)).1) (fun j => (hsmall j).1) h₁ e₁
  have r2 := render rows' t₂ (fun r h => (hr r (List.mem_append_right _ h)).1) (fun j => (hsmall j).2) h₂ e₂
  have nn : ∀ (ws : Nat → Nat) (rs : List (List (List Char))), (∀ r ∈ rs, ∀ c ∈ r, '\n' ∉ c) →
      ∀ a ∈ (headers :: rs).map (body ws 0), '\n' ∉ a := by
    intro ws rs hrs a ha
    obtain ⟨r, hr, rfl⟩ := List.mem_map.1 ha
    rcases List.mem_cons.1 hr with rfl | hr
    · exact body_newline ws _ (fun c hc => (hh c hc).2.2) 0
    · exact body_newline ws _ (hrs r hr) 0
  have key := lines_inj _ _ (nn _ rows fun r h c hc => ((hr r (List.mem_append_left _ h)).2 c hc).1)
    (nn _ rows' fun r h c hc => ((hr r (List.mem_append_right _ h)).2 c hc).1) (r1.symm.trans r2)
  rw [List.map_cons, List.map_cons] at key
  injection key with k1 k2
  have hw : ∀ i, i < headers.length → width (headers :: rows) i = width (headers :: rows') i := by
    intro i hi
    have := header_widths _ _ headers (fun c hc => ⟨(hh c hc).1, (hh c hc).2.1⟩) 0 (fun i c hc => by
      have a := width_cell (headers :: rows) headers List.mem_cons_self i c hc
      have b := width_cell (headers :: rows') headers List.mem_cons_self i c hc
      rw [Nat.zero_add]; omega) k1 i hi
    simpa using this
  apply List.ext_getElem
  · simpa using congrArg List.length k2
  · intro n n1 n2
    have e : body (width (headers :: rows)) 0 rows[n] = body (width (headers :: rows')) 0 rows'[n] := by
      have := congrArg (fun l => l[n]?) k2
      simpa [List.getElem?_map, n1, n2] using this
    have m1 : rows[n] ∈ rows := List.getElem_mem n1
    have m2 : rows'[n] ∈ rows' := List.getElem_mem n2
    have p1 := hr _ (List.mem_append_left rows' m1)
    have p2 := hr _ (List.mem_append_right rows m2)
    refine cells_inj _ _ _ _ (by rw [p1.1, p2.1]) 0 (fun i hi => ?_) (fun i c hc => ?_) (fun i c hc => ?_)
      (fun c hc => (p1.2 c hc).2) (fun c hc => (p2.2 c hc).2) e
    · rw [Nat.zero_add]; exact hw i (by rw [p1.1] at hi; exact hi)
    · have := width_cell (headers :: rows) _ (List.mem_cons_of_mem _ m1) i c hc
      rw [Nat.zero_add]; omega
    · have := width_cell (headers :: rows') _ (List.mem_cons_of_mem _ m2) i c hc
      rw [Nat.zero_add]; omega

/-- C143. The same for typed cells: if two tables filled with `col(x)` are printed as the same text, then in every place the same type of
number has the same value, because the texts of the cells agree (see `C143_integer`). -/
theorem C143_typed (headers : List (List Char)) (h2 : 2 ≤ headers.length)
    (hh : ∀ h ∈ headers, h ≠ [] ∧ h.head? ≠ some ' ' ∧ '\n' ∉ h) (rows rows' : List (List CellArg))
    (hr : ∀ r ∈ rows ++ rows', r.length = headers.length ∧ ∀ c ∈ r, '\n' ∉ c.str ∧ c.str.getLast? ≠ some ' ')
    (hsmall : ∀ j, width (headers :: rows.map (·.map CellArg.str)) j < 2 ^ 64 ∧ width (headers :: rows'.map (·.map CellArg.str)) j < 2 ^ 64)
    (t t₁ t₂ : Table) (text : List Char) (hnew : Table.new headers = .ok t)
    (h₁ : t.run (rows.flatMap fun r => r.flatMap colArg ++ [.row]) = .ok t₁)
    (h₂ : t.run (rows'.flatMap fun r => r.flatMap colArg ++ [.row]) = .ok t₂)
    (e₁ : t₁.toStr = .ok text) (e₂ : t₂.toStr = .ok text) :
    rows.map (·.map CellArg.str) = rows'.map (·.map CellArg.str) ∧
    (∀ (n m : Nat) (i j : BitVec 64), (rows[n]?.bind (·[m]?)) = some (.uint64 i) → (rows'[n]?.bind (·[m]?)) = some (.uint64 j) → i = j) ∧
    ∀ (n m : Nat) (i j : BitVec 64), (rows[n]?.bind (·[m]?)) = some (.int64 i) → (rows'[n]?.bind (·[m]?)) = some (.int64 j) → i = j := by
  have ops : ∀ rs : List (List CellArg), (rs.flatMap fun r => r.flatMap colArg ++ [TableOp.row]) =
      (rs.map (·.map CellArg.str)).flatMap fun r => r.flatMap colOps ++ [.row] := by
    intro rs
    rw [List.flatMap_map]
    congr 1
    funext r
    rw [List.flatMap_map]
    rfl
  rw [ops] at h₁ h₂
  have key := C143_unambiguous headers h2 hh _ _ (fun r hm => by
    rw [← List.map_append] at hm
    obtain ⟨r', h1, rfl⟩ := List.mem_map.1 hm
    refine ⟨by rw [List.length_map]; exact (hr r' h1).1, fun c hc => ?_⟩
    obtain ⟨x, hx, rfl⟩ := List.mem_map.1 hc
    exact (hr r' h1).2 x hx) hsmall t t₁ t₂ text hnew h₁ h₂ e₁ e₂
  have cell : ∀ (n m : Nat) (x y : CellArg), (rows[n]?.bind (·[m]?)) = some x → (rows'[n]?.bind (·[m]?)) = some y → x.str = y.str := by
    intro n m x y hx hy
    have e := congrArg (fun l => l[n]?.bind (·[m]?)) key
    have pull : ∀ (rs : List (List CellArg)) (z : CellArg), (rs[n]?.bind (·[m]?)) = some z →
        (((rs.map (·.map CellArg.str))[n]?).bind (·[m]?)) = some z.str := by
      intro rs z hz
      rw [List.getElem?_map]
      rcases hn : rs[n]? with _ | r
      · rw [hn] at hz; simp at hz
      · rw [hn] at hz
        have hz : r[m]? = some z := hz
        show (r.map CellArg.str)[m]? = _
        rw [List.getElem?_map, hz]; rfl
    rw [pull rows x hx, pull rows' y hy] at e
    exact Option.some.inj e
  refine ⟨key, fun n m i j hi hj => ?_, fun n m i j hi hj => ?_⟩
  · have e := congrArg readSigned (cell n m _ _ hi hj)
    rw [(C143_integer 0#32 i).1.2.2.2, (C143_integer 0#32 j).1.2.2.2] at e
    exact BitVec.eq_of_toNat_eq (by exact_mod_cast Option.some.inj e)
  · have e := congrArg readSigned (cell n m _ _ hi hj)
    rw [(C143_integer 0#32 i).1.2.2.1, (C143_integer 0#32 j).1.2.2.1] at e
    exact BitVec.eq_of_toInt_eq (by exact_mod_cast Option.some.inj e)

/-- C143. Without the condition on the cells this is false: a cell that ends with a blank looks like the cell without it. -/
theorem C143_trailing_blank : ∃ t t₁ t₂ text, Table.new ["test".toList, "p".toList] = .ok t ∧
    t.run (colOps "a".toList ++ colOps "1".toList ++ [.row]) = .ok t₁ ∧ t.run (colOps "a ".toList ++ colOps "1".toList ++ [.row]) = .ok t₂ ∧
    t₁.toStr = .ok text ∧ t₂.toStr = .ok text := ⟨_, _, _, "test  p  \na     1  \n".toList, rfl, rfl, rfl, by decide, by decide⟩

-- A table of names, integers and truth values as in the conditions of `C143_unambiguous`.
example : ∃ t t₁, Table.new ["test".toList, "p".toList] = .ok t ∧
    t.run ([["gap".toList, intText (-12)], ["sac".toList, boolText true]].flatMap fun r => r.flatMap colOps ++ [.row]) = .ok t₁ ∧
    t₁.toStr = .ok "test  p     \ngap   -12   \nsac   true  \n".toList ∧ t₁.getColumnSize 1 = .ok 6 :=
  ⟨_, _, rfl, rfl, by decide, rfl⟩
example : (∀ h ∈ ["test".toList, "p".toList], h ≠ [] ∧ h.head? ≠ some ' ' ∧ '\n' ∉ h) ∧
    ∀ r ∈ [["gap".toList, intText (-12)], ["sac".toList, boolText true]],
      r.length = 2 ∧ ∀ c ∈ r, '\n' ∉ c ∧ c.getLast? ≠ some ' ' := by decide

end TFR
