import Verif.Model.Files
import Mathlib.Tactic.Linarith
/-
C68: tables.
-/
namespace TFR

/-- The width of column `j`: two more than the longest cell in it (0 if there is none). -/
def Spec.width (rows : List (List (List Char))) (j : Nat) : Nat :=
  rows.foldr (fun r m => max m (match r[j]? with | some c => c.length + 2 | none => 0)) 0

/-- A cell padded with blanks on the right. -/
def Spec.pad (n : Nat) (c : List Char) : List Char := c ++ List.replicate (n - c.length) ' '

/-- A line: every cell padded to the width of its column, and a newline. -/
def Spec.line (rows : List (List (List Char))) (r : List (List Char)) : List Char :=
  ((r.zipIdx).flatMap fun ci => Spec.pad (Spec.width rows ci.2) ci.1) ++ ['\n']
open Spec

private theorem width_append (rows : List (List (List Char))) (r : List (List Char)) (j : Nat) :
    width (rows ++ [r]) j = max (width rows j) (match r[j]? with | some c => c.length + 2 | none => 0) := by
  unfold width
  induction rows with
  | nil => simp [Nat.max_comm]
  | cons a rows ih => rw [List.cons_append, List.foldr_cons, List.foldr_cons, ih]; omega

private theorem width_ge (rows : List (List (List Char))) (r : List (List Char)) (hr : r ∈ rows) (j : Nat) (c : List Char) (hc : r[j]? = some c) :
    c.length + 2 ≤ width rows j := by
  unfold width
  induction rows with
  | nil => cases hr
  | cons a rows ih =>
    rw [List.foldr_cons]
    rcases List.mem_cons.1 hr with rfl | hr
    · rw [hc]; exact le_max_right _ _
    · exact (ih hr).trans (le_max_left _ _)

/-- The state of a table after its construction. -/
private structure Inv (t : Table) : Prop where
  spaces : t.spaces = (List.range t.columns).map (width t.rows)
  last : ∃ pre r, t.rows = pre ++ [r] ∧ t.index = r.length
  short : ∀ r ∈ t.rows, r.length ≤ t.columns

private theorem col_spec (t : Table) (h : Inv t) :
    (t.index = t.columns → t.col = .error .oobIndex) ∧
    (t.index ≠ t.columns → ∃ t', t.col = .ok t' ∧ Inv t' ∧ t'.columns = t.columns ∧ t'.current = [] ∧ t'.index = t.index + 1 ∧
      ∃ pre r, t.rows = pre ++ [r] ∧ t'.rows = pre ++ [r ++ [t.current]]) := by
  obtain ⟨pre, r, hrows, hidx⟩ := h.last
  have hle : r.length ≤ t.columns := h.short r (by rw [hrows]; simp)
  constructor
  · intro he
    unfold Table.col
    rw [h.spaces, List.getElem?_eq_none (by simp [he])]
  · intro hne
    have hlt : t.index < t.columns := by omega
    have hsp : t.spaces[t.index]? = some (width t.rows t.index) := by
      rw [h.spaces]; simp [hlt]
    have hcol : t.col = .ok { t with
        spaces := t.spaces.set t.index (max (width t.rows t.index) (t.current.length + 2))
        rows := pre ++ [r ++ [t.current]]
        index := t.index + 1
        current := [] } := by
      unfold Table.col
      rw [hsp, hrows]; simp
    refine ⟨_, hcol, ⟨?_, ⟨pre, r ++ [t.current], rfl, by simp [hidx]⟩, ?_⟩, rfl, rfl, rfl, pre, r, hrows, rfl⟩
    · apply List.ext_getElem
      · simp [h.spaces]
      · intro j h1 h2
        simp only [List.length_map, List.length_range] at h2
        rw [List.getElem_set, List.getElem_map, List.getElem_range, width_append]
        have hw : width t.rows j = max (width pre j) (match r[j]? with | some c => c.length + 2 | none => 0) := by
          rw [hrows, width_append]
        by_cases hj : t.index = j
        · subst hj
          rw [if_pos rfl, hw, hidx]; simp
        · rw [if_neg hj]
          have : t.spaces[j]'(by simp [h.spaces]; omega) = width t.rows j := by simp [h.spaces]
          rw [this, hw]
          congr 1
          by_cases hjr : j < r.length
          · rw [List.getElem?_append_left hjr]
          · rw [List.getElem?_eq_none (by omega), List.getElem?_eq_none (by simp; omega)]
    · intro r' hr'
      simp only [List.mem_append, List.mem_singleton] at hr'
      rcases hr' with hr' | rfl
      · exact h.short r' (by rw [hrows]; simp [hr'])
      · simp; omega

private theorem newRow_inv (t : Table) (h : t.spaces = (List.range t.columns).map (width t.rows)) (hs : ∀ r ∈ t.rows, r.length ≤ t.columns) :
    Inv { t with rows := t.rows ++ [[]], index := 0 } := by
  refine ⟨?_, ⟨t.rows, [], rfl, rfl⟩, ?_⟩
  · show t.spaces = (List.range t.columns).map (width (t.rows ++ [[]]))
    rw [h]
    apply List.map_congr_left
    intro j _
    rw [width_append]; simp
  · intro r hr
    simp only [List.mem_append, List.mem_singleton] at hr
    rcases hr with hr | rfl
    · exact hs r hr
    · simp

private theorem row_spec (t : Table) (h : Inv t) :
    ∃ t', t.row = .ok t' ∧ Inv t' ∧ t'.columns = t.columns ∧
      (∃ pre r, t.rows = pre ++ [r] ∧ if t.index + 1 = t.columns
        then t'.rows = pre ++ [r ++ [t.current], []] ∧ t'.current = [] else t'.rows = t.rows ++ [[]] ∧ t'.current = t.current) := by
  unfold Table.row
  by_cases hc : t.columns ≠ 0 ∧ t.index = t.columns - 1
  · rw [if_pos hc]
    obtain ⟨t', h1, h2, h3, h4, h5, pre, r, h6, h7⟩ := (col_spec t h).2 (by omega)
    rw [h1]
    refine ⟨_, rfl, newRow_inv t' h2.spaces h2.short, h3, pre, r, h6, ?_⟩
    rw [if_pos (by omega)]
    exact ⟨by simp [h7], h4⟩
  · rw [if_neg hc]
    obtain ⟨pre, r, h6, h7⟩ := h.last
    refine ⟨_, rfl, newRow_inv t h.spaces h.short, rfl, pre, r, h6, ?_⟩
    have := h.short r (by rw [h6]; simp)
    rw [if_neg (by omega)]
    exact ⟨rfl, rfl⟩

private theorem run_append (t : Table) (a b : List TableOp) : t.run (a ++ b) = (t.run a >>= fun t => t.run b) := by
  induction a generalizing t with
  | nil => rfl
  | cons op a ih =>
    rw [List.cons_append, Table.run, Table.run]
    cases h : t.step op with
    | error e => rfl
    | ok t' => exact ih t'

/-- Filling a row from its start. -/
private theorem run_cells (t : Table) (h : Inv t) (pre : List (List (List Char))) (r cells : List (List Char)) (hrows : t.rows = pre ++ [r])
    (hcur : t.current = []) (hlen : r.length + cells.length ≤ t.columns) :
    ∃ t', t.run (cells.flatMap colOps) = .ok t' ∧ Inv t' ∧ t'.columns = t.columns ∧ t'.rows = pre ++ [r ++ cells] ∧ t'.current = [] ∧
      t'.index = r.length + cells.length := by
  have hidx : ∀ (t : Table) (r : List (List Char)), Inv t → t.rows = pre ++ [r] → t.index = r.length := by
    intro t r h hr
    obtain ⟨pre', r', h1, h2⟩ := h.last
    rw [hr] at h1
    obtain ⟨_, h4⟩ := List.append_inj' h1 rfl
    rw [h2, List.singleton_inj.1 h4]
  induction cells generalizing t r with
  | nil => exact ⟨t, rfl, h, rfl, by simp [hrows], hcur, by simp [hidx t r h hrows]⟩
  | cons c cells ih =>
    rw [List.flatMap_cons, run_append]
    have happ : Inv (t.app c) := ⟨h.spaces, h.last, h.short⟩
    have hi := hidx t r h hrows
    simp only [List.length_cons] at hlen
    obtain ⟨t', h1, h2, h3, h4, h5, pre', r', h6, h7⟩ := (col_spec (t.app c) happ).2 (by show t.index ≠ t.columns; omega)
    have hrun : t.run (colOps c) = .ok t' := by
      show ((t.app c).col >>= fun t => .ok t) = _
      rw [h1]; rfl
    rw [hrun]
    have h6' : t.rows = pre' ++ [r'] := h6
    rw [hrows] at h6'
    obtain ⟨e1, e2⟩ := List.append_inj' h6' rfl
    have e2 := List.singleton_inj.1 e2
    subst e1 e2
    have hcur' : (t.app c).current = c := by simp [Table.app, hcur]
    rw [hcur'] at h7
    obtain ⟨t'', k1, k2, k3, k4, k5, k6⟩ := ih t' h2 (r ++ [c]) h7 h4 (by rw [h3]; show _ ≤ t.columns; simp; omega)
    refine ⟨t'', k1, k2, k3.trans h3, by rw [k4]; simp, k5, by rw [k6]; simp; omega⟩

private theorem new_spec (headers : List (List Char)) (h : headers.length ≠ 1) :
    ∃ t, Table.new headers = .ok t ∧ Inv t ∧ t.columns = headers.length ∧ t.rows = [headers, []] ∧ t.current = [] := by
  unfold Table.new
  have h0 : (⟨headers.length, List.replicate headers.length 0, 0, [], []⟩ : Table).row =
      .ok ⟨headers.length, List.replicate headers.length 0, 0, [], [[]]⟩ := by
    unfold Table.row
    rw [if_neg (by rintro ⟨a, b⟩; dsimp only at a b; omega)]; rfl
  rw [h0]
  have hinv : Inv ⟨headers.length, List.replicate headers.length 0, 0, [], [[]]⟩ := by
    refine ⟨?_, ⟨[], [], rfl, rfl⟩, by simp⟩
    apply List.ext_getElem
    · simp
    · intro j h1 h2; simp [width]
  obtain ⟨t, k1, k2, k3, k4, k5, k6⟩ := run_cells _ hinv [] [] headers rfl rfl (by simp)
  obtain ⟨t', j1, j2, j3, pre, r, j4, j5⟩ := row_spec t k2
  rw [if_neg (by rw [k6, k3]; simp)] at j5
  refine ⟨t', ?_, j2, j3.trans k3, by rw [j5.1, k4]; simp, by rw [j5.2, k5]⟩
  show (Table.run _ _ >>= Table.row) = _
  rw [k1]; exact j1

private theorem renderCells_spec (rows : List (List (List Char))) (cols : Nat) (r : List (List Char)) (hr : r ∈ rows) (hlen : r.length ≤ cols)
    (hsmall : ∀ j, width rows j < 2 ^ 64) :
    Table.renderCells ((List.range cols).map (width rows)) 0 r = .ok ((r.zipIdx).flatMap fun ci => pad (width rows ci.2) ci.1) := by
  have gen : ∀ (k : Nat) (s : List (List Char)), (∀ i, s[i]? = r[k + i]?) → k + s.length ≤ cols →
      Table.renderCells ((List.range cols).map (width rows)) k s = .ok ((s.zipIdx k).flatMap fun ci => pad (width rows ci.2) ci.1) := by
    intro k s
    induction s generalizing k with
    | nil => intro _ _; rfl
    | cons c s ih =>
      intro hs hk
      simp only [List.length_cons] at hk
      rw [Table.renderCells]
      have hget : ((List.range cols).map (width rows))[k]? = some (width rows k) := by
        rw [List.getElem?_map, List.getElem?_range (by omega)]; rfl
      rw [hget]
      have hc : c.length + 2 ≤ width rows k := width_ge rows r hr k c (by have := hs 0; simpa using this.symm)
      have hp : (BitVec.ofNat 64 (width rows k) - BitVec.ofNat 64 c.length).toNat = width rows k - c.length := by
        have := hsmall k
        rw [BitVec.toNat_sub, BitVec.toNat_ofNat, BitVec.toNat_ofNat]
        rw [Nat.mod_eq_of_lt (show width rows k < 2 ^ 64 by omega), Nat.mod_eq_of_lt (show c.length < 2 ^ 64 by omega)]
        omega
      dsimp only
      rw [hp, ih (k + 1) (fun i => by have := hs (i + 1); rw [List.getElem?_cons_succ] at this; rw [this]; congr 1; omega) (by omega)]
      show Except.ok _ = _
      rw [List.zipIdx_cons, List.flatMap_cons]
      rfl
  exact gen 0 r (fun i => by simp) (by simpa using hlen)

private theorem toStr_spec (t : Table) (h : Inv t) (hsmall : ∀ j, width t.rows j < 2 ^ 64) :
    t.toStr = .ok ((t.rows.filter (· ≠ [])).flatMap (line t.rows)) := by
  unfold Table.toStr
  rw [h.spaces]
  have gen : ∀ rs : List (List (List Char)), (∀ r ∈ rs, r ∈ t.rows) →
      Table.renderRows ((List.range t.columns).map (width t.rows)) rs = .ok ((rs.filter (· ≠ [])).flatMap (line t.rows)) := by
    intro rs
    induction rs with
    | nil => intro _; rfl
    | cons r rs ih =>
      intro hm
      have hr := hm r List.mem_cons_self
      rw [Table.renderRows, renderCells_spec t.rows t.columns r hr (h.short r hr) hsmall, ih fun x hx => hm x (List.mem_cons_of_mem _ hx)]
      show Except.ok _ = _
      congr 1
      by_cases he : r = []
      · subst he; simp
      · have : r.isEmpty = false := by simpa using he
        rw [this]
        have hd : decide (r ≠ []) = true := by simpa using he
        rw [List.filter_cons, if_pos hd, List.flatMap_cons]
        rfl
  exact gen t.rows fun _ h => h

/-- The text added by a call. -/
def Spec.addedText : TableOp → List Char
  | .app s => s
  | _ => []

private theorem step_inv (t t' : Table) (h : Inv t) (op : TableOp) (hs : t.step op = .ok t') :
    Inv t' ∧ t'.columns = t.columns ∧ t'.rows.flatten.flatten ++ t'.current = t.rows.flatten.flatten ++ t.current ++ addedText op ∧
      t.rows.dropLast <+: t'.rows := by
  cases op with
  | app s =>
    cases hs
    exact ⟨⟨h.spaces, h.last, h.short⟩, rfl, by simp [Table.app, addedText], List.dropLast_prefix _⟩
  | col =>
    by_cases hi : t.index = t.columns
    · have := (col_spec t h).1 hi
      have hs' : t.col = .ok t' := hs
      rw [this] at hs'; cases hs'
    · obtain ⟨t'', h1, h2, h3, h4, h5, pre, r, h6, h7⟩ := (col_spec t h).2 hi
      have hs' : t.col = .ok t' := hs
      rw [h1] at hs'; cases hs'
      refine ⟨h2, h3, ?_, ?_⟩
      · rw [h6, h7, h4]; simp [addedText]
      · rw [h6, h7]; simp
  | row =>
    obtain ⟨t'', h1, h2, h3, pre, r, h6, h7⟩ := row_spec t h
    have hs' : t.row = .ok t' := hs
    rw [h1] at hs'; cases hs'
    refine ⟨h2, h3, ?_, ?_⟩
    · split at h7
      · rw [h7.1, h7.2, h6]; simp [addedText]
      · rw [h7.1, h7.2]; simp [addedText]
    · split at h7
      · rw [h7.1, h6]; simp
      · rw [h7.1, h6]; simp

private theorem run_inv (t t' : Table) (h : Inv t) (ops : List TableOp) (hs : t.run ops = .ok t') (hd : (List (List Char)))
    (hhd : [hd] <+: t.rows.dropLast) :
    Inv t' ∧ t'.columns = t.columns ∧ t'.rows.flatten.flatten ++ t'.current = t.rows.flatten.flatten ++ t.current ++ ops.flatMap addedText ∧
      [hd] <+: t'.rows.dropLast := by
  induction ops generalizing t with
  | nil => cases hs; exact ⟨h, rfl, by simp, hhd⟩
  | cons op ops ih =>
    rw [Table.run] at hs
    cases hop : t.step op with
    | error e => rw [hop] at hs; cases hs
    | ok t1 =>
      rw [hop] at hs
      obtain ⟨a1, a2, a3, a4⟩ := step_inv t t1 h op hop
      -- the table never loses a finished row
      have hl : t.rows.dropLast.length ≤ t1.rows.dropLast.length := by
        cases op with
        | app s => cases hop; exact le_rfl
        | col =>
          by_cases hi : t.index = t.columns
          · have := (col_spec t h).1 hi
            have hs' : t.col = .ok t1 := hop
            rw [this] at hs'; cases hs'
          · obtain ⟨t'', h1, _, _, _, _, pre, r, h6, h7⟩ := (col_spec t h).2 hi
            have hs' : t.col = .ok t1 := hop
            rw [h1] at hs'; cases hs'
            rw [h6, h7]; simp
        | row =>
          obtain ⟨t'', h1, _, _, pre, r, h6, h7⟩ := row_spec t h
          have hs' : t.row = .ok t1 := hop
          rw [h1] at hs'; cases hs'
          split at h7
          · rw [h7.1, h6]; simp
          · rw [h7.1, h6]; simp
      have hd1 : [hd] <+: t1.rows.dropLast :=
        hhd.trans (List.prefix_of_prefix_length_le a4 (List.dropLast_prefix _) hl)
      obtain ⟨b1, b2, b3, b4⟩ := ih t1 a1 hs hd1
      refine ⟨b1, b2.trans a2, ?_, b4⟩
      rw [b3, a3]; simp

/-- C68. A table with a header and complete rows is rendered line by line: header first, rows in the order of insertion, every cell
padded with blanks to two more than the longest cell of its column (`width`), nothing cut off and nothing lost. -/
theorem C68_render (headers : List (List Char)) (rows : List (List (List Char))) (h2 : 2 ≤ headers.length)
    (hrows : ∀ r ∈ rows, r.length = headers.length) (hsmall : ∀ j, width (headers :: rows) j < 2 ^ 64) :
    ∃ t t', Table.new headers = .ok t ∧ t.run (rows.flatMap fun r => r.flatMap colOps ++ [.row]) = .ok t' ∧
      t'.toStr = .ok ((headers :: rows).flatMap (line (headers :: rows))) := by
  obtain ⟨t, n1, n2, n3, n4, n5⟩ := new_spec headers (by omega)
  refine ⟨t, ?_⟩
  have gen : ∀ (rows : List (List (List Char))) (t : Table) (pre : List (List (List Char))), (∀ r ∈ rows, r.length = t.columns) →
      Inv t → t.rows = pre ++ [[]] → t.current = [] →
      ∃ t', t.run (rows.flatMap fun r => r.flatMap colOps ++ [.row]) = .ok t' ∧ Inv t' ∧ t'.rows = pre ++ rows ++ [[]] := by
    intro rows
    induction rows with
    | nil => intro t pre _ h hr _; exact ⟨t, rfl, h, by simpa using hr⟩
    | cons r rows ih =>
      intro t pre hlen h hr hcur
      have hl := hlen r List.mem_cons_self
      rw [List.flatMap_cons, run_append, run_append]
      obtain ⟨t1, k1, k2, k3, k4, k5, k6⟩ := run_cells t h pre [] r hr hcur (by simp [hl])
      obtain ⟨t2, j1, j2, j3, pre', r', j4, j5⟩ := row_spec t1 k2
      rw [if_neg (by rw [k6, k3]; simp [hl])] at j5
      rw [k1]
      have hb : ∀ {α β : Type} (x : α) (f : α → R β), ((.ok x : R α) >>= f) = f x := fun _ _ => rfl
      rw [hb]
      have : t1.run [.row] = .ok t2 := by
        show (t1.row >>= fun t => .ok t) = _
        rw [j1]; rfl
      rw [this, hb]
      obtain ⟨t', m1, m2, m3⟩ := ih t2 (pre ++ [r]) (fun x hx => by rw [j3, k3]; exact hlen x (List.mem_cons_of_mem _ hx)) j2
        (by rw [j5.1, k4]; simp) (by rw [j5.2, k5])
      exact ⟨t', m1, m2, by rw [m3]; simp⟩
  obtain ⟨t', g1, g2, g3⟩ := gen rows t [headers] (fun r hr => by rw [n3]; exact hrows r hr) n2 (by rw [n4]; rfl) n5
  refine ⟨t', n1, g1, ?_⟩
  have hw : width t'.rows = width (headers :: rows) := by
    funext j; rw [g3, width_append]; simp
  have hline : line t'.rows = line (headers :: rows) := by
    funext r; unfold line; rw [hw]
  rw [toStr_spec t' g2 (by rw [hw]; exact hsmall), hline, g3]
  have hf : ([headers] ++ rows ++ [[]]).filter (fun r => decide (r ≠ [])) = headers :: rows := by
    rw [List.filter_append, List.filter_eq_self.2]
    · simp
    · intro r hr
      have : r.length = headers.length := by
        rcases List.mem_append.1 hr with hr | hr
        · rw [List.mem_singleton.1 hr]
        · exact hrows r hr
      rw [decide_eq_true_eq]
      rintro rfl
      simp at this; omega
  rw [hf]

/-- C68. Whatever the sequence of calls: a table that has not run into undefined behaviour renders its non-empty rows (the header
first) as lines with aligned columns, and the cells together with the pending text contain exactly the text added so far, in order. -/
theorem C68_history (headers : List (List Char)) (ops : List TableOp) (t t' : Table) (h2 : 2 ≤ headers.length)
    (hnew : Table.new headers = .ok t) (hrun : t.run ops = .ok t') (hsmall : ∀ j, width t'.rows j < 2 ^ 64) :
    t'.toStr = .ok ((t'.rows.filter (· ≠ [])).flatMap (line t'.rows)) ∧
    t'.rows.head? = some headers ∧
    t'.rows.flatten.flatten ++ t'.current = headers.flatten ++ ops.flatMap addedText ∧
    ∀ r ∈ t'.rows, r.length ≤ headers.length := by
  obtain ⟨t0, n1, n2, n3, n4, n5⟩ := new_spec headers (by omega)
  rw [hnew] at n1; cases n1
  obtain ⟨a1, a2, a3, a4⟩ := run_inv t t' n2 ops hrun headers (by rw [n4]; simp)
  refine ⟨toStr_spec t' a1 hsmall, ?_, ?_, ?_⟩
  · obtain ⟨s, hs⟩ := a4.trans (List.dropLast_prefix _)
    rw [← hs]; rfl
  · rw [a3, n4, n5]; simp
  · intro r hr
    have := a1.short r hr
    rwa [a2, n3] at this

/-- The recorded widths after any sequence of calls (for C143). -/
theorem table_spaces (headers : List (List Char)) (ops : List TableOp) (t t' : Table) (h2 : 2 ≤ headers.length)
    (hnew : Table.new headers = .ok t) (hrun : t.run ops = .ok t') : t'.spaces = (List.range headers.length).map (width t'.rows) := by
  obtain ⟨t0, n1, n2, n3, n4, n5⟩ := new_spec headers (by omega)
  rw [hnew] at n1; cases n1
  obtain ⟨a1, a2, a3, a4⟩ := run_inv t t' n2 ops hrun headers (by rw [n4]; simp)
  rw [a1.spaces, a2, n3]

/-- C68. The only call that is undefined is ending a cell in a row that already has all its cells. -/
theorem C68_fault (headers : List (List Char)) (ops : List TableOp) (t t' : Table) (h2 : 2 ≤ headers.length)
    (hnew : Table.new headers = .ok t) (hrun : t.run ops = .ok t') (op : TableOp) :
    (∃ e, t'.step op = .error e) ↔ op = .col ∧ ∃ r, t'.rows.getLast? = some r ∧ r.length = headers.length := by
  obtain ⟨t0, n1, n2, n3, n4, n5⟩ := new_spec headers (by omega)
  rw [hnew] at n1; cases n1
  obtain ⟨a1, a2, a3, a4⟩ := run_inv t t' n2 ops hrun headers (by rw [n4]; simp)
  obtain ⟨pre, r, hr, hi⟩ := a1.last
  cases op with
  | app s => simp [Table.step]
  | row =>
    obtain ⟨t'', h1, _⟩ := row_spec t' a1
    simp [Table.step, h1]
  | col =>
    have hlast : t'.rows.getLast? = some r := by rw [hr]; simp
    rw [hlast]
    simp only [true_and, Option.some.injEq, exists_eq_left']
    by_cases hc : t'.index = t'.columns
    · have := (col_spec t' a1).1 hc
      simp only [Table.step, this, Except.error.injEq, exists_eq', true_iff]
      rw [← hi, hc, a2, n3]
    · obtain ⟨t'', h1, _⟩ := (col_spec t' a1).2 hc
      simp only [Table.step, h1, reduceCtorEq, exists_false, false_iff]
      rw [← hi, ← n3, ← a2]; exact hc

/-- C68. A table with exactly one column cannot be constructed: the constructor ends a cell before there is a row. -/
theorem C68_one_column (header : List Char) : Table.new [header] = .error .oobIndex := rfl

-- A header of two columns and one row.
example : ∃ t t', Table.new ["test".toList, "p".toList] = .ok t ∧
    t.run (colOps "gap".toList ++ colOps "0.125".toList ++ [.row]) = .ok t' ∧
    t'.toStr = .ok "test  p      \ngap   0.125  \n".toList := ⟨_, _, rfl, rfl, by decide⟩

end TFR
