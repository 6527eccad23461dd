import Verif.Lemmas.Windows
import Verif.Spec.BitList
/-
C09: bit_vector refines a list of booleans.
-/
namespace TFR.BitVector
open TFR.Spec

/-- Bit `i` of the byte array. -/
def dataBit (data : List (BitVec 8)) (i : Nat) : Bool := (data.getD (i / 8) 0#8).getLsbD (i % 8)

/-- Representation relation: the byte array is just long enough and holds the list, all spare bits 0. -/
def Repr (v : BitVector) (l : List Bool) : Prop :=
  v.bits = l.length ∧ v.data.length = (l.length + 7) / 8 ∧ ∀ i, dataBit v.data i = l.getD i false

theorem and_one_eq (x : BitVec 8) : (x &&& 1#8 == 1#8) = x.getLsbD 0 := by
  have : ∀ n : Fin 256, ((BitVec.ofFin (w := 8) n) &&& 1#8 == 1#8) = (BitVec.ofFin (w := 8) n).getLsbD 0 := by
    decide +kernel
  exact this x.toFin

theorem and_one_eq64 (x : BitVec 64) : (x &&& 1#64 == 1#64) = x.getLsbD 0 := by
  rw [Bool.eq_iff_iff, beq_iff_eq]
  constructor
  · intro h
    have := congrArg (fun z => z.getLsbD 0) h
    simpa using this
  · intro h
    apply BitVec.eq_of_getLsbD_eq
    intro i hi
    by_cases h0 : i = 0
    · subst h0; simp [h]
    · simp [BitVec.getLsbD_one, h0]

theorem getBit_eq (v : BitVector) (i : Nat) :
    v.getBit i = if i / 8 < v.data.length then .ok (dataBit v.data i) else .error .oobIndex := by
  unfold getBit dataBit
  simp only
  by_cases h : i / 8 < v.data.length
  · rw [if_pos h, List.getElem?_eq_getElem h, List.getD_eq_getElem _ _ h]
    simp only [and_one_eq, BitVec.getLsbD_ushiftRight]
    congr 2; omega
  · rw [if_neg h, List.getElem?_eq_none (by omega)]

theorem dataBit_set (data : List (BitVec 8)) (i j : Nat) (byte : BitVec 8) (h : j < data.length) :
    dataBit (data.set j byte) i = if i / 8 = j then byte.getLsbD (i % 8) else dataBit data i := by
  unfold dataBit
  by_cases hij : i / 8 = j
  · rw [if_pos hij, hij, List.getD_eq_getElem _ _ (by simpa using h)]; simp
  · rw [if_neg hij]; simp [List.getD_eq_getElem?_getD, List.getElem?_set, Ne.symm hij]

theorem setBit_ok (v : BitVector) (bit : Nat) (b : Bool) (h : bit / 8 < v.data.length) :
    ∃ u, v.setBit bit b = .ok u ∧ u.bits = v.bits ∧ u.data.length = v.data.length ∧
      ∀ i, dataBit u.data i = if i = bit then b else dataBit v.data i := by
  unfold setBit
  simp only [List.getElem?_eq_getElem h]
  refine ⟨_, rfl, rfl, by simp, fun i => ?_⟩
  rw [dataBit_set _ _ _ _ h]
  have hk : ∀ i, i / 8 = bit / 8 → dataBit v.data i = (v.data[bit / 8]).getLsbD (i % 8) := by
    intro i hi
    unfold dataBit; rw [hi, List.getD_eq_getElem _ _ h]
  generalize v.data[bit / 8] = byte at hk
  have hm : i % 8 < 8 := Nat.mod_lt _ (by omega)
  by_cases h1 : i / 8 = bit / 8
  · rw [if_pos h1, hk i h1]
    by_cases h2 : i = bit
    · subst h2
      rw [if_pos rfl, show i - 8 * (i / 8) = i % 8 by omega]
      cases b <;> simp [hm, BitVec.getLsbD_shiftLeft]
    · rw [if_neg h2]
      by_cases h3 : i % 8 < bit - 8 * (bit / 8)
      · cases b <;> simp [hm, BitVec.getLsbD_shiftLeft, h3]
      · have h4 : i % 8 - (bit - 8 * (bit / 8)) ≠ 0 := by omega
        cases b <;> simp [hm, BitVec.getLsbD_shiftLeft, h3, BitVec.getLsbD_one, h4]
  · rw [if_neg h1, if_neg (by rintro rfl; exact h1 rfl)]

theorem getBit_repr {v : BitVector} {l : List Bool} (h : Repr v l) (i : Nat) (hi : i < l.length) :
    v.getBit i = .ok (l.getD i false) := by
  rw [getBit_eq, if_pos (by rw [h.2.1]; omega), h.2.2 i]

theorem setBit_repr {v : BitVector} {l : List Bool} (h : Repr v l) (i : Nat) (hi : i < l.length) (b : Bool) :
    ∃ u, v.setBit i b = .ok u ∧ Repr u (l.set i b) := by
  obtain ⟨u, h1, h2, h3, h4⟩ := setBit_ok v i b (by rw [h.2.1]; omega)
  refine ⟨u, h1, by simp [h2, h.1], by simp [h3, h.2.1], fun j => ?_⟩
  rw [h4 j, h.2.2 j]
  by_cases hj : j = i
  · subst hj; simp [List.getElem?_set, hi]
  · simp [List.getD_eq_getElem?_getD, List.getElem?_set, Ne.symm hj, hj]

theorem dataBit_resize (data : List (BitVec 8)) (n i : Nat) (h : data.length ≤ n) :
    dataBit (resize data n) i = dataBit data i := by
  unfold resize dataBit
  by_cases h2 : n ≤ data.length
  · have : n = data.length := by omega
    subst this; simp
  · rw [if_neg h2]
    by_cases h3 : i / 8 < data.length
    · simp [List.getD_eq_getElem?_getD, List.getElem?_append_left h3]
    · have h5 : data[i / 8]? = none := List.getElem?_eq_none (by omega)
      rw [List.getD_eq_getElem?_getD, List.getElem?_append_right (by omega), List.getElem?_replicate,
        List.getD_eq_getElem?_getD, h5]
      split <;> simp

theorem length_resize (data : List (BitVec 8)) (n : Nat) : (resize data n).length = n := by
  unfold resize; split <;> simp <;> omega

theorem add_repr {v : BitVector} {l : List Bool} (h : Repr v l) (x : BitVec 64) (n : Nat) (hn : n ≤ 64) :
    ∃ u, v.add x n = .ok u ∧ Repr u (l ++ (List.range n).map (fun i => x.getLsbD i)) := by
  have key : ∀ m, m ≤ n → ∃ u : BitVector, (List.range m).foldlM (fun bv i =>
      if i < 64 then bv.setBit (l.length + i) ((x >>> i) &&& 1#64 == 1#64)
      else .error .shiftTooLarge) (⟨l.length + n, resize v.data ((l.length + n + 7) / 8)⟩ : BitVector)
        = (.ok u : R BitVector) ∧
      u.bits = l.length + n ∧ u.data.length = (l.length + n + 7) / 8 ∧
      ∀ i, dataBit u.data i = (l ++ (List.range m).map (fun i => x.getLsbD i)).getD i false := by
    intro m hm
    induction m with
    | zero =>
      refine ⟨_, rfl, rfl, length_resize _ _, fun i => ?_⟩
      rw [dataBit_resize _ _ _ (by rw [h.2.1]; omega), h.2.2]
      simp
    | succ m ih =>
      obtain ⟨u, h1, h2, h3, h4⟩ := ih (by omega)
      obtain ⟨u', k1, k2, k3, k4⟩ := setBit_ok u (l.length + m) ((x >>> m) &&& 1#64 == 1#64)
        (by rw [h3]; omega)
      refine ⟨u', ?_, by rw [k2, h2], by rw [k3, h3], fun i => ?_⟩
      · rw [List.range_succ, List.foldlM_append, h1]
        have : m < 64 := by omega
        simp only [List.foldlM_cons, List.foldlM_nil, this, if_true]
        rw [← k1]
        exact bind_pure (m := Except Fault) _
      · rw [k4 i, h4 i, and_one_eq64, BitVec.getLsbD_ushiftRight]
        simp only [List.range_succ, List.map_append, List.map_cons, List.map_nil, Nat.add_zero]
        rw [← List.append_assoc]
        have hlen : (l ++ (List.range m).map (fun i => x.getLsbD i)).length = l.length + m := by simp
        split
        · next hi =>
          subst hi
          rw [List.getD_eq_getElem?_getD, List.getElem?_append_right (by omega), hlen]; simp
        · next hi =>
          by_cases hlt : i < l.length + m
          · simp only [List.getD_eq_getElem?_getD]
            rw [List.getElem?_append_left (l₂ := [x.getLsbD m]) (by omega)]
          · simp only [List.getD_eq_getElem?_getD]
            rw [List.getElem?_eq_none (by omega), List.getElem?_eq_none (by simp; omega)]
  obtain ⟨u, h1, h2, h3, h4⟩ := key n le_rfl
  refine ⟨u, ?_, by simp [h2], by simp [h3, Nat.add_assoc], h4⟩
  rw [← h1]; unfold add
  simp only [h.1]

theorem foldlM_ok {β σ : Type} (f : σ → β → R σ) (g : σ → β → σ) (l : List β)
    (h : ∀ s, ∀ b ∈ l, f s b = .ok (g s b)) (s : σ) : l.foldlM f s = .ok (l.foldl g s) := by
  induction l generalizing s with
  | nil => rfl
  | cons b l ih =>
    simp only [List.foldlM_cons, List.foldl_cons]
    rw [h s b (by simp)]
    exact ih (fun s b hb => h s b (by simp [hb])) _

theorem range_getD (l : List Bool) : (List.range l.length).map (fun i => l.getD i false) = l := by
  apply List.ext_getElem
  · simp
  · intro i h1 h2; simp [List.getElem?_eq_getElem h2]

theorem count_repr {v : BitVector} {l : List Bool} (h : Repr v l) : v.count = .ok (l.count true) := by
  unfold count
  rw [h.1, foldlM_ok _ (fun sum i => sum + if l.getD i false then 1 else 0)]
  · rw [foldl_add_count (fun i => l.getD i false), Nat.zero_add]
    conv_rhs => rw [← range_getD l]
    rw [List.count, List.countP_map]
    congr 2; funext i; simp
  · intro s i hi
    rw [getBit_repr h i (List.mem_range.1 hi)]
    cases l.getD i false <;> rfl

theorem toStr_repr {v : BitVector} {l : List Bool} (h : Repr v l) :
    v.toStr = .ok (l.map fun b => if b then '1' else '0') := by
  unfold toStr
  rw [h.1, foldlM_ok _ (fun s i => s ++ [if l.getD i false then '1' else '0'])]
  · have : ∀ (m : List Nat) (a : List Char), m.foldl (fun s i => s ++ [if l.getD i false then '1' else '0']) a
        = a ++ m.map (fun i => if l.getD i false then '1' else '0') := by
      intro m
      induction m with
      | nil => simp
      | cons x m ih => intro a; rw [List.foldl_cons, ih]; simp
    rw [this]
    conv_rhs => rw [← range_getD l]
    rw [List.map_map]; rfl
  · intro s i hi
    rw [getBit_repr h i (List.mem_range.1 hi)]
    cases l.getD i false <;> rfl

theorem shlOne_in (w s : Nat) (hs : s < w) : shlOne w s = .ok (1#w <<< s) := by
  obtain ⟨y, h1, h2⟩ := shlOne_ok w s (by unfold promotedWidth; omega)
  rw [h1]; congr 1
  apply BitVec.eq_of_toNat_eq
  rw [h2, BitVec.toNat_shiftLeft, BitVec.toNat_ofNat, Nat.one_mod_two_pow_eq_one.2 (by omega), Nat.shiftLeft_eq,
    Nat.one_mul]

/-- What a user can observe: the vector has the length of the list and reads like it. -/
def Holds (v : BitVector) (l : List Bool) : Prop :=
  v.size = l.length ∧ ∀ i, i < l.length → v.getBit i = .ok (l.getD i false)

theorem Repr.holds {v : BitVector} {l : List Bool} (h : Repr v l) : Holds v l :=
  ⟨h.1, getBit_repr h⟩

theorem get_holds {v : BitVector} {l : List Bool} (h : Holds v l) (w f n : Nat) (hn : n ≤ w)
    (hf : f + n ≤ l.length) :
    v.get w f n = .ok (BitVec.ofNat w (ofBits ((l.drop f).take n))) := by
  unfold get
  rw [foldlM_ok _ (fun (acc : BitVec w) s => if l.getD (f + s) false then acc ||| (1#w <<< s) else acc)]
  · congr 1
    have : ∀ m, m ≤ n → (List.range m).foldl
        (fun (acc : BitVec w) s => if l.getD (f + s) false then acc ||| (1#w <<< s) else acc) 0#w
        = BitVec.ofNat w (ofBits ((l.drop f).take m)) := by
      intro m hm
      induction m with
      | zero => simp [ofBits]
      | succ m ih =>
        rw [List.range_succ, List.foldl_append, ih (by omega)]
        simp only [List.foldl_cons, List.foldl_nil]
        have hd : (l.drop f).take (m + 1) = (l.drop f).take m ++ [l.getD (f + m) false] := by
          rw [List.take_succ_eq_append_getElem (by simp; omega), List.getD_eq_getElem _ _ (by omega)]
          simp
        have hlen : ((l.drop f).take m).length = m := by simp; omega
        rw [hd]
        generalize (l.drop f).take m = p at hlen
        generalize l.getD (f + m) false = b
        clear ih hd
        apply BitVec.eq_of_getLsbD_eq
        intro i hi
        have e : ∀ q : List Bool, (BitVec.ofNat w (ofBits q)).getLsbD i = q.getD i false := by
          intro q; rw [BitVec.getLsbD_ofNat, testBit_ofBits]; simp [hi]
        rw [e]
        rcases lt_trichotomy i m with h1 | h1 | h1
        · rw [List.getD_eq_getElem?_getD, List.getElem?_append_left (by omega)]
          cases b <;> simp [← BitVec.getLsbD_eq_getElem, e, hi, h1]
        · subst h1
          rw [List.getD_eq_getElem?_getD, List.getElem?_append_right (by omega)]
          have : p[i]? = none := List.getElem?_eq_none (by omega)
          cases b <;> simp [← BitVec.getLsbD_eq_getElem, e, hi, hlen, this, show 0 < w by omega]
        · rw [List.getD_eq_getElem?_getD, List.getElem?_eq_none (by simp; omega)]
          have h5 : p[i]? = none := List.getElem?_eq_none (by omega)
          have h6 : ¬ i < m := by omega
          have h7 : i - m ≠ 0 := by omega
          cases b <;> simp [← BitVec.getLsbD_eq_getElem, e, hi, h5, BitVec.getLsbD_one, h6, h7]
    exact this n le_rfl
  · intro s i hi
    have := List.mem_range.1 hi
    rw [h.2 (f + i) (by omega), shlOne_in w i (by omega)]
    cases l.getD (f + i) false <;> rfl

theorem get_repr {v : BitVector} {l : List Bool} (h : Repr v l) (w f n : Nat) (hn : n ≤ w)
    (hf : f + n ≤ l.length) :
    v.get w f n = .ok (BitVec.ofNat w (ofBits ((l.drop f).take n))) := get_holds h.holds w f n hn hf

theorem step_repr {v : BitVector} {l : List Bool} (h : Repr v l) (op : Op) (ha : BitList.Allowed l op) :
    ∃ u, v.step op = .ok (u, (BitList.step l op).2) ∧ Repr u (BitList.step l op).1 := by
  cases op with
  | add x n =>
    obtain ⟨u, h1, h2⟩ := add_repr h x n ha
    exact ⟨u, by simp [step, h1, BitList.step], h2⟩
  | setBit i b =>
    obtain ⟨u, h1, h2⟩ := setBit_repr h i ha b
    exact ⟨u, by simp [step, h1, BitList.step], h2⟩
  | getBit i =>
    exact ⟨v, by simp [step, getBit_repr h i ha, BitList.step], h⟩
  | get t f n =>
    refine ⟨v, ?_, h⟩
    simp only [step, get_repr h t.bits f n ha.2 ha.1, BitList.step]
    have := ofBits_lt ((l.drop f).take n)
    have hlen : ((l.drop f).take n).length = n := by have := ha.1; simp; omega
    rw [hlen] at this
    have h2 : 2 ^ n ≤ 2 ^ t.bits := Nat.pow_le_pow_right (by omega) ha.2
    show Except.ok (v, Out.num (BitVec.toNat _)) = _
    rw [BitVec.toNat_ofNat, Nat.mod_eq_of_lt (by omega)]
  | count => exact ⟨v, by simp [step, count_repr h, BitList.step], h⟩
  | size => exact ⟨v, by simp [step, BitList.step, size, h.1], h⟩
  | toStr => exact ⟨v, by simp [step, toStr_repr h, BitList.step], h⟩

theorem run_repr (ops : List Op) {v : BitVector} {l : List Bool} (h : Repr v l)
    (ha : BitList.AllAllowed l ops) :
    ∃ u, v.run ops = .ok (u, (BitList.run l ops).2) ∧ Repr u (BitList.run l ops).1 := by
  induction ops generalizing v l with
  | nil => exact ⟨v, rfl, h⟩
  | cons op ops ih =>
    obtain ⟨u, h1, h2⟩ := step_repr h op ha.1
    obtain ⟨u', h3, h4⟩ := ih h2 ha.2
    refine ⟨u', ?_, h4⟩
    simp only [run, h1, BitList.run]
    show (do let (v, os) ← u.run ops; Except.ok (v, (BitList.step l op).2 :: os) : R _) = _
    rw [h3]; rfl

theorem repr_empty : Repr empty [] := ⟨rfl, rfl, fun i => by simp [dataBit, empty]⟩

theorem repr_ofSize (n : Nat) : Repr (ofSize n) (List.replicate n false) := by
  refine ⟨by simp [ofSize], by simp [ofSize, length_resize], fun i => ?_⟩
  show dataBit (resize [] _) i = _
  rw [dataBit_resize _ _ _ (by simp)]
  simp [dataBit, List.getElem?_replicate]
  split <;> simp

/-! ### C09 -/

/-- Every in-bounds history on a default-constructed vector answers exactly like a list of booleans,
without fault. -/
theorem C09_history (ops : List Op) (ha : BitList.AllAllowed [] ops) :
    ∃ u, empty.run ops = .ok (u, (BitList.run [] ops).2) := by
  obtain ⟨u, h, _⟩ := run_repr ops repr_empty ha; exact ⟨u, h⟩

/-- Likewise for a vector constructed with `n` bits (all false). -/
theorem C09_history_sized (n : Nat) (ops : List Op) (ha : BitList.AllAllowed (List.replicate n false) ops) :
    ∃ u, (ofSize n).run ops = .ok (u, (BitList.run (List.replicate n false) ops).2) := by
  obtain ⟨u, h, _⟩ := run_repr ops (repr_ofSize n) ha; exact ⟨u, h⟩

/-- After any in-bounds history, `add(x, n)` followed by `get` at the old end returns `x mod 2^n`. -/
theorem C09_add_get (ops : List Op) (ha : BitList.AllAllowed [] ops) (x : BitVec 64) (n : Nat) (hn : n ≤ 64) :
    ∃ u u', (∃ os, empty.run ops = .ok (u, os)) ∧ u.add x n = .ok u' ∧
      u'.get 64 u.size n = .ok (BitVec.ofNat 64 (x.toNat % 2 ^ n)) := by
  obtain ⟨u, h, hr⟩ := run_repr ops repr_empty ha
  obtain ⟨u', h1, h2⟩ := add_repr hr x n hn
  refine ⟨u, u', ⟨_, h⟩, h1, ?_⟩
  rw [get_repr h2 64 u.size n hn (by simp [size, hr.1])]
  congr 2
  rw [size, hr.1, List.drop_left, List.take_of_length_le (by simp)]
  apply Nat.eq_of_testBit_eq
  intro i
  rw [testBit_ofBits, Nat.testBit_mod_two_pow]
  by_cases hi : i < n
  · simp [hi, BitVec.getLsbD]
  · simp [hi]

/-- More than 64 bits in one `add` is an undefined shift, from any in-bounds history. -/
theorem C09_add_too_many (ops : List Op) (ha : BitList.AllAllowed [] ops) (x : BitVec 64) (n : Nat) (hn : 64 < n) :
    ∃ u, (∃ os, empty.run ops = .ok (u, os)) ∧ u.add x n = .error .shiftTooLarge := by
  obtain ⟨u, h, hr⟩ := run_repr ops repr_empty ha
  refine ⟨u, ⟨_, h⟩, ?_⟩
  unfold add
  simp only
  have key : ∀ (k : Nat) (b : BitVector), u.bits + n ≤ 8 * b.data.length → k ≤ 64 →
      ∃ b' : BitVector, (List.range k).foldlM (fun bv i =>
        if i < 64 then bv.setBit (u.bits + i) ((x >>> i) &&& 1#64 == 1#64)
        else .error .shiftTooLarge) b = (.ok b' : R BitVector) := by
    intro k b hb hk
    have : ∀ k, k ≤ 64 → ∃ b' : BitVector, (List.range k).foldlM (fun bv i =>
        if i < 64 then bv.setBit (u.bits + i) ((x >>> i) &&& 1#64 == 1#64)
        else .error .shiftTooLarge) b = (.ok b' : R BitVector) ∧ b'.data.length = b.data.length := by
      intro k
      induction k with
      | zero => intro _; exact ⟨b, rfl, rfl⟩
      | succ k ih =>
        intro hk
        obtain ⟨b', h1, h2⟩ := ih (by omega)
        obtain ⟨b2, g1, g2, g3, g4⟩ := setBit_ok b' (u.bits + k) ((x >>> k) &&& 1#64 == 1#64) (by omega)
        refine ⟨b2, ?_, by omega⟩
        have h64 : k < 64 := by omega
        rw [List.range_succ, List.foldlM_append, h1]
        simp only [List.foldlM_cons, List.foldlM_nil, h64, if_true]
        rw [← g1]; exact bind_pure (m := Except Fault) _
    obtain ⟨b', h1, _⟩ := this k hk; exact ⟨b', h1⟩
  obtain ⟨b', hb'⟩ := key 64 ⟨u.bits + n, resize u.data ((u.bits + n + 7) / 8)⟩
    (by simp [length_resize]; omega) le_rfl
  have hsplit : List.range n = List.range 64 ++ (64 :: (List.range' 65 (n - 65))) := by
    have : List.range n = List.range' 0 n := List.range_eq_range'
    rw [this, List.range_eq_range', show n = 64 + ((n - 65) + 1) by omega, ← List.range'_append_1,
      List.range'_succ]
    simp [show 64 + (n - 65 + 1) - 65 = n - 65 by omega, List.range'_succ]
  rw [hsplit, List.foldlM_append, hb']
  rfl

/-- Reading past the end: after any in-bounds history, indices in the last partial byte read as 0,
indices beyond the byte array are out-of-bounds accesses. -/
theorem C09_get_past_end (ops : List Op) (ha : BitList.AllAllowed [] ops) :
    ∃ u, (∃ os, empty.run ops = .ok (u, os)) ∧ ∀ i, u.size ≤ i →
      u.getBit i = if i < 8 * ((u.size + 7) / 8) then .ok false else .error .oobIndex := by
  obtain ⟨u, h, hr⟩ := run_repr ops repr_empty ha
  refine ⟨u, ⟨_, h⟩, fun i hi => ?_⟩
  unfold size at *
  rw [getBit_eq, hr.2.2, hr.2.1]
  rw [hr.1] at hi ⊢
  have : (BitList.run [] ops).1.getD i false = false := by
    rw [List.getD_eq_getElem?_getD, List.getElem?_eq_none hi]; rfl
  rw [this]
  split <;> split <;> first | rfl | omega

example : BitList.AllAllowed [] [.add 0x5#64 3, .setBit 1 true, .add 0xabcdef#64 20, .getBit 22, .get .u64 3 20,
    .get .u8 3 8, .count, .toStr] := by
  simp [BitList.AllAllowed, BitList.Allowed, BitList.step, WT.bits]

end TFR.BitVector
