import Verif.Model.Files
import Mathlib.Tactic.Linarith
import Mathlib.Tactic.Ring
/-
C69 (binary files) and C70 (images).
-/
namespace TFR

/-! ### words and bytes -/

private theorem leNat_leBytes (k : Nat) (v : Nat) (off : Nat) :
    ((List.range' off k).map fun i => BitVec.ofNat 8 (v >>> (8 * i))).foldr (fun (b : Byte) acc => b.toNat + 256 * acc) 0 =
      (v >>> (8 * off)) % 2 ^ (8 * k) := by
  induction k generalizing off with
  | zero => simp [Nat.mod_one]
  | succ k ih =>
    rw [List.range'_succ, List.map_cons, List.foldr_cons, ih (off + 1)]
    rw [BitVec.toNat_ofNat]
    have e1 : v >>> (8 * (off + 1)) = (v >>> (8 * off)) / 256 := by
      rw [show 8 * (off + 1) = 8 * off + 8 by ring, Nat.shiftRight_add, Nat.shiftRight_eq_div_pow (v >>> (8 * off)) 8]
    rw [e1]
    generalize v >>> (8 * off) = u
    have e2 : 2 ^ (8 * (k + 1)) = 256 * 2 ^ (8 * k) := by rw [show 8 * (k + 1) = 8 + 8 * k by ring, pow_add]; norm_num
    rw [e2, Nat.mod_mul]

theorem leWord_leBytes {w : Nat} (hw : w % 8 = 0) (v : BitVec w) : leWord w (leBytes w v) = v := by
  have h8 : 8 * (w / 8) = w := by omega
  unfold leWord leBytes
  have e : (List.range (w / 8)).map (fun i => v.extractLsb' (8 * i) 8) = (List.range' 0 (w / 8)).map fun i => BitVec.ofNat 8 (v.toNat >>> (8 * i)) := by
    rw [List.range_eq_range']; rfl
  rw [e, leNat_leBytes, h8]
  apply BitVec.eq_of_toNat_eq
  simp [Nat.mod_eq_of_lt v.isLt]

theorem leBytes_length {w : Nat} (v : BitVec w) : (leBytes w v).length = w / 8 := by simp [leBytes]

private theorem leWords_append {w : Nat} (hw : w % 8 = 0) (data : List (BitVec w)) (rest : List Byte) :
    leWords w data.length (data.flatMap (leBytes w) ++ rest) = data := by
  induction data with
  | nil => rfl
  | cons v data ih =>
    rw [List.length_cons, leWords, List.flatMap_cons, List.append_assoc]
    rw [List.take_left' (leBytes_length v), List.drop_left' (leBytes_length v), leWord_leBytes hw, ih]

private theorem flatMap_len {w : Nat} (data : List (BitVec w)) : (data.flatMap (leBytes w)).length = data.length * (w / 8) := by
  induction data with
  | nil => simp
  | cons v data ih => rw [List.flatMap_cons, List.length_append, ih, leBytes_length, List.length_cons]; ring

theorem leWords_length {w n : Nat} (bs : List Byte) : (leWords w n bs).length = n := by
  induction n generalizing bs with
  | zero => rfl
  | succ n ih => rw [leWords, List.length_cons, ih]

private theorem byte_eq (k : Nat) (bs : List Byte) (h : bs.length = k) (i : Nat) (hi : i < k) :
    BitVec.ofNat 8 ((bs.foldr (fun (b : Byte) acc => b.toNat + 256 * acc) 0) >>> (8 * i)) = bs[i] := by
  induction bs generalizing k i with
  | nil => simp at h; omega
  | cons b bs ih =>
    rw [List.foldr_cons]
    cases i with
    | zero =>
      apply BitVec.eq_of_toNat_eq
      have := b.isLt
      simp [BitVec.toNat_ofNat]; omega
    | succ i =>
      have e : (b.toNat + 256 * bs.foldr (fun (b : Byte) acc => b.toNat + 256 * acc) 0) >>> (8 * (i + 1)) =
          (bs.foldr (fun (b : Byte) acc => b.toNat + 256 * acc) 0) >>> (8 * i) := by
        rw [show 8 * (i + 1) = 8 + 8 * i by ring, Nat.shiftRight_add]
        congr 1
        rw [Nat.shiftRight_eq_div_pow]
        have := b.isLt
        omega
      rw [e, ih bs.length rfl i (by simp at h; omega)]; rfl

private theorem leNat_lt (bs : List Byte) : bs.foldr (fun (b : Byte) acc => b.toNat + 256 * acc) 0 < 2 ^ (8 * bs.length) := by
  induction bs with
  | nil => simp
  | cons b bs ih =>
    rw [List.foldr_cons, List.length_cons, show 8 * (bs.length + 1) = 8 + 8 * bs.length by ring, pow_add]
    have := b.isLt
    have : (2 : Nat) ^ 8 = 256 := by norm_num
    omega

theorem leBytes_leWord {w : Nat} (hw : w % 8 = 0) (bs : List Byte) (h : bs.length = w / 8) : leBytes w (leWord w bs) = bs := by
  have h8 : 8 * (w / 8) = w := by omega
  have hlt := leNat_lt bs
  rw [h, h8] at hlt
  apply List.ext_getElem
  · rw [leBytes_length, h]
  · intro i h1 h2
    have hi : i < w / 8 := by rwa [leBytes_length] at h1
    have e : (leBytes w (leWord w bs))[i] = BitVec.ofNat 8 ((leWord w bs).toNat >>> (8 * i)) := by
      simp [leBytes, BitVec.extractLsb']
    rw [e, leWord, BitVec.toNat_ofNat, Nat.mod_eq_of_lt hlt]
    exact byte_eq (w / 8) bs h i hi

private theorem leWords_bytes {w : Nat} (hw : w % 8 = 0) (n : Nat) (bs : List Byte) (h : n * (w / 8) ≤ bs.length) :
    (leWords w n bs).flatMap (leBytes w) = bs.take (n * (w / 8)) := by
  induction n generalizing bs with
  | zero => simp [leWords]
  | succ n ih =>
    have h' : n * (w / 8) + w / 8 ≤ bs.length := by rw [← Nat.succ_mul]; exact h
    rw [leWords, List.flatMap_cons, leBytes_leWord hw _ (by rw [List.length_take]; omega), ih _ (by rw [List.length_drop]; omega)]
    rw [← List.take_add, show w / 8 + n * (w / 8) = (n + 1) * (w / 8) by ring]

/-! ### C69 -/

private theorem read_existing {w : Nat} (hw : w % 8 = 0) (hpos : 0 < w) (fs : FileSystem) (path : String) (bytes : List Byte)
    (hf : fs path = some bytes) (hlen : bytes.length < 2 ^ 63) (m : BitVec 64) :
    readBinary w fs path m = .ok (leWords w (min (bytes.length / (w / 8)) m.toNat) bytes) := by
  have hs : 0 < w / 8 := by omega
  unfold readBinary
  rw [hf]
  dsimp only
  have e1 : (bytes.length - bytes.length % (w / 8)) / (w / 8) = bytes.length / (w / 8) := by
    conv_lhs => rw [← Nat.div_add_mod bytes.length (w / 8)]
    rw [show w / 8 * (bytes.length / (w / 8)) + bytes.length % (w / 8) - (w / 8 * (bytes.length / (w / 8)) + bytes.length % (w / 8)) % (w / 8) =
      w / 8 * (bytes.length / (w / 8)) by rw [Nat.div_add_mod]; have := Nat.div_add_mod bytes.length (w / 8); omega]
    rw [Nat.mul_div_cancel_left _ hs]
  have e2 : (if (bytes.length - bytes.length % (w / 8)) / (w / 8) > m.toNat then m.toNat * (w / 8) else bytes.length - bytes.length % (w / 8)) / (w / 8) =
      min (bytes.length / (w / 8)) m.toNat := by
    split
    · rename_i h; rw [e1] at h; rw [Nat.mul_div_cancel _ hs]; omega
    · rename_i h; rw [e1] at h ⊢; omega
  rw [e2, if_neg]
  unfold vectorMaxSize
  have h1 : bytes.length / (w / 8) ≤ (2 ^ 63 - 1) / (w / 8) := Nat.div_le_div_right (by omega)
  omega

/-- C69. Reading a file of fewer than 2^63 bytes as words of `w` bits: the result has one word for every full word in the file (at
most `max_elements`), its bytes are the bytes of the file from the start, and an incomplete word at the end is ignored. -/
theorem C69_read {w : Nat} (hw : w % 8 = 0) (hpos : 0 < w) (fs : FileSystem) (path : String) (bytes : List Byte)
    (hf : fs path = some bytes) (hlen : bytes.length < 2 ^ 63) (m : BitVec 64) :
    ∃ data, readBinary w fs path m = .ok data ∧ data.length = min (bytes.length / (w / 8)) m.toNat ∧
      data.flatMap (leBytes w) = bytes.take (data.length * (w / 8)) := by
  refine ⟨_, read_existing hw hpos fs path bytes hf hlen m, leWords_length _, ?_⟩
  rw [leWords_length]
  apply leWords_bytes hw
  calc min (bytes.length / (w / 8)) m.toNat * (w / 8) ≤ bytes.length / (w / 8) * (w / 8) := Nat.mul_le_mul_right _ (Nat.min_le_left _ _)
    _ ≤ bytes.length := Nat.div_mul_le_self _ _

/-- A history of writes to one file: (words, append?). -/
def Spec.writes {w : Nat} (fs : FileSystem) (path : String) : List (List (BitVec w) × Bool) → FileSystem
  | [] => fs
  | (data, append) :: rest => Spec.writes (writeBinary fs path data append) path rest

/-- The words a history leaves in the file: appended to what was there, or, for a write that truncates, starting anew. -/
def Spec.written {w : Nat} (old : List (BitVec w)) : List (List (BitVec w) × Bool) → List (BitVec w)
  | [] => old
  | (data, append) :: rest => Spec.written (if append then old ++ data else data) rest
open Spec

private theorem writes_content {w : Nat} (fs : FileSystem) (path : String) (hist : List (List (BitVec w) × Bool)) (old : List (BitVec w))
    (hold : (fs path).getD [] = old.flatMap (leBytes w)) :
    ((writes fs path hist) path).getD [] = (written old hist).flatMap (leBytes w) ∧
      (hist ≠ [] → (writes fs path hist) path = some ((written old hist).flatMap (leBytes w))) := by
  induction hist generalizing fs old with
  | nil => exact ⟨hold, fun h => absurd rfl h⟩
  | cons a hist ih =>
    obtain ⟨data, append⟩ := a
    rw [writes, written]
    have hw : (writeBinary fs path data append) path = some ((if append then old ++ data else data).flatMap (leBytes w)) := by
      unfold writeBinary
      cases append <;> simp [hold]
    obtain ⟨h1, h2⟩ := ih (writeBinary fs path data append) (if append then old ++ data else data) (by rw [hw]; rfl)
    refine ⟨h1, fun _ => ?_⟩
    by_cases hh : hist = []
    · subst hh; exact hw
    · exact h2 hh

/-- C69 (round trip).  After any non-empty history of writes and appends to a file that did not exist before, reading it back with the
same word type gives exactly the words written since the last truncating write, in order. -/
theorem C69_round_trip {w : Nat} (hw : w % 8 = 0) (hpos : 0 < w) (fs : FileSystem) (path : String) (hnew : fs path = none)
    (hist : List (List (BitVec w) × Bool)) (hne : hist ≠ []) (hsmall : (written [] hist).length * (w / 8) < 2 ^ 63) :
    readBinary w (writes fs path hist) path = .ok (written [] hist) := by
  have hc := (writes_content fs path hist [] (by rw [hnew]; rfl)).2 hne
  have hl := flatMap_len (written [] hist)
  rw [read_existing hw hpos _ path _ hc (by rw [hl]; exact hsmall)]
  have hs : 0 < w / 8 := by omega
  have e : min (((written [] hist).flatMap (leBytes w)).length / (w / 8)) (BitVec.allOnes 64).toNat = (written [] hist).length := by
    rw [hl, Nat.mul_div_cancel _ hs, BitVec.toNat_allOnes]
    have : (written [] hist).length ≤ (written [] hist).length * (w / 8) := Nat.le_mul_of_pos_right _ hs
    omega
  rw [e]
  congr 1
  have := leWords_append hw (written [] hist) []
  rwa [List.append_nil] at this

/-- C69. Other files are not touched. -/
theorem C69_frame {w : Nat} (fs : FileSystem) (path other : String) (h : other ≠ path) (hist : List (List (BitVec w) × Bool)) :
    (writes fs path hist) other = fs other := by
  induction hist generalizing fs with
  | nil => rfl
  | cons a hist ih =>
    obtain ⟨data, append⟩ := a
    rw [writes, ih]
    simp [writeBinary, h]

/-- C69. The name notwithstanding, nothing checks that the file exists (assertions do not stop the program): reading a missing file
without a limit throws, and with a (small) limit `m` it returns `m` zeros. -/
theorem C69_missing {w : Nat} (hw : w = 8 ∨ w = 16 ∨ w = 32 ∨ w = 64) (fs : FileSystem) (path : String) (hf : fs path = none) :
    readBinary w fs path = .error .thrown ∧
    ∀ m : BitVec 64, m.toNat < 2 ^ 32 → readBinary w fs path m = .ok (List.replicate m.toNat 0#w) := by
  have key : ∀ m : BitVec 64, readBinary w fs path m =
      (if (if (2 ^ 64 - 1 - (2 ^ 64 - 1) % (w / 8)) / (w / 8) > m.toNat then m.toNat * (w / 8) else 2 ^ 64 - 1 - (2 ^ 64 - 1) % (w / 8)) / (w / 8) >
        (2 ^ 63 - 1) / (w / 8) then .error .thrown
      else .ok (List.replicate ((if (2 ^ 64 - 1 - (2 ^ 64 - 1) % (w / 8)) / (w / 8) > m.toNat then m.toNat * (w / 8)
        else 2 ^ 64 - 1 - (2 ^ 64 - 1) % (w / 8)) / (w / 8)) 0#w)) := by
    intro m
    unfold readBinary
    rw [hf]; rfl
  constructor
  · rw [key]
    rcases hw with rfl | rfl | rfl | rfl <;> rfl
  · intro m hm
    rw [key]
    have hs : 0 < w / 8 ∧ w / 8 ≤ 8 := by omega
    have e : (if (2 ^ 64 - 1 - (2 ^ 64 - 1) % (w / 8)) / (w / 8) > m.toNat then m.toNat * (w / 8)
        else 2 ^ 64 - 1 - (2 ^ 64 - 1) % (w / 8)) / (w / 8) = m.toNat := by
      rw [if_pos]
      · exact Nat.mul_div_cancel _ hs.1
      · rcases hw with rfl | rfl | rfl | rfl <;> norm_num <;> omega
    rw [e, if_neg]
    rcases hw with rfl | rfl | rfl | rfl <;> norm_num <;> omega

/-- C69. The random data files: `get_trng_data<T>` is the same as reading the file as words of `T`; without a file there is none. -/
theorem C69_file_data {w : Nat} (hw : w % 8 = 0) (hpos : 0 < w) (fs : FileSystem) (path : String) :
    (fs path = none → getFileData w fs path = .ok none) ∧
    ∀ bytes, fs path = some bytes → bytes.length < 2 ^ 63 →
      ∃ data, getFileData w fs path = .ok (some data) ∧ readBinary w fs path = .ok data ∧ data.length = bytes.length / (w / 8) := by
  constructor
  · intro h; unfold getFileData; rw [h]
  · intro bytes hf hlen
    have h1 := read_existing (w := 8) (by norm_num) (by norm_num) fs path bytes hf hlen (BitVec.allOnes 64)
    have hid : ∀ (n : Nat) (bs : List Byte), n ≤ bs.length → leWords 8 n bs = bs.take n := by
      intro n
      induction n with
      | zero => intro bs _; simp [leWords]
      | succ n ih =>
        intro bs h
        cases bs with
        | nil => simp at h
        | cons b bs =>
          rw [leWords]
          have : leWord 8 ((b :: bs).take (8 / 8)) = b := by
            apply BitVec.eq_of_toNat_eq
            simp [leWord]
          rw [this]
          simp only [Nat.reduceDiv, List.drop_succ_cons, List.drop_zero, List.take_succ_cons]
          rw [ih bs (by simpa using h)]
    have hm : min (bytes.length / (8 / 8)) (BitVec.allOnes 64).toNat = bytes.length := by
      rw [BitVec.toNat_allOnes]; simp; omega
    rw [hm, hid _ _ le_rfl, List.take_length] at h1
    have h2 := read_existing hw hpos fs path bytes hf hlen (BitVec.allOnes 64)
    have hm2 : min (bytes.length / (w / 8)) (BitVec.allOnes 64).toNat = bytes.length / (w / 8) := by
      rw [BitVec.toNat_allOnes]
      have := Nat.div_le_self bytes.length (w / 8)
      omega
    rw [hm2] at h2
    refine ⟨_, ?_, h2, leWords_length _⟩
    unfold getFileData
    rw [hf, h1]; rfl

-- 16-bit words, one truncating write and one append, then reading five bytes as 16-bit words.
example : readBinary 16 (writes (fun _ => none) "f" [([0x0102#16, 3#16], false), ([0xffff#16], true)]) "f" = .ok [0x0102#16, 3#16, 0xffff#16] := by
  rw [C69_round_trip (by norm_num) (by norm_num) _ _ rfl _ (by simp) (by decide)]; rfl
example : readBinary 16 (fun _ => some [1#8, 2#8, 3#8, 4#8, 5#8]) "f" = .ok [0x0201#16, 0x0403#16] := rfl

/-! ### C70 -/

/-- The calls of `func` for one row, from left to right. -/
def Spec.rowCalls {S : Type} {w : Nat} (func : S → BitVec w → BitVec w → BitVec w × S) (y : Nat) : List Nat → S → List (BitVec w) × S
  | [], s => ([], s)
  | x :: xs, s =>
    let r := func s (BitVec.ofNat w x) (BitVec.ofNat w y)
    let rest := Spec.rowCalls func y xs r.2
    (r.1 :: rest.1, rest.2)

/-- The calls of `func` for all rows, from top to bottom. -/
def Spec.imageCalls {S : Type} {w : Nat} (func : S → BitVec w → BitVec w → BitVec w × S) (width : Nat) : List Nat → S → List (BitVec w) × S
  | [], s => ([], s)
  | y :: ys, s =>
    let r := Spec.rowCalls func y (List.range width) s
    let rest := Spec.imageCalls func width ys r.2
    (r.1 ++ rest.1, rest.2)

/-- One grey pixel per byte of a word, least significant byte first. -/
def Spec.greyPixels (w : Nat) (v : BitVec w) : List Byte := (leBytes w v).flatMap fun b => [b, b, b]

private theorem ppmPixels_eq {w : Nat} (hw : 8 ≤ w) (v : BitVec w) : ppmPixels w v = greyPixels w v := by
  unfold ppmPixels greyPixels leBytes
  rw [List.flatMap_map]
  congr 1
  funext i
  have : ((v >>> (8 * i)) &&& 0xff#w).setWidth 8 = v.extractLsb' (8 * i) 8 := by
    apply BitVec.eq_of_getLsbD_eq
    intro j hj
    have h255 : (255 : Nat) = 2 ^ 8 - 1 := by norm_num
    rw [BitVec.getLsbD_setWidth, BitVec.getLsbD_and, BitVec.getLsbD_ushiftRight, BitVec.getLsbD_extractLsb', BitVec.getLsbD_ofNat]
    have hb : Nat.testBit 255 j = true := by
      rw [h255, Nat.testBit_two_pow_sub_one]; simpa using hj
    have hjw : j < w := by omega
    simp [hb, hj, hjw]
  dsimp only
  rw [this]

private theorem ppmRow_spec {S : Type} {w : Nat} (hw : 8 ≤ w) (func : S → BitVec w → BitVec w → BitVec w × S) (width y : Nat)
    (hwd : width < 2 ^ w) (k x fuel : Nat) (hx : x + k = width) (hf : k ≤ fuel) (s : S) (d : List Byte) :
    ppmRow func width (BitVec.ofNat w y) fuel (BitVec.ofNat w x) (s, d) =
      some ((rowCalls func y (List.range' x k) s).2, d ++ (rowCalls func y (List.range' x k) s).1.flatMap (greyPixels w)) := by
  induction k generalizing x fuel s d with
  | zero =>
    have hxn : (BitVec.ofNat w x).toNat = x := by rw [BitVec.toNat_ofNat, Nat.mod_eq_of_lt (by omega)]
    cases fuel with
    | zero => rw [ppmRow, hxn, if_neg (by omega)]; simp [rowCalls]
    | succ fuel => rw [ppmRow, hxn, if_neg (by omega)]; simp [rowCalls]
  | succ k ih =>
    cases fuel with
    | zero => omega
    | succ fuel =>
      have hxn : (BitVec.ofNat w x).toNat = x := by rw [BitVec.toNat_ofNat, Nat.mod_eq_of_lt (by omega)]
      rw [ppmRow, hxn, if_pos (by omega), BitVec.add_comm, show 1#w + BitVec.ofNat w x = BitVec.ofNat w (x + 1) by
        rw [Nat.add_comm, BitVec.ofNat_add]]
      dsimp only
      rw [ih (x + 1) fuel (by omega) (by omega), List.range'_succ, rowCalls, ppmPixels_eq hw]
      simp

private theorem ppmRows_spec {S : Type} {w : Nat} (hw : 8 ≤ w) (func : S → BitVec w → BitVec w → BitVec w × S) (width height inner : Nat)
    (hwd : width < 2 ^ w) (hhd : height < 2 ^ w) (hi : width ≤ inner) (k y fuel : Nat) (hy : y + k = height) (hf : k ≤ fuel) (s : S) (d : List Byte) :
    ppmRows func width height inner fuel (BitVec.ofNat w y) (s, d) =
      some ((imageCalls func width (List.range' y k) s).2, d ++ (imageCalls func width (List.range' y k) s).1.flatMap (greyPixels w)) := by
  induction k generalizing y fuel s d with
  | zero =>
    have hyn : (BitVec.ofNat w y).toNat = y := by rw [BitVec.toNat_ofNat, Nat.mod_eq_of_lt (by omega)]
    cases fuel with
    | zero => rw [ppmRows, hyn, if_neg (by omega)]; simp [imageCalls]
    | succ fuel => rw [ppmRows, hyn, if_neg (by omega)]; simp [imageCalls]
  | succ k ih =>
    cases fuel with
    | zero => omega
    | succ fuel =>
      have hyn : (BitVec.ofNat w y).toNat = y := by rw [BitVec.toNat_ofNat, Nat.mod_eq_of_lt (by omega)]
      rw [ppmRows, hyn, if_pos (by omega)]
      have hrow := ppmRow_spec hw func width y hwd width 0 inner (by omega) hi s d
      rw [show BitVec.ofNat w 0 = 0#w from rfl] at hrow
      rw [hrow]
      dsimp only
      rw [BitVec.add_comm, show 1#w + BitVec.ofNat w y = BitVec.ofNat w (y + 1) by rw [Nat.add_comm, BitVec.ofNat_add]]
      rw [ih (y + 1) fuel (by omega) (by omega), List.range'_succ, imageCalls, ← List.range_eq_range']
      simp

/-- C70. If width and height are representable in `T`, the image data is complete after finitely many steps: `func` is called once for
every pixel, row by row from the top and from left to right within a row, and every byte of its result, least significant first,
becomes one grey pixel. -/
theorem C70_data {S : Type} {w : Nat} (hw : 8 ≤ w) (func : S → BitVec w → BitVec w → BitVec w × S) (s : S) (width height : Nat)
    (hwd : width < 2 ^ w) (hhd : height < 2 ^ w) (fuel : Nat) (hf : max width height ≤ fuel) :
    ppmData func s width height fuel =
      some ((imageCalls func width (List.range height) s).2, (imageCalls func width (List.range height) s).1.flatMap (greyPixels w)) := by
  have := ppmRows_spec hw func width height fuel hwd hhd (by omega) height 0 fuel (by omega) (by omega) s []
  rw [List.range_eq_range']
  exact this

private theorem imageCalls_length {S : Type} {w : Nat} (func : S → BitVec w → BitVec w → BitVec w × S) (width : Nat) (ys : List Nat) (s : S) :
    (imageCalls func width ys s).1.length = ys.length * width := by
  have hrow : ∀ (xs : List Nat) (y : Nat) (s : S), (rowCalls func y xs s).1.length = xs.length := by
    intro xs y
    induction xs with
    | nil => intro s; rfl
    | cons x xs ih => intro s; simp [rowCalls, ih]
  induction ys generalizing s with
  | nil => simp [imageCalls]
  | cons y ys ih => simp [imageCalls, ih, hrow]; ring

/-- A reader of decimal numbers in ASCII. -/
def Spec.readDec : Nat → List Byte → Nat × List Byte
  | acc, [] => (acc, [])
  | acc, b :: r => if 48 ≤ b.toNat ∧ b.toNat ≤ 57 then Spec.readDec (10 * acc + (b.toNat - 48)) r else (acc, b :: r)

/-- A reader of binary PPM files: `P6`, width, height, maximum, each followed by one white space character (32 or 10), then the
pixel data. -/
def Spec.readPpm : List Byte → Option (Nat × Nat × Nat × List Byte)
  | 0x50#8 :: 0x36#8 :: 10#8 :: r =>
    match Spec.readDec 0 r with
    | (width, 32#8 :: r) =>
      match Spec.readDec 0 r with
      | (height, 10#8 :: r) =>
        match Spec.readDec 0 r with
        | (maximum, 10#8 :: r) => some (width, height, maximum, r)
        | _ => none
      | _ => none
    | _ => none
  | _ => none

private theorem readDec_chars (cs : List Char) (hd : ∀ c ∈ cs, c.isDigit = true) (acc : Nat) (b : Byte) (hb : ¬ (48 ≤ b.toNat ∧ b.toNat ≤ 57))
    (r : List Byte) :
    Spec.readDec acc (cs.map (fun c => BitVec.ofNat 8 c.toNat) ++ b :: r) = (Nat.ofDigitChars 10 cs acc, b :: r) := by
  induction cs generalizing acc with
  | nil => simp [Spec.readDec, hb]
  | cons c cs ih =>
    have hc := hd c (by simp)
    have h1 : 48 ≤ c.toNat ∧ c.toNat ≤ 57 := by
      simp only [Char.isDigit, Bool.and_eq_true, decide_eq_true_eq] at hc
      exact ⟨hc.1, hc.2⟩
    have h2 : (BitVec.ofNat 8 c.toNat).toNat = c.toNat := by
      rw [BitVec.toNat_ofNat]; exact Nat.mod_eq_of_lt (by omega)
    rw [List.map_cons, List.cons_append, Spec.readDec, h2, if_pos h1, ih (fun c h => hd c (by simp [h])), Nat.ofDigitChars_cons]
    rfl

private theorem readDec_nat (n : Nat) (b : Byte) (hb : ¬ (48 ≤ b.toNat ∧ b.toNat ≤ 57)) (r : List Byte) :
    Spec.readDec 0 (n.repr.toList.map (fun c => BitVec.ofNat 8 c.toNat) ++ b :: r) = (n, b :: r) := by
  rw [Nat.toList_repr, readDec_chars _ (fun c hc => Nat.isDigit_of_mem_toDigits (by omega) (by omega) hc) 0 b hb,
    Nat.ofDigitChars_ten_toDigits]

/-- C70. A reader of PPM files sees the width, the height, the maximum 255 and exactly the data. -/
theorem C70_header (width height : Nat) (data : List Byte) :
    Spec.readPpm (ppmFile width height data) = some (width, height, 255, data) := by
  have e : ppmFile width height data = 0x50#8 :: 0x36#8 :: 10#8 ::
      (width.repr.toList.map (fun c => BitVec.ofNat 8 c.toNat) ++ 32#8 :: (height.repr.toList.map (fun c => BitVec.ofNat 8 c.toNat) ++
        10#8 :: (Nat.repr 255).toList.map (fun c => BitVec.ofNat 8 c.toNat) ++ 10#8 :: data)) := by
    have h1 : (s!"P6\n{width} {height}\n255\n" : String) = "P6\n" ++ width.repr ++ " " ++ height.repr ++ "\n255\n" := rfl
    unfold ppmFile
    rw [h1]
    simp only [String.toList_append, List.map_append, List.append_assoc]
    rfl
  rw [e]
  unfold Spec.readPpm
  simp only [List.cons_append, List.append_assoc]
  simp only [readDec_nat _ _ (show ¬ (48 ≤ (32#8).toNat ∧ (32#8).toNat ≤ 57) by decide),
    readDec_nat _ _ (show ¬ (48 ≤ (10#8).toNat ∧ (10#8).toNat ≤ 57) by decide)]

/-- C70. The data has `sizeof(T)` times as many bytes as the header announces (three per pixel), so the file matches its header only
for 8-bit words. -/
theorem C70_size {S : Type} {w : Nat} (hw : 8 ≤ w) (func : S → BitVec w → BitVec w → BitVec w × S) (s : S) (width height : Nat)
    (hwd : width < 2 ^ w) (hhd : height < 2 ^ w) (fuel : Nat) (hf : max width height ≤ fuel) :
    ∃ st, ppmData func s width height fuel = some st ∧ st.2.length = w / 8 * (3 * width * height) := by
  refine ⟨_, C70_data hw func s width height hwd hhd fuel hf, ?_⟩
  have : ∀ l : List (BitVec w), (l.flatMap (greyPixels w)).length = l.length * (w / 8 * 3) := by
    intro l
    induction l with
    | nil => simp
    | cons v l ih =>
      have : (greyPixels w v).length = w / 8 * 3 := by
        unfold greyPixels
        rw [List.length_flatMap]
        simp only [List.length_cons, List.length_nil, List.map_const', leBytes_length]
        generalize w / 8 = k
        induction k with
        | zero => rfl
        | succ k ih => rw [List.replicate_succ, List.sum_cons, ih]; ring
      rw [List.flatMap_cons, List.length_append, ih, this, List.length_cons]; ring
  dsimp only
  rw [this, imageCalls_length, List.length_range]; ring

/-- C70. If the height (or, for a non-empty image, the width) is `2^w` or more, the loop counter wraps around and `write_ppm` never
ends.  Both callers ask for 512 x 512, so this is what happens for 8-bit words. -/
theorem C70_never_ends {S : Type} {w : Nat} (func : S → BitVec w → BitVec w → BitVec w × S) (s : S) (width height : Nat)
    (h : 2 ^ w ≤ height ∨ (0 < height ∧ 2 ^ w ≤ width)) (fuel : Nat) : ppmData func s width height fuel = none := by
  unfold ppmData
  rcases h with h | ⟨h0, h⟩
  · have gen : ∀ (inner fuel : Nat) (y : BitVec w) (st : S × List Byte), ppmRows func width height inner fuel y st = none := by
      intro inner fuel
      induction fuel with
      | zero => intro y st; rw [ppmRows, if_pos (lt_of_lt_of_le y.isLt h)]
      | succ fuel ih =>
        intro y st
        rw [ppmRows, if_pos (lt_of_lt_of_le y.isLt h)]
        split
        · rfl
        · exact ih _ _
    exact gen _ _ _ _
  · have gen : ∀ (fuel : Nat) (x y : BitVec w) (st : S × List Byte), ppmRow func width y fuel x st = none := by
      intro fuel
      induction fuel with
      | zero => intro x y st; rw [ppmRow, if_pos (lt_of_lt_of_le x.isLt h)]
      | succ fuel ih =>
        intro x y st
        rw [ppmRow, if_pos (lt_of_lt_of_le x.isLt h)]
        exact ih _ _ _
    cases fuel with
    | zero => rw [ppmRows, if_pos (by simpa using h0)]
    | succ fuel => rw [ppmRows, if_pos (by simpa using h0), gen]

-- A 2 x 1 image of 16-bit words from a counting function: four grey pixels instead of two.
example : ppmData (fun (s : Nat) (_ _ : BitVec 16) => (BitVec.ofNat 16 (0x0102 * (s + 1)), s + 1)) 0 2 1 2 =
    some (2, [2#8, 2#8, 2#8, 1#8, 1#8, 1#8, 4#8, 4#8, 4#8, 2#8, 2#8, 2#8]) := by decide +kernel
-- The 8-bit case of the program.
example (func : Unit → BitVec 8 → BitVec 8 → BitVec 8 × Unit) (fuel : Nat) : ppmData func () 512 512 fuel = none :=
  C70_never_ends func () 512 512 (by norm_num) fuel

end TFR
