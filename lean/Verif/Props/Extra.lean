import Verif.Props.Windows
import Verif.Props.Streams
import Verif.Props.Binomial
import Verif.Props.Files
/-
Additions to C08 (windows of a wrong size on short data), C28 (isolate_bit_by_ref on a stream in use), C61 (binomial_cdf near the ends)
and C69 (files that exist before the first write).
-/
namespace TFR
open Spec

private theorem hbindX {α β : Type} (x : α) (f : α → R β) : ((Except.ok x : R α) >>= f) = f x := rfl

/-! ### C08 -/

/-- C08. Window sizes above 64 or not positive, and at most 64 bits of data: the callback is never called and there is no fault. -/
theorem C08_slidingBitWindow_short {w : Nat} {σ : Type} (data : List (BitVec w)) (k : Int) (hk : k ≤ 0 ∨ 64 < k)
    (cb : σ → BitVec 64 → R σ) (s : σ) (hlen : data.length * w ≤ 64) :
    slidingBitWindow data k cb s = .ok s := by
  unfold slidingBitWindow
  rw [forEachBit_eq]
  rw [← length_bitsOf] at hlen
  have : ∀ (l : List Bool) (c : Nat) (v : BitVec 64), l.length + c ≤ 64 →
      ∃ v', l.foldlM (windowStep k cb) (c, v, s) = .ok (c + l.length, v', s) := by
    intro l
    induction l with
    | nil => intro c v _; exact ⟨v, rfl⟩
    | cons b l ih =>
      intro c v h
      simp only [List.foldlM_cons, windowStep]
      rw [List.length_cons] at h
      rw [if_pos (by omega), if_neg (by omega), hbindX]
      obtain ⟨v', hv⟩ := ih (c + 1) _ (by omega)
      exact ⟨v', by rw [hv, List.length_cons, show c + 1 + l.length = c + (l.length + 1) by omega]⟩
  obtain ⟨v', hv⟩ := this (bitsOf data) 0 0#64 (by omega)
  rw [hv]; rfl

example : slidingBitWindow [0x3#8, 0xff#8] 65 (fun (n : Nat) _ => .ok (n + 1)) 7 = .ok 7 ∧ [0x3#8, 0xff#8].length * 8 ≤ 64 := by
  decide +kernel

/-! ### C28 -/

/-- C28. `isolate_bit_by_ref` on a stream of which `k` values have been read: it packs bit `b` of the next `w` values, the first of them
into bit 0, and leaves the stream with exactly these `w` values consumed. -/
theorem C28_by_ref {w : Nat} (s : Stream (BitVec w)) (hw : w ≤ 64) (b : Nat) (hb : b < w) (k : Nat) :
    (∀ i, i < w → (isolateBitByRef s.step b (s.stateAt k)).1.getLsbD i = (s.nth (k + i)).getLsbD b) ∧
    (isolateBitByRef s.step b (s.stateAt k)).2 = s.stateAt (k + w) := by
  constructor
  · intro i hi
    rw [isolateBitByRef, isolateLoop_bit _ _ hb hw _ _ _ _ _ hi (by omega) (by simp), if_pos (by omega), Stream.nth_eq]
    congr 2
    simp only [Stream.stateAt, Nat.sub_zero, ← Function.iterate_add_apply, Nat.add_comm]
  · rw [isolateBitByRef, isolateLoop_state, Nat.add_comm]
    rw [Stream.stateAt, Stream.stateAt, Function.iterate_add_apply]

example : (isolateBitByRef (counterStream 8 1 0).step 0 ((counterStream 8 1 0).stateAt 3)).1 = 0b10101010#8 := by decide +kernel

/-! ### C61 -/

/-- C61. `binomial_cdf` returns 1 for every `p` within 1e-10 of 0 and 0 for every `p` within 1e-10 of 1, whatever `n` and `k`. -/
theorem C61_binomial_cdf_near (n k : Nat) (p : ℝ) :
    (|p| ≤ 1 / 10 ^ 10 → binomialCdf n p k = 1) ∧ (|p - 1| ≤ 1 / 10 ^ 10 → binomialCdf n p k = 0) := by
  constructor
  · intro h
    unfold binomialCdf
    rw [if_pos ((isNearR_iff _ _ _).2 (by rwa [sub_zero]))]
  · intro h
    have h1 := abs_le.1 h
    unfold binomialCdf
    rw [if_neg, if_pos ((isNearR_iff _ _ _).2 h)]
    rw [isNearR_iff, sub_zero]
    intro h2
    have h3 := abs_le.1 h2
    have : (1 : ℝ) / 10 ^ 10 < 1 / 2 := by norm_num
    linarith [h1.1, h3.2]

example : binomialCdf 10 (1 / 10 ^ 11) 3 = 1 ∧ binomialCdf 10 (1 - 1 / 10 ^ 11) 10 = 0 :=
  ⟨(C61_binomial_cdf_near 10 3 _).1 (by rw [abs_of_pos (by norm_num)]; norm_num),
   (C61_binomial_cdf_near 10 10 _).2 (by rw [abs_of_nonpos (by norm_num)]; norm_num)⟩

/-! ### C69 -/

/-- C69 (round trip). A file that exists and holds the words `old`: after any history of writes and appends, reading it back gives
`old` with the history applied. -/
theorem C69_round_trip_old {w : Nat} (hw : w % 8 = 0) (hpos : 0 < w) (fs : FileSystem) (path : String) (old : List (BitVec w))
    (hold : fs path = some (old.flatMap (leBytes w))) (hist : List (List (BitVec w) × Bool))
    (hsmall : (written old hist).length * (w / 8) < 2 ^ 63) :
    readBinary w (writes fs path hist) path = .ok (written old hist) := by
  -- the same file, as if its words had been written to a new one
  have key : ∀ (fs fs' : FileSystem) (h : List (List (BitVec w) × Bool)), fs path = fs' path →
      readBinary w (writes fs path h) path = readBinary w (writes fs' path h) path := by
    intro fs fs' h
    induction h generalizing fs fs' with
    | nil => 
      intro e
      simp only [writes]
      unfold readBinary
      rcases h : fs' path with _ | b
      · rw [h] at e; rw [e]
      · rw [h] at e; rw [e]
    | cons a h ih =>
      intro e
      obtain ⟨d, ap⟩ := a
      rw [writes, writes]
      apply ih
      simp [writeBinary, e]
  have h := C69_round_trip hw hpos (fun _ => none) path rfl ((old, false) :: hist) (by simp) (by simpa [written] using hsmall)
  rw [writes, written] at h
  rw [key fs (writeBinary (fun _ => none) path old false) hist (by simp [writeBinary, hold])]
  simpa using h

/-- C69 (round trip). A file with any contents before: if the history has a truncating write, reading gives exactly the words written
from the last truncating write on; nothing of the old contents is left. -/
theorem C69_round_trip_existing {w : Nat} (hw : w % 8 = 0) (hpos : 0 < w) (fs : FileSystem) (path : String)
    (before after : List (List (BitVec w) × Bool)) (data : List (BitVec w)) (happ : ∀ x ∈ after, x.2 = true)
    (hsmall : (data ++ after.flatMap Prod.fst).length * (w / 8) < 2 ^ 63) :
    readBinary w (writes fs path (before ++ (data, false) :: after)) path = .ok (data ++ after.flatMap Prod.fst) := by
  have split : ∀ (fs : FileSystem) (a b : List (List (BitVec w) × Bool)), writes fs path (a ++ b) = writes (writes fs path a) path b := by
    intro fs a b
    induction a generalizing fs with
    | nil => rfl
    | cons x a ih => obtain ⟨d, ap⟩ := x; exact ih _
  have app : ∀ (a : List (List (BitVec w) × Bool)) (old : List (BitVec w)), (∀ x ∈ a, x.2 = true) →
      written old a = old ++ a.flatMap Prod.fst := by
    intro a
    induction a with
    | nil => intro old _; simp [written]
    | cons x a ih =>
      intro old h
      obtain ⟨d, ap⟩ := x
      have : ap = true := h _ List.mem_cons_self
      subst this
      rw [written, if_pos rfl, ih _ (fun y hy => h y (List.mem_cons_of_mem _ hy)), List.flatMap_cons, List.append_assoc]
  rw [split, writes]
  rw [← app after data happ] at hsmall ⊢
  exact C69_round_trip_old hw hpos _ path data (by simp [writeBinary]) after hsmall

example : readBinary 16 (writes (fun p => if p = "x" then some [1#8, 2#8, 3#8] else none) "x"
    [([0x1#16], true), ([0x1234#16, 0xabcd#16], false), ([0x7#16], true)]) "x" = .ok [0x1234#16, 0xabcd#16, 0x7#16] :=
  C69_round_trip_existing (by decide) (by decide) _ _ [([0x1#16], true)] [([0x7#16], true)] [0x1234#16, 0xabcd#16] (by simp) (by decide)

end TFR
