import Verif.Lemmas.BinaryRank
/-
C41, C51, C52: bit matrices, their rank, and how they are cut from the data.
-/
namespace TFR
open Spec BinMatrix
variable {w : Nat} {σ : Type}

/-! ### C41 -/

namespace Spec
/-- The value most recently written to cell (r, c); cells never written hold `false`. -/
def lastWrite (writes : List (Nat × Nat × Bool)) (r c : Nat) : Bool :=
  ((writes.reverse.find? fun x => x.1 == r && x.2.1 == c).map fun x => x.2.2).getD false
end Spec

private theorem set_ok {m : BinMatrix} {n r c : Nat} (h : m.Shape n) (hr : r < n) (hc : c < n) (b : Bool) :
    ∃ m', m.set r c b = .ok m' ∧ m'.Shape n ∧
      ∀ i j, j < n → m'.cell i j = if i = r ∧ j = c then (if b then 1#8 else 0#8) else m.cell i j :=
  put_ok h hr hc _

/-- C41. For every size and every history of in-range writes to a fresh matrix, no write faults, and reading any cell
returns what was last written there (0 if nothing was): writes affect only their own cell. -/
theorem C41_history (n : Nat) (writes : List (Nat × Nat × Bool)) (h : ∀ x ∈ writes, x.1 < n ∧ x.2.1 < n) :
    ∃ m, writes.foldlM (fun (m : BinMatrix) x => m.set x.1 x.2.1 x.2.2) (BinMatrix.new n) = .ok m ∧
      m.size = n ∧ m.data.length = n * n ∧
      ∀ r c, r < n → c < n → m.get r c = .ok (if lastWrite writes r c then 1#8 else 0#8) := by
  suffices H : ∃ m, writes.foldlM (fun (m : BinMatrix) x => m.set x.1 x.2.1 x.2.2) (BinMatrix.new n) = .ok m ∧
      m.Shape n ∧ ∀ r c, r < n → c < n → m.cell r c = if lastWrite writes r c then 1#8 else 0#8 by
    obtain ⟨m, a, b, c⟩ := H
    exact ⟨m, a, b.1, b.2, fun r c' hr hc => by rw [get_ok b hr hc, c r c' hr hc]⟩
  induction writes using List.reverseRecOn with
  | nil =>
    refine ⟨BinMatrix.new n, rfl, ⟨rfl, by simp [BinMatrix.new]⟩, ?_⟩
    intro r c hr hc
    simp only [cell, BinMatrix.new, lastWrite, List.getD_eq_getElem?_getD, List.getElem?_replicate]
    split <;> simp
  | append_singleton l x ih =>
    obtain ⟨m, e, s, hc⟩ := ih (fun y hy => h y (by simp [hy]))
    have hx := h x (by simp)
    obtain ⟨m', e', s', hc'⟩ := set_ok s hx.1 hx.2 x.2.2
    refine ⟨m', ?_, s', ?_⟩
    · rw [List.foldlM_append, e]
      show (m.set x.1 x.2.1 x.2.2 >>= pure) = _
      rw [e']; rfl
    · intro i j hi hj
      rw [hc' i j hj, hc i j hi hj]
      have hl : lastWrite (l ++ [x]) i j = if i = x.1 ∧ j = x.2.1 then x.2.2 else lastWrite l i j := by
        unfold lastWrite
        rw [List.reverse_append, List.reverse_singleton, List.singleton_append, List.find?_cons]
        by_cases q : i = x.1 ∧ j = x.2.1
        · simp [q.1, q.2]
        · rw [if_neg q]
          have : (x.1 == i && x.2.1 == j) = false := by
            rw [Bool.eq_false_iff]; intro h; simp at h; exact q ⟨h.1.symm, h.2.symm⟩
          simp only [this]
      rw [hl]
      split <;> rfl

/-- C41 (equality). Two matrices (of any sizes) compare equal exactly when they have the same size and all cells agree. -/
theorem C41_equality (a b : BinMatrix) (n n' : Nat) (ha : a.Shape n) (hb : b.Shape n') :
    a.eq b = true ↔ n = n' ∧ ∀ r c, r < n → c < n → a.get r c = b.get r c := by
  constructor
  · intro h
    have hd : a.data = b.data := by simpa [BinMatrix.eq] using h
    have hn : n = n' := by
      have := ha.2; rw [hd, hb.2] at this
      exact (Nat.mul_self_inj.1 this).symm
    refine ⟨hn, ?_⟩
    intro r c _ _
    unfold BinMatrix.get
    rw [hd, ha.1, hb.1, hn]
  · rintro ⟨rfl, h⟩
    have hd : a.data = b.data := by
      apply List.ext_getElem?
      intro i
      by_cases hi : i < n * n
      · have hn : 0 < n := Nat.pos_of_ne_zero (by rintro rfl; simp at hi)
        have hr : i / n < n := Nat.div_lt_of_lt_mul hi
        have hc : i % n < n := Nat.mod_lt _ hn
        have := h _ _ hr hc
        rw [get_ok ha hr hc, get_ok hb hr hc] at this
        have := Except.ok.inj this
        unfold cell at this
        rw [ha.1, hb.1] at this
        have hi' : i / n * n + i % n = i := by rw [Nat.mul_comm]; exact Nat.div_add_mod i n
        rw [hi', List.getD_eq_getElem?_getD, List.getD_eq_getElem?_getD,
          List.getElem?_eq_getElem (by rw [ha.2]; exact hi), List.getElem?_eq_getElem (by rw [hb.2]; exact hi)] at this
        rw [List.getElem?_eq_getElem (by rw [ha.2]; exact hi), List.getElem?_eq_getElem (by rw [hb.2]; exact hi)]
        simpa using this
      · rw [List.getElem?_eq_none (by rw [ha.2]; omega), List.getElem?_eq_none (by rw [hb.2]; omega)]
    simp [BinMatrix.eq, hd]

/-- C41 (out of range). A column index past the end reads the following row; an access past the last row is out of
bounds. -/
theorem C41_out_of_range (m : BinMatrix) (n : Nat) (h : m.Shape n) (r c : Nat) :
    m.get r (c + n) = m.get (r + 1) c ∧ (n ≤ r → m.get r c = .error .oobIndex) := by
  constructor
  · unfold BinMatrix.get; rw [h.1, show r * n + (c + n) = (r + 1) * n + c by ring]
  · intro hr
    unfold BinMatrix.get
    rw [h.1, List.getElem?_eq_none]
    rw [h.2]
    have := Nat.mul_le_mul_right n hr
    omega

example : ∃ m, [(0, 1, true), (2, 2, true), (0, 1, false)].foldlM
    (fun (m : BinMatrix) x => m.set x.1 x.2.1 x.2.2) (BinMatrix.new 3) = .ok m ∧
    m.get 2 2 = .ok 1#8 ∧ m.get 0 1 = .ok 0#8 := by
  refine ⟨⟨[0#8, 0#8, 0#8, 0#8, 0#8, 0#8, 0#8, 0#8, 1#8], 3⟩, ?_, ?_, ?_⟩ <;> decide +kernel

/-! ### C51 -/

/-- C51. For every size and every square bit matrix `A` stored in the matrix object, row_reduce_and_rank returns the
rank of `A` over GF(2) without any out-of-range access, and leaves a matrix with the same row space. -/
theorem C51_rank (n : Nat) (A : Matrix (Fin n) (Fin n) (ZMod 2)) (m : BinMatrix) (hs : m.size = n)
    (hl : m.data.length = n * n) (hA : ∀ i j : Fin n, m.get i j = .ok (if A i j = 1 then 1#8 else 0#8)) :
    ∃ (m' : BinMatrix) (A' : Matrix (Fin n) (Fin n) (ZMod 2)), rowReduceAndRank m = .ok (A.rank, m') ∧
      (∀ i j : Fin n, m'.get i j = .ok (if A' i j = 1 then 1#8 else 0#8)) ∧
      Submodule.span (ZMod 2) (Set.range A'.row) = Submodule.span (ZMod 2) (Set.range A.row) := by
  have shape : m.Shape n := ⟨hs, hl⟩
  have hcell : ∀ i j : Fin n, m.cell i j = if A i j = 1 then 1#8 else 0#8 := by
    intro i j
    have := hA i j
    rw [get_ok shape i.2 j.2] at this
    exact Except.ok.inj this
  have hbin : Binary m n := by
    intro i j hi hj
    have := hcell ⟨i, hi⟩ ⟨j, hj⟩
    simp only at this
    rw [this]; split <;> simp
  have hgf : gf2 m n = A := by
    funext i j
    unfold gf2
    rw [hcell i j]
    rcases zmod2_cases (A i j) with q | q <;> simp [q]
  obtain ⟨m', e, inv⟩ := rowReduce_ok shape hbin
  rw [hgf] at e inv
  refine ⟨m', gf2 m' n, e, ?_, ?_⟩
  · intro i j
    rw [get_ok inv.shape i.2 j.2]
    congr 1
    rcases inv.bin i j i.2 j.2 with q | q <;> simp [gf2, q]
  · have := inv.span
    rw [hgf] at this
    exact this

example : rowReduceAndRank ⟨[0#8, 1#8, 1#8, 1#8, 0#8, 1#8, 1#8, 1#8, 0#8], 3⟩ =
    .ok (2, ⟨[0#8, 1#8, 1#8, 1#8, 0#8, 1#8, 0#8, 0#8, 0#8], 3⟩) := by decide +kernel

/-! ### C52 -/

/-- The matrix with the given bits in row-major order. -/
private def ofBitList (n : Nat) (bits : List Bool) : BinMatrix := ⟨bits.map fun b => if b then 1#8 else 0#8, n⟩

/-- A callback that does not replace the scratch matrix by one of another layout. -/
def KeepsLayout (n : Nat) (cb : σ → BinMatrix → R (σ × BinMatrix)) : Prop :=
  ∀ s m s' m', m.size = n → m.data.length = n * n → cb s m = .ok (s', m') → m'.size = n ∧ m'.data.length = n * n

private theorem forEachMatrix_eq (data : List (BitVec w)) (n : Nat) (hn : 0 < n)
    (cb : σ → BinMatrix → R (σ × BinMatrix)) (hcb : KeepsLayout n cb) (s : σ) :
    forEachMatrix data n cb s = (chunks (n * n) (bitsOf data)).foldlM (fun s bits => do
      let r ← cb s (ofBitList n bits)
      .ok r.1) s := by
  have hnn : 0 < n * n := Nat.mul_pos hn hn
  unfold forEachMatrix
  rw [forEachBit_eq, ← collect_result (n * n) hnn]
  refine bind_congr_simul (matrixStep n cb) (collectStep (n * n) _)
    (fun a b => a.1 < n ∧ a.2.1 < n ∧ b.1.length = a.2.1 * n + a.1 ∧ a.2.2.1.Shape n ∧
      (∀ i (hi : i < b.1.length), a.2.2.1.data[i]? = some (if b.1[i] then 1#8 else 0#8)) ∧ a.2.2.2 = b.2)
    ?_ (fun a => a.2.2.2) (fun b => b.2) (fun _ _ h => h.2.2.2.2.2) _ _ _ ?_
  · rintro ⟨c, r, tmp, s⟩ ⟨p, s'⟩ bit ⟨h1, h2, h3, h4, h5, h6⟩
    simp only at h1 h2 h3 h4 h5 h6
    subst h6
    have hidx := idx_lt h2 h1
    let tmp1 : BinMatrix := { tmp with data := tmp.data.set (r * n + c) (if bit then 1#8 else 0#8) }
    have hset : tmp.set r c bit = .ok tmp1 := by
      unfold BinMatrix.set BinMatrix.put
      rw [h4.1, if_pos (by rw [h4.2]; exact hidx)]
      simp only [tmp1, h4.1]
    have hs1 : tmp1.Shape n := ⟨h4.1, by simp [tmp1, h4.2]⟩
    have hd1 : ∀ i (hi : i < (p ++ [bit]).length), tmp1.data[i]? = some (if (p ++ [bit])[i] then 1#8 else 0#8) := by
      intro i hi
      simp only [tmp1, List.getElem?_set]
      rcases Nat.lt_or_ge i p.length with q | q
      · rw [if_neg (by omega), h5 i q]
        rw [List.getElem_append_left q]
      · have : i = p.length := by simp at hi; omega
        subst this
        rw [if_pos h3.symm, if_pos (by rw [h4.2]; omega)]
        simp
    have hlen : (p ++ [bit]).length = r * n + c + 1 := by simp [h3]
    unfold matrixStep collectStep
    have hbind : ∀ {β : Type} (f : BinMatrix → R β), ((Except.ok tmp1 : R BinMatrix) >>= f) = f tmp1 := fun f => rfl
    simp only [hset, hbind]
    by_cases hc : c + 1 = n
    · simp only [hc, if_true, true_and]
      have hlen2 : (p ++ [bit]).length = (r + 1) * n := by rw [hlen, Nat.succ_mul]; omega
      by_cases hr : r + 1 = n
      · have hfull : (p ++ [bit]).length = n * n := by rw [hlen2, hr]
        simp only [hr, if_true]
        rw [if_pos hfull]
        have hm : tmp1 = ofBitList n (p ++ [bit]) := by
          have : tmp1.data = (p ++ [bit]).map fun b => if b then 1#8 else 0#8 := by
            apply List.ext_getElem?
            intro i
            by_cases hi : i < (p ++ [bit]).length
            · rw [hd1 i hi, List.getElem?_map, List.getElem?_eq_getElem hi]; rfl
            · rw [List.getElem?_eq_none (by rw [hs1.2]; omega),
                List.getElem?_eq_none (by rw [List.length_map]; omega)]
          unfold ofBitList
          rw [← this, ← hs1.1]
        rw [← hm]
        cases hcall : cb s tmp1 with
        | error e => exact .inl ⟨e, rfl, rfl⟩
        | ok q =>
          obtain ⟨s1, tmp2⟩ := q
          have := hcb s tmp1 s1 tmp2 hs1.1 hs1.2 hcall
          exact .inr ⟨(0, 0, tmp2, s1), ([], s1), rfl, rfl, hn, hn, by simp, this, by simp, rfl⟩
      · have hnf : (p ++ [bit]).length ≠ n * n := by
          rw [hlen2]; intro q
          exact hr (Nat.eq_of_mul_eq_mul_right hn q)
        simp only [hr, if_false]
        rw [if_neg hnf]
        exact .inr ⟨(0, r + 1, tmp1, s), (p ++ [bit], s), rfl, rfl, hn, by show r + 1 < n; omega, by simpa using hlen2, hs1, hd1,
          rfl⟩
    · have hnf : (p ++ [bit]).length ≠ n * n := by
        rw [hlen]
        have := idx_lt h2 (show c + 1 < n by omega)
        omega
      simp only [hc, if_false, Nat.succ_ne_zero, false_and]
      rw [if_neg hnf]
      exact .inr ⟨(c + 1, r, tmp1, s), (p ++ [bit], s), rfl, rfl, by show c + 1 < n; omega, h2, by simp [h3]; ring, hs1, hd1,
        rfl⟩
  · exact ⟨hn, hn, by simp, ⟨rfl, by simp [BinMatrix.new]⟩, by simp, rfl⟩

/-- C52. For every data, every size `n ≥ 1` and every callback (with any state, possibly faulting, and free to overwrite
cells of the matrix it is given): the callback is called on exactly `⌊bits / n²⌋` matrices, in order; cell (r, c) of
matrix `k` is bit `k·n² + r·n + c` of the bit sequence of the data, whatever earlier calls did to the scratch matrix. -/
theorem C52_forEachMatrix (data : List (BitVec w)) (n : Nat) (hn : 0 < n)
    (cb : σ → BinMatrix → R (σ × BinMatrix)) (hcb : KeepsLayout n cb) (s : σ) :
    ∃ ms : List BinMatrix, ms.length = data.length * w / (n * n) ∧
      (∀ k (hk : k < ms.length), ms[k].size = n ∧ ms[k].data.length = n * n ∧ ∀ r c, r < n → c < n →
        ∃ b, (bitsOf data)[k * (n * n) + (r * n + c)]? = some b ∧ ms[k].get r c = .ok (if b then 1#8 else 0#8)) ∧
      forEachMatrix data n cb s = ms.foldlM (fun s m => do let r ← cb s m; .ok r.1) s := by
  refine ⟨(chunks (n * n) (bitsOf data)).map (ofBitList n), by simp [chunks, length_bitsOf], ?_, ?_⟩
  · intro k hk
    have hk' : k < (bitsOf data).length / (n * n) := by simpa [chunks] using hk
    have hkn : k * (n * n) + n * n ≤ (bitsOf data).length := by
      have := Nat.div_mul_le_self (bitsOf data).length (n * n)
      have h2 := Nat.mul_le_mul_right (n * n) (Nat.succ_le_of_lt hk')
      rw [Nat.succ_mul] at h2
      omega
    have hlen : (((bitsOf data).drop (k * (n * n))).take (n * n)).length = n * n := by simp; omega
    simp only [List.getElem_map, chunks, List.getElem_range]
    refine ⟨rfl, by simp only [ofBitList, List.length_map]; exact hlen, ?_⟩
    intro r c hr hc
    have hi := idx_lt hr hc
    have hlt : k * (n * n) + (r * n + c) < (bitsOf data).length := by omega
    refine ⟨(bitsOf data)[k * (n * n) + (r * n + c)], List.getElem?_eq_getElem hlt, ?_⟩
    unfold BinMatrix.get ofBitList
    simp only [List.getElem?_map, List.getElem?_take, hi, if_true, List.getElem?_drop,
      List.getElem?_eq_getElem hlt]
    rfl
  · rw [forEachMatrix_eq data n hn cb hcb s, List.foldlM_map]

/-- C52 (size 0). With matrix size 0 the first bit is written out of bounds. -/
theorem C52_size_zero (data : List (BitVec w)) (cb : σ → BinMatrix → R (σ × BinMatrix)) (s : σ)
    (h : 0 < data.length * w) : forEachMatrix data 0 cb s = .error .oobIndex := by
  unfold forEachMatrix
  rw [forEachBit_eq]
  rw [← length_bitsOf] at h
  cases hb : bitsOf data with
  | nil => rw [hb] at h; simp at h
  | cons b l => simp [matrixStep, BinMatrix.set, BinMatrix.put, BinMatrix.new]; rfl

end TFR
