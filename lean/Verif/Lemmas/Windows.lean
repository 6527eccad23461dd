import Verif.Model.Windows
import Verif.Spec.Seq
import Verif.Props.Bits

namespace TFR
open Spec
variable {w : Nat} {σ α : Type}

theorem foldlM_congr' {β : Type} (f g : σ → β → R σ) (l : List β) (h : ∀ s, ∀ b ∈ l, f s b = g s b) (s : σ) :
    l.foldlM f s = l.foldlM g s := by
  induction l generalizing s with
  | nil => rfl
  | cons b l ih =>
    simp only [List.foldlM_cons]
    rw [h s b (by simp)]
    congr 1; funext s'
    exact ih (fun s b hb => h s b (by simp [hb])) s'

theorem forEachBit_eq (data : List (BitVec w)) (cb : σ → Bool → R σ) (s : σ) :
    forEachBit data cb s = (bitsOf data).foldlM cb s := by
  unfold forEachBit bitsOf
  induction data generalizing s with
  | nil => rfl
  | cons v data ih =>
    simp only [List.foldlM_cons, List.flatMap_cons, List.foldlM_append]
    have : (List.range w).foldlM (fun s (b : Nat) => do
        let bit ← isBitSet v b
        cb s bit) s = ((List.range w).map fun b => v.getLsbD b).foldlM cb s := by
      rw [List.foldlM_map]
      apply foldlM_congr'
      intro s b hb
      rw [C02_isBitSet v b (List.mem_range.1 hb)]
      rfl
    rw [this]
    congr 1; funext s'
    exact ih s'

theorem length_bitsOf (data : List (BitVec w)) : (bitsOf data).length = data.length * w := by
  simp [bitsOf, List.length_flatMap]

theorem bitsOf_cons (v : BitVec w) (data : List (BitVec w)) :
    bitsOf (v :: data) = ((List.range w).map fun b => v.getLsbD b) ++ bitsOf data := by
  simp [bitsOf]

theorem getElem?_bitsOf (data : List (BitVec w)) (q b : Nat) (hb : b < w) (v : BitVec w)
    (hv : data[q]? = some v) : (bitsOf data)[q * w + b]? = some (v.getLsbD b) := by
  induction data generalizing q with
  | nil => simp at hv
  | cons u data ih =>
    rw [bitsOf_cons]
    cases q with
    | zero =>
      simp at hv; subst hv
      rw [List.getElem?_append_left (by simpa using hb)]
      simp [hb]
    | succ q =>
      rw [List.getElem?_append_right (by simp; nlinarith)]
      simp only [List.length_map, List.length_range]
      rw [show (q + 1) * w + b - w = q * w + b by rw [Nat.succ_mul]; omega]
      exact ih q (by simpa using hv)

/-- Collect items; when `k` are there, hand them over. -/
def collectStep (k : Nat) (cb : σ → List α → R σ) (st : List α × σ) (a : α) : R (List α × σ) :=
  let p := st.1 ++ [a]
  if p.length = k then do
    let s ← cb st.2 p
    .ok ([], s)
  else .ok (p, st.2)

theorem collect_short (k : Nat) (cb : σ → List α → R σ) (p l : List α) (s : σ)
    (h : p.length + l.length < k) :
    l.foldlM (collectStep k cb) (p, s) = .ok (p ++ l, s) := by
  induction l generalizing p with
  | nil => simp; rfl
  | cons a l ih =>
    simp only [List.foldlM_cons, collectStep]
    simp only [List.length_cons] at h
    rw [if_neg (by simp; omega)]
    show (l.foldlM (collectStep k cb) (p ++ [a], s)) = _
    rw [ih _ (by simp; omega)]; simp

theorem collect_full (k : Nat) (cb : σ → List α → R σ) (p l : List α) (s : σ)
    (h : p.length + l.length = k) (hl : l ≠ []) :
    l.foldlM (collectStep k cb) (p, s) = (do let s ← cb s (p ++ l); .ok ([], s)) := by
  induction l generalizing p with
  | nil => simp at hl
  | cons a l ih =>
    simp only [List.length_cons] at h
    simp only [List.foldlM_cons, collectStep]
    by_cases hl' : l = []
    · subst hl'
      rw [if_pos (by simpa using h)]
      simp
    · have : 0 < l.length := List.length_pos_of_ne_nil hl'
      rw [if_neg (by simp; omega)]
      show (l.foldlM (collectStep k cb) (p ++ [a], s)) = _
      rw [ih _ (by simp; omega) hl']; simp

theorem chunks_short (k : Nat) (l : List α) (h : l.length < k) : chunks k l = [] := by
  simp [chunks, Nat.div_eq_of_lt h]

theorem chunks_cons (k : Nat) (l : List α) (hk : 0 < k) (h : k ≤ l.length) :
    chunks k l = l.take k :: chunks k (l.drop k) := by
  unfold chunks
  have : l.length / k = (l.drop k).length / k + 1 := by
    rw [List.length_drop, Nat.div_eq_sub_div hk h]
  rw [this, List.range_succ_eq_map]
  simp only [List.map_cons, Nat.zero_mul, List.drop_zero, List.map_map, List.cons.injEq, true_and]
  apply List.map_congr_left
  intro j _
  simp [Nat.succ_mul, Nat.add_comm]

theorem collect_eq (k : Nat) (hk : 0 < k) (cb : σ → List α → R σ) (l : List α) (s : σ) :
    l.foldlM (collectStep k cb) ([], s) = (do
      let s ← (chunks k l).foldlM cb s
      .ok (l.drop (l.length / k * k), s)) := by
  induction hn : l.length using Nat.strong_induction_on generalizing l s with
  | _ n ih =>
    subst hn
    by_cases h : l.length < k
    · rw [collect_short k cb [] l s (by simpa using h), chunks_short k l h, Nat.div_eq_of_lt h]
      simp
    · have hsplit : l = l.take k ++ l.drop k := (List.take_append_drop k l).symm
      conv_lhs => rw [hsplit, List.foldlM_append]
      rw [collect_full k cb [] (l.take k) s (by simp; omega)
        (by intro h0; have := congrArg List.length h0; simp at this; rcases this with h | h
            · omega
            · subst h; simp at *; omega)]
      rw [chunks_cons k l hk (by omega)]
      simp only [List.foldlM_cons, List.nil_append, bind_assoc]
      congr 1; funext s'
      have h3 : (l.drop k).drop ((l.drop k).length / k * k) = l.drop (l.length / k * k) := by
        rw [List.drop_drop, List.length_drop, Nat.div_eq_sub_div (a := l.length) hk (by omega), Nat.succ_mul]
        congr 1; omega
      rw [← h3]
      exact ih (l.drop k).length (by simp; omega) (l.drop k) s' rfl

theorem bind_congr_simul {S T U : Type} (step1 : S → α → R S) (step2 : T → α → R T) (Rel : S → T → Prop)
    (hstep : ∀ s t a, Rel s t →
      (∃ e, step1 s a = .error e ∧ step2 t a = .error e) ∨
      (∃ s' t', step1 s a = .ok s' ∧ step2 t a = .ok t' ∧ Rel s' t'))
    (f : S → U) (g : T → U) (hfg : ∀ s t, Rel s t → f s = g t)
    (l : List α) (s : S) (t : T) (h : Rel s t) :
    (do let s ← l.foldlM step1 s; (.ok (f s) : R U)) = (do let t ← l.foldlM step2 t; .ok (g t)) := by
  induction l generalizing s t with
  | nil => exact congrArg Except.ok (hfg s t h)
  | cons a l ih =>
    simp only [List.foldlM_cons, bind_assoc]
    rcases hstep s t a h with ⟨e, h1, h2⟩ | ⟨s', t', h1, h2, h3⟩
    · rw [h1, h2]; rfl
    · rw [h1, h2]; exact ih s' t' h3

theorem collect_result (k : Nat) (hk : 0 < k) (cb : σ → List α → R σ) (l : List α) (s : σ) :
    (do let st ← l.foldlM (collectStep k cb) ([], s); (.ok st.2 : R σ)) = (chunks k l).foldlM cb s := by
  rw [collect_eq k hk]
  cases (chunks k l).foldlM cb s <;> rfl

theorem forEachBitBlock_eq (data : List (BitVec w)) (k : Nat) (hk : 0 < k) (cb : σ → List Bool → R σ) (s : σ) :
    forEachBitBlock data k cb s = (chunks k (bitsOf data)).foldlM cb s := by
  unfold forEachBitBlock
  rw [forEachBit_eq, ← collect_result k hk]
  refine bind_congr_simul (blockStep cb) (collectStep k cb)
    (fun a b => a.2.1.length = k ∧ b.1.length = a.1 ∧ a.1 < k ∧ a.2.1.take a.1 = b.1 ∧ a.2.2 = b.2)
    ?_ (fun a => a.2.2) (fun b => b.2) (fun _ _ h => h.2.2.2.2) _ _ _ ?_
  · rintro ⟨i, block, s⟩ ⟨p, s'⟩ bit ⟨h1, h2, h3, h4, h5⟩
    simp only at h1 h2 h3 h4 h5
    subst h5
    simp only [blockStep, collectStep, h1, h3, if_true, List.length_set, List.length_append, h2,
      List.length_singleton]
    have htake : (block.set i bit).take (i + 1) = p ++ [bit] := by
      rw [List.take_set, List.take_succ_eq_append_getElem (by omega), h4, List.set_append_right _ _ (by omega)]
      simp [h2]
    by_cases hfull : i + 1 = k
    · simp only [hfull, if_true]
      have : block.set i bit = p ++ [bit] := by
        rw [← htake, List.take_of_length_le (by simp; omega)]
      rw [this]
      cases cb s (p ++ [bit]) with
      | error e => exact .inl ⟨e, rfl, rfl⟩
      | ok s1 =>
        refine .inr ⟨_, _, rfl, rfl, ?_, ?_⟩
        · simp; omega
        · simp; omega
    · simp only [hfull, if_false]
      refine .inr ⟨_, _, rfl, rfl, ?_, ?_, ?_, ?_, ?_⟩
      · simp [h1]
      · simp [h2]
      · show i + 1 < k; omega
      · exact htake
      · rfl
  · simp [hk]

theorem ofBits_lt (l : List Bool) : ofBits l < 2 ^ l.length := by
  induction l with
  | nil => simp [ofBits]
  | cons b l ih => simp only [ofBits, List.length_cons, Nat.pow_succ]; split <;> omega

theorem ofBits_append (l l' : List Bool) : ofBits (l ++ l') = ofBits l + 2 ^ l.length * ofBits l' := by
  induction l with
  | nil => simp [ofBits]
  | cons b l ih => simp only [List.cons_append, ofBits, ih, List.length_cons, Nat.pow_succ]; ring

theorem testBit_ofBits (l : List Bool) (i : Nat) : (ofBits l).testBit i = l.getD i false := by
  induction l generalizing i with
  | nil => simp [ofBits]
  | cons b l ih =>
    cases i with
    | zero => cases b <;> simp [ofBits, Nat.testBit_zero, Nat.add_mod]
    | succ i =>
      rw [Nat.testBit_succ, show ofBits (b :: l) / 2 = ofBits l by
        simp only [ofBits]; split <;> omega, ih]
      simp

theorem window_or (p : List Bool) (bit : Bool) (h : p.length < 64) :
    BitVec.ofNat 64 (ofBits p) ||| ((if bit then 1#64 else 0#64) <<< p.length)
      = BitVec.ofNat 64 (ofBits (p ++ [bit])) := by
  apply BitVec.eq_of_getLsbD_eq
  intro i hi
  simp only [BitVec.getLsbD_or, BitVec.getLsbD_ofNat, testBit_ofBits, BitVec.getLsbD_shiftLeft, hi,
    decide_true, Bool.true_and]
  rcases lt_trichotomy i p.length with h1 | h1 | h1
  · simp [h1, List.getElem?_append_left h1]
  · subst h1; cases bit <;> simp
  · have h2 : ¬ i < p.length := by omega
    have h3 : i - p.length ≠ 0 := by omega
    have h4 : i - p.length < 64 := by omega
    have h5 : p.length ≤ i := by omega
    have h6 : (p ++ [bit]).length ≤ i := by simp; omega
    cases bit <;> simp [h2, BitVec.getLsbD_one, h3, List.getElem?_eq_none h5, List.getElem?_eq_none h6]

theorem slidingBitWindow_eq (data : List (BitVec w)) (k : Nat) (hk : 0 < k) (hk64 : k ≤ 64)
    (cb : σ → BitVec 64 → R σ) (s : σ) :
    slidingBitWindow data k cb s =
      (chunks k (bitsOf data)).foldlM (fun s bs => cb s (BitVec.ofNat 64 (ofBits bs))) s := by
  unfold slidingBitWindow
  rw [forEachBit_eq, ← collect_result k hk]
  refine bind_congr_simul (windowStep k cb) (collectStep k _)
    (fun a b => b.1.length = a.1 ∧ a.1 < k ∧ a.2.1 = BitVec.ofNat 64 (ofBits b.1) ∧ a.2.2 = b.2)
    ?_ (fun a => a.2.2) (fun b => b.2) (fun _ _ h => h.2.2.2) _ _ _ ?_
  · rintro ⟨c, v, s⟩ ⟨p, s'⟩ bit ⟨h2, h3, h4, h5⟩
    simp only at h2 h3 h4 h5
    subst h5 h4 h2
    have hc : p.length < 64 := by omega
    simp only [windowStep, collectStep, hc, if_true, window_or p bit hc, List.length_append,
      List.length_singleton]
    by_cases hfull : p.length + 1 = k
    · rw [if_pos (by omega), if_pos hfull]
      cases cb s (BitVec.ofNat 64 (ofBits (p ++ [bit]))) with
      | error e => exact .inl ⟨e, rfl, rfl⟩
      | ok s1 => exact .inr ⟨_, _, rfl, rfl, rfl, by simp [hk], by simp [ofBits], rfl⟩
    · rw [if_neg (by omega), if_neg hfull]
      exact .inr ⟨_, _, rfl, rfl, by simp, by show p.length + 1 < k; omega, rfl, rfl⟩
  · simp [hk, ofBits]

end TFR
