import Verif.Model.CountStats
import Verif.Lemmas.Hist
import Verif.Lemmas.Streams
import Verif.Props.Bits
import Mathlib.Data.List.ProdSigma
import Mathlib.Algebra.BigOperators.Group.List.Basic
/-
C42 - C44: avalanche counts.
-/
namespace TFR
variable {w : Nat}

/-- The number of output bits that change when bit `j` of input `x` is flipped. -/
def Spec.flipDistance (mixer : BitVec w → BitVec w) (x : BitVec w) (j : Nat) : Nat :=
  (List.range w).countP fun k => (mixer x).getLsbD k != (mixer (x ^^^ BitVec.twoPow w j)).getLsbD k

private theorem hbind {α β : Type} (x : α) (f : α → R β) : ((Except.ok x : R α) >>= f) = f x := rfl

theorem flipBit_ok (hw : w ≤ 64) (x : BitVec w) (j : Nat) (hj : j < w) :
    flipBit x j = .ok (x ^^^ BitVec.twoPow w j) := by
  obtain ⟨u, hu, hb, -⟩ := C02_flipBit hw x j hj
  rw [hu]
  congr 1
  apply BitVec.eq_of_getLsbD_eq
  intro i hi
  have h := hb i hi
  rw [BitVec.getLsbD_xor, BitVec.getLsbD_twoPow]
  generalize u.getLsbD i = ub at h ⊢
  generalize x.getLsbD i = xb at h ⊢
  by_cases hij : i = j
  · subst hij
    rw [if_pos rfl] at h
    simp only [hi, decide_true, Bool.and_true]
    cases ub <;> cases xb <;> simp_all
  · have hji : j ≠ i := fun e => hij e.symm
    rw [if_neg hij] at h
    simp only [hji, decide_false, Bool.and_false, Bool.xor_false]
    cases ub <;> cases xb <;> simp_all

theorem bitCount_xor (mixer : BitVec w → BitVec w) (x : BitVec w) (j : Nat) :
    bitCount (mixer x ^^^ mixer (x ^^^ BitVec.twoPow w j)) = Spec.flipDistance mixer x j := by
  rw [bitCount_eq_countP]
  unfold Spec.flipDistance
  apply List.countP_congr
  intro k _
  rw [BitVec.getLsbD_xor]

theorem Spec.flipDistance_le (mixer : BitVec w → BitVec w) (x : BitVec w) (j : Nat) : Spec.flipDistance mixer x j ≤ w := by
  unfold Spec.flipDistance
  exact (List.countP_le_length).trans (by simp)

private theorem sacStep_eq (hw : w ≤ 64) (mixer : BitVec w → BitVec w) (v : BitVec w) (idx : List Nat) :
    sacStep mixer (histOf (w + 1) idx) v =
      .ok (histOf (w + 1) (idx ++ (List.range w).map (Spec.flipDistance mixer (mixer v)))) := by
  unfold sacStep
  dsimp only
  rw [← foldlM_incrAt (w + 1) (Spec.flipDistance mixer (mixer v)) (List.range w) idx
    (fun j _ => Nat.lt_succ_of_le (Spec.flipDistance_le _ _ _))]
  have : ∀ (l : List Nat) (c : List (BitVec 64)), (∀ j ∈ l, j < w) →
      l.foldlM (fun sac (j : Nat) => (do
        let y ← flipBit (mixer v) j
        incrAt sac (bitCount (mixer (mixer v) ^^^ mixer y)) : R _)) c =
      l.foldlM (fun c j => incrAt c (Spec.flipDistance mixer (mixer v) j)) c := by
    intro l
    induction l with
    | nil => intros; rfl
    | cons j l ih =>
      intro c h
      rw [List.foldlM_cons, List.foldlM_cons, flipBit_ok hw _ _ (h j (by simp)), hbind, bitCount_xor]
      congr 1
      funext c'
      exact ih c' (fun i hi => h i (by simp [hi]))
  exact this _ _ (fun j hj => List.mem_range.1 hj)

private theorem sac_fold (hw : w ≤ 64) (mixer : BitVec w → BitVec w) (l : List (BitVec w)) (idx : List Nat) :
    l.foldlM (sacStep mixer) (histOf (w + 1) idx) =
      .ok (histOf (w + 1) (idx ++ l.flatMap fun v => (List.range w).map (Spec.flipDistance mixer (mixer v)))) := by
  induction l generalizing idx with
  | nil => simp; rfl
  | cons v l ih =>
    rw [List.foldlM_cons, sacStep_eq hw, hbind, ih]
    simp

private theorem flat_product (mixer : BitVec w → BitVec w) (s : Stream (BitVec w)) (n : Nat) :
    ((s.take n).flatMap fun v => (List.range w).map (Spec.flipDistance mixer (mixer v))) =
      (List.range n ×ˢ List.range w).map fun p => Spec.flipDistance mixer (mixer (s.nth p.1)) p.2 := by
  rw [Stream.take_eq_map, List.flatMap_map]
  show _ = ((List.range n).flatMap fun a => (List.range w).map (Prod.mk a)).map _
  rw [List.map_flatMap]
  congr 1
  funext a
  rw [List.map_map]
  rfl

/-- C42. For every mixer and source, `avalanche_generate_sac(n)` never faults and returns `w + 1` counters; counter `d` is the
number (modulo 2^64) of pairs (call number `q < n`, input bit `j < w`) for which flipping bit `j` of the probe input
`mixer(q-th value)` changes exactly `d` output bits. -/
theorem C42_sac (hw : w ≤ 64) (n : BitVec 64) (s : Stream (BitVec w)) (mixer : BitVec w → BitVec w) :
    ∃ sac, generateSac n s mixer = .ok sac ∧ sac.length = w + 1 ∧
      ∀ d (hd : d < sac.length), sac[d] = BitVec.ofNat 64 ((List.range n.toNat ×ˢ List.range w).countP fun p =>
        decide (Spec.flipDistance mixer (mixer (s.nth p.1)) p.2 = d)) := by
  refine ⟨histOf (w + 1) ((List.range n.toNat ×ˢ List.range w).map fun p =>
    Spec.flipDistance mixer (mixer (s.nth p.1)) p.2), ?_, by simp, ?_⟩
  · unfold generateSac
    rw [← histOf_nil, sac_fold hw, flat_product]
    simp
  · intro d hd
    rw [getElem_histOf, List.count, List.countP_map]
    congr 1

private theorem sum_count (l : List Nat) (m : Nat) (h : ∀ x ∈ l, x < m) :
    ((List.range m).map fun d => l.count d).sum = l.length := by
  induction l with
  | nil => simp
  | cons a l ih =>
    have ha : a < m := h a (by simp)
    have := ih (fun x hx => h x (by simp [hx]))
    simp only [List.count_cons, List.length_cons]
    rw [List.sum_map_add, this]
    congr 1
    have : ((List.range m).map fun d => if (a == d) = true then 1 else 0).sum = (List.range m).countP (fun d => a == d) := by
      generalize List.range m = r
      induction r with
      | nil => rfl
      | cons x r ih => rw [List.map_cons, List.sum_cons, List.countP_cons, ih, Nat.add_comm]
    rw [this]
    have h1 : (List.range m).countP (fun d => a == d) = (List.range m).count a := by
      unfold List.count
      apply List.countP_congr
      intro x _; simp only [beq_iff_eq]; exact eq_comm
    rw [h1, List.nodup_range.count, if_pos (List.mem_range.2 ha)]

/-- C42. The counters add up to `n * w` (as numbers, when `n * w` fits in 64 bits). -/
theorem C42_total (hw : w ≤ 64) (n : BitVec 64) (s : Stream (BitVec w)) (mixer : BitVec w → BitVec w)
    (hn : n.toNat * w < 2 ^ 64) :
    ∃ sac, generateSac n s mixer = .ok sac ∧ (sac.map BitVec.toNat).sum = n.toNat * w := by
  obtain ⟨sac, h1, h2, h3⟩ := C42_sac hw n s mixer
  refine ⟨sac, h1, ?_⟩
  have hs : sac.map BitVec.toNat = (List.range (w + 1)).map fun d => (((List.range n.toNat ×ˢ List.range w).map fun p =>
      Spec.flipDistance mixer (mixer (s.nth p.1)) p.2).count d) := by
    apply List.ext_getElem (by rw [List.length_map, List.length_map, List.length_range, h2])
    intro d hd1 hd2
    simp only [List.getElem_map, List.getElem_range]
    rw [h3 d (by simpa using hd1), List.count, List.countP_map, BitVec.toNat_ofNat]
    refine Nat.mod_eq_of_lt (lt_of_le_of_lt List.countP_le_length ?_)
    rw [List.length_product, List.length_range, List.length_range]; exact hn
  rw [hs, sum_count]
  · simp [List.length_product]
  · intro x hx
    obtain ⟨p, -, rfl⟩ := List.mem_map.1 hx
    exact Nat.lt_succ_of_le (Spec.flipDistance_le _ _ _)

private theorem twoPow_ne_zero (j : Nat) (hj : j < w) : BitVec.twoPow w j ≠ 0#w := by
  intro h
  have := congrArg (fun x => BitVec.getLsbD x j) h
  simp [BitVec.getLsbD_twoPow, hj] at this

/-- C42. For an injective mixer the entry of distance 0 is zero, for every source and every `n`. -/
theorem C42_injective (hw : w ≤ 64) (n : BitVec 64) (s : Stream (BitVec w)) (mixer : BitVec w → BitVec w)
    (hinj : Function.Injective mixer) : ∃ sac, generateSac n s mixer = .ok sac ∧ sac[0]? = some 0#64 := by
  obtain ⟨sac, h1, h2, h3⟩ := C42_sac hw n s mixer
  refine ⟨sac, h1, ?_⟩
  rw [List.getElem?_eq_getElem (by omega), h3 0 (by omega)]
  have : (List.range n.toNat ×ˢ List.range w).countP (fun p =>
        decide (Spec.flipDistance mixer (mixer (s.nth p.1)) p.2 = 0)) = 0 := by
    rw [List.countP_eq_zero]
    intro p hp
    obtain ⟨-, hp2⟩ := List.mem_product.1 hp
    rw [decide_eq_true_eq]
    intro h0
    unfold Spec.flipDistance at h0
    rw [List.countP_eq_zero] at h0
    have heq : mixer (mixer (s.nth p.1)) = mixer (mixer (s.nth p.1) ^^^ BitVec.twoPow w p.2) := by
      apply BitVec.eq_of_getLsbD_eq
      intro i hi
      have := h0 i (List.mem_range.2 hi)
      simpa using this
    have h4 := hinj heq
    apply twoPow_ne_zero (w := w) p.2 (List.mem_range.1 hp2)
    have h5 : mixer (s.nth p.1) ^^^ (mixer (s.nth p.1)) = mixer (s.nth p.1) ^^^ (mixer (s.nth p.1) ^^^ BitVec.twoPow w p.2) :=
      congrArg _ h4
    rw [← BitVec.xor_assoc, BitVec.xor_self, BitVec.zero_xor] at h5
    exact h5.symm
  rw [this]

/-- C42, non-vacuity: the identity mixer on bytes changes exactly one bit each time. -/
example : generateSac 2#64 ⟨BitVec 8, "c", 5#8, fun x => (x, x + 1#8)⟩ (fun x => x) =
    .ok [0#64, 16#64, 0#64, 0#64, 0#64, 0#64, 0#64, 0#64, 0#64] := by decide +kernel

example : Function.Injective (fun x : BitVec 8 => x * 3#8) := by
  intro a b; revert a b; decide +kernel

/-! ### C43 -/

theorem addAt_ok (c : List (BitVec 64)) (i : Nat) (b : BitVec 64) (h : i < c.length) :
    addAt c i b = .ok (c.set i (c[i] + b)) := by
  unfold addAt
  rw [List.getElem?_eq_getElem h]

/-- Add `g i` to each cell in a range of cells. -/
private def addCells (lo hi : Nat) (g : Nat → BitVec 64) (c : List (BitVec 64)) : List (BitVec 64) :=
  c.mapIdx fun i v => if lo ≤ i ∧ i < hi then v + g i else v

private theorem length_addCells (lo hi : Nat) (g : Nat → BitVec 64) (c : List (BitVec 64)) :
    (addCells lo hi g c).length = c.length := by simp [addCells]

private theorem fold_addAt (c : List (BitVec 64)) (lo m : Nat) (g : Nat → BitVec 64) (h : lo + m ≤ c.length) :
    (List.range m).foldlM (fun c k => addAt c (lo + k) (g (lo + k))) c = .ok (addCells lo (lo + m) g c) := by
  induction m with
  | zero =>
    show Except.ok c = _
    congr 1
    apply List.ext_getElem (by simp [addCells])
    intro i h1 h2
    simp only [addCells, List.getElem_mapIdx]
    rw [if_neg (by omega)]
  | succ m ih =>
    rw [List.range_succ, List.foldlM_append, ih (by omega), hbind, List.foldlM_cons,
      addAt_ok _ _ _ (by rw [length_addCells]; omega)]
    show Except.ok _ = _
    congr 1
    apply List.ext_getElem (by simp [addCells])
    intro i h1 h2
    rw [List.getElem_set]
    simp only [addCells, List.getElem_mapIdx]
    by_cases hi : lo + m = i
    · subst hi
      rw [if_pos rfl, if_neg (by omega), if_pos (by omega)]
    · rw [if_neg hi]
      split_ifs <;> first | rfl | omega

private theorem addCells_comp (a b d : Nat) (hab : a ≤ b) (hbd : b ≤ d) (g : Nat → BitVec 64) (c : List (BitVec 64)) :
    addCells b d g (addCells a b g c) = addCells a d g c := by
  apply List.ext_getElem (by simp [addCells])
  intro i h1 h2
  simp only [addCells, List.getElem_mapIdx]
  split_ifs <;> first | rfl | omega

/-- Does flipping input bit `i / w` of `x` change output bit `i % w`? -/
private def flips (mixer : BitVec w → BitVec w) (x : BitVec w) (j k : Nat) : Bool :=
  (mixer x).getLsbD k != (mixer (x ^^^ BitVec.twoPow w j)).getLsbD k

private def flipCell (mixer : BitVec w → BitVec w) (x : BitVec w) (i : Nat) : BitVec 64 :=
  if flips mixer x (i / w) (i % w) then 1#64 else 0#64

private theorem bic_row (hw : w ≤ 64) (mixer : BitVec w → BitVec w) (x : BitVec w) (c : List (BitVec 64)) (j : Nat) (hj : j < w)
    (hc : c.length = w * w) :
    (do
      let y ← flipBit x j
      (List.range w).foldlM (fun bic (k : Nat) => (do
        let bit ← isBitSet (mixer x ^^^ mixer y) k
        addAt bic (j * w + k) (if bit then 1#64 else 0#64) : R _)) c : R _) =
    .ok (addCells (j * w) ((j + 1) * w) (flipCell mixer x) c) := by
  rw [flipBit_ok hw x j hj, hbind]
  have hle : j * w + w ≤ c.length := by rw [hc, ← Nat.succ_mul]; exact Nat.mul_le_mul_right _ hj
  rw [Nat.succ_mul, ← fold_addAt c (j * w) w (flipCell mixer x) hle]
  have : ∀ (l : List Nat) (c : List (BitVec 64)), (∀ k ∈ l, k < w) →
      l.foldlM (fun bic (k : Nat) => (do
        let bit ← isBitSet (mixer x ^^^ mixer (x ^^^ BitVec.twoPow w j)) k
        addAt bic (j * w + k) (if bit then 1#64 else 0#64) : R _)) c =
      l.foldlM (fun c k => addAt c (j * w + k) (flipCell mixer x (j * w + k))) c := by
    intro l
    induction l with
    | nil => intros; rfl
    | cons k l ih =>
      intro c h
      have hk := h k (by simp)
      rw [List.foldlM_cons, List.foldlM_cons, C02_isBitSet _ k hk, hbind]
      have h1 : (j * w + k) / w = j := by
        rw [Nat.mul_comm, Nat.mul_add_div (by omega), Nat.div_eq_of_lt hk, Nat.add_zero]
      have h2 : (j * w + k) % w = k := by
        rw [Nat.mul_comm, Nat.mul_add_mod, Nat.mod_eq_of_lt hk]
      have : (mixer x ^^^ mixer (x ^^^ BitVec.twoPow w j)).getLsbD k = flips mixer x j k := by
        unfold flips
        rw [BitVec.getLsbD_xor]
      rw [this]
      unfold flipCell
      rw [h1, h2]
      congr 1
      funext c'
      exact ih c' (fun i hi => h i (by simp [hi]))
  exact this _ _ (fun k hk => List.mem_range.1 hk)

private theorem bicStep_eq (hw : w ≤ 64) (mixer : BitVec w → BitVec w) (v : BitVec w) (c : List (BitVec 64))
    (hc : c.length = w * w) : bicStep mixer c v = .ok (addCells 0 (w * w) (flipCell mixer (mixer v)) c) := by
  unfold bicStep
  dsimp only
  have : ∀ m, m ≤ w → (List.range m).foldlM (fun bic (j : Nat) => (do
      let y ← flipBit (mixer v) j
      (List.range w).foldlM (fun bic (k : Nat) => (do
        let bit ← isBitSet (mixer (mixer v) ^^^ mixer y) k
        addAt bic (j * w + k) (if bit then 1#64 else 0#64) : R _)) bic : R _)) c =
      .ok (addCells 0 (m * w) (flipCell mixer (mixer v)) c) := by
    intro m hm
    induction m with
    | zero =>
      show Except.ok c = _
      congr 1
      apply List.ext_getElem (by simp [addCells])
      intro i h1 h2
      simp only [addCells, List.getElem_mapIdx]
      rw [if_neg (by omega)]
    | succ m ih =>
      rw [List.range_succ, List.foldlM_append, ih (by omega), hbind, List.foldlM_cons,
        bic_row hw mixer (mixer v) _ m (by omega) (by rw [length_addCells, hc])]
      show Except.ok _ = _
      congr 1
      exact addCells_comp 0 (m * w) ((m + 1) * w) (by omega) (Nat.mul_le_mul_right _ (by omega)) _ _
  exact this w le_rfl

/-- The table of flip counts of a list of probe inputs. -/
private def bicOf (mixer : BitVec w → BitVec w) (l : List (BitVec w)) : List (BitVec 64) :=
  (List.range (w * w)).map fun i => BitVec.ofNat 64 (l.countP fun v => flips mixer (mixer v) (i / w) (i % w))

private theorem bic_fold (hw : w ≤ 64) (mixer : BitVec w → BitVec w) (l p : List (BitVec w)) :
    l.foldlM (bicStep mixer) (bicOf mixer p) = .ok (bicOf mixer (p ++ l)) := by
  induction l generalizing p with
  | nil => simp; rfl
  | cons v l ih =>
    rw [List.foldlM_cons, bicStep_eq hw _ _ _ (by simp [bicOf]), hbind]
    have : addCells 0 (w * w) (flipCell mixer (mixer v)) (bicOf mixer p) = bicOf mixer (p ++ [v]) := by
      apply List.ext_getElem (by simp [addCells, bicOf])
      intro i h1 h2
      have hi : i < w * w := by simpa [bicOf] using h2
      simp only [addCells, bicOf, List.getElem_mapIdx, List.getElem_map, List.getElem_range]
      rw [if_pos ⟨by omega, hi⟩, List.countP_append, BitVec.ofNat_add]
      congr 1
      unfold flipCell
      rw [List.countP_singleton]
      cases flips mixer (mixer v) (i / w) (i % w) <;> rfl
    rw [this, ih]
    simp

/-- C43. For every mixer and source, `avalanche_generate_bic(n)` never faults; entry (j, k) of the `w × w` table is the number
(modulo 2^64) of calls `q < n` for which flipping bit `j` of the probe input `mixer(q-th value)` changes output bit `k`. -/
theorem C43_bic (hw : w ≤ 64) (n : BitVec 64) (s : Stream (BitVec w)) (mixer : BitVec w → BitVec w) :
    ∃ bic, generateBic n s mixer = .ok bic ∧ bic.length = w * w ∧
      ∀ j k, j < w → k < w → bic[j * w + k]? = some (BitVec.ofNat 64 ((List.range n.toNat).countP fun q =>
        (mixer (mixer (s.nth q))).getLsbD k != (mixer (mixer (s.nth q) ^^^ BitVec.twoPow w j)).getLsbD k)) := by
  refine ⟨bicOf mixer (s.take n.toNat), ?_, by simp [bicOf], ?_⟩
  · unfold generateBic
    have : List.replicate (w * w) 0#64 = bicOf mixer [] := by
      simp [bicOf, List.map_const']
    rw [this, bic_fold hw]
    simp
  · intro j k hj hk
    have hi : j * w + k < w * w := by
      have := Nat.mul_le_mul_right w (Nat.succ_le_of_lt hj)
      rw [Nat.succ_mul] at this
      omega
    have h1 : (j * w + k) / w = j := by
      rw [Nat.mul_comm, Nat.mul_add_div (by omega), Nat.div_eq_of_lt hk, Nat.add_zero]
    have h2 : (j * w + k) % w = k := by
      rw [Nat.mul_comm, Nat.mul_add_mod, Nat.mod_eq_of_lt hk]
    rw [List.getElem?_eq_getElem (by simpa [bicOf] using hi)]
    simp only [bicOf, List.getElem_map, List.getElem_range, h1, h2]
    rw [Stream.take_eq_map, List.countP_map]
    rfl

private theorem sum_map_toNat {α : Type} (l : List α) (f g : α → Nat) (h : ∀ a ∈ l, f a = g a) : (l.map f).sum = (l.map g).sum := by
  congr 1
  exact List.map_congr_left h

private theorem sum_div_mod (m : Nat) (f : Nat → Nat → Nat) (t : Nat) :
    ((List.range (t * m)).map fun i => f (i / m) (i % m)).sum =
      ((List.range t).map fun j => ((List.range m).map fun k => f j k).sum).sum := by
  induction t with
  | zero => simp
  | succ t ih =>
    rw [Nat.succ_mul, List.range_add, List.map_append, List.sum_append, ih, List.range_succ, List.map_append, List.sum_append]
    congr 1
    simp only [List.map_map, List.map_cons, List.map_nil, List.sum_cons, List.sum_nil, Nat.add_zero]
    congr 1
    apply List.map_congr_left
    intro k hk
    have hk := List.mem_range.1 hk
    have h1 : (t * m + k) / m = t := by
      rw [Nat.mul_comm, Nat.mul_add_div (by omega), Nat.div_eq_of_lt hk, Nat.add_zero]
    have h2 : (t * m + k) % m = k := by
      rw [Nat.mul_comm, Nat.mul_add_mod, Nat.mod_eq_of_lt hk]
    simp [h1, h2]

private theorem sum_mul_count (l : List Nat) (m : Nat) (h : ∀ x ∈ l, x < m) :
    ((List.range m).map fun d => d * l.count d).sum = l.sum := by
  induction l with
  | nil => simp
  | cons a l ih =>
    have ha : a < m := h a (by simp)
    have := ih (fun x hx => h x (by simp [hx]))
    simp only [List.count_cons, List.sum_cons, Nat.mul_add]
    rw [List.sum_map_add, this, Nat.add_comm]
    congr 1
    have key : ∀ r : List Nat, (r.map fun d => d * (if (a == d) = true then 1 else 0)).sum = a * r.count a := by
      intro r
      induction r with
      | nil => rfl
      | cons x r ih =>
        simp only [List.map_cons, List.sum_cons, List.count_cons, ih, Nat.mul_add]
        by_cases hx : a = x
        · subst hx; simp; omega
        · have : (x == a) = false := by simpa using fun e => hx e.symm
          have h' : (a == x) = false := by simpa using hx
          simp [this, h']
    rw [key, List.nodup_range.count, if_pos (List.mem_range.2 ha), Nat.mul_one]

/-- C43. Every entry of the flip table is at most `n`, and its total is the Hamming mass `Σ_d d · sac[d]` of the histogram of
`C42` for the same mixer and source (when `n·w²` fits in 64 bits, so that nothing wraps). -/
theorem C43_mass (hw : w ≤ 64) (n : BitVec 64) (s : Stream (BitVec w)) (mixer : BitVec w → BitVec w)
    (hn : n.toNat * (w * w) < 2 ^ 64) :
    ∃ bic sac, generateBic n s mixer = .ok bic ∧ generateSac n s mixer = .ok sac ∧ (∀ b ∈ bic, b ≤ n) ∧
      (bic.map BitVec.toNat).sum = ((List.range (w + 1)).map fun d => d * (sac.getD d 0#64).toNat).sum := by
  refine ⟨bicOf mixer (s.take n.toNat), histOf (w + 1) ((List.range n.toNat ×ˢ List.range w).map fun p =>
    Spec.flipDistance mixer (mixer (s.nth p.1)) p.2), ?_, ?_, ?_, ?_⟩
  · unfold generateBic
    have : List.replicate (w * w) 0#64 = bicOf mixer [] := by
      simp [bicOf, List.map_const']
    rw [this, bic_fold hw]
    simp
  · unfold generateSac
    rw [← histOf_nil, sac_fold hw, flat_product]
    simp
  · intro b hb
    obtain ⟨i, -, rfl⟩ := List.mem_map.1 hb
    rw [BitVec.le_def, BitVec.toNat_ofNat]
    refine (Nat.mod_le _ _).trans (List.countP_le_length.trans ?_)
    simp
  · have hw0 : w = 0 ∨ 0 < w := Nat.eq_zero_or_pos w
    have hle : n.toNat < 2 ^ 64 := n.isLt
    have e1 : (bicOf mixer (s.take n.toNat)).map BitVec.toNat =
        (List.range (w * w)).map fun i => (s.take n.toNat).countP fun v => flips mixer (mixer v) (i / w) (i % w) := by
      simp only [bicOf, List.map_map]
      apply List.map_congr_left
      intro i _
      simp only [Function.comp, BitVec.toNat_ofNat]
      exact Nat.mod_eq_of_lt (lt_of_le_of_lt List.countP_le_length (by simpa using hle))
    have e2 : ((List.range (w + 1)).map fun d => d * ((histOf (w + 1) ((List.range n.toNat ×ˢ List.range w).map fun p =>
        Spec.flipDistance mixer (mixer (s.nth p.1)) p.2)).getD d 0#64).toNat) =
        (List.range (w + 1)).map fun d => d * ((List.range n.toNat ×ˢ List.range w).map fun p =>
        Spec.flipDistance mixer (mixer (s.nth p.1)) p.2).count d := by
      apply List.map_congr_left
      intro d hd
      have hd := List.mem_range.1 hd
      rw [List.getD_eq_getElem?_getD, List.getElem?_eq_getElem (by simpa using hd), Option.getD_some, getElem_histOf,
        BitVec.toNat_ofNat, Nat.mod_eq_of_lt]
      refine lt_of_le_of_lt List.count_le_length ?_
      simp only [List.length_map, List.length_product, List.length_range]
      refine lt_of_le_of_lt (Nat.mul_le_mul_left _ ?_) hn
      rcases hw0 with h | h
      · simp [h]
      · exact Nat.le_mul_of_pos_left _ h
    rw [e1, e2, sum_mul_count _ _ (by
      intro x hx
      obtain ⟨p, -, rfl⟩ := List.mem_map.1 hx
      exact Nat.lt_succ_of_le (Spec.flipDistance_le _ _ _)),
      sum_div_mod w (fun j k => (s.take n.toNat).countP fun v => flips mixer (mixer v) j k), ← flat_product]
    -- both sides: sum over values, j, k
    have e3 : ∀ l : List (BitVec w), ((l.flatMap fun v => (List.range w).map (Spec.flipDistance mixer (mixer v))).sum) =
        ((List.range w).map fun j => ((List.range w).map fun k => l.countP fun v => flips mixer (mixer v) j k).sum).sum := by
      intro l
      induction l with
      | nil => simp
      | cons v l ih =>
        rw [List.flatMap_cons, List.sum_append, ih]
        simp only [List.countP_cons]
        rw [← List.sum_map_add]
        congr 1
        apply List.map_congr_left
        intro j _
        rw [List.sum_map_add, Nat.add_comm]
        congr 1
        unfold Spec.flipDistance
        generalize List.range w = r
        induction r with
        | nil => rfl
        | cons k r ih2 =>
          rw [List.countP_cons, List.map_cons, List.sum_cons, ih2]
          unfold flips
          omega
    rw [e3]

/-- C43, non-vacuity: on 2-bit words and the mixer `x + 1`, flipping bit 0 always changes bits 0 and 1, flipping bit 1
changes only bit 1. -/
example : generateBic 4#64 ⟨BitVec 2, "c", 0#2, fun x => (x, x + 1#2)⟩ (fun x => x + 1#2) =
    .ok [4#64, 4#64, 0#64, 4#64] := by decide +kernel

/-! ### C44 -/

/-- The table of a list of index pairs. -/
private def tableOf (m : Nat) (idx : List (Nat × Nat)) : List (List (BitVec 64)) :=
  (List.range m).map fun a => (List.range m).map fun b => BitVec.ofNat 64 (idx.count (a, b))

private theorem incrAt2_tableOf (m : Nat) (idx : List (Nat × Nat)) (a b : Nat) (ha : a < m) (hb : b < m) :
    incrAt2 (tableOf m idx) a b = .ok (tableOf m (idx ++ [(a, b)])) := by
  unfold incrAt2
  rw [List.getElem?_eq_getElem (by simpa [tableOf] using ha)]
  dsimp only
  have hrow : (tableOf m idx)[a]'(by simpa [tableOf] using ha) =
      (List.range m).map fun b => BitVec.ofNat 64 (idx.count (a, b)) := by simp [tableOf]
  rw [hrow, incrAt_ok _ _ (by simpa using hb), hbind]
  congr 1
  apply List.ext_getElem (by simp [tableOf])
  intro i h1 h2
  rw [List.getElem_set]
  by_cases hi : a = i
  · subst hi
    rw [if_pos rfl]
    simp only [tableOf, List.getElem_map, List.getElem_range]
    apply List.ext_getElem (by simp)
    intro j h3 h4
    rw [List.getElem_set]
    by_cases hj : b = j
    · subst hj
      simp only [List.getElem_map, List.getElem_range, if_pos, List.count_append, List.count_singleton_self]
      rw [BitVec.ofNat_add]; rfl
    · rw [if_neg hj]
      simp [List.count_append, hj]
  · rw [if_neg hi]
    simp [tableOf, List.count_append, hi]

private theorem bitCount_lt (x : BitVec w) : bitCount x < w + 1 := by
  rw [bitCount_eq_countP]
  exact Nat.lt_succ_of_le (List.countP_le_length.trans (by simp))

private theorem serialLoop_eq (s : Stream (BitVec w)) (n : Nat) (i : Nat) (idx : List (Nat × Nat)) :
    serialLoop s.step n (tableOf (w + 1) idx) (s.stateAt (2 * i)) =
      .ok (tableOf (w + 1) (idx ++ (List.range n).map fun q => (bitCount (s.nth (2 * (i + q))), bitCount (s.nth (2 * (i + q) + 1)))),
        s.stateAt (2 * (i + n))) := by
  induction n generalizing i idx with
  | zero => simp [serialLoop]
  | succ n ih =>
    unfold serialLoop
    dsimp only
    rw [← Stream.nth_eq, ← Stream.stateAt_succ, ← Stream.nth_eq, ← Stream.stateAt_succ, incrAt2_tableOf _ _ _ _ (bitCount_lt _) (bitCount_lt _), hbind]
    have h2 : 2 * i + 1 + 1 = 2 * (i + 1) := by omega
    rw [h2, ih]
    congr 2
    · congr 1
      rw [List.range_succ_eq_map, List.append_assoc]
      simp only [List.map_cons, List.map_map, List.singleton_append, Nat.add_zero]
      congr 2
      apply List.map_congr_left
      intro q _
      simp only [Function.comp, Nat.succ_eq_add_one]
      have : i + 1 + q = i + (q + 1) := by omega
      rw [this]
    · congr 1; omega

/-- C44. For every source, `serial_avalanche_count(n)` never faults, advances the source by exactly `2n` calls, and entry
`(a, b)` of its `(w+1) × (w+1)` table is the number (modulo 2^64) of `q < n` such that value `2q` has `a` bits set and value
`2q + 1` has `b` bits set. -/
theorem C44_serialCounts (n : BitVec 64) (s : Stream (BitVec w)) :
    ∃ table, serialAvalancheCount n s = .ok (table, s.stateAt (2 * n.toNat)) ∧ table.length = w + 1 ∧
      ∀ a, a ≤ w → ∃ row, table[a]? = some row ∧ row.length = w + 1 ∧ ∀ b, b ≤ w →
        row[b]? = some (BitVec.ofNat 64 ((List.range n.toNat).countP fun q =>
          decide ((List.range w).countP (fun i => (s.nth (2 * q)).getLsbD i) = a ∧
            (List.range w).countP (fun i => (s.nth (2 * q + 1)).getLsbD i) = b))) := by
  refine ⟨tableOf (w + 1) ((List.range n.toNat).map fun q => (bitCount (s.nth (2 * q)), bitCount (s.nth (2 * q + 1)))), ?_,
    by simp [tableOf], ?_⟩
  · have := serialLoop_eq s n.toNat 0 []
    unfold serialAvalancheCount
    have h0 : tableOf (w + 1) [] = List.replicate (w + 1) (List.replicate (w + 1) 0#64) := by
      simp [tableOf, List.map_const']
    rw [h0] at this
    simpa [Stream.stateAt_zero] using this
  · intro a ha
    refine ⟨_, by rw [List.getElem?_eq_getElem (by simp [tableOf]; omega)], by simp [tableOf], ?_⟩
    intro b hb
    rw [List.getElem?_eq_getElem (by simp [tableOf]; omega)]
    simp only [tableOf, List.getElem_map, List.getElem_range]
    rw [List.count, List.countP_map]
    congr 2
    apply List.countP_congr
    intro q _
    simp only [Function.comp, bitCount_eq_countP, beq_iff_eq, Prod.mk.injEq, decide_eq_true_eq]

/-- C44. The table counts total `n`. -/
theorem C44_total (n : BitVec 64) (s : Stream (BitVec w)) :
    ∃ table, serialAvalancheCount n s = .ok (table, s.stateAt (2 * n.toNat)) ∧
      (table.map fun row => (row.map BitVec.toNat).sum).sum = n.toNat := by
  refine ⟨tableOf (w + 1) ((List.range n.toNat).map fun q => (bitCount (s.nth (2 * q)), bitCount (s.nth (2 * q + 1)))), ?_, ?_⟩
  · have := serialLoop_eq s n.toNat 0 []
    unfold serialAvalancheCount
    have h0 : tableOf (w + 1) [] = List.replicate (w + 1) (List.replicate (w + 1) 0#64) := by
      simp [tableOf, List.map_const']
    rw [h0] at this
    simpa [Stream.stateAt_zero] using this
  · have hlen : ∀ (p : Nat × Nat), ((List.range n.toNat).map fun q =>
        (bitCount (s.nth (2 * q)), bitCount (s.nth (2 * q + 1)))).count p < 2 ^ 64 :=
      fun p => lt_of_le_of_lt List.count_le_length (by simpa using n.isLt)
    have hmem : ∀ p ∈ ((List.range n.toNat).map fun q => (bitCount (s.nth (2 * q)), bitCount (s.nth (2 * q + 1)))),
        p.1 < w + 1 ∧ p.2 < w + 1 := by
      intro p hp
      obtain ⟨q, -, rfl⟩ := List.mem_map.1 hp
      exact ⟨bitCount_lt _, bitCount_lt _⟩
    have hl : ((List.range n.toNat).map fun q => (bitCount (s.nth (2 * q)), bitCount (s.nth (2 * q + 1)))).length = n.toNat := by simp
    generalize hx : ((List.range n.toNat).map fun q => (bitCount (s.nth (2 * q)), bitCount (s.nth (2 * q + 1)))) = idx at *
    rw [← hl]
    have e : ((tableOf (w + 1) idx).map fun row => (row.map BitVec.toNat).sum) =
        (List.range (w + 1)).map fun a => ((List.range (w + 1)).map fun b => idx.count (a, b)).sum := by
      simp only [tableOf, List.map_map]
      apply List.map_congr_left
      intro a _
      simp only [Function.comp, List.map_map]
      congr 1
      apply List.map_congr_left
      intro b _
      simp only [Function.comp, BitVec.toNat_ofNat]
      exact Nat.mod_eq_of_lt (hlen _)
    rw [e]
    have e2 : ∀ a, ((List.range (w + 1)).map fun b => idx.count (a, b)).sum = (idx.map Prod.fst).count a := by
      intro a
      clear e hl hlen hx
      induction idx with
      | nil => simp
      | cons p idx ih =>
        have hp := hmem p (by simp)
        simp only [List.count_cons, List.map_cons]
        rw [List.sum_map_add, ih (fun x hx => hmem x (by simp [hx]))]
        congr 1
        obtain ⟨x, y⟩ := p
        by_cases hx : x = a
        · subst hx
          have : ((List.range (w + 1)).map fun b => if ((x, y) == (x, b)) = true then 1 else 0).sum =
              ((List.range (w + 1)).map fun b => [y].count b).sum := by
            congr 1
            apply List.map_congr_left
            intro b _
            simp only [List.count_cons, List.count_nil, beq_iff_eq, Prod.mk.injEq, true_and, Nat.zero_add]
          rw [this, sum_count [y] (w + 1) (by simpa using hp.2)]
          simp
        · have : ((List.range (w + 1)).map fun b => if ((x, y) == (a, b)) = true then 1 else 0).sum = 0 := by
            simp [hx]
          rw [this]
          simp [hx]
    simp only [e2]
    rw [sum_count _ _ (by
      intro x hx
      obtain ⟨p, hp, rfl⟩ := List.mem_map.1 hx
      exact (hmem p hp).1)]
    simp

/-- C44, non-vacuity: a 2-bit counter gives the pairs (0,1), (2,3). -/
example : ∃ st, serialAvalancheCount 2#64 ⟨BitVec 2, "c", 0#2, fun x => (x, x + 1#2)⟩ =
    .ok ([[0#64, 1#64, 0#64], [0#64, 0#64, 1#64], [0#64, 0#64, 0#64]], st) := ⟨0#2, by decide +kernel⟩

end TFR
