import Verif.Props.BasicTests
import Verif.Lemmas.Average
import Verif.Lemmas.Counting
/-
C100, C101: calibration.  Averages of the reported statistics over all possible inputs, each counted once: this is their
expectation if the input is random.
-/
namespace TFR
open Spec Finset
variable {w : Nat}

/-- For each sequence of `n` words, `src` is a source that starts with it (and goes on in any way). -/
def Spec.Continues {n : Nat} (src : (Fin n → BitVec w) → Stream (BitVec w)) : Prop := ∀ x (i : Fin n), (src x).nth i = x i

/-- Such sources exist: one that goes on with zeros. -/
def Spec.thenZeros (n : Nat) (x : Fin n → BitVec w) : Stream (BitVec w) where
  σ := Nat
  name := ""
  state := 0
  step k := (if h : k < n then x ⟨k, h⟩ else 0, k + 1)

theorem thenZeros_continues (n : Nat) : Continues (thenZeros (w := w) n) := by
  intro x i
  have hst : ∀ k : Nat, (thenZeros n x).stateAt k = k := by
    intro k
    induction k with
    | zero => rfl
    | succ k ih => rw [Stream.stateAt_succ, ih]; rfl
  rw [Stream.nth_eq, hst]
  show (if h : i.val < n then x ⟨i, h⟩ else 0) = x i
  rw [dif_pos i.isLt]

/-- A sum over all words. -/
theorem sum_bv (f : Nat → ℝ) : ∑ x : BitVec w, f x.toNat = ∑ m ∈ range (2 ^ w), f m := by
  apply sum_bij (fun (x : BitVec w) _ => x.toNat)
  · intro x _; exact mem_range.2 x.isLt
  · intro x _ y _ h; exact BitVec.eq_of_toNat_eq h
  · intro m hm
    refine ⟨BitVec.ofNat w m, mem_univ _, ?_⟩
    rw [BitVec.toNat_ofNat, Nat.mod_eq_of_lt (mem_range.1 hm)]
  · intro x _; rfl

instance nonemptyBV : Nonempty (BitVec w) := ⟨0⟩

private theorem sum_range_id' (m : Nat) : ∑ i ∈ range m, (i : ℝ) = m * (m - 1) / 2 := by
  induction m with
  | zero => simp
  | succ m ih => rw [sum_range_succ, ih]; push_cast; ring

private theorem sum_range_sq' (m : Nat) : ∑ i ∈ range m, (i : ℝ) ^ 2 = (m - 1) * m * (2 * m - 1) / 6 := by
  induction m with
  | zero => simp
  | succ m ih => rw [sum_range_succ, ih]; push_cast; ring

/-! ### C101 -/

/-- C101. Over all sequences of `n ≥ 1` words the z-score of the mean test is zero on average and its variance is
`(2^w + 1) / (2^w - 1)`: not quite one (as the rescaled words have variance `(2^w + 1) / (12 (2^w - 1))`, not `1/12`), 257/255 for bytes. -/
theorem C101_mean (hw : 0 < w) (n : BitVec 64) (hn : n ≠ 0#64) (src : (Fin n.toNat → BitVec w) → Stream (BitVec w)) (hsrc : Continues src) :
    ∃ z : (Fin n.toNat → BitVec w) → ℝ, (∀ x, ∃ st, meanTest n (src x) = .ok [⟨"", some st⟩] ∧ st.type = .zScore ∧ st.value = z x) ∧
      average z = 0 ∧ average (fun x => z x ^ 2) = (2 ^ w + 1) / (2 ^ w - 1) := by
  have hn0 : 0 < n.toNat := Nat.pos_of_ne_zero fun h => hn (BitVec.eq_of_toNat_eq (by simpa using h))
  have hn' : (0 : ℝ) < n.toNat := by exact_mod_cast hn0
  have hM : (0 : ℝ) < 2 ^ w - 1 := by
    have : (2 : ℝ) ^ 1 ≤ 2 ^ w := pow_le_pow_right₀ (by norm_num) hw
    linarith
  refine ⟨fun x => Real.sqrt (12 * n.toNat) / n.toNat * (∑ i : Fin n.toNat, ((x i).toNat : ℝ) / (2 ^ w - 1) - n.toNat / 2), ?_, ?_, ?_⟩
  · intro x
    refine ⟨_, by rw [C78_mean, if_neg hn], rfl, ?_⟩
    show meanZ (src x).nth n.toNat = _
    unfold meanZ
    rw [Finset.sum_range fun i => (((src x).nth i).toNat : ℝ) / (2 ^ w - 1)]
    simp only [hsrc x]
    field_simp
  · rw [average_mul_left, average_sub, average_coord_sum (fun o : BitVec w => (o.toNat : ℝ) / (2 ^ w - 1)), average_const,
      Fintype.card_fin]
    unfold average
    rw [sum_bv (fun m => (m : ℝ) / (2 ^ w - 1)), ← sum_div, sum_range_id', card_bv]
    push_cast
    field_simp
    ring
  · rw [average_congr _ (fun x : Fin n.toNat → BitVec w => (12 / n.toNat : ℝ) * (∑ i : Fin n.toNat, ((x i).toNat : ℝ) / (2 ^ w - 1) - n.toNat / 2) ^ 2) fun x => ?_]
    · rw [average_mul_left, average_sq_dev (fun o : BitVec w => (o.toNat : ℝ) / (2 ^ w - 1)), Fintype.card_fin]
      unfold average
      simp only [div_pow]
      rw [sum_bv (fun m => (m : ℝ) / (2 ^ w - 1)), sum_bv (fun m => (m : ℝ) ^ 2 / (2 ^ w - 1) ^ 2), ← sum_div, ← sum_div, sum_range_id',
        sum_range_sq', card_bv]
      push_cast
      field_simp
      ring
    · rw [mul_pow, div_pow, Real.sq_sqrt (by positivity)]
      field_simp

example : Continues (thenZeros (w := 8) (1024#64).toNat) := thenZeros_continues _

/-! ### C100 -/

theorem countP_range_fin (n : Nat) (p : Nat → Bool) : (List.range n).countP p = (univ.filter fun i : Fin n => p i = true).card := by
  rw [card_filter, ← Finset.sum_range fun i => if p i = true then 1 else 0]
  induction n with
  | zero => simp
  | succ n ih => rw [List.range_succ, List.countP_append, ih, sum_range_succ, List.countP_singleton]

/-- Pearson's statistic over all inputs: `N` independent draws from a finite set, cells `c` of probability `p_c` for which `N e_c` hits are
expected. -/
theorem average_chiSquare {Ω κ : Type} [Fintype Ω] [Nonempty Ω] (N : Nat) (hN : 0 < N) (cells : List κ) (cell : κ → Ω → Prop)
    [∀ c, DecidablePred (cell c)] (e : κ → ℝ) (he : ∀ c ∈ cells, 0 < e c) :
    average (fun x : Fin N → Ω => chiSquare (cells.map fun c => (((univ.filter fun i => cell c (x i)).card : ℝ), N * e c))) =
      (cells.map fun c => fraction (cell c) * (1 - fraction (cell c)) / e c + N * (fraction (cell c) - e c) ^ 2 / e c).sum := by
  have hN' : (0 : ℝ) < N := by exact_mod_cast hN
  unfold chiSquare
  simp only [List.map_map, Function.comp_def]
  rw [average_list_sum cells fun c (x : Fin N → Ω) => (((univ.filter fun i => cell c (x i)).card : ℝ) - N * e c) ^ 2 / (N * e c)]
  congr 1
  apply List.map_congr_left
  intro c hc
  have := he c hc
  rw [average_div, average_hits_sq, Fintype.card_fin]
  field_simp

/-- With exact expectations: the number of cells minus the probability of all of them. -/
theorem average_chiSquare_exact {Ω κ : Type} [Fintype Ω] [Nonempty Ω] (N : Nat) (hN : 0 < N) (cells : List κ) (cell : κ → Ω → Prop)
    [∀ c, DecidablePred (cell c)] (he : ∀ c ∈ cells, 0 < fraction (cell c)) :
    average (fun x : Fin N → Ω => chiSquare (cells.map fun c => (((univ.filter fun i => cell c (x i)).card : ℝ), N * fraction (cell c)))) =
      cells.length - (cells.map fun c => fraction (cell c)).sum := by
  rw [average_chiSquare N hN cells cell (fun c => fraction (cell c)) he]
  induction cells with
  | nil => simp
  | cons c l ih =>
    rw [List.map_cons, List.sum_cons, ih fun c hc => he c (List.mem_cons_of_mem _ hc), List.map_cons, List.sum_cons, List.length_cons]
    have := he c List.mem_cons_self
    have h2 : fraction (cell c) ≠ 0 := this.ne'
    push_cast
    field_simp
    ring

theorem pearson_all_used (cdf : ℝ → ℝ → ℝ) (cells : List (ℝ × ℝ)) (thr : ℝ) (h : ∀ c ∈ cells, thr < c.2) (h2 : 2 ≤ cells.length) :
    pearson cdf cells thr = some ⟨.chi2, chiSquare cells, cdf (chiSquare cells) (cells.length - 1), cells.length - 1⟩ := by
  have hu : usedCells thr cells = cells := by
    unfold usedCells
    rw [List.filter_eq_self]
    intro c hc
    simpa using h c hc
  unfold pearson
  rw [hu, if_neg (by omega)]

/-- The number of words with a property of their value. -/
theorem card_bv_filter (P : Nat → Prop) [DecidablePred P] :
    (univ.filter fun x : BitVec w => P x.toNat).card = ((range (2 ^ w)).filter P).card := by
  apply card_bij (fun (x : BitVec w) _ => x.toNat)
  · intro x hx
    rw [mem_filter] at hx ⊢
    exact ⟨mem_range.2 x.isLt, hx.2⟩
  · intro x _ y _ h; exact BitVec.eq_of_toNat_eq h
  · intro m hm
    rw [mem_filter] at hm
    have hv : (BitVec.ofNat w m).toNat = m := by rw [BitVec.toNat_ofNat, Nat.mod_eq_of_lt (mem_range.1 hm.1)]
    exact ⟨BitVec.ofNat w m, mem_filter.2 ⟨mem_univ _, by rw [hv]; exact hm.2⟩, hv⟩

/-- The words with given top bits, and of these the words with small low bits. -/
theorem card_top (k j c : Nat) (hk : k ≤ w) (hj : j < 2 ^ k) (hc : c ≤ 2 ^ (w - k)) :
    (univ.filter fun x : BitVec w => x.toNat >>> (w - k) = j ∧ x.toNat % 2 ^ (w - k) < c).card = c := by
  rw [card_bv_filter fun m => m >>> (w - k) = j ∧ m % 2 ^ (w - k) < c]
  set d := 2 ^ (w - k) with hd
  have hd0 : 0 < d := by positivity
  have hw2 : 2 ^ w = 2 ^ k * d := by rw [hd, ← pow_add]; congr 1; omega
  have : (range (2 ^ w)).filter (fun m => m >>> (w - k) = j ∧ m % d < c) = Ico (j * d) (j * d + c) := by
    ext m
    rw [mem_filter, mem_range, mem_Ico, Nat.shiftRight_eq_div_pow, ← hd]
    have hdm := Nat.div_add_mod m d
    constructor
    · rintro ⟨_, h1, h2⟩
      rw [h1, Nat.mul_comm] at hdm
      omega
    · rintro ⟨h1, h2⟩
      have hq : m / d = j := by
        rw [Nat.div_eq_iff hd0]
        constructor
        · omega
        · have : j * d + c ≤ j * d + d := by omega
          omega
      rw [hq, Nat.mul_comm] at hdm
      refine ⟨?_, hq, by omega⟩
      calc m < j * d + d := by omega
        _ = (j + 1) * d := by ring
        _ ≤ 2 ^ k * d := Nat.mul_le_mul_right _ hj
        _ = 2 ^ w := hw2.symm
  rw [this, Nat.card_Ico]; omega

theorem card_top_all (k j : Nat) (hk : k ≤ w) (hj : j < 2 ^ k) :
    (univ.filter fun x : BitVec w => x.toNat >>> (w - k) = j).card = 2 ^ (w - k) := by
  rw [← card_top k j (2 ^ (w - k)) hk hj le_rfl]
  congr 1
  ext x
  simp only [mem_filter, mem_univ, true_and]
  exact ⟨fun h => ⟨h, Nat.mod_lt _ (by positivity)⟩, fun h => h.1⟩

private theorem rpow_bound (N e : Nat) (hN : N ≤ 2 ^ e) (f : Nat) (hf : 2 * e ≤ 5 * f) : (N : ℝ) ^ (4 / 10 : ℝ) ≤ 2 ^ f := by
  have h1 : (N : ℝ) ≤ (2 : ℝ) ^ (e : ℝ) := by rw [Real.rpow_natCast]; exact_mod_cast hN
  calc (N : ℝ) ^ (4 / 10 : ℝ) ≤ ((2 : ℝ) ^ (e : ℝ)) ^ (4 / 10 : ℝ) := Real.rpow_le_rpow (by positivity) h1 (by norm_num)
    _ = (2 : ℝ) ^ ((e : ℝ) * (4 / 10)) := by rw [← Real.rpow_mul (by norm_num)]
    _ ≤ (2 : ℝ) ^ (f : ℝ) := by
        apply Real.rpow_le_rpow_of_exponent_le (by norm_num)
        have : ((2 * e : ℕ) : ℝ) ≤ ((5 * f : ℕ) : ℝ) := by exact_mod_cast hf
        push_cast at this
        linarith
    _ = 2 ^ f := Real.rpow_natCast _ _

private theorem bins_bound (k N e f : Nat) (hN : N ≤ 2 ^ e) (hf : 2 * e ≤ 5 * f)
    (h : (2 : ℝ) ^ k < 2 * (2 * (N : ℝ) ^ (4 / 10 : ℝ) + 1)) : k ≤ f + 2 := by
  by_contra hc
  have h1 := rpow_bound N e hN f hf
  have h2 : (2 : ℝ) ^ (f + 3) ≤ 2 ^ k := pow_le_pow_right₀ (by norm_num) (by omega)
  have h3 : (1 : ℝ) ≤ 2 ^ f := one_le_pow₀ (by norm_num)
  rw [pow_add] at h2
  linarith

/-- The reported statistic of the uniformity test as a function of the sample. -/
private theorem uniform_value (cdf : ℝ → ℝ → ℝ) (t : WT) (n : BitVec 64) (hn : n ≠ 0#64) :
    ∃ k, 1 ≤ k ∧ k ≤ t.bits ∧ (2 : ℝ) ^ k < 2 * (2 * (n.toNat : ℝ) ^ (4 / 10 : ℝ) + 1) ∧
      ∀ (src : (Fin n.toNat → BitVec t.bits) → Stream (BitVec t.bits)), Continues src → ∀ x,
        ∃ st, uniformTest cdf n (src x) = .ok [⟨"", some st⟩] ∧ st.type = .chi2 ∧ st.df = 2 ^ k - 1 ∧
          st.value = chiSquare ((List.range (2 ^ k)).map fun j =>
            (((univ.filter fun i => bin (2 ^ k) (x i) = j).card : ℝ), (n.toNat : ℝ) * (1 / 2 ^ k))) := by
  have hn0 : 0 < n.toNat := Nat.pos_of_ne_zero fun h => hn (BitVec.eq_of_toNat_eq (by simpa using h))
  have hn' : (0 : ℝ) < n.toNat := by exact_mod_cast hn0
  obtain ⟨k, hk1, hkt, hup, -, hs⟩ := C79_uniform cdf t n hn
  refine ⟨k, hk1, hkt, hup, fun src hsrc x => ?_⟩
  have h2 : 2 ≤ 2 ^ k := by calc 2 = 2 ^ 1 := rfl
                            _ ≤ 2 ^ k := Nat.pow_le_pow_right (by norm_num) hk1
  have hcells : ((List.range (2 ^ k)).map fun j => ((binHits (src x).nth n.toNat (2 ^ k) j : ℝ), (n.toNat : ℝ) / 2 ^ k)) =
      (List.range (2 ^ k)).map fun j => (((univ.filter fun i => bin (2 ^ k) (x i) = j).card : ℝ), (n.toNat : ℝ) * (1 / 2 ^ k)) := by
    apply List.map_congr_left
    intro j _
    congr 1
    · unfold binHits
      rw [countP_range_fin]
      simp only [hsrc x, decide_eq_true_eq]
    · rw [mul_one_div]
  have hp := pearson_all_used cdf ((List.range (2 ^ k)).map fun j =>
      (((univ.filter fun i => bin (2 ^ k) (x i) = j).card : ℝ), (n.toNat : ℝ) * (1 / 2 ^ k))) 0
    (by
      intro c hc
      obtain ⟨j, _, rfl⟩ := List.mem_map.1 hc
      positivity)
    (by rw [List.length_map, List.length_range]; exact h2)
  refine ⟨_, by rw [hs, hcells, hp], rfl, ?_, rfl⟩
  show ((List.map _ _).length : ℝ) - 1 = _
  rw [List.length_map, List.length_range]; push_cast; rfl

/-- C100. The uniformity test, for words of 8, 16 or 32 bits and up to 2^47 of them: over all sequences of `n` words the statistic is on
average exactly the number of degrees of freedom. -/
theorem C100_uniform (cdf : ℝ → ℝ → ℝ) (t : WT) (ht : t ≠ .u64) (n : BitVec 64) (hn : n ≠ 0#64) (h47 : n.toNat ≤ 2 ^ 47)
    (src : (Fin n.toNat → BitVec t.bits) → Stream (BitVec t.bits)) (hsrc : Continues src) :
    ∃ (df : ℝ) (value : (Fin n.toNat → BitVec t.bits) → ℝ), 1 ≤ df ∧
      (∀ x, ∃ st, uniformTest cdf n (src x) = .ok [⟨"", some st⟩] ∧ st.type = .chi2 ∧ st.df = df ∧ st.value = value x) ∧
      average value = df := by
  have hn0 : 0 < n.toNat := Nat.pos_of_ne_zero fun h => hn (BitVec.eq_of_toNat_eq (by simpa using h))
  obtain ⟨k, hk1, hkt, hup, hs⟩ := uniform_value cdf t n hn
  have hkb : k + t.bits ≤ 53 := by
    have h21 := bins_bound k n.toNat 47 19 h47 (by norm_num) hup
    cases t
    · change k ≤ 8 at hkt; show k + 8 ≤ 53; omega
    · change k ≤ 16 at hkt; show k + 16 ≤ 53; omega
    · show k + 32 ≤ 53; omega
    · exact absurd rfl ht
  have hbits : 0 < t.bits := by cases t <;> decide
  have hbin : ∀ x : BitVec t.bits, bin (2 ^ k) x = x.toNat >>> (t.bits - k) := by
    intro x
    have h1 := C75_top_bits k hkt hbits hkb x
    rw [chi2BinIndex_eq _ (Nat.pow_le_pow_right (by norm_num) (by omega))] at h1
    exact Except.ok.inj h1
  have hfr : ∀ j, j < 2 ^ k → fraction (fun x : BitVec t.bits => bin (2 ^ k) x = j) = 1 / 2 ^ k := by
    intro j hj
    unfold fraction
    simp only [hbin]
    rw [card_top_all k j hkt hj, card_bv]
    have : (2 : ℝ) ^ t.bits = 2 ^ (t.bits - k) * 2 ^ k := by rw [← pow_add]; congr 1; omega
    push_cast
    rw [this]; field_simp
  refine ⟨2 ^ k - 1, _, ?_, fun x => hs src hsrc x, ?_⟩
  · have : (2 : ℝ) ^ 1 ≤ 2 ^ k := pow_le_pow_right₀ (by norm_num) hk1
    linarith
  · rw [average_chiSquare n.toNat hn0 (List.range (2 ^ k)) (fun j (x : BitVec t.bits) => bin (2 ^ k) x = j) (fun _ => 1 / 2 ^ k)
      (fun _ _ => by positivity)]
    rw [List.map_congr_left (g := fun _ => (1 : ℝ) - 1 / 2 ^ k) fun j hj => ?_]
    · rw [List.map_const', List.sum_replicate, List.length_range, nsmul_eq_mul]
      push_cast
      field_simp
    · rw [hfr j (List.mem_range.1 hj)]
      field_simp
      ring

example : (1000000#64).toNat ≤ 2 ^ 47 := by decide +kernel

/-- C100. For 64-bit words a few words near the end of a bin are counted in the next one; on average over all sequences the statistic
exceeds the number of degrees of freedom by at most `n (1024 B / 2^64)²`, with `B` bins. -/
theorem C100_uniform64 (cdf : ℝ → ℝ → ℝ) (n : BitVec 64) (hn : n ≠ 0#64)
    (src : (Fin n.toNat → BitVec 64) → Stream (BitVec 64)) (hsrc : Continues src) :
    ∃ (k : Nat) (value : (Fin n.toNat → BitVec 64) → ℝ), 1 ≤ k ∧ k ≤ 28 ∧
      (∀ x, ∃ st, uniformTest cdf n (src x) = .ok [⟨"", some st⟩] ∧ st.type = .chi2 ∧ st.df = 2 ^ k - 1 ∧ st.value = value x) ∧
      2 ^ k - 1 ≤ average value ∧ average value ≤ 2 ^ k - 1 + n.toNat * (1024 * 2 ^ k / 2 ^ 64) ^ 2 := by
  have hn0 : 0 < n.toNat := Nat.pos_of_ne_zero fun h => hn (BitVec.eq_of_toNat_eq (by simpa using h))
  have hn1 : (1 : ℝ) ≤ n.toNat := by exact_mod_cast hn0
  obtain ⟨k, hk1, hkt, hup, hs⟩ := uniform_value cdf .u64 n hn
  have hk28 := bins_bound k n.toNat 64 26 n.isLt.le (by norm_num) hup
  set d := 2 ^ (64 - k) with hd
  have hd1024 : 1024 ≤ d := by
    calc 1024 = 2 ^ 10 := rfl
      _ ≤ d := Nat.pow_le_pow_right (by norm_num) (by omega)
  have hbin : ∀ x : BitVec 64, (bin (2 ^ k) x = x.toNat >>> (64 - k) ∨ bin (2 ^ k) x = x.toNat >>> (64 - k) + 1) ∧
      bin (2 ^ k) x < 2 ^ k ∧ (x.toNat % d + 1024 < d → bin (2 ^ k) x = x.toNat >>> (64 - k)) := by
    intro x
    obtain ⟨i, h1, h2, h3, h4⟩ := C75_top_bits64 k (by omega) x
    rw [chi2BinIndex_eq _ (Nat.pow_le_pow_right (by norm_num) (by omega))] at h1
    rw [Except.ok.inj h1]
    exact ⟨h2, h3, h4⟩
  set p : Nat → ℝ := fun j => fraction (fun x : BitVec 64 => bin (2 ^ k) x = j) with hp
  have hB0 : (0 : ℝ) < 2 ^ k := by positivity
  have h64 : (2 : ℝ) ^ 64 = (d : ℝ) * 2 ^ k := by rw [hd]; push_cast; rw [← pow_add]; congr 1; omega
  have hd0 : (0 : ℝ) < d := by rw [hd]; positivity
  -- the number of words in a bin
  have hcount : ∀ j, j < 2 ^ k → d ≤ (univ.filter fun x : BitVec 64 => bin (2 ^ k) x = j).card + 1024 ∧
      (univ.filter fun x : BitVec 64 => bin (2 ^ k) x = j).card ≤ d + 1024 := by
    intro j hj
    constructor
    · have h1 := card_top (w := 64) k j (d - 1024) (by omega) hj (by omega)
      have hsub : (univ.filter fun x : BitVec 64 => x.toNat >>> (64 - k) = j ∧ x.toNat % 2 ^ (64 - k) < d - 1024) ⊆
          univ.filter fun x : BitVec 64 => bin (2 ^ k) x = j := by
        intro x hx
        rw [mem_filter] at hx ⊢
        refine ⟨mem_univ _, ?_⟩
        rw [(hbin x).2.2 (by rw [hd] at hx ⊢; omega), hx.2.1]
      have := card_le_card hsub
      omega
    · have hsub : (univ.filter fun x : BitVec 64 => bin (2 ^ k) x = j) ⊆
          (univ.filter fun x : BitVec 64 => x.toNat >>> (64 - k) = j) ∪
          ((univ.filter fun x : BitVec 64 => x.toNat >>> (64 - k) = j - 1) \
            (univ.filter fun x : BitVec 64 => x.toNat >>> (64 - k) = j - 1 ∧ x.toNat % 2 ^ (64 - k) < d - 1024)) := by
        intro x hx
        rw [mem_filter] at hx
        rw [mem_union, mem_sdiff, mem_filter, mem_filter, mem_filter]
        rcases (hbin x).1 with h | h
        · left; exact ⟨mem_univ _, by rw [← h]; exact hx.2⟩
        · right
          have hx2 : bin (2 ^ k) x = j := hx.2
          refine ⟨⟨mem_univ _, Nat.eq_sub_of_add_eq (h.symm.trans hx2)⟩, fun hc => ?_⟩
          have h3 := (hbin x).2.2 (by have := hc.2.2; rw [← hd] at this; omega)
          exact absurd (h3.symm.trans h) (Nat.ne_of_lt (Nat.lt_succ_self _))
      refine (card_le_card hsub).trans ((card_union_le _ _).trans ?_)
      rw [card_top_all (w := 64) k j (by omega) hj, card_sdiff_of_subset (by
        intro x hx
        rw [mem_filter] at hx ⊢
        exact ⟨mem_univ _, hx.2.1⟩), card_top_all (w := 64) k (j - 1) (by omega) (by omega),
        card_top (w := 64) k (j - 1) (d - 1024) (by omega) (by omega) (by omega), ← hd]
      omega
  have hdev : ∀ j, j < 2 ^ k → |p j * 2 ^ k - 1| ≤ 1024 * 2 ^ k / 2 ^ 64 := by
    intro j hj
    obtain ⟨h1, h2⟩ := hcount j hj
    have hpj : p j = ((univ.filter fun x : BitVec 64 => bin (2 ^ k) x = j).card : ℝ) / 2 ^ 64 := by
      rw [hp]; show fraction _ = _; unfold fraction; rw [card_bv, Nat.cast_pow, Nat.cast_ofNat]
    have h1' : (d : ℝ) ≤ ((univ.filter fun x : BitVec 64 => bin (2 ^ k) x = j).card : ℝ) + 1024 := by exact_mod_cast h1
    have h2' : ((univ.filter fun x : BitVec 64 => bin (2 ^ k) x = j).card : ℝ) ≤ d + 1024 := by exact_mod_cast h2
    rw [hpj, h64]
    generalize ((univ.filter fun x : BitVec 64 => bin (2 ^ k) x = j).card : ℝ) = c at h1' h2'
    have : c / (d * 2 ^ k) * 2 ^ k - 1 = (c - d) / d := by field_simp
    rw [this, abs_div, abs_of_pos hd0]
    have h3 : (1024 : ℝ) * 2 ^ k / (d * 2 ^ k) = 1024 / d := by field_simp
    rw [h3]
    apply div_le_div_of_nonneg_right _ hd0.le
    rw [abs_le]; constructor <;> linarith
  have hsum : ∑ j ∈ range (2 ^ k), p j = 1 := by
    have h1 : ∑ j ∈ range (2 ^ k), (univ.filter fun x : BitVec 64 => bin (2 ^ k) x = j).card = 2 ^ 64 := by
      rw [← card_eq_sum_card_fiberwise (f := fun x : BitVec 64 => bin (2 ^ k) x) (s := univ) (t := range (2 ^ k))
        (fun x _ => by simpa using (hbin x).2.1), card_univ, card_bv]
    rw [hp]
    show ∑ j ∈ range (2 ^ k), fraction _ = 1
    unfold fraction
    rw [← sum_div, card_bv]
    have h2 : (∑ j ∈ range (2 ^ k), ((univ.filter fun x : BitVec 64 => bin (2 ^ k) x = j).card : ℝ)) = 2 ^ 64 := by exact_mod_cast h1
    rw [h2]; norm_num
  refine ⟨k, _, hk1, hk28, fun x => hs src hsrc x, ?_⟩
  have hav := average_chiSquare n.toNat hn0 (List.range (2 ^ k)) (fun j (x : BitVec 64) => bin (2 ^ k) x = j) (fun _ => 1 / 2 ^ k)
      (fun _ _ => by positivity)
  have hval : average (fun x : Fin n.toNat → BitVec 64 => chiSquare ((List.range (2 ^ k)).map fun j =>
            (((univ.filter fun i => bin (2 ^ k) (x i) = j).card : ℝ), (n.toNat : ℝ) * (1 / 2 ^ k)))) =
      2 ^ k - 1 + (n.toNat - 1) / 2 ^ k * ∑ j ∈ range (2 ^ k), (p j * 2 ^ k - 1) ^ 2 := by
    refine hav.trans ?_
    have hls : ∀ (f : Nat → ℝ) (m : Nat), ((List.range m).map f).sum = ∑ j ∈ range m, f j := by
      intro f m
      induction m with
      | zero => simp
      | succ m ih => rw [sum_range_succ, List.range_succ, List.map_append, List.sum_append, ih]; simp
    rw [hls]
    show ∑ j ∈ range (2 ^ k), (p j * (1 - p j) / (1 / 2 ^ k) + n.toNat * (p j - 1 / 2 ^ k) ^ 2 / (1 / 2 ^ k)) = _
    have hterm : ∀ j, p j * (1 - p j) / (1 / 2 ^ k) + n.toNat * (p j - 1 / 2 ^ k) ^ 2 / (1 / 2 ^ k) =
        (1 - 1 / 2 ^ k) + (1 - 2 / 2 ^ k) * (p j * 2 ^ k - 1) + (n.toNat - 1) / 2 ^ k * (p j * 2 ^ k - 1) ^ 2 := by
      intro j; field_simp; ring
    have hz : ∑ j ∈ range (2 ^ k), (p j * 2 ^ k - 1) = 0 := by
      rw [sum_sub_distrib, ← sum_mul, hsum, sum_const, card_range, nsmul_eq_mul]; push_cast; ring
    simp only [hterm]
    rw [sum_add_distrib, sum_add_distrib, ← mul_sum, ← mul_sum, hz]
    simp only [sum_const, card_range, nsmul_eq_mul]
    push_cast
    field_simp
    ring
  rw [show (average fun x : Fin n.toNat → BitVec 64 => chiSquare ((List.range (2 ^ k)).map fun j =>
            (((univ.filter fun i => bin (2 ^ k) (x i) = j).card : ℝ), (n.toNat : ℝ) * (1 / 2 ^ k)))) = _ from hval]
  constructor
  · have : 0 ≤ (n.toNat - 1 : ℝ) / 2 ^ k * ∑ j ∈ range (2 ^ k), (p j * 2 ^ k - 1) ^ 2 :=
      mul_nonneg (div_nonneg (by linarith) hB0.le) (sum_nonneg fun j _ => sq_nonneg _)
    linarith
  · have h1 : ∑ j ∈ range (2 ^ k), (p j * 2 ^ k - 1) ^ 2 ≤ 2 ^ k * (1024 * 2 ^ k / 2 ^ 64) ^ 2 := by
      calc ∑ j ∈ range (2 ^ k), (p j * 2 ^ k - 1) ^ 2 ≤ ∑ _j ∈ range (2 ^ k), (1024 * 2 ^ k / 2 ^ 64 : ℝ) ^ 2 := by
            apply sum_le_sum
            intro j hj
            exact sq_le_sq' (by have := abs_le.1 (hdev j (mem_range.1 hj)); linarith [this.1]) (abs_le.1 (hdev j (mem_range.1 hj))).2
        _ = 2 ^ k * (1024 * 2 ^ k / 2 ^ 64) ^ 2 := by rw [sum_const, card_range, nsmul_eq_mul]; push_cast; rfl
    have h2 : (n.toNat - 1 : ℝ) / 2 ^ k * ∑ j ∈ range (2 ^ k), (p j * 2 ^ k - 1) ^ 2 ≤
        (n.toNat - 1 : ℝ) / 2 ^ k * (2 ^ k * (1024 * 2 ^ k / 2 ^ 64) ^ 2) :=
      mul_le_mul_of_nonneg_left h1 (div_nonneg (by linarith) hB0.le)
    have h3 : (n.toNat - 1 : ℝ) / 2 ^ k * (2 ^ k * (1024 * 2 ^ k / 2 ^ 64) ^ 2) = (n.toNat - 1) * (1024 * 2 ^ k / 2 ^ 64) ^ 2 := by
      field_simp
    have h4 : (0 : ℝ) ≤ (1024 * 2 ^ k / 2 ^ 64) ^ 2 := sq_nonneg _
    nlinarith

end TFR
