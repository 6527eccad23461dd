import Verif.Props.Suite
import Verif.Props.TestCommand
/-
C144: how much of a source, and of a mixer, a test looks at.  A test cannot tell two sources apart that agree on the values it reads.
-/
namespace TFR
open Spec
variable {w : Nat}

/-- How many values of its source a test run on `m` samples may read: `serial-avalanche` reads two per sample, the isolated-bit part
of `binary-rank` one per bit of the samples, all others one. -/
def Spec.reads (w : Nat) (type : TestType) (m : Nat) : Nat :=
  match type with
  | .serialAvalanche => 2 * m
  | .binaryRank => w * m
  | _ => m

/-- Two streams that give the same first `k` values. -/
def Spec.AgreeUpTo (k : Nat) (s s' : Stream (BitVec w)) : Prop := ∀ i, i < k → s.nth i = s'.nth i

private theorem agree_mono {k k' : Nat} {s s' : Stream (BitVec w)} (h : AgreeUpTo k s s') (hk : k' ≤ k) : AgreeUpTo k' s s' :=
  fun i hi => h i (lt_of_lt_of_le hi hk)

private theorem agree_take {k : Nat} {s s' : Stream (BitVec w)} (h : AgreeUpTo k s s') : s.take k = s'.take k := by
  rw [Stream.take_eq_map, Stream.take_eq_map]
  exact List.map_congr_left fun i hi => h i (List.mem_range.1 hi)

private theorem rankCells_congr (n blocks : Nat) (M M' : Nat → Matrix (Fin n) (Fin n) (ZMod 2)) (h : ∀ k, k < blocks → M k = M' k) :
    rankCells n blocks M = rankCells n blocks M' := by
  unfold rankCells
  apply List.map_congr_left
  intro s _
  have : (List.range blocks).countP (fun k => (M k).rank == n - s) = (List.range blocks).countP (fun k => (M' k).rank == n - s) :=
    List.countP_congr fun k hk => by rw [h k (List.mem_range.1 hk)]
  rw [this]

private theorem complexityCells_congr (n blocks : Nat) (u u' : Nat → List Bool) (h : ∀ k, k < blocks → u k = u' k) :
    complexityCells n blocks u = complexityCells n blocks u' := by
  unfold complexityCells
  apply List.map_congr_left
  intro l _
  rw [List.countP_congr fun k hk => by rw [h k (List.mem_range.1 hk)]]

/-- The tests themselves, before the budget. -/
private theorem raw_local (cdf : ℝ → ℝ → ℝ) (t : WT) (type : TestType) (m : BitVec 64) (hov : m.toNat * t.bits < 2 ^ 64)
    (hlim : type = .binaryRank → 1024 ≤ m.toNat) (s s' : Stream (BitVec t.bits)) (h : AgreeUpTo (reads t.bits type m.toNat) s s') :
    (rawStreamTest cdf type).map (fun f => f m s) = (rawStreamTest cdf type).map (fun f => f m s') := by
  have hb8 : 8 ≤ t.bits := by cases t <;> simp [WT.bits]
  have hb64 : t.bits ≤ 64 := by cases t <;> simp [WT.bits]
  cases type
  case mean =>
    have e : s.take m.toNat = s'.take m.toNat := agree_take h
    simp only [rawStreamTest, Option.map_some, meanTest, e]
  case uniform =>
    have e : s.take m.toNat = s'.take m.toNat := agree_take h
    simp only [rawStreamTest, Option.map_some, uniformTest, e]
  case runs =>
    have e : s.take m.toNat = s'.take m.toNat := agree_take h
    simp only [rawStreamTest, Option.map_some, runsTest, e]
  case gap =>
    have e : s.take m.toNat = s'.take m.toNat := agree_take h
    simp only [rawStreamTest, Option.map_some, gapTest, e]
  case coupon =>
    have e : s.take m.toNat = s'.take m.toNat := agree_take h
    simp only [rawStreamTest, Option.map_some, couponTest, e]
  case divisibility =>
    have e : s.take m.toNat = s'.take m.toNat := agree_take h
    simp only [rawStreamTest, Option.map_some, divisibilityTest, e]
  case permutation =>
    have e : s.take m.toNat = s'.take m.toNat := agree_take h
    simp only [rawStreamTest, Option.map_some, permutationTest, permutationStat, e]
  case serialAvalanche =>
    obtain ⟨G, -, hG⟩ := C81_serial_avalanche (w := t.bits) cdf m
    have e : ∀ a, pairHits s.nth m.toNat a = pairHits s'.nth m.toNat a := by
      intro a
      funext b
      unfold pairHits
      apply List.countP_congr
      intro q hq
      have hq := List.mem_range.1 hq
      rw [h (2 * q) (by show 2 * q < 2 * m.toNat; omega), h (2 * q + 1) (by show 2 * q + 1 < 2 * m.toNat; omega)]
    simp only [rawStreamTest, Option.map_some]
    rw [hG s, hG s']
    simp only [e]
  case binaryRank =>
    obtain ⟨j, -, -, -, hj⟩ := C86_binary_rank cdf hb8 hb64 m (hlim rfl) hov
    obtain ⟨a, b, h1, h2, h3⟩ := hj s
    obtain ⟨a', b', h1', h2', h3'⟩ := hj s'
    have e : s.take m.toNat = s'.take m.toNat :=
      agree_take (agree_mono h (by show m.toNat ≤ t.bits * m.toNat; exact Nat.le_mul_of_pos_left _ (by omega)))
    rw [e, h2'] at h2
    have e2 := rankCells_congr (2 ^ j) (m.toNat * t.bits / (2 ^ j * 2 ^ j)) (bitMatrix s.nth 0 (2 ^ j)) (bitMatrix s'.nth 0 (2 ^ j)) (by
      intro k hk
      funext x y
      unfold bitMatrix
      rw [h _ ?_]
      show _ < t.bits * m.toNat
      have hx := x.isLt
      have hy := y.isLt
      have h4 : (k + 1) * (2 ^ j * 2 ^ j) ≤ m.toNat * t.bits :=
        le_trans (Nat.mul_le_mul_right _ hk) (Nat.div_mul_le_self _ _)
      have h5 : x.val * 2 ^ j + y.val < 2 ^ j * 2 ^ j :=
        lt_of_lt_of_le (by rw [Nat.add_mul, Nat.one_mul]; omega : _ < (x.val + 1) * 2 ^ j) (Nat.mul_le_mul_right _ hx)
      rw [Nat.add_mul, Nat.one_mul] at h4
      rw [Nat.mul_comm t.bits]
      omega)
    rw [e2, h3'] at h3
    simp only [rawStreamTest, Option.map_some]
    rw [h1, h1']
    cases h2; cases h3; rfl
  case linearComplexity =>
    obtain ⟨h1, h2⟩ := C87_linear_complexity cdf (by omega) m s
    obtain ⟨h1', h2'⟩ := C87_linear_complexity cdf (by omega) m s'
    simp only [rawStreamTest, Option.map_some]
    by_cases hm : m.toNat < 8192
    · rw [h1 hm, h1' hm]
    · obtain ⟨a, h3, h4⟩ := h2 (by omega)
      obtain ⟨a', h3', h4'⟩ := h2' (by omega)
      have e2 := complexityCells_congr (m.toNat / 1024) (m.toNat / (m.toNat / 1024)) (bitBlock s.nth 0 (m.toNat / 1024))
        (bitBlock s'.nth 0 (m.toNat / 1024)) (by
          intro k hk
          unfold bitBlock
          apply List.map_congr_left
          intro i hi
          have hi := List.mem_range.1 hi
          have h6 : (k + 1) * (m.toNat / 1024) ≤ m.toNat := le_trans (Nat.mul_le_mul_right _ hk) (Nat.div_mul_le_self _ _)
          rw [Nat.add_mul, Nat.one_mul] at h6
          rw [h _ (by show _ < m.toNat; omega)])
      rw [e2, h4'] at h4
      rw [h3, h3']
      cases h4; rfl
  case sac => rfl
  case bic => rfl

private theorem limit_budget (type : TestType) (n m : BitVec 64) (h : (getTestDefinition type).limiter.limit n = some m) :
    budget type n.toNat = some m.toNat ∧ m.toNat ≤ n.toNat := by
  obtain ⟨h1, h2⟩ := C40_catalogue type n
  rw [h] at h1
  exact ⟨h1.symm, h2 _ h1.symm⟩

/-- C144 (stream tests). Every stream test of the catalogue, asked for `n` values of a type, gives the same report for two sources
that agree on the values its budget `m` entitles it to: the first `m`, for `serial-avalanche` the first `2m`, for `binary-rank` the
first `w·m`.  A test without a budget does not look at the source at all. -/
theorem C144_stream_tests (cdf : ℝ → ℝ → ℝ) (t : WT) (type : TestType) (n : BitVec 64) (hov : n.toNat * t.bits < 2 ^ 64)
    (s s' : Stream (BitVec t.bits)) (h : ∀ m, budget type n.toNat = some m → AgreeUpTo (reads t.bits type m) s s')
    (f : BitVec 64 → Stream (BitVec t.bits) → TestRun) (hf : suiteStream cdf type = some f) : f n s = f n s' := by
  unfold suiteStream at hf
  obtain ⟨g, hg, rfl⟩ := Option.map_eq_some_iff.1 hf
  dsimp only
  cases hm : (getTestDefinition type).limiter.limit n with
  | none => rfl
  | some m =>
    obtain ⟨h1, h2⟩ := limit_budget type n m hm
    have h3 := raw_local cdf t type m (lt_of_le_of_lt (Nat.mul_le_mul_right _ h2) hov) (by
      rintro rfl
      simp only [budget] at h1
      split at h1
      · rename_i h5; rw [← Option.some.inj h1]; exact h5
      · exact absurd h1 (by simp)) s s' (h _ h1)
    rw [hg] at h3
    exact Option.some.inj h3

/-- C144 (mixer tests). Every mixer test of the catalogue, asked for `n` values, gives the same report for two sources that agree on
the `m` values of its budget and two mixers that agree there: at each of these values, at its image `x`, and at the words that differ from
`x` in one bit.  No other call of the mixer matters. -/
theorem C144_mixer_tests (cdf : ℝ → ℝ → ℝ) (t : WT) (type : TestType) (n : BitVec 64)
    (s s' : Stream (BitVec t.bits)) (a b : Mixer t.bits)
    (h : ∀ m, budget type n.toNat = some m → ∀ i, i < m → s.nth i = s'.nth i ∧
      a.mix (s.nth i) = b.mix (s.nth i) ∧ a.mix (a.mix (s.nth i)) = b.mix (a.mix (s.nth i)) ∧
      ∀ j, j < t.bits → a.mix (a.mix (s.nth i) ^^^ BitVec.twoPow t.bits j) = b.mix (a.mix (s.nth i) ^^^ BitVec.twoPow t.bits j))
    (f : BitVec 64 → Stream (BitVec t.bits) → Mixer t.bits → TestRun) (hf : suiteMixer cdf type = some f) : f n s a = f n s' b := by
  have hb64 : t.bits ≤ 64 := by cases t <;> simp [WT.bits]
  unfold suiteMixer at hf
  obtain ⟨g, hg, rfl⟩ := Option.map_eq_some_iff.1 hf
  dsimp only
  cases hm : (getTestDefinition type).limiter.limit n with
  | none => rfl
  | some m =>
    obtain ⟨h1, h2⟩ := limit_budget type n m hm
    have h := h _ h1
    dsimp only
    have hsac : generateSac m s a.mix = generateSac m s' b.mix := by
      obtain ⟨x, e1, e2, e3⟩ := C42_sac hb64 m s a.mix
      obtain ⟨y, f1, f2, f3⟩ := C42_sac hb64 m s' b.mix
      rw [e1, f1]
      refine congrArg _ (List.ext_getElem (by omega) fun d hd hd' => ?_)
      rw [e3 d hd, f3 d hd']
      refine congrArg _ (List.countP_congr fun p hp => ?_)
      obtain ⟨hp1, hp2⟩ := List.mem_product.1 hp
      obtain ⟨i1, i2, i3, i4⟩ := h p.1 (List.mem_range.1 hp1)
      have : flipDistance a.mix (a.mix (s.nth p.1)) p.2 = flipDistance b.mix (b.mix (s'.nth p.1)) p.2 := by
        unfold flipDistance
        rw [← i1, ← i2, i3, i4 p.2 (List.mem_range.1 hp2)]
      rw [this]
    have hbic : generateBic m s a.mix = generateBic m s' b.mix := by
      obtain ⟨x, e1, e2, e3⟩ := C43_bic hb64 m s a.mix
      obtain ⟨y, f1, f2, f3⟩ := C43_bic hb64 m s' b.mix
      rw [e1, f1]
      refine congrArg _ (List.ext_getElem? fun c => ?_)
      by_cases hc : c < t.bits * t.bits
      · have hb0 : 0 < t.bits := Nat.pos_of_ne_zero fun h0 => by rw [h0] at hc; omega
        have hj : c / t.bits < t.bits := Nat.div_lt_of_lt_mul hc
        have hk : c % t.bits < t.bits := Nat.mod_lt _ hb0
        have e4 := e3 _ _ hj hk
        have f4 := f3 _ _ hj hk
        rw [Nat.mul_comm (c / t.bits), Nat.div_add_mod] at e4 f4
        rw [e4, f4]
        refine congrArg _ (congrArg _ (List.countP_congr fun q hq => ?_))
        obtain ⟨i1, i2, i3, i4⟩ := h q (List.mem_range.1 hq)
        rw [← i1, ← i2, i3, i4 _ hj]
      · rw [List.getElem?_eq_none (by omega), List.getElem?_eq_none (by omega)]
    cases type <;> cases hg
    · simp only [sacTest, hsac]
    · simp only [bicTest, hbic]

/-- A counter that stops counting after 1999 values. -/
private def stopsCounting : Stream (BitVec WT.u8.bits) :=
  ⟨Nat, "x", 0, fun i => (if i < 1999 then (BitVec.ofNat 64 (i + 1)).setWidth 8 else 0#8, i + 1)⟩

private theorem stopsCounting_nth (k : Nat) :
    stopsCounting.nth k = if k < 1999 then (BitVec.ofNat 64 (k + 1)).setWidth 8 else 0#8 := by
  have hs : stopsCounting.stateAt k = k := by
    induction k with
    | zero => rfl
    | succ k ih => rw [Stream.stateAt_succ, ih]; rfl
  rw [Stream.nth_eq, hs]
  rfl

/-- The counter and a stream that starts the same way but then is constant: one report on 1999 values. -/
example (cdf : ℝ → ℝ → ℝ) : stopsCounting.nth 2000 ≠ (counterStream 8 1 0).nth 2000 ∧
    uniformTest cdf 1999#64 (counterStream 8 1 0) = uniformTest cdf 1999#64 stopsCounting := by
  refine ⟨?_, ?_⟩
  · rw [stopsCounting_nth, nth_counter]
    decide +kernel
  · refine Option.some.inj (C144_stream_tests cdf .u8 .uniform 1999#64 (by decide) (counterStream 8 1 0) stopsCounting ?_ _ rfl)
    rintro m hm i hi
    have hm : m = 1999 := by simpa [budget] using hm.symm
    subst hm
    have hi : i < 1999 := hi
    rw [nth_counter, stopsCounting_nth, if_pos hi]
    simp

/-- C144 (the last value counts). The bound is attained: if two sources agree on the first `n - 1` values and differ in the last of the
`n` asked for, `mean` reports different values. -/
theorem C144_last_value (n : BitVec 64) (hn : n ≠ 0#64) (s s' : Stream (BitVec w)) (h : AgreeUpTo (n.toNat - 1) s s')
    (hl : s.nth (n.toNat - 1) ≠ s'.nth (n.toNat - 1)) :
    ∃ st st', meanTest n s = .ok [⟨"", some st⟩] ∧ meanTest n s' = .ok [⟨"", some st'⟩] ∧ st.value ≠ st'.value := by
  have hw : 0 < w := Nat.pos_of_ne_zero fun h0 => by subst h0; exact hl (Subsingleton.elim _ _)
  have hn0 : 0 < n.toNat := Nat.pos_of_ne_zero fun h => hn (BitVec.eq_of_toNat_eq (by simpa using h))
  have h1 := C78_mean n s
  have h2 := C78_mean n s'
  rw [if_neg hn] at h1 h2
  refine ⟨_, _, h1, h2, ?_⟩
  dsimp only
  obtain ⟨k, hk⟩ : ∃ k, n.toNat = k + 1 := ⟨n.toNat - 1, by omega⟩
  rw [hk, Nat.add_sub_cancel] at h hl
  rw [hk]
  have hM : (0 : ℝ) < 2 ^ w - 1 := by
    have : (1 : ℝ) < 2 ^ w := one_lt_pow₀ (by norm_num) (by omega)
    linarith
  have hk' : (0 : ℝ) < ((k + 1 : ℕ) : ℝ) := by positivity
  have hsum : ∑ i ∈ Finset.range k, ((s.nth i).toNat : ℝ) / (2 ^ w - 1) = ∑ i ∈ Finset.range k, ((s'.nth i).toNat : ℝ) / (2 ^ w - 1) :=
    Finset.sum_congr rfl fun i hi => by rw [h i (Finset.mem_range.1 hi)]
  unfold meanZ
  intro he
  apply hl
  apply BitVec.eq_of_toNat_eq
  have hs : Real.sqrt (12 * ((k + 1 : ℕ) : ℝ)) ≠ 0 := (Real.sqrt_pos.2 (by positivity)).ne'
  rw [Finset.sum_range_succ, Finset.sum_range_succ, hsum] at he
  have he := mul_right_cancel₀ hs he
  have he := (div_left_inj' hk'.ne').1 (sub_left_inj.1 he)
  have he := (div_left_inj' hM.ne').1 (add_left_cancel he)
  exact_mod_cast he

/-! ### A whole setup -/

/-- Sources that have the same names and agree on the first `k` values, one by one. -/
def Spec.SameUpTo (k : Nat) (l l' : List (Stream (BitVec w))) : Prop :=
  List.Forall₂ (fun s s' => s.name = s'.name ∧ AgreeUpTo k s s') l l'

private theorem reads_le (t : WT) (type : TestType) (m n : Nat) (h : m ≤ n) : reads t.bits type m ≤ t.bits * n := by
  have hb8 : 8 ≤ t.bits := by cases t <;> simp [WT.bits]
  have h1 : m ≤ t.bits * n := le_trans h (Nat.le_mul_of_pos_left _ (by omega))
  have h2 : 2 * m ≤ t.bits * n := Nat.mul_le_mul (by omega) h
  have h3 : t.bits * m ≤ t.bits * n := Nat.mul_le_mul le_rfl h
  cases type <;> simp only [reads] <;> assumption

private theorem suite_stream_value (cdf : ℝ → ℝ → ℝ) (t : WT) (type : TestType) (n : BitVec 64) (hov : n.toNat * t.bits < 2 ^ 64)
    (s s' : Stream (BitVec t.bits)) (h : AgreeUpTo (t.bits * n.toNat) s s') (f : BitVec 64 → Stream (BitVec t.bits) → List (SubTest ℝ))
    (hf : (suiteDef cdf type).testStream = some f) : f n s = f n s' := by
  obtain ⟨g, hg, rfl⟩ := Option.map_eq_some_iff.1 hf
  dsimp only
  rw [C144_stream_tests cdf t type n hov s s' (fun m hm => agree_mono h (reads_le t type m _ ((C40_catalogue type n).2 m hm))) g hg]

private theorem suite_mixer_value (cdf : ℝ → ℝ → ℝ) (t : WT) (type : TestType) (n : BitVec 64)
    (s s' : Stream (BitVec t.bits)) (h : AgreeUpTo (t.bits * n.toNat) s s') (mix : Mixer t.bits)
    (f : BitVec 64 → Stream (BitVec t.bits) → Mixer t.bits → List (SubTest ℝ))
    (hf : (suiteDef cdf type).testMixer = some f) : f n s mix = f n s' mix := by
  have hb8 : 8 ≤ t.bits := by cases t <;> simp [WT.bits]
  obtain ⟨g, hg, rfl⟩ := Option.map_eq_some_iff.1 hf
  dsimp only
  rw [C144_mixer_tests cdf t type n s s' mix mix (fun m hm i hi =>
    ⟨h i (lt_of_lt_of_le hi (le_trans ((C40_catalogue type n).2 m hm) (Nat.le_mul_of_pos_left _ (by omega)))), rfl, rfl, fun _ _ => rfl⟩) g hg]

private theorem agree_mixer {k : Nat} {s s' : Stream (BitVec w)} (h : AgreeUpTo k s s') (m : Mixer w) :
    AgreeUpTo k (mixerStream s m) (mixerStream s' m) := by
  intro i hi
  show (s.mapS _ _).nth i = (s'.mapS _ _).nth i
  rw [Stream.nth_mapS, Stream.nth_mapS, h i hi]

private theorem flatMap_forall₂ {α β : Type*} {R : α → α → Prop} (f g : α → List β) (l l' : List α) (h : List.Forall₂ R l l')
    (hf : ∀ a b, R a b → f a = g b) : l.flatMap f = l'.flatMap g := by
  induction h with
  | nil => rfl
  | cons h1 _ ih => rw [List.flatMap_cons, List.flatMap_cons, hf _ _ h1, ih]

private theorem foldl_append_flatMap {α β : Type*} (f : α → List β) (l : List α) (acc : List β) :
    l.foldl (fun acc a => acc ++ f a) acc = acc ++ l.flatMap f := by
  induction l generalizing acc with
  | nil => simp
  | cons a l ih => rw [List.foldl_cons, ih, List.flatMap_cons, List.append_assoc]

private theorem jobs_flat {K : Type} (defs : TestType → TestDef w K) (n : BitVec 64) (setup : TestSetup w) :
    createTestJobs defs n setup = setup.tests.flatMap fun test => setup.sources.flatMap fun s => jobsFor n setup (defs test) s := by
  unfold createTestJobs
  simp only [foldl_append_flatMap]
  rfl

private theorem jobs_same (cdf : ℝ → ℝ → ℝ) (t : WT) (n : BitVec 64) (hov : n.toNat * t.bits < 2 ^ 64) (setup setup' : TestSetup t.bits)
    (h1 : setup'.subject = setup.subject) (h2 : setup'.tests = setup.tests) (h3 : setup'.mix = setup.mix)
    (h : SameUpTo (t.bits * n.toNat) setup.sources setup'.sources) :
    createTestJobs (suiteDef cdf) n setup = createTestJobs (suiteDef cdf) n setup' := by
  rw [jobs_flat, jobs_flat, h2]
  refine congrArg (fun F => List.flatMap F setup.tests) (funext fun type => ?_)
  refine flatMap_forall₂ _ _ _ _ h ?_
  rintro s s' ⟨hn, ha⟩
  unfold jobsFor
  rw [h3]
  refine congrArg₂ (· ++ ·) ?_ ?_
  · cases hm : (suiteDef cdf type).testMixer with
    | none => rfl
    | some f =>
      cases setup.mix with
      | none => rfl
      | some mix =>
        show [fun _ => collectSubTests s.name _ n _ (f n s mix)] = [fun _ => collectSubTests s'.name _ n _ (f n s' mix)]
        rw [h1, hn, suite_mixer_value cdf t type n s s' ha mix f hm]
  · cases hm : (suiteDef cdf type).testStream with
    | none => rfl
    | some f =>
      cases setup.mix with
      | none =>
        show [fun _ => collectSubTests s.name _ n _ (f n s)] = [fun _ => collectSubTests s'.name _ n _ (f n s')]
        rw [h1, hn, suite_stream_value cdf t type n hov s s' ha f hm]
      | some mix =>
        show [fun _ => collectSubTests (mixerStream s mix).name _ n _ (f n (mixerStream s mix))] =
          [fun _ => collectSubTests (mixerStream s' mix).name _ n _ (f n (mixerStream s' mix))]
        have e : (mixerStream s mix).name = (mixerStream s' mix).name := by
          show mix.name ++ "(" ++ s.name ++ ")" = mix.name ++ "(" ++ s'.name ++ ")"
          rw [hn]
        rw [h1, e, suite_stream_value cdf t type n hov _ _ (agree_mixer ha mix) f hm]

private theorem expected_same (cdf : ℝ → ℝ → ℝ) (t : WT) (n : BitVec 64) (hov : n.toNat * t.bits < 2 ^ 64) (setup setup' : TestSetup t.bits)
    (h1 : setup'.subject = setup.subject) (h2 : setup'.tests = setup.tests) (h3 : setup'.mix = setup.mix)
    (h : SameUpTo (t.bits * n.toNat) setup.sources setup'.sources) :
    expectedResults (suiteDef cdf) n setup = expectedResults (suiteDef cdf) n setup' := by
  unfold expectedResults
  rw [h2]
  refine congrArg (fun F => List.flatMap F setup.tests) (funext fun type => ?_)
  refine flatMap_forall₂ _ _ _ _ h ?_
  rintro s s' ⟨hn, ha⟩
  rw [h3, h1, hn]
  refine congrArg₂ (· ++ ·) ?_ ?_
  · cases hm : (suiteDef cdf type).testMixer with
    | none => rfl
    | some f =>
      cases setup.mix with
      | none => rfl
      | some mix =>
        dsimp only
        rw [suite_mixer_value cdf t type n s s' ha mix f hm]
  · cases hm : (suiteDef cdf type).testStream with
    | none => rfl
    | some f =>
      cases setup.mix with
      | none =>
        dsimp only
        rw [suite_stream_value cdf t type n hov s s' ha f hm]
      | some mix =>
        dsimp only
        have e : (mixerStream s mix).name = (mixerStream s' mix).name := by
          show mix.name ++ "(" ++ s.name ++ ")" = mix.name ++ "(" ++ s'.name ++ ")"
          rw [hn]
        rw [e, suite_stream_value cdf t type n hov _ _ (agree_mixer ha mix) f hm]

/-- C144 (evaluate). Evaluating `n` values: whatever sources of the same names one takes that agree on the first `w·n` values, the possible
results are the same. -/
theorem C144_evaluate (cdf : ℝ → ℝ → ℝ) (t : WT) (n : BitVec 64) (hov : n.toNat * t.bits < 2 ^ 64) (setup : TestSetup t.bits)
    (sources : List (Stream (BitVec t.bits))) (h : SameUpTo (t.bits * n.toNat) setup.sources sources) (b : Battery ℝ) :
    EvaluateOutcome (suiteDef cdf) n { setup with sources := sources } b ↔ EvaluateOutcome (suiteDef cdf) n setup b := by
  unfold EvaluateOutcome
  have e := jobs_same cdf t n hov setup { setup with sources := sources } rfl rfl rfl h
  have e2 : setup.sources.length = sources.length := h.length_eq
  dsimp only
  rw [← e, e2]

/-- C144 (runs). A whole run from power to power never depends on more than the first `w·2^stop` values of the sources. -/
theorem C144_run (cdf : ℝ → ℝ → ℝ) (t : WT) (setup : TestSetup t.bits) (eval : BitVec 64 → Battery ℝ)
    (hov : 2 ^ setup.stopPower.toNat * t.bits < 2 ^ 64)
    (sources : List (Stream (BitVec t.bits))) (h : SameUpTo (t.bits * 2 ^ setup.stopPower.toNat) setup.sources sources) :
    PossibleRun (suiteDef cdf) ({ setup with sources := sources }, eval) ↔ PossibleRun (suiteDef cdf) (setup, eval) := by
  unfold PossibleRun
  dsimp only
  refine and_congr Iff.rfl (and_congr Iff.rfl (and_congr Iff.rfl (and_congr Iff.rfl ?_)))
  refine forall_congr' fun k => forall_congr' fun _ => forall_congr' fun hk => ?_
  have hk' : k ≤ setup.stopPower.toNat := by omega
  have hp : 2 ^ k ≤ 2 ^ setup.stopPower.toNat := Nat.pow_le_pow_right (by norm_num) hk'
  have hlt : 2 ^ k * t.bits < 2 ^ 64 := lt_of_le_of_lt (Nat.mul_le_mul_right _ hp) hov
  have hb0 : 0 < t.bits := by cases t <;> simp [WT.bits]
  have hn : (BitVec.ofNat 64 (2 ^ k)).toNat = 2 ^ k := by
    rw [BitVec.toNat_ofNat, Nat.mod_eq_of_lt (lt_of_le_of_lt (Nat.le_mul_of_pos_right _ hb0) hlt)]
  have hs : SameUpTo (t.bits * (BitVec.ofNat 64 (2 ^ k)).toNat) setup.sources sources := by
    rw [hn]
    exact h.imp fun s s' hss => ⟨hss.1, agree_mono hss.2 (Nat.mul_le_mul le_rfl hp)⟩
  rw [C144_evaluate cdf t _ (by rw [hn]; exact hlt) setup sources hs,
    ← expected_same cdf t _ (by rw [hn]; exact hlt) setup { setup with sources := sources } rfl rfl rfl hs]

/-- A recording of the first `N` values of a source, replayed from its beginning. -/
def Spec.recorded (N : Nat) (s : Stream (BitVec w)) : Stream (BitVec w) := definedStream (dataStream s.name (s.take N) 0)

private theorem recorded_agree (N : Nat) (hN : N < 2 ^ 64) (s : Stream (BitVec w)) : (recorded N s).name = s.name ∧ AgreeUpTo N s (recorded N s) := by
  refine ⟨rfl, fun i hi => ?_⟩
  have hs : (recorded N s).stateAt i = BitVec.ofNat 64 i := by
    have : (recorded N s).stateAt i = (dataStream s.name (s.take N) 0).stateAt i := rfl
    rw [this, stateAt_data]
    exact BitVec.zero_add _
  have hl : (s.take N).length = N := by rw [Stream.take_eq_map]; simp
  rw [Stream.nth_eq (recorded N s), hs]
  unfold recorded definedStream dataStream
  dsimp only
  rw [if_neg (by omega), BitVec.toNat_ofNat, hl, Nat.mod_eq_of_lt (lt_trans hi hN), Nat.mod_eq_of_lt hi, Stream.take_eq_map,
    List.getElem?_map, List.getElem?_range hi]
  rfl

/-- C144 (recordings). Replacing each source by a recording of its first `N` values changes no possible run, as soon as `N` is at
least `w·2^stop`. -/
theorem C144_recorded (cdf : ℝ → ℝ → ℝ) (t : WT) (setup : TestSetup t.bits) (eval : BitVec 64 → Battery ℝ) (N : Nat) (hN : N < 2 ^ 64)
    (h : t.bits * 2 ^ setup.stopPower.toNat ≤ N) :
    PossibleRun (suiteDef cdf) ({ setup with sources := setup.sources.map (recorded N) }, eval) ↔ PossibleRun (suiteDef cdf) (setup, eval) := by
  refine C144_run cdf t setup eval (by rw [Nat.mul_comm]; omega) _ ?_
  unfold SameUpTo
  rw [List.forall₂_map_right_iff, List.forall₂_same]
  intro s _
  exact ⟨rfl, agree_mono (recorded_agree N hN s).2 h⟩

/-- For 64-bit words and powers 10..30 recordings of `2^36` values do. -/
example : WT.u64.bits * 2 ^ (30 : Int).toNat ≤ 2 ^ 36 ∧ 2 ^ 36 < 2 ^ 64 := by decide +kernel

end TFR
