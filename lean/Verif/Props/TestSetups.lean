import Verif.Model.TestSetups
import Verif.Props.Streams
import Verif.Props.Mixers
import Mathlib.Data.List.Sort
import Mathlib.Data.List.Perm.Subperm
/-
C72 generated seeds, C73 evenly seeded data, C74 PRNG test setups, C77 sources of mixer and combiner tests.
-/
namespace TFR
variable {w : Nat}

/-! ### std::set -/

/-- Ascending without repetition. -/
def Ascending (l : List (BitVec w)) : Prop := l.Pairwise (fun a b => a.toNat < b.toNat)

theorem mem_setInsert (x y : BitVec w) (l : List (BitVec w)) : y ∈ wordSetInsert x l ↔ y = x ∨ y ∈ l := by
  induction l with
  | nil => simp [wordSetInsert]
  | cons a l ih =>
    unfold wordSetInsert
    split
    · simp
    · split
      · simp only [List.mem_cons, ih]; tauto
      · have : x = a := BitVec.eq_of_toNat_eq (by omega)
        subst this; simp

theorem ascending_setInsert (x : BitVec w) (l : List (BitVec w)) (h : Ascending l) : Ascending (wordSetInsert x l) := by
  induction l with
  | nil => simp [wordSetInsert, Ascending]
  | cons a l ih =>
    unfold Ascending at h ih ⊢
    rw [List.pairwise_cons] at h
    unfold wordSetInsert
    split
    · rename_i hlt
      rw [List.pairwise_cons]
      refine ⟨?_, by rw [List.pairwise_cons]; exact h⟩
      intro b hb
      rcases List.mem_cons.1 hb with rfl | hb
      · exact hlt
      · exact hlt.trans (h.1 b hb)
    · split
      · rename_i hlt
        rw [List.pairwise_cons]
        refine ⟨?_, ih h.2⟩
        intro b hb
        rcases (mem_setInsert x b l).1 hb with rfl | hb
        · exact hlt
        · exact h.1 b hb
      · rw [List.pairwise_cons]; exact h

theorem length_setInsert (x : BitVec w) (l : List (BitVec w)) :
    l.length ≤ (wordSetInsert x l).length ∧ (wordSetInsert x l).length ≤ l.length + 1 := by
  induction l with
  | nil => simp [wordSetInsert]
  | cons a l ih =>
    unfold wordSetInsert
    split
    · simp
    · split
      · simp; omega
      · simp

theorem Ascending.nodup {l : List (BitVec w)} (h : Ascending l) : (l.map BitVec.toNat).Nodup := by
  unfold Ascending at h
  rw [List.Nodup, List.pairwise_map]
  exact h.imp (fun h => Nat.ne_of_lt h)

theorem Ascending.length_le {l : List (BitVec w)} (h : Ascending l) : l.length ≤ 2 ^ w := by
  have : l.map BitVec.toNat ⊆ List.range (2 ^ w) := by
    intro x hx
    rw [List.mem_map] at hx
    obtain ⟨v, _, rfl⟩ := hx
    exact List.mem_range.2 v.isLt
  have h2 := (List.subperm_of_subset h.nodup this).length_le
  simpa using h2

theorem length_ge_of_full {l : List (BitVec w)} (h : ∀ v, v ∈ l) : 2 ^ w ≤ l.length := by
  have : List.range (2 ^ w) ⊆ l.map BitVec.toNat := by
    intro x hx
    rw [List.mem_range] at hx
    rw [List.mem_map]
    exact ⟨BitVec.ofNat w x, h _, by simp [Nat.mod_eq_of_lt hx]⟩
  have h2 := (List.subperm_of_subset List.nodup_range this).length_le
  simpa using h2

/-! ### The loop -/

theorem seedLoop_terminates (mix : BitVec w → R (BitVec w)) (f : BitVec w → BitVec w) (hf : Function.Surjective f)
    (hmix : ∀ x, mix x = .ok (f x)) (n : Nat) (hn : n ≤ 2 ^ w) (x0 : BitVec w) (fuel : Nat) :
    ∀ (k : Nat) (added : List (BitVec w)), Ascending added → (∀ i < k, f (x0 + BitVec.ofNat w i) ∈ added) →
      2 ^ w ≤ k + fuel →
      ∃ r, seedLoop mix n fuel added (x0 + BitVec.ofNat w k) = some (.ok r) ∧ Ascending r ∧ (∀ v ∈ added, v ∈ r) ∧
        r.length = max n added.length := by
  induction fuel with
  | zero =>
    intro k added hs hk hfuel
    have hlen : 2 ^ w ≤ added.length := by
      apply length_ge_of_full
      intro v
      obtain ⟨x, rfl⟩ := hf v
      have := hk (x - x0).toNat (by have := (x - x0).isLt; omega)
      have e : x0 + BitVec.ofNat w (x - x0).toNat = x := by
        rw [BitVec.ofNat_toNat, BitVec.setWidth_eq, BitVec.add_comm, BitVec.sub_add_cancel]
      rwa [e] at this
    unfold seedLoop
    rw [if_neg (by omega)]
    exact ⟨added, rfl, hs, fun _ h => h, by omega⟩
  | succ fuel ih =>
    intro k added hs hk hfuel
    unfold seedLoop
    by_cases hlt : added.length < n
    · rw [if_pos hlt]
      simp only [hmix]
      have hx : x0 + BitVec.ofNat w k + 1 = x0 + BitVec.ofNat w (k + 1) := by
        rw [BitVec.ofNat_add, BitVec.add_assoc]; rfl
      rw [hx]
      obtain ⟨r, h1, h2, h3, h4⟩ := ih (k + 1) (wordSetInsert (f (x0 + BitVec.ofNat w k)) added)
        (ascending_setInsert _ _ hs) (by
          intro i hi
          rw [mem_setInsert]
          rcases Nat.lt_succ_iff_lt_or_eq.1 hi with hi | rfl
          · exact .inr (hk i hi)
          · exact .inl rfl) (by omega)
      refine ⟨r, h1, h2, fun v hv => h3 v ((mem_setInsert _ _ _).2 (.inr hv)), ?_⟩
      have := length_setInsert (f (x0 + BitVec.ofNat w k)) added
      omega
    · rw [if_neg hlt]
      exact ⟨added, rfl, hs, fun _ h => h, by omega⟩

theorem seedLoop_diverges (mix : BitVec w → R (BitVec w)) (f : BitVec w → BitVec w)
    (hmix : ∀ x, mix x = .ok (f x)) (n : Nat) (hn : 2 ^ w < n) (fuel : Nat) :
    ∀ (added : List (BitVec w)) (x : BitVec w), Ascending added → seedLoop mix n fuel added x = none := by
  induction fuel with
  | zero =>
    intro added x hs
    have := hs.length_le
    unfold seedLoop; rw [if_pos (by omega)]
  | succ fuel ih =>
    intro added x hs
    have := hs.length_le
    unfold seedLoop; rw [if_pos (by omega)]
    simp only [hmix]
    exact ih _ _ (ascending_setInsert _ _ hs)

theorem defaultMix_bijective (t : WT) : ∃ f, Function.Bijective f ∧ ∀ x, defaultMix t x = .ok (f x) := by
  cases t with
  | u8 => exact C12_mix8
  | u16 => exact C12_mix16
  | u32 => exact ⟨mix32_mx3, bij_mx32_3, fun _ => rfl⟩
  | u64 => exact ⟨mix64_mx3, bij_mx64_3, fun _ => rfl⟩

theorem foldl_setInsert (l added : List (BitVec w)) (h : Ascending added) :
    Ascending (l.foldl (fun added seed => wordSetInsert seed added) added) ∧
    ∀ v, v ∈ l.foldl (fun added seed => wordSetInsert seed added) added ↔ v ∈ added ∨ v ∈ l := by
  induction l generalizing added with
  | nil => exact ⟨h, by simp⟩
  | cons a l ih =>
    simp only [List.foldl_cons]
    obtain ⟨h1, h2⟩ := ih (wordSetInsert a added) (ascending_setInsert _ _ h)
    refine ⟨h1, fun v => ?_⟩
    rw [h2, mem_setInsert, List.mem_cons]; tauto

theorem structuredSeeds_spec (t : WT) :
    Ascending (structuredSeeds t) ∧ (structuredSeeds t).length = 2 * t.bits ∧
    ∀ v, v ∈ structuredSeeds t ↔ v ∈ getRrcPermutations t (BitVec.ofNat t.bits 1) := by
  obtain ⟨h1, h2⟩ := foldl_setInsert (getRrcPermutations t (BitVec.ofNat t.bits 1)) [] (by simp [Ascending])
  refine ⟨h1, ?_, ?_⟩
  · cases t <;> decide +kernel
  · intro v; unfold structuredSeeds; rw [h2]; simp

theorem fillSeeds_spec (l : List (BitVec w)) (y : BitVec 64) :
    (fillSeeds l y).map SeedData.d0 = l.map (fun v => v.setWidth 64) ∧
    ∀ i s, (fillSeeds l y)[i]? = some s →
      s.d1 = mix64_mx3 (y + BitVec.ofNat 64 (3 * i)) ∧ s.d2 = mix64_mx3 (y + BitVec.ofNat 64 (3 * i + 1)) ∧
      s.d3 = mix64_mx3 (y + BitVec.ofNat 64 (3 * i + 2)) := by
  induction l generalizing y with
  | nil => simp [fillSeeds]
  | cons a l ih =>
    obtain ⟨h1, h2⟩ := ih (y + 3)
    refine ⟨by simpa [fillSeeds] using h1, ?_⟩
    intro i s hs
    cases i with
    | zero =>
      simp only [fillSeeds, List.getElem?_cons_zero, Option.some.injEq] at hs
      subst hs
      refine ⟨?_, ?_, ?_⟩ <;> simp
    | succ i =>
      simp only [fillSeeds, List.getElem?_cons_succ] at hs
      obtain ⟨g1, g2, g3⟩ := h2 i s hs
      have e : ∀ j, y + 3 + BitVec.ofNat 64 j = y + BitVec.ofNat 64 (j + 3) := by
        intro j
        rw [BitVec.ofNat_add, BitVec.add_assoc, BitVec.add_comm (3 : BitVec 64)]; rfl
      rw [e] at g1 g2 g3
      exact ⟨by rw [g1]; congr 3, by rw [g2]; congr 3, by rw [g3]; congr 3⟩

theorem fillSeeds_length (l : List (BitVec w)) (y : BitVec 64) : (fillSeeds l y).length = l.length := by
  have := congrArg List.length (fillSeeds_spec l y).1
  simpa using this

/-! ### C72 -/

/-- For every word type and every requested number of seeds up to the number of words, `generate_seeds` terminates
(after at most `2^w` rounds of its loop, with no undefined behaviour) and returns the requested number of seeds - or `2w`
of them if fewer were requested.  The first words of the seeds ascend strictly, so they are pairwise distinct; every
rotation, reversal and complement of `1` is among them. -/
theorem C72_seeds (t : WT) (n : Nat) (hn : n ≤ 2 ^ t.bits) (fuel : Nat) (hfuel : 2 ^ t.bits ≤ fuel) :
    ∃ seeds, generateSeeds t n fuel = some (.ok seeds) ∧ seeds.length = max n (2 * t.bits) ∧
      (seeds.map (fun s => s.d0.toNat)).Pairwise (· < ·) ∧ (∀ s ∈ seeds, s.d0.toNat < 2 ^ t.bits) ∧
      ∀ rot ty, rot < t.bits → ∃ s ∈ seeds, s.d0 = (permute t (BitVec.ofNat t.bits 1) rot ty).setWidth 64 := by
  obtain ⟨f, hf, hmix⟩ := defaultMix_bijective t
  obtain ⟨s1, s2, s3⟩ := structuredSeeds_spec t
  obtain ⟨r, h1, h2, h3, h4⟩ := seedLoop_terminates (defaultMix t) f hf.2 hmix n hn (BitVec.ofNat t.bits 1234) fuel 0
    (structuredSeeds t) s1 (by simp) (by omega)
  have h1' : seedLoop (defaultMix t) n fuel (structuredSeeds t) (BitVec.ofNat t.bits 1234) = some (.ok r) := by
    rw [← h1]; congr 1; simp
  have hd := (fillSeeds_spec r 12345).1
  have hw : t.bits ≤ 64 := by cases t <;> decide
  have hto : ∀ v : BitVec t.bits, (v.setWidth 64).toNat = v.toNat := by
    intro v
    rw [BitVec.toNat_setWidth, Nat.mod_eq_of_lt (v.isLt.trans_le (Nat.pow_le_pow_right (by decide) hw))]
  have hd2 : (fillSeeds r 12345).map (fun s => s.d0.toNat) = r.map BitVec.toNat := by
    have := congrArg (List.map BitVec.toNat) hd
    rw [List.map_map, List.map_map] at this
    have e : (BitVec.toNat ∘ fun v : BitVec t.bits => v.setWidth 64) = BitVec.toNat := funext hto
    rw [e] at this
    exact this
  refine ⟨fillSeeds r 12345, by unfold generateSeeds; rw [h1'], by rw [fillSeeds_length, h4, s2], ?_, ?_, ?_⟩
  · rw [hd2, List.pairwise_map]; exact h2
  · intro s hs
    have : s.d0.toNat ∈ r.map BitVec.toNat := by
      rw [← hd2]; exact List.mem_map.2 ⟨s, hs, rfl⟩
    obtain ⟨v, _, e⟩ := List.mem_map.1 this
    rw [← e]; exact v.isLt
  · intro rot ty hrot
    have hm : permute t (BitVec.ofNat t.bits 1) rot ty ∈ r := by
      apply h3
      rw [s3]
      exact List.mem_of_getElem? ((C10_getRrcPermutations t (BitVec.ofNat t.bits 1)).2 ty rot hrot)
    have : (permute t (BitVec.ofNat t.bits 1) rot ty).setWidth 64 ∈ (fillSeeds r 12345).map SeedData.d0 := by
      rw [hd]; exact List.mem_map.2 ⟨_, hm, rfl⟩
    obtain ⟨s, hs, e⟩ := List.mem_map.1 this
    exact ⟨s, hs, e⟩

/-- The other three words of seed `i` are the default 64-bit mixer at `12345 + 3i`, `12346 + 3i`, `12347 + 3i`; hence no
two of these words (of all seeds) are equal, as long as there are fewer than `2^62` seeds. -/
theorem C72_other_words (t : WT) (n fuel : Nat) (seeds : List SeedData)
    (h : generateSeeds t n fuel = some (.ok seeds)) :
    (∀ i s, seeds[i]? = some s →
      s.d1 = mix64_mx3 (12345 + BitVec.ofNat 64 (3 * i)) ∧ s.d2 = mix64_mx3 (12345 + BitVec.ofNat 64 (3 * i + 1)) ∧
      s.d3 = mix64_mx3 (12345 + BitVec.ofNat 64 (3 * i + 2))) ∧
    (∀ i j, 3 * i + 2 < 2 ^ 64 → 3 * j + 2 < 2 ^ 64 → i ≠ j → ∀ s s', seeds[i]? = some s → seeds[j]? = some s' →
      s.d1 ≠ s'.d1 ∧ s.d2 ≠ s'.d2 ∧ s.d3 ≠ s'.d3) := by
  have key : ∀ i s, seeds[i]? = some s →
      s.d1 = mix64_mx3 (12345 + BitVec.ofNat 64 (3 * i)) ∧ s.d2 = mix64_mx3 (12345 + BitVec.ofNat 64 (3 * i + 1)) ∧
      s.d3 = mix64_mx3 (12345 + BitVec.ofNat 64 (3 * i + 2)) := by
    unfold generateSeeds at h
    split at h
    · simp at h
    · simp at h
    · rename_i added _
      simp only [Option.some.injEq, Except.ok.injEq] at h
      subst h
      exact (fillSeeds_spec added 12345).2
  refine ⟨key, ?_⟩
  intro i j hi hj hne s s' hs hs'
  obtain ⟨a1, a2, a3⟩ := key i s hs
  obtain ⟨b1, b2, b3⟩ := key j s' hs'
  have inj : ∀ a b : Nat, a < 2 ^ 64 → b < 2 ^ 64 → a ≠ b →
      mix64_mx3 (12345 + BitVec.ofNat 64 a) ≠ mix64_mx3 (12345 + BitVec.ofNat 64 b) := by
    intro a b ha hb hab e
    have e1 := bij_mx64_3.1 e
    have e2 := (BitVec.add_right_inj (12345 : BitVec 64)).1 e1
    have e3 := congrArg BitVec.toNat e2
    rw [BitVec.toNat_ofNat, BitVec.toNat_ofNat, Nat.mod_eq_of_lt ha, Nat.mod_eq_of_lt hb] at e3
    exact hab e3
  rw [a1, a2, a3, b1, b2, b3]
  exact ⟨inj _ _ (by omega) (by omega) (by omega), inj _ _ (by omega) (by omega) (by omega),
    inj _ _ (by omega) (by omega) (by omega)⟩

/-- Asking for more seeds than there are words never returns. -/
theorem C72_too_many (t : WT) (n : Nat) (hn : 2 ^ t.bits < n) (fuel : Nat) : generateSeeds t n fuel = none := by
  obtain ⟨f, _, hmix⟩ := defaultMix_bijective t
  unfold generateSeeds
  rw [seedLoop_diverges (defaultMix t) f hmix n hn fuel _ _ (structuredSeeds_spec t).1]

example : 254 ≤ 2 ^ WT.u8.bits ∧ 1024 ≤ 2 ^ WT.u64.bits := by decide
example : ((generateSeeds .u8 20 16).bind (fun r => r.toOption)).map (fun l => l.map (fun s => s.d0.toNat)) =
    some [1, 2, 4, 8, 16, 32, 64, 87, 110, 116, 127, 128, 159, 191, 223, 239, 247, 251, 253, 254] := by decide +kernel

/-! ### C74 -/

/-- The stream `add` appends for a seed. -/
def namedPrng (createPrng : SeedData → Stream (BitVec w)) (outer : Stream (BitVec w) → Stream (BitVec w)) (seed : SeedData) :
    Stream (BitVec w) :=
  let prng := outer (createPrng seed)
  { prng with name := prng.name ++ " seed=[" ++ toString seed.s64.toNat ++ ", ...]" }

theorem addAll (createPrng : SeedData → Stream (BitVec w)) (outers : List (Stream (BitVec w) → Stream (BitVec w)))
    (seeds : List SeedData) (out : List (Stream (BitVec w))) (h : outers.length ≤ seeds.length) :
    outers.foldlM (fun st o => addPrng createPrng o st) (seeds, out) =
      .ok (seeds.take (seeds.length - outers.length),
        out ++ List.zipWith (namedPrng createPrng) outers seeds.reverse) := by
  induction outers generalizing seeds out with
  | nil => simp; rfl
  | cons o os ih =>
    have hne : seeds ≠ [] := by rintro rfl; simp at h
    obtain ⟨init, last, rfl⟩ : ∃ init last, seeds = init ++ [last] := ⟨_, _, (List.dropLast_append_getLast hne).symm⟩
    rw [List.foldlM_cons]
    have h1 : addPrng createPrng o (init ++ [last], out) = .ok (init, out ++ [namedPrng createPrng o last]) := by
      unfold addPrng; simp [namedPrng]
    rw [h1]
    show List.foldlM _ _ os = _
    rw [ih init _ (by simpa using h)]
    congr 1
    refine Prod.ext ?_ ?_
    · simp only [List.length_append, List.length_cons, List.length_nil]
      rw [List.take_append_of_le_length (by omega)]
      congr 1; omega
    · simp

theorem nth_named (createPrng : SeedData → Stream (BitVec w)) (outer : Stream (BitVec w) → Stream (BitVec w))
    (seed : SeedData) (k : Nat) : (namedPrng createPrng outer seed).nth k = (outer (createPrng seed)).nth k := by
  rw [Stream.nth_eq, Stream.nth_eq]
  have : ∀ k, (namedPrng createPrng outer seed).stateAt k = (outer (createPrng seed)).stateAt k := by
    intro k
    induction k with
    | zero => rfl
    | succ k ih => rw [Stream.stateAt_succ, Stream.stateAt_succ, ih]; rfl
  rw [this]; rfl

/-- For every word type and every generator, `create_prng_test_setup` terminates without undefined behaviour and yields
exactly `4w` streams.  Stream `i` is the generator started with seed `i`, its output rotated right by `i+1` for the first
`w-1` streams; the seeds are the `4w` largest of the generated ones in descending order, hence pairwise distinct, and none
of them is zero. -/
theorem C74_prng_setup (t : WT) (createPrng : SeedData → Stream (BitVec t.bits)) (fuel : Nat) (hfuel : 2 ^ t.bits ≤ fuel) :
    ∃ all sources, generateSeeds t (min (2 ^ t.bits - 2) 1024) fuel = some (.ok all) ∧
      createPrngSources t createPrng fuel = some (.ok sources) ∧ sources.length = 4 * t.bits ∧
      ((all.reverse.take (4 * t.bits)).map (fun s => s.d0.toNat)).Pairwise (· > ·) ∧
      (∀ s ∈ all.reverse.take (4 * t.bits), s.s64 ≠ 0) ∧
      ∀ i, i < 4 * t.bits → ∃ s st, all.reverse[i]? = some s ∧ sources[i]? = some st ∧
        ∀ k, st.nth k = if i + 1 < t.bits then ror ((createPrng s).nth k) ((i : Int) + 1) else (createPrng s).nth k := by
  have hle : min (2 ^ t.bits - 2) 1024 ≤ 2 ^ t.bits :=
    (Nat.min_le_left _ _).trans (Nat.sub_le _ _)
  obtain ⟨all, h1, h2, h3, h4, _⟩ := C72_seeds t _ hle fuel hfuel
  have hbig : 4 * t.bits < all.length := by
    rw [h2]; cases t <;> decide
  have hpos : 1 ≤ t.bits := by cases t <;> decide
  let z1 := List.zipWith (namedPrng createPrng)
    ((List.range (t.bits - 1)).map (fun i : Nat => fun s => rorStream s ((i : Int) + 1))) all.reverse
  let z2 := List.zipWith (namedPrng createPrng)
    ((List.range (4 * t.bits - (t.bits - 1))).map (fun _ : Nat => id)) (all.take (all.length - (t.bits - 1))).reverse
  have hl1 : z1.length = t.bits - 1 := by simp [z1]; omega
  have hl2 : z2.length = 4 * t.bits - (t.bits - 1) := by simp [z2]; omega
  have e1 : (List.range (t.bits - 1)).foldlM (fun st (i : Nat) =>
      addPrng createPrng (fun s => rorStream s ((i : Int) + 1)) st) (all, []) =
      .ok (all.take (all.length - (t.bits - 1)), z1) := by
    have := addAll createPrng ((List.range (t.bits - 1)).map (fun i : Nat => fun s => rorStream s ((i : Int) + 1))) all []
      (by simp; omega)
    rw [List.foldlM_map] at this
    simpa using this
  have e2 : ∃ rest, (List.range (4 * t.bits - (t.bits - 1))).foldlM (fun st (_ : Nat) => addPrng createPrng id st)
      (all.take (all.length - (t.bits - 1)), z1) = .ok (rest, z1 ++ z2) := by
    have := addAll createPrng ((List.range (4 * t.bits - (t.bits - 1))).map (fun _ : Nat => id))
      (all.take (all.length - (t.bits - 1))) z1 (by simp; omega)
    rw [List.foldlM_map] at this
    exact ⟨_, this⟩
  obtain ⟨rest, e2⟩ := e2
  have e3 : createPrngSources t createPrng fuel = some (.ok (z1 ++ z2)) := by
    unfold createPrngSources
    simp only [show 2 ^ t.bits - 1 - 1 = 2 ^ t.bits - 2 by omega, h1]
    rw [e1]
    show some (Except.bind _ _) = _
    simp only [Except.bind]
    rw [hl1, e2]
    rfl
  refine ⟨all, _, h1, e3, ?_, ?_, ?_, ?_⟩
  · rw [List.length_append, hl1, hl2]; omega
  · rw [List.map_take, List.map_reverse]
    apply List.Pairwise.sublist (List.take_sublist _ _)
    rw [List.pairwise_reverse]; exact h3
  · intro s hs h0
    obtain ⟨i, hi, he⟩ := List.getElem_of_mem hs
    rw [List.getElem_take, List.getElem_reverse] at he
    simp only [List.length_take, List.length_reverse] at hi
    have hp := List.pairwise_iff_getElem.1 h3 0 (all.length - 1 - i) (by simp; omega) (by simp; omega) (by omega)
    simp only [List.getElem_map, he] at hp
    have : s.d0.toNat = 0 := by
      have h0' : s.d0 = 0 := h0
      rw [h0']; rfl
    omega
  · intro i hi
    have hi' : i < all.reverse.length := by simp; omega
    refine ⟨all.reverse[i], ?_⟩
    by_cases hc : i + 1 < t.bits
    · refine ⟨z1[i]'(by rw [hl1]; omega), List.getElem?_eq_getElem hi', ?_, ?_⟩
      · rw [List.getElem?_append_left (by rw [hl1]; omega)]
        exact List.getElem?_eq_getElem (by rw [hl1]; omega)
      · intro k
        rw [show z1[i]'(by rw [hl1]; omega) = _ from List.getElem_zipWith, nth_named, if_pos hc]
        simp only [List.getElem_map, List.getElem_range]
        exact C29_ror _ _ _
    · refine ⟨z2[i - (t.bits - 1)]'(by rw [hl2]; omega), List.getElem?_eq_getElem hi', ?_, ?_⟩
      · rw [List.getElem?_append_right (by rw [hl1]; omega), hl1]
        exact List.getElem?_eq_getElem (by rw [hl2]; omega)
      · intro k
        rw [show z2[i - (t.bits - 1)]'(by rw [hl2]; omega) = _ from List.getElem_zipWith, nth_named, if_neg hc]
        simp only [List.getElem_map, id]
        congr 2
        rw [List.getElem_reverse, List.getElem_reverse, List.getElem_take]
        congr 1
        simp; omega

example : ∃ all, generateSeeds .u8 (min (2 ^ 8 - 2) 1024) (2 ^ 8) = some (.ok all) ∧
    (all.reverse.take 4).map (fun s => s.d0.toNat) = [255, 254, 253, 252] := by
  obtain ⟨all, h, _⟩ := C72_seeds .u8 (min (2 ^ 8 - 2) 1024) (by decide) (2 ^ 8) (by decide)
  refine ⟨all, h, ?_⟩
  have e : ((generateSeeds .u8 (min (2 ^ 8 - 2) 1024) (2 ^ 8)).bind (fun r => r.toOption)).map
      (fun l => (l.reverse.take 4).map (fun s => s.d0.toNat)) = some [255, 254, 253, 252] := by decide +kernel
  rw [h] at e
  exact Option.some.inj e

/-! ### C73 -/

variable {α : Type}

/-- The streams over shared data: with `interval = size / sample_count`, stream `i` starts at `i * interval`, and its
first `interval` values are exactly that segment of the data.  The segments of all streams, one after the other, are a
prefix of the data: they lie inside it and no position is used twice. -/
theorem C73_segments (name : String) (data : List α) (n : Nat) (hn : 0 < n) (hlen : data.length < 2 ^ 64) :
    ∃ streams, createEvenlySeededStream name data n = .ok streams ∧ streams.length = n ∧
      (∀ i s, streams[i]? = some s → s.take (data.length / n) =
        ((data.drop (i * (data.length / n))).take (data.length / n)).map .ok) ∧
      streams.flatMap (fun s => s.take (data.length / n)) = (data.take (n * (data.length / n))).map .ok := by
  set q := data.length / n with hq
  have hqn : n * q ≤ data.length := Nat.mul_div_le _ _
  refine ⟨_, by unfold createEvenlySeededStream; rw [if_neg (by omega)], by simp, ?_⟩
  have hstart : ∀ i, i < n → (BitVec.ofNat 64 i * BitVec.ofNat 64 (data.length / n)).toNat = i * q := by
    intro i hi
    rw [← hq]
    have h1 : i * q ≤ n * q := Nat.mul_le_mul_right _ hi.le
    rw [BitVec.toNat_mul, BitVec.toNat_ofNat, BitVec.toNat_ofNat, ← Nat.mul_mod, Nat.mod_eq_of_lt (by omega)]
  have htake : ∀ i, i < n → (dataStream (name ++ "-" ++ toString (BitVec.ofNat 64 i * BitVec.ofNat 64 (data.length / n)).toNat)
      data (BitVec.ofNat 64 i * BitVec.ofNat 64 (data.length / n))).take q = ((data.drop (i * q)).take q).map .ok := by
    intro i hi
    have h1 : (i + 1) * q ≤ n * q := Nat.mul_le_mul_right _ hi
    rw [Nat.add_mul, Nat.one_mul] at h1
    apply List.ext_getElem
    · simp; omega
    · intro k hk hk'
      have hkq : k < q := by simpa using hk
      have hne : data ≠ [] := by rintro rfl; simp at h1 hqn; omega
      obtain ⟨v, hv, hd⟩ := C27_dataStream (name ++ "-" ++ toString (BitVec.ofNat 64 i * BitVec.ofNat 64 (data.length / n)).toNat)
        data (BitVec.ofNat 64 i * BitVec.ofNat 64 (data.length / n)) k hne (by rw [hstart i hi]; omega)
      rw [hstart i hi, Nat.mod_eq_of_lt (by omega)] at hd
      simp only [Stream.take_eq_map, List.getElem_map, List.getElem_range, hv, List.getElem_take, List.getElem_drop]
      rw [List.getElem?_eq_getElem (by omega)] at hd
      rw [Option.some.inj hd]
  constructor
  · intro i s hs
    rw [List.getElem?_map] at hs
    by_cases hi : i < n
    · rw [List.getElem?_eq_getElem (by simpa using hi)] at hs
      simp only [List.getElem_range, Option.map_some, Option.some.injEq] at hs
      rw [← hs]; exact htake i hi
    · rw [List.getElem?_eq_none (by simpa using hi)] at hs; simp at hs
  · rw [List.flatMap_map]
    have : ∀ m, m ≤ n → (List.range m).flatMap (fun i => (dataStream (name ++ "-" ++ toString
        (BitVec.ofNat 64 i * BitVec.ofNat 64 (data.length / n)).toNat) data
        (BitVec.ofNat 64 i * BitVec.ofNat 64 (data.length / n))).take q) = (data.take (m * q)).map .ok := by
      intro m
      induction m with
      | zero => intro _; simp
      | succ m ih =>
        intro hm
        rw [List.range_succ, List.flatMap_append, ih (by omega), List.flatMap_singleton, htake m (by omega),
          ← List.map_append]
        congr 1
        rw [Nat.add_mul, Nat.one_mul, List.take_add]
    exact this n le_rfl

/-- Beyond its segment a stream runs into the next one: value `interval + k` of stream `i` is value `k` of stream `i+1`. -/
theorem C73_overlap (name : String) (data : List α) (n : Nat) (hlen : data.length < 2 ^ 63) (streams : List (Stream (R α)))
    (h : createEvenlySeededStream name data n = .ok streams) (i k : Nat) (hk : k < 2 ^ 62) (s s' : Stream (R α))
    (hs : streams[i]? = some s) (hs' : streams[i + 1]? = some s') (hne : data ≠ []) :
    s.nth (data.length / n + k) = s'.nth k := by
  unfold createEvenlySeededStream at h
  by_cases hn : n = 0
  · rw [if_pos hn] at h; simp at h
  rw [if_neg hn] at h
  obtain rfl := Except.ok.inj h
  rw [List.getElem?_map] at hs hs'
  have hi : i + 1 < n := by
    by_contra hc
    rw [List.getElem?_eq_none (by simpa using hc)] at hs'; simp at hs'
  rw [List.getElem?_eq_getElem (by simpa using (by omega : i < n))] at hs
  rw [List.getElem?_eq_getElem (by simpa using hi)] at hs'
  simp only [List.getElem_range, Option.map_some, Option.some.injEq] at hs hs'
  subst hs hs'
  have hqn : n * (data.length / n) ≤ data.length := Nat.mul_div_le _ _
  have hstart : ∀ j, j < n → (BitVec.ofNat 64 j * BitVec.ofNat 64 (data.length / n)).toNat = j * (data.length / n) := by
    intro j hj
    have h1 : j * (data.length / n) ≤ n * (data.length / n) := Nat.mul_le_mul_right _ hj.le
    rw [BitVec.toNat_mul, BitVec.toNat_ofNat, BitVec.toNat_ofNat, ← Nat.mul_mod, Nat.mod_eq_of_lt (by omega)]
  have h1 : (i + 1) * (data.length / n) ≤ n * (data.length / n) := Nat.mul_le_mul_right _ hi.le
  rw [Nat.add_mul, Nat.one_mul] at h1
  obtain ⟨v, hv, hd⟩ := C27_dataStream (name ++ "-" ++ toString (BitVec.ofNat 64 i * BitVec.ofNat 64 (data.length / n)).toNat)
    data (BitVec.ofNat 64 i * BitVec.ofNat 64 (data.length / n)) (data.length / n + k) hne
    (by rw [hstart i (by omega)]; omega)
  obtain ⟨v', hv', hd'⟩ := C27_dataStream (name ++ "-" ++ toString (BitVec.ofNat 64 (i + 1) * BitVec.ofNat 64 (data.length / n)).toNat)
    data (BitVec.ofNat 64 (i + 1) * BitVec.ofNat 64 (data.length / n)) k hne
    (by rw [hstart (i + 1) hi, Nat.add_mul, Nat.one_mul]; omega)
  rw [hstart i (by omega)] at hd
  rw [hstart (i + 1) hi, Nat.add_mul, Nat.one_mul, Nat.add_assoc] at hd'
  rw [hd] at hd'
  show (dataStream _ _ _).nth _ = (dataStream _ _ _).nth _
  rw [hv, hv', Option.some.inj hd']

/-- With more samples than data all streams are the same stream (they all start at 0); no samples: division by zero. -/
theorem C73_degenerate (name : String) (data : List α) (n : Nat) :
    (n = 0 → createEvenlySeededStream name data n = .error .divByZero) ∧
    (data.length < n → ∃ streams, createEvenlySeededStream name data n = .ok streams ∧ streams.length = n ∧
      ∀ s ∈ streams, s = dataStream (name ++ "-" ++ toString 0) data 0) := by
  constructor
  · rintro rfl; rfl
  · intro h
    refine ⟨_, by unfold createEvenlySeededStream; rw [if_neg (by omega)], by simp, ?_⟩
    intro s hs
    rw [Nat.div_eq_of_lt h] at hs
    obtain ⟨i, _, rfl⟩ := List.mem_map.1 hs
    simp

example : ∃ streams, createEvenlySeededStream "d" [10, 11, 12, 13, 14, 15, 16] 3 = .ok streams ∧
    streams.flatMap (fun s => s.take 2) = [.ok 10, .ok 11, .ok 12, .ok 13, .ok 14, .ok 15] := by
  obtain ⟨s, h, _, _, h2⟩ := C73_segments "d" [10, 11, 12, 13, 14, 15, 16] 3 (by decide) (by decide)
  exact ⟨s, h, h2⟩

/-! ### C77 -/

/-- `create_sources`: one stream per kind and rotation; value `k` is the transform of `k+1`. -/
theorem C77_sources (t : WT) :
    (createSources t).length = 4 * t.bits ∧
    ∀ ty rot, rot < t.bits → ∃ s, (createSources t)[RrcType.idx ty * t.bits + rot]? = some s ∧
      ∀ k, s.nth k = permute t (BitVec.ofNat t.bits (k + 1)) rot ty := by
  have hw : t.bits ≤ 64 := by cases t <;> decide
  obtain ⟨h1, h2⟩ := C11_createRrcSources t [counterStream t.bits 1 0]
  refine ⟨by unfold createSources; simpa using h1, fun ty rot hrot => ?_⟩
  obtain ⟨r, h3, h4⟩ := h2 0 _ ty rot rfl hrot
  refine ⟨r, by unfold createSources; simpa using h3, fun k => ?_⟩
  rw [h4.1]
  congr 1
  apply BitVec.eq_of_toNat_eq
  rw [C26_counter _ _ _ hw, Nat.mod_mod_of_dvd _ (Nat.pow_dvd_pow 2 hw), BitVec.toNat_ofNat]
  simp

/-- The two arguments of the three families of combiner sources, as words. -/
def combinerArgs (w : Nat) (k : Nat) : Nat → BitVec w × BitVec w
  | 0 => (BitVec.ofNat w (k + 2), BitVec.ofNat w (k + 3))
  | 1 => (BitVec.ofNat w (2 ^ 32 + (k + 1)), BitVec.ofNat w (2 ^ 32 + (k + 1)))
  | _ => (BitVec.ofNat w (k + 2), -BitVec.ofNat w k)

theorem counter_val (w : Nat) (hw : w ≤ 64) (inc start : BitVec 64) (k : Nat) :
    (counterStream w inc start).nth k = BitVec.ofNat w (start.toNat + (k + 1) * inc.toNat) := by
  apply BitVec.eq_of_toNat_eq
  rw [C26_counter _ _ _ hw, Nat.mod_mod_of_dvd _ (Nat.pow_dvd_pow 2 hw), BitVec.toNat_ofNat]

/-- `create_combiner_sources`: `3 + 12w` streams without undefined behaviour.  The first iterates the combiner with a zero
second argument from zero; the second and third combine zero with the counter `1, 2, 3, ...`; then, for each of the
three argument families, one stream per kind and rotation, the same transform applied to both arguments. -/
theorem C77_combiner_sources (t : WT) (c : Combiner t.bits) :
    ∃ sources, createCombinerSources t c = .ok sources ∧ sources.length = 3 + 12 * t.bits ∧
      (∃ s, sources[0]? = some s ∧ ∀ k, s.nth k = (fun x => c.combine x 0)^[k + 1] 0) ∧
      (∃ s, sources[1]? = some s ∧ ∀ k, s.nth k = c.combine 0 (BitVec.ofNat t.bits (k + 1))) ∧
      (∃ s, sources[2]? = some s ∧ ∀ k, s.nth k = c.combine (BitVec.ofNat t.bits (k + 1)) 0) ∧
      ∀ q ty rot, q < 3 → rot < t.bits →
        ∃ s, sources[3 + (q * (4 * t.bits) + (RrcType.idx ty * t.bits + rot))]? = some s ∧
          ∀ k, s.nth k = c.combine (permute t (combinerArgs t.bits k q).1 rot ty)
            (permute t (combinerArgs t.bits k q).2 rot ty) := by
  have hw : t.bits ≤ 64 := by cases t <;> decide
  obtain ⟨a1, a2⟩ := C11_createRrcSources t [counterStream t.bits 1 1, counterStream t.bits 1 (1#64 <<< 32), counterStream t.bits 1 1]
  obtain ⟨b1, b2⟩ := C11_createRrcSources t [counterStream t.bits 1 2, counterStream t.bits 1 (1#64 <<< 32), counterStream t.bits (-1) 1]
  have hconst : ∀ k, (constantStream 0#t.bits).nth k = 0#t.bits := by
    intro k; rw [Stream.nth_eq]; rfl
  refine ⟨_, by
    unfold createCombinerSources
    simp only
    rw [if_pos (by rw [a1, b1]; exact le_rfl)], ?_, ⟨_, rfl, ?_⟩, ⟨_, rfl, ?_⟩, ⟨_, rfl, ?_⟩, ?_⟩
  · simp only [List.length_append, List.length_cons, List.length_nil, List.length_zipWith, a1, b1]; omega
  · intro k
    rw [C31_incremental]
    have : (List.range (k + 1)).map (constantStream 0#t.bits).nth = List.replicate (k + 1) 0#t.bits := by
      rw [List.eq_replicate_iff]
      refine ⟨by simp, ?_⟩
      intro b hb
      obtain ⟨j, _, rfl⟩ := List.mem_map.1 hb
      exact hconst j
    rw [this]
    have gen : ∀ m x, (List.replicate m 0#t.bits).foldl c.combine x = (fun x => c.combine x 0)^[m] x := by
      intro m
      induction m with
      | zero => intro x; rfl
      | succ m ih => intro x; rw [List.replicate_succ, List.foldl_cons, ih, Function.iterate_succ_apply]; rfl
    exact gen _ _
  · intro k
    rw [C31_combined, hconst, counter_val _ hw]
    simp
  · intro k
    rw [C31_combined, hconst, counter_val _ hw]
    simp
  · intro q ty rot hq hrot
    suffices hargs : ∃ sa sb,
        [counterStream t.bits 1 1, counterStream t.bits 1 (1#64 <<< 32), counterStream t.bits 1 1][q]? = some sa ∧
        [counterStream t.bits 1 2, counterStream t.bits 1 (1#64 <<< 32), counterStream t.bits (-1) 1][q]? = some sb ∧
        ∀ k, (sa.nth k, sb.nth k) = combinerArgs t.bits k q by
      obtain ⟨sa, sb, ha, hb, hargs⟩ := hargs
      obtain ⟨ra, ha1, ha2⟩ := a2 q sa ty rot ha hrot
      obtain ⟨rb, hb1, hb2⟩ := b2 q sb ty rot hb hrot
      refine ⟨combinedStream ra rb c, ?_, ?_⟩
      · rw [List.getElem?_append_right (by simp)]
        simp only [List.length_cons, List.length_nil]
        rw [Nat.add_sub_cancel_left, List.getElem?_zipWith, ha1, hb1]
      · intro k
        rw [C31_combined, ha2.1, hb2.1, ← hargs k]
    match q, hq with
    | 0, _ =>
      refine ⟨_, _, rfl, rfl, fun k => ?_⟩
      rw [counter_val _ hw, counter_val _ hw]
      simp only [combinerArgs]
      refine Prod.ext ?_ ?_
      · simp only; congr 1; simp; omega
      · simp only; congr 1; simp; omega
    | 1, _ =>
      refine ⟨_, _, rfl, rfl, fun k => ?_⟩
      rw [counter_val _ hw]
      simp only [combinerArgs]
      refine Prod.ext ?_ ?_
      · simp only; congr 1; simp
      · simp only; congr 1; simp
    | 2, _ =>
      refine ⟨_, _, rfl, rfl, fun k => ?_⟩
      rw [counter_val _ hw, counter_val _ hw]
      simp only [combinerArgs]
      refine Prod.ext ?_ ?_
      · simp only; congr 1; simp; omega
      · simp only
        apply BitVec.eq_of_toNat_eq
        have e : (-1 : BitVec 64).toNat = 2 ^ 64 - 1 := by decide
        have e1 : (1 : BitVec 64).toNat = 1 := by decide
        rw [e, e1, BitVec.toNat_neg, BitVec.toNat_ofNat, BitVec.toNat_ofNat]
        obtain ⟨d, hd⟩ := Nat.pow_dvd_pow 2 hw
        have hpos : 0 < 2 ^ t.bits := Nat.two_pow_pos _
        apply Nat.ModEq.add_right_cancel' k
        show (_ + k) % _ = (_ + k) % _
        have h1 : 1 + (k + 1) * (2 ^ 64 - 1) + k = 2 ^ 64 * (k + 1) := by
          omega
        rw [h1, hd, Nat.mul_assoc, Nat.mul_mod_right]
        have h2 : (2 ^ t.bits - k % 2 ^ t.bits + k) % 2 ^ t.bits = 0 := by
          have h3 := Nat.mod_lt k hpos
          conv_lhs => rw [← Nat.div_add_mod k (2 ^ t.bits)]
          rw [Nat.mul_add_mod, Nat.mod_mod]
          rw [show 2 ^ t.bits - k % 2 ^ t.bits + (2 ^ t.bits * (k / 2 ^ t.bits) + k % 2 ^ t.bits)
            = 2 ^ t.bits * (k / 2 ^ t.bits + 1) by rw [Nat.mul_add]; omega]
          exact Nat.mul_mod_right _ _
        exact h2.symm

/-- The third family is described in the code as `a, -a`; in fact the arguments add up to 2. -/
theorem C77_third_family (w k : Nat) : (combinerArgs w k 2).1 + (combinerArgs w k 2).2 = BitVec.ofNat w 2 := by
  simp only [combinerArgs]
  rw [Nat.add_comm, BitVec.ofNat_add, BitVec.add_assoc, ← BitVec.sub_eq_add_neg, BitVec.sub_self, BitVec.add_zero]

example : combinerArgs 8 3 2 = (5#8, 253#8) := by decide +kernel
example : ∃ s sources, createCombinerSources .u8 ⟨"sub", fun x y => x - y⟩ = .ok sources ∧
    sources[3 + (2 * 32 + (1 * 8 + 3))]? = some s ∧ s.nth 7 = permute .u8 9#8 3 .reverse - permute .u8 (-7#8) 3 .reverse := by
  obtain ⟨sources, h, _, _, _, _, h2⟩ := C77_combiner_sources .u8 ⟨"sub", fun x y => x - y⟩
  obtain ⟨s, h3, h4⟩ := h2 2 .reverse 3 (by decide) (by decide)
  exact ⟨s, sources, h, h3, h4 7⟩

end TFR
