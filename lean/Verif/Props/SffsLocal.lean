import Verif.Props.SearchScore
/-
C112: the result of the floating search is a local optimum.
-/
namespace TFR.Sffs
open TFR.BitVector

variable {K : Type} [LinearOrder K]

/-- Everything one gets from the stored vector `j` by changing one bit to `b` has been evaluated. -/
def Tried (cfg : Config K) (c : Conf K) (b : Bool) (j : Nat) : Prop :=
  ∃ tests, candidates cfg.bits (c.ks j).data b = .ok tests ∧ ∀ v ∈ tests, v ∈ c.evaluated

structure LocalInv (maxK : K) (cfg : Config K) (c : Conf K) : Prop where
  below : ∀ j < c.k, c.ks j = blank maxK ∨ (Tried cfg c true j ∧ (j ≤ cfg.min ∨ Tried cfg c false j))
  above : ∀ j, c.k < j → c.ks j = blank maxK ∨ j ≤ cfg.min ∨ Tried cfg c false j
  here : c.pc = .forward → c.k ≤ cfg.min ∨ Tried cfg c false c.k
  done : ∀ r, c.pc = .returned r → min cfg.bits cfg.max ≤ c.k

theorem Tried.mono {cfg : Config K} {c c' : Conf K} {b : Bool} {j : Nat} (h : Tried cfg c b j) (hk : c'.ks j = c.ks j)
    (he : ∀ v ∈ c.evaluated, v ∈ c'.evaluated) : Tried cfg c' b j := by
  obtain ⟨tests, h1, h2⟩ := h
  exact ⟨tests, by rw [hk]; exact h1, fun v hv => he v (h2 v hv)⟩

theorem local_step {threads : Nat} {maxK : K} {cfg : Config K} {c c' : Conf K} (hi : LocalInv maxK cfg c)
    (hs : Step threads maxK cfg c c') : LocalInv maxK cfg c' := by
  have keep : ∀ {c' : Conf K} {j : Nat}, (c'.ks j = c.ks j) → (∀ v ∈ c.evaluated, v ∈ c'.evaluated) →
      (c.ks j = blank maxK ∨ (Tried cfg c true j ∧ (j ≤ cfg.min ∨ Tried cfg c false j))) →
      (c'.ks j = blank maxK ∨ (Tried cfg c' true j ∧ (j ≤ cfg.min ∨ Tried cfg c' false j))) := by
    intro c' j hk he h
    rcases h with h | ⟨h1, h2⟩
    · left; rw [hk]; exact h
    · exact .inr ⟨h1.mono hk he, h2.imp_right fun h => h.mono hk he⟩
  have keep' : ∀ {c' : Conf K} {j : Nat}, (c'.ks j = c.ks j) → (∀ v ∈ c.evaluated, v ∈ c'.evaluated) →
      (c.ks j = blank maxK ∨ j ≤ cfg.min ∨ Tried cfg c false j) →
      (c'.ks j = blank maxK ∨ j ≤ cfg.min ∨ Tried cfg c' false j) := by
    intro c' j hk he h
    rcases h with h | h | h
    · left; rw [hk]; exact h
    · exact .inr (.inl h)
    · exact .inr (.inr (h.mono hk he))
  cases hs with
  | enter h hk => exact ⟨fun j hj => keep rfl (fun _ h => h) (hi.below j hj), fun j hj => keep' rfl (fun _ h => h) (hi.above j hj), by simp, by simp⟩
  | ret h hk =>
    exact ⟨fun j hj => keep rfl (fun _ h => h) (hi.below j hj), fun j hj => keep' rfl (fun _ h => h) (hi.above j hj), by simp,
      fun _ _ => not_lt.1 hk⟩
  | leave h hk =>
    exact ⟨fun j hj => keep rfl (fun _ h => h) (hi.below j hj), fun j hj => keep' rfl (fun _ h => h) (hi.above j hj),
      fun _ => .inl (not_lt.1 hk), by simp⟩
  | backward h hk tests new ht hn hb =>
    have hsub : ∀ v ∈ c.evaluated, v ∈ c.evaluated ++ tests := fun v hv => List.mem_append_left _ hv
    refine ⟨fun j hj => ?_, fun j hj => ?_, by simp, by simp⟩
    · have hj : j < c.k - 1 := hj
      exact keep (by show setKey c.ks (c.k - 1) new j = _; unfold setKey; rw [if_neg (by omega)]) hsub (hi.below j (by omega))
    · have hj : c.k - 1 < j := hj
      have e : setKey c.ks (c.k - 1) new j = c.ks j := by unfold setKey; rw [if_neg (by omega)]
      by_cases hjk : j = c.k
      · subst hjk
        exact .inr (.inr ⟨tests, by show candidates cfg.bits (setKey c.ks (c.k - 1) new c.k).data false = _; rw [e]; exact ht,
          fun v hv => List.mem_append_right _ hv⟩)
      · exact keep' e hsub (hi.above j (by omega))
  | noBackward h hk tests new ht hn hb =>
    have hsub : ∀ v ∈ c.evaluated, v ∈ c.evaluated ++ tests := fun v hv => List.mem_append_left _ hv
    exact ⟨fun j hj => keep rfl hsub (hi.below j hj), fun j hj => keep' rfl hsub (hi.above j hj),
      fun _ => .inr ⟨tests, ht, fun v hv => List.mem_append_right _ hv⟩, by simp⟩
  | forward h tests new ht hn =>
    have hsub : ∀ v ∈ c.evaluated, v ∈ c.evaluated ++ tests := fun v hv => List.mem_append_left _ hv
    have e : ∀ j, j ≠ c.k + 1 → (if (c.ks (c.k + 1)).data.size = 0 ∨ new.score < (c.ks (c.k + 1)).score then setKey c.ks (c.k + 1) new
        else c.ks) j = c.ks j := by
      intro j hj
      split
      · unfold setKey; rw [if_neg hj]
      · rfl
    refine ⟨fun j hj => ?_, fun j hj => ?_, by simp, by simp⟩
    · have hj : j < c.k + 1 := hj
      by_cases hjk : j = c.k
      · subst hjk
        refine .inr ⟨⟨tests, ?_, fun v hv => List.mem_append_right _ hv⟩, ?_⟩
        · show candidates cfg.bits ((if _ then _ else _ : Nat → SffsState K) c.k).data true = _
          rw [e _ (by omega)]; exact ht
        · exact (hi.here h).imp_right fun hx => hx.mono (e _ (by omega)) hsub
      · exact keep (e _ (by omega)) hsub (hi.below j (by omega))
    · have hj : c.k + 1 < j := hj
      exact keep' (e _ (by omega)) hsub (hi.above j (by omega))
  | crashBackward h hk f ht => exact ⟨hi.below, hi.above, by simp, by simp⟩
  | crashForward h f ht => exact ⟨hi.below, hi.above, by simp, by simp⟩

/-- Specification: bit `i` of the vector changed. -/
def flipAt (l : List Bool) (i : Nat) : List Bool := l.set i (!l.getD i false)

/-- C112. What the search returns is a local optimum, for every fitness function and schedule: if it has fewer than `max` bits set (and fewer
than all), no vector with one more bit set is better, and if it has more than `min` bits set, none with one bit fewer. -/
theorem C112_local_optimum (threads : Nat) (hth : 0 < threads) (maxK : K) (cfg : Config K)
    (hmax : ∀ v, cfg.fitness v < maxK) (hseed : SeedOk cfg) :
    ∃ c₀, start maxK cfg = .ok c₀ ∧ ∀ n c r, Reach threads maxK cfg c₀ n c → c.pc = .returned r →
      ∃ l, BitVector.Repr r.data l ∧ l.length = cfg.bits ∧ (l.count true < min cfg.bits cfg.max →
        ∀ i < cfg.bits, (l.getD i false = true → cfg.min < l.count true) → ∀ v, BitVector.Repr v (flipAt l i) → r.score ≤ cfg.fitness v) := by
  obtain ⟨c₀, h1, h2, h3, hpc⟩ := start_ok maxK cfg hseed
  have hloc0 : LocalInv maxK cfg c₀ := by
    have hblank : ∀ j, j ≠ c₀.k → c₀.ks j = blank maxK := by
      intro j hj
      have hst : ((firstVector cfg).count >>= fun k => .ok ⟨setKey (fun _ => blank maxK) k
          ⟨firstVector cfg, cfg.fitness (firstVector cfg)⟩, k, .outer, [firstVector cfg]⟩) = Except.ok c₀ := by
        rw [← h1]; unfold start firstVector; cases cfg.seed <;> rfl
      cases hc : (firstVector cfg).count with
      | error f => rw [hc] at hst; cases hst
      | ok k =>
        rw [hc] at hst
        have hst := Except.ok.inj hst
        subst hst
        dsimp only [setKey] at hj ⊢
        rw [if_neg hj]
    exact ⟨fun j hj => .inl (hblank j (by omega)), fun j hj => .inl (hblank j (by omega)), by rw [hpc]; simp, by rw [hpc]; simp⟩
  obtain ⟨c₁, h1', hres⟩ := C71_result threads hth maxK cfg hmax hseed
  obtain rfl := Except.ok.inj (h1.symm.trans h1')
  refine ⟨c₀, h1, fun n c r hc hr => ?_⟩
  have hi := inv_reach hth hmax h2 hc
  have hl : LocalInv maxK cfg c := by
    clear hr
    induction hc with
    | start => exact hloc0
    | step h hs ih => exact local_step (ih (inv_reach hth hmax h2 h)) hs
  obtain ⟨⟨j, hj⟩, hscore, -, hall⟩ := hres n c r hc hr
  obtain ⟨l, hrep, hlen, hcnt⟩ := id hj
  refine ⟨l, hrep, hlen, fun hlt i hib hmin v hv => ?_⟩
  -- the result is the entry of its cardinality
  have hr' := hi.ret r hr
  obtain ⟨g1, -, -⟩ := selectBest_spec maxK c.ks (cfg.bits + 1) (blank maxK)
  have hsel : selectBest maxK cfg.bits c.ks = (List.range (cfg.bits + 1)).foldl
    (fun best i => if (c.ks i).score < best.score then c.ks i else best) (blank maxK) := rfl
  rw [← hsel, ← hr'] at g1
  have hnb : r ≠ blank maxK := by
    rintro rfl
    have := hmax (blank maxK).data
    rw [← hscore] at this
    exact lt_irrefl _ this
  have hks : c.ks j = r := by
    rcases g1 with g1 | ⟨i', -, g1⟩
    · exact absurd g1 hnb
    · rcases hi.slots i' with hs | hs
      · exact absurd (g1.trans hs) hnb
      · rw [← g1] at hs
        have := hs.1.unique hj
        rw [← this]; exact g1.symm
  have hk : j < c.k := lt_of_lt_of_le (by rw [← hcnt]; exact hlt) (hl.done r hr)
  have htried : ∀ b, Tried cfg c b j → l.getD i false ≠ b → v ∈ c.evaluated := by
    rintro b ⟨tests, t1, t2⟩ hb
    apply t2
    obtain ⟨tests', t3, t4⟩ := C71_candidates hrep b
    rw [hks, ← hlen, t3] at t1
    obtain rfl := Except.ok.inj t1
    have hmem : flipAt l i ∈ neighbours l b := by
      unfold neighbours flipAt
      rw [List.mem_filterMap]
      refine ⟨i, List.mem_range.2 (by omega), ?_⟩
      rw [if_neg hb]
      congr 2
      cases hx : l.getD i false <;> cases b <;> simp_all
    obtain ⟨q, hq, he⟩ := List.getElem_of_mem hmem
    have hq' : q < tests'.length := by rw [t4.length_eq]; exact hq
    have := t4.get hq' hq
    simp only [List.get_eq_getElem, he] at this
    rw [repr_unique hv this]
    exact List.getElem_mem _
  apply hall
  rcases hl.below j hk with hx | ⟨hf, hbk⟩
  · rw [hks] at hx; exact absurd hx hnb
  · cases hbit : l.getD i false with
    | false => exact htried true hf (by rw [hbit]; simp)
    | true =>
      have hm := hmin hbit
      rcases hbk with hbk | hbk
      · omega
      · exact htried false hbk (by rw [hbit]; simp)

/-- C112. A seed with `max` or all bits set is returned unchanged, however bad it is: no other vector is tried. -/
theorem C112_full_seed (threads : Nat) (hth : 0 < threads) (maxK : K) (cfg : Config K) (hmax : ∀ v, cfg.fitness v < maxK) (seed : BitVector)
    (hs : cfg.seed = some seed) (j : Nat) (hj : HasCount cfg.bits j seed) (hfull : min cfg.bits cfg.max ≤ j) :
    ∃ c₀, start maxK cfg = .ok c₀ ∧ ∀ n c r, Reach threads maxK cfg c₀ n c → c.pc = .returned r → r.data = seed ∧ c.evaluated = [seed] := by
  have hok : SeedOk cfg := fun s h => by rw [hs] at h; obtain rfl := Option.some.inj h; exact ⟨j, hj⟩
  obtain ⟨c₀, h1, h2, h3, hpc⟩ := start_ok maxK cfg hok
  have hfirst : firstVector cfg = seed := by unfold firstVector; rw [hs]; rfl
  rw [hfirst] at h3
  have hk0 : c₀.k = j := by
    have := h2.cur.1
    have hst := h1
    unfold start at hst
    rw [hs] at hst
    obtain ⟨l, hr, hl, hcn⟩ := id hj
    have : seed.count = .ok j := by rw [count_repr hr, hcn]
    dsimp only at hst
    rw [this] at hst
    have hst := Except.ok.inj hst
    rw [← hst]
  have hrest : ∀ n c, Reach threads maxK cfg c₀ n c → c.k = j ∧ c.evaluated = [seed] ∧ (c.pc = .outer ∨ ∃ r, c.pc = .returned r) := by
    intro n c h
    induction h with
    | start => exact ⟨hk0, h3, .inl hpc⟩
    | step h hs ih =>
      obtain ⟨i1, i2, i3⟩ := ih
      cases hs with
      | enter h' hk => rw [i1] at hk; omega
      | ret h' hk => exact ⟨i1, i2, .inr ⟨_, rfl⟩⟩
      | leave h' hk => rcases i3 with i3 | ⟨r, i3⟩ <;> rw [h'] at i3 <;> cases i3
      | backward h' => rcases i3 with i3 | ⟨r, i3⟩ <;> rw [h'] at i3 <;> cases i3
      | noBackward h' => rcases i3 with i3 | ⟨r, i3⟩ <;> rw [h'] at i3 <;> cases i3
      | forward h' => rcases i3 with i3 | ⟨r, i3⟩ <;> rw [h'] at i3 <;> cases i3
      | crashBackward h' => rcases i3 with i3 | ⟨r, i3⟩ <;> rw [h'] at i3 <;> cases i3
      | crashForward h' => rcases i3 with i3 | ⟨r, i3⟩ <;> rw [h'] at i3 <;> cases i3
  refine ⟨c₀, h1, fun n c r hc hr => ?_⟩
  obtain ⟨-, i2, -⟩ := hrest n c hc
  refine ⟨?_, i2⟩
  have hks : c.ks = c₀.ks := by
    clear i2 hr
    induction hc with
    | start => rfl
    | step h hs ih =>
      obtain ⟨-, -, i3⟩ := hrest _ _ h
      rw [← ih]
      cases hs with
      | enter h' hk => rfl
      | ret h' hk => rfl
      | leave h' hk => rfl
      | backward h' => rcases i3 with i3 | ⟨r, i3⟩ <;> rw [h'] at i3 <;> cases i3
      | noBackward h' => rfl
      | forward h' => rcases i3 with i3 | ⟨r, i3⟩ <;> rw [h'] at i3 <;> cases i3
      | crashBackward h' => rfl
      | crashForward h' => rfl
  have hi := inv_reach hth hmax h2 hc
  have hr' := hi.ret r hr
  obtain ⟨g1, -, g3⟩ := selectBest_spec maxK c.ks (cfg.bits + 1) (blank maxK)
  have hsel : selectBest maxK cfg.bits c.ks = (List.range (cfg.bits + 1)).foldl
    (fun best i => if (c.ks i).score < best.score then c.ks i else best) (blank maxK) := rfl
  rw [← hsel, ← hr'] at g1 g3
  have hst : c₀.ks = setKey (fun _ => blank maxK) j ⟨seed, cfg.fitness seed⟩ := by
    have hst := h1
    unfold start at hst
    rw [hs] at hst
    obtain ⟨l, hr, hl, hcn⟩ := id hj
    have : seed.count = .ok j := by rw [count_repr hr, hcn]
    dsimp only at hst
    rw [this] at hst
    have hst := Except.ok.inj hst
    rw [← hst]
  have hjs := g3 j (Nat.lt_succ_of_le hj.le)
  rw [hks, hst] at g1 hjs
  have hlt : r.score < maxK := by
    refine lt_of_le_of_lt hjs ?_
    show (setKey _ _ _ _).score < _
    unfold setKey
    rw [if_pos rfl]
    exact hmax seed
  rcases g1 with g1 | ⟨i, -, g1⟩
  · rw [g1] at hlt; exact absurd hlt (lt_irrefl _)
  · unfold setKey at g1
    split at g1
    · rw [g1]
    · rw [g1] at hlt; exact absurd hlt (lt_irrefl _)

-- C112, non-vacuity: a search that returns, and a full seed that is returned although a change of one bit would be better.
example : ∃ c₀ n c r, start 1000 exampleConfig = .ok c₀ ∧ Reach 2 1000 exampleConfig c₀ n c ∧ c.pc = .returned r := by
  obtain ⟨c₀, h1, h2⟩ := C71_returns 2 (by norm_num) 1000 exampleConfig
    (fun v => Nat.lt_of_lt_of_le (Nat.mod_lt _ (by decide)) (by decide)) (by intro s h; exact absurd h (by simp [exampleConfig]))
  obtain ⟨m, c', r, h3, h4⟩ := h2 0 c₀ .start
  exact ⟨c₀, _, c', r, h1, h3, h4⟩
example : ∃ (cfg : Config Nat) (seed v : BitVector), cfg.seed = some seed ∧ HasCount cfg.bits 2 seed ∧ min cfg.bits cfg.max ≤ 2 ∧
    (∀ v, cfg.fitness v < 1000) ∧ seed.setBit 1 false = .ok v ∧ cfg.fitness v < cfg.fitness seed := by
  refine ⟨⟨2, fun v => if v = ⟨2, [3#8]⟩ then 1 else 0, some ⟨2, [3#8]⟩, 0, 1000⟩, ⟨2, [3#8]⟩, ⟨2, [1#8]⟩, rfl,
    ⟨[true, true], ⟨rfl, rfl, ?_⟩, rfl, rfl⟩, by decide, ?_, by decide +kernel, by decide +kernel⟩
  · intro i
    unfold dataBit
    by_cases h : i < 8
    · interval_cases i <;> rfl
    · rw [show ([3#8] : List (BitVec 8)).getD (i / 8) 0#8 = 0#8 by
        rw [List.getD_eq_default]; simp; omega]
      rw [List.getD_eq_default _ _ (by simp; omega)]
      simp
  · intro v
    dsimp only
    split <;> norm_num

end TFR.Sffs

namespace TFR
open Spec

/-- C112. The mixer that `-search` returns is a local optimum: unless all bits of its vector are set, no change of a single bit of the vector
gives a mixer with a better score. -/
theorem C112_search (t : WT) (ht : t ≠ .u16) (defs : TestType → TestDef t.bits ℝ) (analyse : Battery ℝ → List ResultAnalysis)
    (ha : Analyses analyse) (threads : Nat) (hth : 0 < threads) (eval : Mixer t.bits → BitVec 64 → Battery ℝ)
    (hposs : PossibleSearch defs threads eval) (draws : List (Nat → BitVec 64)) (hne : draws ≠ []) (tries : List BitVector)
    (htries : List.Forall₂ (fun d v => Sffs.randomBitVector (xm2xConfigBits t) d = .ok v) draws tries)
    (r : Sffs.SffsState ℝ) (h : SearchCommand t threads analyse eval tries r) :
    ∃ l, BitVector.Repr r.data l ∧ l.length = xm2xConfigBits t ∧ (false ∈ l → ∀ i < l.length, ∀ v, BitVector.Repr v (Sffs.flipAt l i) →
      ∃ s, xm2xFitness t threads analyse eval v = .ok s ∧ r.score ≤ s) := by
  have hmax := fitness_lt_max t defs analyse ha threads eval hposs
  set cfg := xm2xConfig t threads analyse eval with hcfg
  have hne' : tries ≠ [] := by
    intro h; rw [h] at htries; cases htries; exact hne rfl
  obtain ⟨hmem, -⟩ := (Sffs.C71_find_seed doubleMax cfg.bits cfg.fitness hmax tries).2 hne'
  set seed := Sffs.findSeed doubleMax cfg.bits cfg.fitness tries with hseed
  set cfg' : Sffs.Config ℝ := { cfg with seed := some seed } with hcfg'
  have hcount := tries_hasCount (xm2xConfigBits t) draws tries htries
  have hok : Sffs.SeedOk cfg' := by
    intro s hs
    obtain rfl : seed = s := Option.some.inj hs
    exact hcount seed hmem
  have hsize : ¬ (cfg'.seed.any fun s => s.size != cfg'.bits) = true := by
    obtain ⟨j, hj⟩ := hcount seed hmem
    show ¬ ((seed.size != xm2xConfigBits t) = true)
    simp [hj.size]
  have h : StartSearch threads cfg' r := h
  unfold StartSearch at h
  rw [if_neg hsize] at h
  obtain ⟨c₀, n, c, hs0, hreach, hret⟩ := h
  obtain ⟨c₁, hs1, hlocal⟩ := Sffs.C112_local_optimum threads hth doubleMax cfg' hmax hok
  obtain rfl := Except.ok.inj (hs0.symm.trans hs1)
  obtain ⟨l, h1, h2, h3⟩ := hlocal n c r hreach hret
  have h2 : l.length = xm2xConfigBits t := h2
  have hmaxbits : min cfg'.bits cfg'.max = xm2xConfigBits t := by
    show min (xm2xConfigBits t) 1000 = _
    cases t <;> decide
  rw [hmaxbits] at h3
  refine ⟨l, h1, h2, fun hfalse i hi v hv => ?_⟩
  have hlt : l.count true < xm2xConfigBits t := by
    rw [← h2]
    refine lt_of_le_of_ne List.count_le_length fun hc => ?_
    have := List.count_eq_length.1 hc _ hfalse
    cases this
  have hle := h3 hlt i (by show i < xm2xConfigBits t; omega) (fun hb => by
    show 0 < _
    rw [List.count_pos_iff]
    rw [List.getD_eq_getElem _ _ hi] at hb
    rw [← hb]
    exact List.getElem_mem hi) v hv
  have hv' : Sffs.HasCount (xm2xConfigBits t) ((Sffs.flipAt l i).count true) v :=
    ⟨_, hv, by unfold Sffs.flipAt; rw [List.length_set]; exact h2, rfl⟩
  obtain ⟨m, s, -, -, hfit, hfs, -⟩ := C106_fitness t ht defs analyse ha threads eval hposs v _ hv'
  refine ⟨s, hfit, ?_⟩
  rw [← hfs]
  exact hle

end TFR
