import Verif.Props.MixerCode
import Verif.Props.SearchEnd
import Verif.Props.SffsLocal
/-
C130. What the mixer search writes to the console while it runs and at its end.
-/
namespace TFR.Sffs
open Spec
variable {K : Type} [LinearOrder K]

/-- Specification: the states with `j` selected bits seen so far, in order: the first vector and the new states of the reports. -/
def _root_.TFR.Spec.seen (k₀ : Nat) (first : SffsState K) (log : List (Report K)) (j : Nat) : List (SffsState K) :=
  (((k₀, first) :: log.map fun r => (r.k, r.new)).filter fun p => p.1 = j).map Prod.snd

/-- Specification: the number of selected bits after these reports. -/
def _root_.TFR.Spec.cardinalityAfter (k₀ : Nat) (log : List (Report K)) : Nat := (log.map Report.k).getLastD k₀

omit [LinearOrder K] in
theorem seen_append (k₀ : Nat) (first : SffsState K) (log : List (Report K)) (r : Report K) (j : Nat) :
    seen k₀ first (log ++ [r]) j = seen k₀ first log j ++ if r.k = j then [r.new] else [] := by
  unfold seen
  rw [List.map_append, ← List.cons_append, List.filter_append, List.map_append]
  congr 1
  by_cases h : r.k = j
  · rw [if_pos h]; simp [h]
  · rw [if_neg h]; simp [h]

omit [LinearOrder K] in
theorem cardinalityAfter_append (k₀ : Nat) (log : List (Report K)) (r : Report K) : cardinalityAfter k₀ (log ++ [r]) = r.k := by
  unfold cardinalityAfter
  rw [List.map_append, List.map_cons, List.map_nil, List.getLastD_concat]

/-- The calls of the callback do not change the search: a run with its reports is a run. -/
theorem reported_reach {threads : Nat} {maxK : K} {cfg : Config K} {c₀ c : Conf K} {log : List (Report K)}
    (h : Reported threads maxK cfg c₀ log c) : ∃ n, Reach threads maxK cfg c₀ n c := by
  induction h with
  | start => exact ⟨0, .start⟩
  | step _ hs ih =>
    obtain ⟨n, hn⟩ := ih
    cases hs with
    | silent _ h _ => exact ⟨n + 1, hn.step h⟩
    | backward h hk tests new ht hnw hb => exact ⟨n + 1, hn.step (.backward _ h hk tests new ht hnw hb)⟩
    | forward h tests new ht hnw => exact ⟨n + 1, hn.step (.forward _ h tests new ht hnw)⟩

/-- C130. Every run of the search has its reports. -/
theorem C130_every_run {threads : Nat} {maxK : K} {cfg : Config K} {c₀ c : Conf K} :
    (∃ n, Reach threads maxK cfg c₀ n c) ↔ ∃ log, Reported threads maxK cfg c₀ log c := by
  refine ⟨?_, fun ⟨log, h⟩ => reported_reach h⟩
  rintro ⟨n, h⟩
  induction h with
  | start => exact ⟨[], .start⟩
  | step _ hs ih =>
    obtain ⟨log, hl⟩ := ih
    cases hs with
    | enter h hk => exact ⟨_, hl.step (.silent _ _ (.enter _ h hk) rfl)⟩
    | ret h hk => exact ⟨_, hl.step (.silent _ _ (.ret _ h hk) rfl)⟩
    | leave h hk => exact ⟨_, hl.step (.silent _ _ (.leave _ h hk) rfl)⟩
    | backward h hk tests new ht hn hb => exact ⟨_, hl.step (.backward _ h hk tests new ht hn hb)⟩
    | noBackward h hk tests new ht hn hb => exact ⟨_, hl.step (.silent _ _ (.noBackward _ h hk tests new ht hn hb) rfl)⟩
    | forward h tests new ht hn => exact ⟨_, hl.step (.forward _ h tests new ht hn)⟩
    | crashBackward h hk f ht => exact ⟨_, hl.step (.silent _ _ (.crashBackward _ h hk f ht) rfl)⟩
    | crashForward h f ht => exact ⟨_, hl.step (.silent _ _ (.crashForward _ h f ht) rfl)⟩

/-- Specification: what a report tells, given the reports before it. -/
structure _root_.TFR.Spec.HonestReport (maxK : K) (cfg : Config K) (k₀ : Nat) (first : SffsState K) (before : List (Report K)) (r : Report K) : Prop where
  /-- the new state is a vector with `k` selected bits and its own score -/
  new : HasCount cfg.bits r.k r.new.data ∧ r.new.score = cfg.fitness r.new.data
  /-- one bit more or one bit less than before; one bit less only for something better than seen with so few bits -/
  move : r.k = cardinalityAfter k₀ before + 1 ∨
    (r.k + 1 = cardinalityAfter k₀ before ∧ ∀ s ∈ seen k₀ first before r.k, r.new.score < s.score)
  /-- the old state is the best seen so far with `k` bits, or blank if there was none -/
  old : if seen k₀ first before r.k = [] then r.old = blank maxK
    else r.old ∈ seen k₀ first before r.k ∧ ∀ s ∈ seen k₀ first before r.k, r.old.score ≤ s.score

private structure LogInv (maxK : K) (cfg : Config K) (k₀ : Nat) (first : SffsState K) (log : List (Report K)) (c : Conf K) : Prop where
  cur : c.k = cardinalityAfter k₀ log
  slots : ∀ j, if seen k₀ first log j = [] then c.ks j = blank maxK
    else c.ks j ∈ seen k₀ first log j ∧ ∀ s ∈ seen k₀ first log j, (c.ks j).score ≤ s.score
  honest : ∀ (i : Nat) (r : Report K), log[i]? = some r → HonestReport maxK cfg k₀ first (log.take i) r
  good : ∀ j, ∀ s ∈ seen k₀ first log j, HasCount cfg.bits j s.data ∧ s.score = cfg.fitness s.data
  below : k₀ < min cfg.bits cfg.max → c.k ≤ min cfg.bits cfg.max
  none : min cfg.bits cfg.max ≤ k₀ → log = [] ∧ (c.pc = .outer ∨ ∃ r, c.pc = .returned r)
  fin : ∀ r, c.pc = .returned r → ¬ c.k < min cfg.bits cfg.max

private theorem honest_append {maxK : K} {cfg : Config K} {k₀ : Nat} {first : SffsState K} {log : List (Report K)} {r : Report K}
    (h : ∀ (i : Nat) (r : Report K), log[i]? = some r → HonestReport maxK cfg k₀ first (log.take i) r)
    (hr : HonestReport maxK cfg k₀ first log r) :
    ∀ (i : Nat) (r' : Report K), (log ++ [r])[i]? = some r' → HonestReport maxK cfg k₀ first ((log ++ [r]).take i) r' := by
  intro i r' hi
  rcases Nat.lt_trichotomy i log.length with hlt | heq | hgt
  · rw [List.getElem?_append_left hlt] at hi
    rw [List.take_append_of_le_length hlt.le]
    exact h i r' hi
  · subst heq
    rw [List.getElem?_append_right le_rfl, Nat.sub_self] at hi
    obtain rfl : r = r' := by simpa using hi
    rwa [List.take_left]
  · rw [List.getElem?_eq_none (by simp; omega)] at hi
    cases hi

/-- The new state of a round. -/
private theorem new_good {threads : Nat} (hth : 0 < threads) {maxK : K} {cfg : Config K} (hmax : ∀ v, cfg.fitness v < maxK) {c : Conf K}
    (hi : Inv maxK cfg c) (b : Bool) (hb : b = false → 0 < c.k) (hb' : b = true → c.k < cfg.bits) (tests new)
    (ht : candidates cfg.bits (c.ks c.k).data b = .ok tests) (hn : GetState threads maxK cfg.fitness tests new) :
    HasCount cfg.bits (if b then c.k + 1 else c.k - 1) new.data ∧ new.score = cfg.fitness new.data := by
  obtain ⟨tests', h1, h2, h3⟩ := round hi.cur.1 b
  rw [ht] at h1
  obtain rfl := Except.ok.inj h1
  have hne := h3 hb hb'
  obtain ⟨hm, hsc, -⟩ := C71_best_candidate threads hth maxK cfg.fitness hmax tests hne new hn
  obtain ⟨i, hi1, hi2⟩ := h2 _ hm
  refine ⟨?_, hsc⟩
  cases b
  · have := hb rfl
    have e : i = c.k - 1 := by simp at hi2; omega
    rw [e] at hi1; exact hi1
  · have e : i = c.k + 1 := by simp at hi2; omega
    rw [e] at hi1; exact hi1

/-- The entry of a cardinality after a new state with it was kept or not. -/
private theorem slots_append {maxK : K} {k₀ : Nat} {first : SffsState K} {log : List (Report K)} {ks ks' : Nat → SffsState K} {r : Report K}
    (h : ∀ j, if seen k₀ first log j = [] then ks j = blank maxK
      else ks j ∈ seen k₀ first log j ∧ ∀ s ∈ seen k₀ first log j, (ks j).score ≤ s.score)
    (hne : ∀ j, j ≠ r.k → ks' j = ks j)
    (hk : (ks' r.k = r.new ∧ (seen k₀ first log r.k = [] ∨ r.new.score < (ks r.k).score)) ∨
      (ks' r.k = ks r.k ∧ seen k₀ first log r.k ≠ [] ∧ (ks r.k).score ≤ r.new.score)) :
    ∀ j, if seen k₀ first (log ++ [r]) j = [] then ks' j = blank maxK
      else ks' j ∈ seen k₀ first (log ++ [r]) j ∧ ∀ s ∈ seen k₀ first (log ++ [r]) j, (ks' j).score ≤ s.score := by
  intro j
  rw [seen_append]
  by_cases hj : r.k = j
  · subst hj
    rw [if_pos rfl, if_neg (by simp)]
    have hr := h r.k
    rcases hk with ⟨h1, h2⟩ | ⟨h1, h2, h3⟩
    · rw [h1]
      refine ⟨List.mem_append_right _ List.mem_cons_self, fun s hs => ?_⟩
      rcases List.mem_append.1 hs with hs | hs
      · rcases h2 with h2 | h2
        · rw [h2] at hs; cases hs
        · rw [if_neg (by intro e; rw [e] at hs; cases hs)] at hr
          exact h2.le.trans (hr.2 s hs)
      · rw [List.mem_singleton.1 hs]
    · rw [if_neg h2] at hr
      rw [h1]
      refine ⟨List.mem_append_left _ hr.1, fun s hs => ?_⟩
      rcases List.mem_append.1 hs with hs | hs
      · exact hr.2 s hs
      · rw [List.mem_singleton.1 hs]; exact h3
  · rw [if_neg hj, List.append_nil, hne j (Ne.symm hj)]
    exact h j

private theorem logInv_step {threads : Nat} (hth : 0 < threads) {maxK : K} {cfg : Config K} (hmax : ∀ v, cfg.fitness v < maxK) {k₀ : Nat}
    {first : SffsState K} {log : List (Report K)} {c c' : Conf K} {o : Option (Report K)} (hi : Inv maxK cfg c)
    (hl : LogInv maxK cfg k₀ first log c) (hs : ReportStep threads maxK cfg c o c') : LogInv maxK cfg k₀ first (log ++ o.toList) c' := by
  have hsize : ∀ j, 0 < cfg.bits → ((c.ks j).data.size = 0 ↔ seen k₀ first log j = []) := by
    intro j hk
    have hj := hl.slots j
    constructor
    · intro h
      by_contra hne
      rw [if_neg hne] at hj
      have := (hl.good j _ hj.1).1.size
      omega
    · intro h
      rw [if_pos h] at hj
      rw [hj]; rfl
  have hgood : ∀ r : Report K, (HasCount cfg.bits r.k r.new.data ∧ r.new.score = cfg.fitness r.new.data) →
      ∀ j, ∀ s ∈ seen k₀ first (log ++ [r]) j, HasCount cfg.bits j s.data ∧ s.score = cfg.fitness s.data := by
    intro r hr j s hs
    rw [seen_append] at hs
    rcases List.mem_append.1 hs with hs | hs
    · exact hl.good j s hs
    · split at hs
      · next he => rw [List.mem_singleton.1 hs, ← he]; exact hr
      · cases hs
  cases hs with
  | silent _ h hk =>
    rw [Option.toList_none, List.append_nil]
    have hks : c'.ks = c.ks := by
      cases h with
      | backward h hk' => exfalso; dsimp only at hk; omega
      | forward h => exfalso; dsimp only at hk; omega
      | _ => rfl
    refine ⟨hk.trans hl.cur, by rw [hks]; exact hl.slots, hl.honest, hl.good, fun h0 => by rw [hk]; exact hl.below h0, fun h0 => ⟨(hl.none h0).1, ?_⟩, fun r hr => ?_⟩
    rotate_left
    · cases h with
      | ret h hk' => exact hk'
      | _ => cases hr
    have hk0 : c.k = k₀ := by rw [hl.cur, (hl.none h0).1]; rfl
    have hpc := (hl.none h0).2
    cases h with
    | enter h hk' => omega
    | ret h hk' => exact Or.inr ⟨_, rfl⟩
    | leave h _ => rw [h] at hpc; rcases hpc with hpc | ⟨r, hpc⟩ <;> cases hpc
    | backward h _ => rw [h] at hpc; rcases hpc with hpc | ⟨r, hpc⟩ <;> cases hpc
    | noBackward h _ => rw [h] at hpc; rcases hpc with hpc | ⟨r, hpc⟩ <;> cases hpc
    | forward h => rw [h] at hpc; rcases hpc with hpc | ⟨r, hpc⟩ <;> cases hpc
    | crashBackward h _ => rw [h] at hpc; rcases hpc with hpc | ⟨r, hpc⟩ <;> cases hpc
    | crashForward h _ => rw [h] at hpc; rcases hpc with hpc | ⟨r, hpc⟩ <;> cases hpc
  | backward h hk tests new ht hn hb =>
    rw [Option.toList_some]
    have hroom := hi.room (.inl h)
    have hbits : 0 < cfg.bits := by omega
    have hnew := new_good hth hmax hi false (fun _ => by omega) (by simp) tests new ht hn
    simp only [Bool.false_eq_true, if_false] at hnew
    rw [hsize _ hbits] at hb
    refine ⟨(cardinalityAfter_append k₀ log ⟨c.k - 1, new, c.ks (c.k - 1)⟩).symm, slots_append hl.slots (fun j hj => if_neg hj) (Or.inl ⟨if_pos rfl, hb⟩),
      honest_append hl.honest ⟨hnew, Or.inr ⟨by rw [← hl.cur]; dsimp only; omega, fun s hs => ?_⟩, hl.slots _⟩, hgood _ hnew, fun h0 => ?_, fun h0 => ?_, fun r hr => by cases hr⟩
    · have hsl := hl.slots (c.k - 1)
      rw [if_neg (by intro e; dsimp only at hs; rw [e] at hs; cases hs)] at hsl
      rcases hb with hb | hb
      · dsimp only at hs; rw [hb] at hs; cases hs
      · exact hb.trans_le (hsl.2 s hs)
    · have := hl.below h0; dsimp only; omega
    · have := (hl.none h0).2
      rw [h] at this; rcases this with this | ⟨r, this⟩ <;> cases this
  | forward h tests new ht hn =>
    rw [Option.toList_some]
    have hroom := hi.room (.inr h)
    have hbits : 0 < cfg.bits := by omega
    have hnew := new_good hth hmax hi true (by simp) (fun _ => by omega) tests new ht hn
    simp only [if_true] at hnew
    have hsz := hsize (c.k + 1) hbits
    refine ⟨(cardinalityAfter_append k₀ log ⟨c.k + 1, new, c.ks (c.k + 1)⟩).symm, slots_append hl.slots (fun j hj => ?_) ?_,
      honest_append hl.honest ⟨hnew, Or.inl (by rw [← hl.cur]), hl.slots _⟩, hgood _ hnew, fun h0 => ?_, fun h0 => ?_, fun r hr => by cases hr⟩
    · dsimp only at hj ⊢
      split
      · exact if_neg hj
      · rfl
    · dsimp only
      by_cases hb : (c.ks (c.k + 1)).data.size = 0 ∨ new.score < (c.ks (c.k + 1)).score
      · rw [if_pos hb]
        rw [hsz] at hb
        exact Or.inl ⟨if_pos rfl, hb⟩
      · rw [if_neg hb]
        push Not at hb
        exact Or.inr ⟨rfl, fun e => hb.1 (hsz.2 e), hb.2⟩
    · dsimp only; omega
    · have := (hl.none h0).2
      rw [h] at this; rcases this with this | ⟨r, this⟩ <;> cases this

/-- C130. The progress lines of the search, for every fitness function and schedule.  Each line is honest: the new state has the `k` bits
and the score printed, `k` changes by one from line to line, downwards only when something better than everything seen with so few bits was
found, and the old score is the best seen before with this number of bits.  At the end the result is one of the states printed or the seed,
and the best of them; if the seed has fewer than `max` bits the last line has `k = max`, otherwise there are no lines. -/
theorem C130_progress (threads : Nat) (hth : 0 < threads) (maxK : K) (cfg : Config K) (hmax : ∀ v, cfg.fitness v < maxK) (hseed : SeedOk cfg) :
    ∃ c₀ k₀, start maxK cfg = .ok c₀ ∧ HasCount cfg.bits k₀ (firstVector cfg) ∧ ∀ log c, Reported threads maxK cfg c₀ log c →
      (∀ (i : Nat) (r : Report K), log[i]? = some r → HonestReport maxK cfg k₀ ⟨firstVector cfg, cfg.fitness (firstVector cfg)⟩ (log.take i) r) ∧
      ∀ res, c.pc = .returned res →
        (res = ⟨firstVector cfg, cfg.fitness (firstVector cfg)⟩ ∨ ∃ r ∈ log, res = r.new) ∧
        res.score ≤ cfg.fitness (firstVector cfg) ∧ (∀ r ∈ log, res.score ≤ r.new.score) ∧
        (if k₀ < min cfg.bits cfg.max then cardinalityAfter k₀ log = min cfg.bits cfg.max else log = []) := by
  obtain ⟨c₀, h1, h2, h3, h4⟩ := start_ok maxK cfg hseed
  have hst : ((firstVector cfg).count >>= fun k => .ok ⟨setKey (fun _ => blank maxK) k
      ⟨firstVector cfg, cfg.fitness (firstVector cfg)⟩, k, .outer, [firstVector cfg]⟩) = Except.ok c₀ := by
    rw [← h1]; unfold start firstVector; cases cfg.seed <;> rfl
  have hc0 : ∃ k, c₀ = ⟨setKey (fun _ => blank maxK) k ⟨firstVector cfg, cfg.fitness (firstVector cfg)⟩, k, .outer, [firstVector cfg]⟩ := by
    cases hc : (firstVector cfg).count with
    | error f => rw [hc] at hst; cases hst
    | ok k => rw [hc] at hst; exact ⟨k, (Except.ok.inj hst).symm⟩
  obtain ⟨k₀, hc0⟩ := hc0
  have hk0 : HasCount cfg.bits k₀ (firstVector cfg) := by
    have := h2.cur.1
    rw [hc0] at this
    simpa [setKey] using this
  set first : SffsState K := ⟨firstVector cfg, cfg.fitness (firstVector cfg)⟩ with hfirst
  have hinv0 : LogInv maxK cfg k₀ first [] c₀ := by
    have hseen : ∀ j, seen k₀ first [] j = if k₀ = j then [first] else [] := by
      intro j
      unfold seen
      by_cases hj : k₀ = j
      · rw [if_pos hj]; simp [hj]
      · rw [if_neg hj]; simp [hj]
    rw [hc0]
    refine ⟨rfl, fun j => ?_, fun i r h => by simp at h, fun j s hs => ?_, fun h => h.le, fun _ => ⟨rfl, Or.inl rfl⟩, fun r hr => by cases hr⟩
    · rw [hseen]
      by_cases hj : k₀ = j
      · subst hj
        rw [if_pos rfl, if_neg (by simp)]
        dsimp only [setKey]
        rw [if_pos rfl]
        exact ⟨List.mem_cons_self, fun s hs => by rw [List.mem_singleton.1 hs]⟩
      · rw [if_neg hj, if_pos rfl]
        dsimp only [setKey]
        rw [if_neg (Ne.symm hj)]
    · rw [hseen] at hs
      split at hs
      · next he => rw [List.mem_singleton.1 hs, ← he]; exact ⟨hk0, rfl⟩
      · cases hs
  refine ⟨c₀, k₀, h1, hk0, fun log c hr => ?_⟩
  obtain ⟨hi, hl⟩ : Inv maxK cfg c ∧ LogInv maxK cfg k₀ first log c := by
    induction hr with
    | start => exact ⟨h2, hinv0⟩
    | step hr hs ih =>
      refine ⟨?_, logInv_step hth hmax ih.1 ih.2 hs⟩
      obtain ⟨n, hn⟩ := reported_reach (hr.step hs)
      exact inv_reach hth hmax h2 hn
  refine ⟨hl.honest, fun res hres => ?_⟩
  have hr' := hi.ret res hres
  obtain ⟨g1, g2, g3⟩ := selectBest_spec maxK c.ks (cfg.bits + 1) (blank maxK)
  have hsel : selectBest maxK cfg.bits c.ks = (List.range (cfg.bits + 1)).foldl
    (fun best i => if (c.ks i).score < best.score then c.ks i else best) (blank maxK) := rfl
  rw [← hsel, ← hr'] at g1 g2 g3
  have hle : ∀ j, ∀ s ∈ seen k₀ first log j, res.score ≤ s.score := by
    intro j s hs
    have hj := hl.slots j
    rw [if_neg (by intro e; rw [e] at hs; cases hs)] at hj
    exact (g3 j (Nat.lt_succ_of_le (hl.good j s hs).1.le)).trans (hj.2 s hs)
  have hmem0 : first ∈ seen k₀ first log k₀ := by
    unfold seen; simp
  have hmem : ∀ r ∈ log, r.new ∈ seen k₀ first log r.k := by
    intro r hr
    unfold seen
    refine List.mem_map.2 ⟨(r.k, r.new), List.mem_filter.2 ⟨List.mem_cons_of_mem _ (List.mem_map.2 ⟨r, hr, rfl⟩), by simp⟩, rfl⟩
  have hcase : ∀ j, ∀ s ∈ seen k₀ first log j, s = first ∨ ∃ r ∈ log, s = r.new := by
    intro j s hs
    unfold seen at hs
    obtain ⟨p, hp, rfl⟩ := List.mem_map.1 hs
    rcases List.mem_cons.1 (List.mem_filter.1 hp).1 with rfl | hp
    · exact Or.inl rfl
    · obtain ⟨r, hr, rfl⟩ := List.mem_map.1 hp
      exact Or.inr ⟨r, hr, rfl⟩
  have hnb : res ≠ blank maxK := by
    rintro rfl
    exact absurd (hmax (firstVector cfg)) (not_lt.2 (hle _ _ hmem0))
  refine ⟨?_, hle _ _ hmem0, fun r hr => hle _ _ (hmem r hr), ?_⟩
  · rcases g1 with g1 | ⟨i, hi', g1⟩
    · exact absurd g1 hnb
    · have hj := hl.slots i
      by_cases he : seen k₀ first log i = []
      · rw [if_pos he] at hj
        exact absurd (g1.trans hj) hnb
      · rw [if_neg he, ← g1] at hj
        exact hcase i res hj.1
  · split
    · next hlt =>
      have hb := hl.below hlt
      rw [← hl.cur]
      have := hl.fin res hres
      omega
    · next hlt => exact (hl.none (by omega)).1

-- C130, non-vacuity: a search over four bits, whatever the threads do, ends after at least one report.
example (threads : Nat) (hth : 0 < threads) : ∃ (cfg : Config ℚ) (c₀ c : Conf ℚ) (log : List (Report ℚ)) (res : SffsState ℚ),
    (∀ v, cfg.fitness v < 5) ∧ SeedOk cfg ∧ start 5 cfg = .ok c₀ ∧ Reported threads 5 cfg c₀ log c ∧ c.pc = .returned res ∧ log ≠ [] := by
  let cfg : Config ℚ := ⟨4, fun v => if v.size = 4 then 1 else 2, none, 0, 1000⟩
  have hmax : ∀ v, cfg.fitness v < 5 := by
    intro v
    show (if v.size = 4 then (1 : ℚ) else 2) < 5
    split <;> norm_num
  have hseed : SeedOk cfg := fun s hs => by cases hs
  obtain ⟨c₀, h1, h2⟩ := C71_returns threads hth 5 cfg hmax hseed
  obtain ⟨m, c, res, h3, h4⟩ := h2 0 c₀ .start
  obtain ⟨log, hlog⟩ := C130_every_run.1 ⟨_, h3⟩
  obtain ⟨c₁, k₀, g1, g2, g3⟩ := C130_progress threads hth 5 cfg hmax hseed
  obtain rfl := Except.ok.inj (h1.symm.trans g1)
  refine ⟨cfg, c₀, c, log, res, hmax, hseed, h1, hlog, h4, ?_⟩
  rintro rfl
  have h := ((g3 [] c hlog).2 res h4).2.2.2
  have hk : k₀ = 0 := by
    refine g2.unique (m := 4) ⟨List.replicate 4 false, ?_, by simp, by decide⟩
    exact BitVector.repr_ofSize 4
  rw [hk, if_pos (by decide)] at h
  exact absurd h (by decide)

end TFR.Sffs

namespace TFR
open Spec

private theorem hbind {α β : Type} (x : α) (f : α → R β) : ((Except.ok x : R α) >>= f) = f x := rfl

/-- C130. A vector is printed as its bits, the first bit first. -/
theorem C130_bits (v : BitVector) (l : List Bool) (h : BitVector.Holds v l) :
    bitVectorText v = .ok (l.map fun b => if b then '1' else '0') := by
  have key : ∀ n, n ≤ l.length → (List.range n).foldlM (fun s i => do
      let b ← v.getBit i
      .ok (s ++ [if b then '1' else '0'])) ([] : List Char) = (.ok ((l.take n).map fun b => if b then '1' else '0') : R (List Char)) := by
    intro n
    induction n with
    | zero => intro _; rfl
    | succ n ih =>
      intro hn
      rw [List.range_succ, List.foldlM_append, ih (by omega), hbind, List.foldlM_cons, h.2 n (by omega), hbind, hbind, List.take_add_one,
        List.map_append]
      rw [List.getElem?_eq_getElem (by omega), List.getD_eq_getElem _ _ (by omega)]
      rfl
  unfold bitVectorText
  rw [h.1]
  refine (key l.length le_rfl).trans ?_
  rw [List.take_length]

/-- C130. The text of a progress line of the search for `xm2x` mixers: `k`, then the vector as a sequence of as many digits 0 and 1 as the
configuration has bits, of which `k` are ones, the constants, and the two scores. -/
theorem C130_line (t : WT) (r : Sffs.Report ℝ) (h : Sffs.HasCount (xm2xConfigBits t) r.k r.new.data) :
    ∃ bits arr : List Char, xm2xArrayText t r.new.data = .ok arr ∧
      Sffs.reportText (xm2xArrayText t) r = .ok ("k: ".toList ++ Nat.toDigits 10 r.k ++ ": ".toList ++
        (bits ++ " [ ".toList ++ arr ++ " ]".toList ++ " : ".toList ++ formatDouble r.new.score) ++ " vs ".toList ++ formatDouble r.old.score ++
        "\n".toList) ∧
      bits.length = xm2xConfigBits t ∧ bits.count '1' = r.k ∧ bits.count '0' = xm2xConfigBits t - r.k := by
  obtain ⟨l, h1, h2, h3⟩ := h
  obtain ⟨c, hc, -⟩ := C16_xm2x_decode t r.new.data l h1.holds h2
  have harr : ∃ arr, xm2xArrayText t r.new.data = .ok arr := ⟨_, by unfold xm2xArrayText; rw [hc, hbind]⟩
  obtain ⟨arr, harr⟩ := harr
  have hcount : ∀ (l : List Bool), (l.map fun b => if b then '1' else '0').count '1' = l.count true ∧
      (l.map fun b => if b then '1' else '0').count '0' = l.length - l.count true := by
    intro l
    induction l with
    | nil => exact ⟨rfl, rfl⟩
    | cons b l ih =>
      have := List.count_le_length (a := true) (l := l)
      cases b <;> simp [ih.1, ih.2]
      omega
  refine ⟨l.map fun b => if b then '1' else '0', arr, harr, ?_, by simpa using h2, by rw [(hcount l).1, h3], by rw [(hcount l).2, h2, h3]⟩
  unfold Sffs.reportText Sffs.stateText
  rw [C130_bits _ _ h1.holds, hbind, harr]
  rfl

/-- C130. The output of `-search` with words of 32 or 64 bits (`search_command` runs the first), for every list of random vectors tried for
the seed and every schedule: the results are those of the search, the output ends with the bits, the constants and the score of the result
and the code of the mixer; and somebody who copies that code has exactly the mixer that is evaluated at the end. -/
theorem C130_search (t : WT) (ht : t = .u32 ∨ t = .u64) (defs : TestType → TestDef t.bits ℝ) (analyse : Battery ℝ → List ResultAnalysis)
    (ha : Analyses analyse) (threads : Nat) (hth : 0 < threads) (eval : Mixer t.bits → BitVec 64 → Battery ℝ)
    (hposs : PossibleSearch defs threads eval) (draws : List (Nat → BitVec 64)) (hne : draws ≠ []) (tries : List BitVector)
    (htries : List.Forall₂ (fun d v => Sffs.randomBitVector (xm2xConfigBits t) d = .ok v) draws tries) (name : String) :
    let cfg : Sffs.Config ℝ := { xm2xConfig t threads analyse eval with
      seed := some (Sffs.findSeed doubleMax (xm2xConfigBits t) (xm2xConfig t threads analyse eval).fitness tries) }
    (∀ r, SearchCommand t threads analyse eval tries r ↔ ∃ text, SearchPrints threads name cfg (xm2xText t) (xm2xArrayText t) r text) ∧
    ∀ r text, SearchPrints threads name cfg (xm2xText t) (xm2xArrayText t) r text →
      ∃ (before bits arr code : List Char) (l : List Bool) (m : Mixer t.bits),
        text = .ok (before ++ (bits ++ " [ ".toList ++ arr ++ " ]".toList ++ " : ".toList ++ formatDouble r.score) ++ "\n".toList ++ code) ∧
        BitVector.Repr r.data l ∧ l.length = xm2xConfigBits t ∧ bits = l.map (fun b => if b then '1' else '0') ∧
        xm2xArrayText t r.data = .ok arr ∧ createXm2xMixer t r.data = .ok m ∧ codeMeaning t.bits code = some m.mix := by
  intro cfg
  have ht16 : t ≠ .u16 := by rcases ht with rfl | rfl <;> decide
  have ht8 : t ≠ .u8 := by rcases ht with rfl | rfl <;> decide
  have hmax := fitness_lt_max t defs analyse ha threads eval hposs
  have hne' : tries ≠ [] := by
    intro h; rw [h] at htries; cases htries; exact hne rfl
  obtain ⟨hmem, -⟩ := (Sffs.C71_find_seed doubleMax (xm2xConfigBits t) (xm2xConfig t threads analyse eval).fitness hmax tries).2 hne'
  set seed := Sffs.findSeed doubleMax (xm2xConfigBits t) (xm2xConfig t threads analyse eval).fitness tries with hseed
  have hcount := tries_hasCount (xm2xConfigBits t) draws tries htries seed hmem
  have hok : Sffs.SeedOk cfg := by
    intro s hs
    obtain rfl : seed = s := Option.some.inj hs
    exact hcount
  have hsz : (seed.size != xm2xConfigBits t) = false := by
    obtain ⟨j, hj⟩ := hcount
    simp [hj.size]
  have hfilter : (cfg.seed.filter fun s => s.size != cfg.bits) = none := by
    show ((some seed).filter fun s => s.size != xm2xConfigBits t) = none
    rw [Option.filter_some, if_neg (by rw [hsz]; decide)]
  have hany : ¬ (cfg.seed.any fun s => s.size != cfg.bits) = true := by
    show ¬ ((seed.size != xm2xConfigBits t) = true)
    rw [hsz]; decide
  have hcmd : ∀ r, SearchCommand t threads analyse eval tries r ↔
      ∃ c₀ n c, Sffs.start doubleMax cfg = .ok c₀ ∧ Sffs.Reach threads doubleMax cfg c₀ n c ∧ c.pc = .returned r := by
    intro r
    show StartSearch threads cfg r ↔ _
    unfold StartSearch
    rw [if_neg hany]
  have hcode : ∀ v, (∃ j, Sffs.HasCount (xm2xConfigBits t) j v) → ∃ text, xm2xText t v = .ok text := by
    rintro v ⟨j, l, h1, h2, -⟩
    obtain ⟨c, text, f, -, h, -⟩ := (C130_code t ht8 v l h1.holds).2.1 h2
    exact ⟨text, h⟩
  refine ⟨fun r => ?_, fun r text h => ?_⟩
  · rw [hcmd]
    unfold SearchPrints
    rw [hfilter]
    constructor
    · rintro ⟨c₀, n, c, h1, h2, h3⟩
      obtain ⟨log, hlog⟩ := Sffs.C130_every_run.1 ⟨n, h2⟩
      exact ⟨_, c₀, log, c, h1, hlog, h3, rfl⟩
    · rintro ⟨text, c₀, log, c, h1, h2, h3, -⟩
      obtain ⟨n, hn⟩ := Sffs.reported_reach h2
      exact ⟨c₀, n, c, h1, hn, h3⟩
  · unfold SearchPrints at h
    rw [hfilter] at h
    obtain ⟨c₀, log, c, h1, h2, h3, rfl⟩ := h
    obtain ⟨n, hn⟩ := Sffs.reported_reach h2
    have hr : SearchCommand t threads analyse eval tries r := (hcmd r).2 ⟨c₀, n, c, h1, hn, h3⟩
    obtain ⟨⟨m, hm, -⟩, -⟩ := (C106_search t ht16 defs analyse ha threads hth eval hposs draws hne tries htries).2 r hr
    obtain ⟨c₁, k₀, g1, -, g3⟩ := Sffs.C130_progress threads hth doubleMax cfg hmax hok
    obtain rfl := Except.ok.inj (h1.symm.trans g1)
    obtain ⟨hhon, hend⟩ := g3 log c h2
    obtain ⟨c₂, g4, g5⟩ := Sffs.C71_result threads hth doubleMax cfg hmax hok
    obtain rfl := Except.ok.inj (h1.symm.trans g4)
    obtain ⟨⟨j, l, hl1, hl2, hl3⟩, -⟩ := g5 n c r hn h3
    have hl2 : l.length = xm2xConfigBits t := hl2
    obtain ⟨cc, code, f, e1, e2, e3, e4⟩ := (C130_code t ht8 r.data l hl1.holds).2.1 hl2
    obtain ⟨cc', arr, e1', e2', -⟩ := (C130_constants t ht8 r.data l hl1.holds).2.1 hl2
    have hhead : ∃ heading, searchHeading name cfg (xm2xText t) = .ok heading := by
      obtain ⟨sc, hsc⟩ := hcode seed hcount
      unfold searchHeading
      have hcs : cfg.seed = some seed := rfl
      rw [hcs]
      dsimp only
      rw [hsc, hbind, hbind]
      exact ⟨_, rfl⟩
    obtain ⟨heading, hheading⟩ := hhead
    have hlines : ∃ lines, log.mapM (Sffs.reportText (xm2xArrayText t)) = .ok lines := by
      have hall : ∀ r ∈ log, ∃ line, Sffs.reportText (xm2xArrayText t) r = .ok line := by
        intro r hr
        obtain ⟨i, hi⟩ := List.getElem?_of_mem hr
        obtain ⟨bits, arr, -, h, -⟩ := C130_line t r (hhon i r hi).new.1
        exact ⟨_, h⟩
      clear h2 hhon hend g3
      induction log with
      | nil => exact ⟨[], rfl⟩
      | cons r log ih =>
        obtain ⟨line, hline⟩ := hall r List.mem_cons_self
        obtain ⟨lines, hlines⟩ := ih fun r hr => hall r (List.mem_cons_of_mem _ hr)
        refine ⟨line :: lines, ?_⟩
        rw [List.mapM_cons, hline, hbind, hlines]; rfl
    obtain ⟨lines, hlines⟩ := hlines
    refine ⟨heading ++ lines.flatten, _, arr, code, l, m, ?_, hl1, hl2, rfl, e2', hm, ?_⟩
    · rw [hheading, hbind, hlines, hbind]
      unfold Sffs.stateText
      rw [C130_bits _ _ hl1.holds, hbind, e2', hbind, hbind, e2, hbind]
    · rw [e3]
      refine congrArg some (funext fun x => ?_)
      unfold createXm2xMixer at hm
      rw [e1, hbind] at hm
      split at hm
      · next hex =>
        have hx := hex.choose_spec x
        rw [← Except.ok.inj hm]
        rcases e4 x with e4 | ⟨h16, -⟩
        · exact Except.ok.inj (e4.symm.trans hx)
        · exact absurd h16 ht16
      · cases hm

-- C130, non-vacuity: the assumptions of C130_search hold together, and there is an output.
example (threads : Nat) (hth : 0 < threads) : ∃ (defs : TestType → TestDef WT.u32.bits ℝ) (eval : Mixer WT.u32.bits → BitVec 64 → Battery ℝ)
    (analyse : Battery ℝ → List ResultAnalysis) (v : BitVector) (r : Sffs.SffsState ℝ) (text : R (List Char)),
    Analyses analyse ∧ PossibleSearch defs threads eval ∧
    List.Forall₂ (fun d v => Sffs.randomBitVector (xm2xConfigBits .u32) d = .ok v) [fun i => BitVec.ofNat 64 (i / 3)] [v] ∧
    SearchPrints threads "NAME HERE" { xm2xConfig .u32 threads analyse eval with
      seed := some (Sffs.findSeed doubleMax (xm2xConfigBits .u32) (xm2xConfig .u32 threads analyse eval).fitness [v]) }
      (xm2xText .u32) (xm2xArrayText .u32) r text := by
  obtain ⟨defs, eval, last, analyse, v, r, h1, h2, -, h3, h4⟩ := search_assumptions threads threads hth hth
  obtain ⟨text, ht⟩ := ((C130_search .u32 (Or.inl rfl) defs analyse h1 threads hth eval h2 _ (by simp) [v] h3 "NAME HERE").1 r).1 h4
  exact ⟨defs, eval, analyse, v, r, text, h1, h2, h3, ht⟩

end TFR
