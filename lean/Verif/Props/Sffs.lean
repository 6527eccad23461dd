import Verif.Model.Sffs
import Verif.Props.BitVector
import Verif.Props.Jobs
import Mathlib.Data.Fintype.Vector
import Mathlib.Data.Set.Card
import Mathlib.Tactic.Linarith
import Mathlib.Tactic.Ring
import Mathlib.Tactic.IntervalCases
import Mathlib.Algebra.Order.BigOperators.Group.Finset
/-
C71: the floating search (SFFS), for every fitness function and every schedule of the worker threads.
-/
namespace TFR.Sffs
open TFR.BitVector

variable {K : Type} [LinearOrder K]

/-- Specification: `v` is a well-formed vector of `n` bits of which exactly `j` are set. -/
def HasCount (n j : Nat) (v : BitVector) : Prop := ∃ l : List Bool, BitVector.Repr v l ∧ l.length = n ∧ l.count true = j

/-- Specification: the vectors one gets from `l` by changing one bit to `b`, in the order of the bit. -/
def neighbours (l : List Bool) (b : Bool) : List (List Bool) :=
  (List.range l.length).filterMap (fun i => if l.getD i false = b then none else some (l.set i b))

theorem repr_unique {u v : BitVector} {l : List Bool} (hu : BitVector.Repr u l) (hv : BitVector.Repr v l) : u = v := by
  obtain ⟨ub, ud⟩ := u
  obtain ⟨vb, vd⟩ := v
  obtain ⟨h1, h2, h3⟩ := hu
  obtain ⟨g1, g2, g3⟩ := hv
  simp only at h1 h2 h3 g1 g2 g3
  have : ud = vd := by
    apply List.ext_getElem (by omega)
    intro i hi hi'
    apply BitVec.eq_of_getLsbD_eq
    intro j hj
    have e := (h3 (8 * i + j)).trans (g3 (8 * i + j)).symm
    unfold dataBit at e
    rw [show (8 * i + j) / 8 = i by omega, show (8 * i + j) % 8 = j by omega,
      List.getD_eq_getElem _ _ hi, List.getD_eq_getElem _ _ hi'] at e
    exact e
  subst this
  rw [h1, g1]

theorem candidates_aux {v : BitVector} {l : List Bool} (h : BitVector.Repr v l) (b : Bool) (m : Nat) (hm : m ≤ l.length) :
    ∃ js, candidates m v b = .ok js ∧ List.Forall₂ BitVector.Repr js
      ((List.range m).filterMap (fun i => if l.getD i false = b then none else some (l.set i b))) := by
  induction m with
  | zero => exact ⟨[], rfl, by simp⟩
  | succ m ih =>
    obtain ⟨js, h1, h2⟩ := ih (by omega)
    have hb := getBit_repr h m (by omega)
    unfold candidates at h1 ⊢
    rw [List.range_succ, List.foldlM_append, h1]
    rw [List.filterMap_append]
    simp only [List.foldlM_cons, List.foldlM_nil]
    by_cases hc : l.getD m false = b
    · refine ⟨js, ?_, ?_⟩
      · show (v.getBit m >>= _) >>= _ = _
        rw [hb, hc]
        show (if (b == b) = true then (Except.ok js : R _) else _) >>= _ = _
        rw [if_pos (by simp)]; rfl
      · simp only [List.filterMap_cons, List.filterMap_nil, if_pos hc]
        simpa using h2
    · obtain ⟨u, hu, hr⟩ := setBit_repr h m (by omega) b
      refine ⟨js ++ [u], ?_, ?_⟩
      · show (v.getBit m >>= _) >>= _ = _
        rw [hb]
        show (if (l.getD m false == b) = true then (Except.ok js : R _) else _) >>= _ = _
        rw [if_neg (by simpa using hc), hu]; rfl
      · simp only [List.filterMap_cons, List.filterMap_nil, if_neg hc]
        exact List.rel_append h2 (List.Forall₂.cons hr .nil)

/-- The vectors tried by one round are exactly the one-bit changes of the current vector in the given direction. -/
theorem C71_candidates {v : BitVector} {l : List Bool} (h : BitVector.Repr v l) (b : Bool) :
    ∃ tests, candidates l.length v b = .ok tests ∧ List.Forall₂ BitVector.Repr tests (neighbours l b) :=
  candidates_aux h b l.length le_rfl

theorem count_set (l : List Bool) (i : Nat) (hi : i < l.length) (b : Bool) (h : l.getD i false ≠ b) :
    (l.set i b).count true + (if b then 0 else 1) = l.count true + (if b then 1 else 0) := by
  induction l generalizing i with
  | nil => simp at hi
  | cons a l ih =>
    cases i with
    | zero => cases a <;> cases b <;> simp_all
    | succ i =>
      have := ih i (by simpa using hi) (by simpa using h)
      simp only [List.set_cons_succ, List.count_cons]
      omega

theorem mem_neighbours {l n : List Bool} {b : Bool} (h : n ∈ neighbours l b) :
    n.length = l.length ∧ n.count true + (if b then 0 else 1) = l.count true + (if b then 1 else 0) := by
  unfold neighbours at h
  rw [List.mem_filterMap] at h
  obtain ⟨i, hi, he⟩ := h
  rw [List.mem_range] at hi
  by_cases hc : l.getD i false = b
  · rw [if_pos hc] at he; exact absurd he (by simp)
  · rw [if_neg hc] at he
    obtain rfl := Option.some.inj he
    exact ⟨by simp, count_set l i hi b hc⟩

theorem neighbours_ne_nil {l : List Bool} {b : Bool} (h : ∃ i, i < l.length ∧ l.getD i false ≠ b) :
    neighbours l b ≠ [] := by
  obtain ⟨i, hi, hne⟩ := h
  intro he
  have : l.set i b ∈ neighbours l b := by
    unfold neighbours
    rw [List.mem_filterMap]
    exact ⟨i, by simpa using hi, by rw [if_neg hne]⟩
  rw [he] at this; simp at this

theorem exists_true {l : List Bool} (h : 0 < l.count true) : ∃ i, i < l.length ∧ l.getD i false ≠ false := by
  have := List.count_pos_iff.1 h
  obtain ⟨i, hi, he⟩ := List.getElem_of_mem this
  exact ⟨i, hi, by rw [List.getD_eq_getElem _ _ hi, he]; simp⟩

theorem exists_false {l : List Bool} (h : l.count true < l.length) : ∃ i, i < l.length ∧ l.getD i false ≠ true := by
  by_contra hc
  push Not at hc
  have : l.count true = l.length := by
    rw [List.count_eq_length]
    intro x hx
    obtain ⟨i, hi, he⟩ := List.getElem_of_mem hx
    have := hc i hi
    rw [List.getD_eq_getElem _ _ hi, he] at this
    exact this.symm
  omega

theorem foldl_keepBest (l : List (SffsState K)) (b : SffsState K) :
    (l.foldl keepBest b = b ∨ l.foldl keepBest b ∈ l) ∧ (l.foldl keepBest b).score ≤ b.score ∧
      ∀ x ∈ l, (l.foldl keepBest b).score ≤ x.score := by
  induction l generalizing b with
  | nil => simp
  | cons a l ih =>
    simp only [List.foldl_cons]
    obtain ⟨h1, h2, h3⟩ := ih (keepBest b a)
    have h4 : (keepBest b a = b ∨ keepBest b a = a) ∧ (keepBest b a).score ≤ b.score ∧ (keepBest b a).score ≤ a.score := by
      unfold keepBest
      split
      · exact ⟨.inr rfl, le_of_lt ‹_›, le_rfl⟩
      · exact ⟨.inl rfl, le_rfl, not_lt.1 ‹_›⟩
    refine ⟨?_, h2.trans h4.2.1, ?_⟩
    · rcases h1 with h1 | h1
      · rw [h1]; rcases h4.1 with h | h <;> simp [h]
      · simp [h1]
    · intro x hx
      rcases List.mem_cons.1 hx with rfl | hx
      · exact h2.trans h4.2.2
      · exact h3 x hx

/-- For every schedule of the worker threads, one round returns a tested vector together with its fitness, and no
tested vector has a smaller fitness. -/
theorem C71_best_candidate (threads : Nat) (ht : 0 < threads) (maxK : K) (fitness : BitVector → K)
    (hmax : ∀ v, fitness v < maxK) (tests : List BitVector) (hne : tests ≠ []) (r : SffsState K)
    (h : GetState threads maxK fitness tests r) :
    r.data ∈ tests ∧ r.score = fitness r.data ∧ ∀ v ∈ tests, r.score ≤ fitness v := by
  obtain ⟨n, c, hc, hret, rfl⟩ := h
  have hp := (Jobs.C33_exactly_once (job fitness) tests threads ht n c hc hret).2.1
  obtain ⟨h1, h2, h3⟩ := foldl_keepBest c.collected (blank maxK)
  have hmem : ∀ x, x ∈ c.collected ↔ ∃ v ∈ tests, x = ⟨v, fitness v⟩ := by
    intro x
    rw [hp.mem_iff, List.mem_flatMap]
    simp [job]
  have h3' : ∀ v ∈ tests, (c.collected.foldl keepBest (blank maxK)).score ≤ fitness v := by
    intro v hv
    exact h3 ⟨v, fitness v⟩ ((hmem _).2 ⟨v, hv, rfl⟩)
  rcases h1 with h1 | h1
  · exfalso
    obtain ⟨v, hv⟩ := List.exists_mem_of_ne_nil _ hne
    have := h3' v hv
    rw [h1] at this
    exact absurd (hmax v) (not_lt.2 this)
  · obtain ⟨v, hv, he⟩ := (hmem _).1 h1
    refine ⟨?_, ?_, h3'⟩
    · rw [he]; exact hv
    · rw [he]

theorem getState_exists (threads : Nat) (maxK : K) (fitness : BitVector → K) (tests : List BitVector) :
    ∃ r, GetState threads maxK fitness tests r := by
  obtain ⟨m, c, hc, hr⟩ := Jobs.C34_returns (job fitness) (Jobs.threadCount tests threads) tests 0 _ .start
  exact ⟨_, 0 + m, c, hc, hr, rfl⟩

/-- What the map may hold at key `j`. -/
def Good (cfg : Config K) (j : Nat) (s : SffsState K) : Prop :=
  HasCount cfg.bits j s.data ∧ s.score = cfg.fitness s.data

structure Inv (maxK : K) (cfg : Config K) (c : Conf K) : Prop where
  nofault : ∀ f, c.pc ≠ .fault f
  slots : ∀ j, c.ks j = blank maxK ∨ Good cfg j (c.ks j)
  cur : Good cfg c.k (c.ks c.k)
  room : c.pc = .inner ∨ c.pc = .forward → c.k < min cfg.bits cfg.max
  best : ∀ v ∈ c.evaluated, ∃ j, HasCount cfg.bits j v ∧ Good cfg j (c.ks j) ∧ (c.ks j).score ≤ cfg.fitness v
  ret : ∀ r, c.pc = .returned r → r = selectBest maxK cfg.bits c.ks

theorem HasCount.le {n j : Nat} {v : BitVector} (h : HasCount n j v) : j ≤ n := by
  obtain ⟨l, _, rfl, rfl⟩ := h; exact List.count_le_length

theorem HasCount.size {n j : Nat} {v : BitVector} (h : HasCount n j v) : v.size = n := by
  obtain ⟨l, hr, rfl, _⟩ := h; exact hr.1

theorem HasCount.unique {n m j i : Nat} {v : BitVector} (h : HasCount n j v) (h' : HasCount m i v) : j = i := by
  obtain ⟨l, hr, rfl, rfl⟩ := h
  obtain ⟨l', hr', rfl, rfl⟩ := h'
  have h1 := count_repr hr
  have h2 := count_repr hr'
  rw [h1] at h2
  exact Except.ok.inj h2

theorem round {cfg : Config K} {j : Nat} {v : BitVector} (h : HasCount cfg.bits j v) (b : Bool) :
    ∃ tests, candidates cfg.bits v b = .ok tests ∧
      (∀ t ∈ tests, ∃ i, HasCount cfg.bits i t ∧ i + (if b then 0 else 1) = j + (if b then 1 else 0)) ∧
      ((b = false → 0 < j) → (b = true → j < cfg.bits) → tests ≠ []) := by
  obtain ⟨l, hr, hl, hc⟩ := h
  obtain ⟨tests, h1, h2⟩ := C71_candidates hr b
  refine ⟨tests, by rw [← hl]; exact h1, ?_, ?_⟩
  · intro t ht
    obtain ⟨i, hi, he⟩ := List.getElem_of_mem ht
    have hi' : i < (neighbours l b).length := by rw [← h2.length_eq]; exact hi
    have hrel := h2.get hi hi'
    have hm := mem_neighbours (List.getElem_mem hi')
    simp only [List.get_eq_getElem] at hrel
    rw [he] at hrel
    refine ⟨_, ⟨_, hrel, by rw [hm.1, hl], rfl⟩, ?_⟩
    rw [hm.2, hc]
  · intro hf ht hnil
    have : neighbours l b ≠ [] := by
      apply neighbours_ne_nil
      cases b with
      | false => exact exists_true (by rw [hc]; exact hf rfl)
      | true => exact exists_false (by rw [hc, hl]; exact ht rfl)
    rw [hnil] at h2
    cases h2' : neighbours l b with
    | nil => exact this h2'
    | cons x xs => rw [h2'] at h2; cases h2

theorem Good.ne_blank {maxK : K} {cfg : Config K} {j : Nat} {s : SffsState K} (hmax : ∀ v, cfg.fitness v < maxK)
    (h : Good cfg j s) : s ≠ blank maxK := by
  rintro rfl
  have := h.2
  have h2 := hmax (blank maxK).data
  rw [← this] at h2
  exact lt_irrefl _ h2

/-- The effect of storing `new` at key `i`, when it is better than what is there. -/
theorem best_setKey {cfg : Config K} {ks : Nat → SffsState K} {ev tests : List BitVector} {i : Nat} {new : SffsState K}
    (hnew : Good cfg i new)
    (hb : ¬ Good cfg i (ks i) ∨ new.score ≤ (ks i).score)
    (hev : ∀ v ∈ ev, ∃ j, HasCount cfg.bits j v ∧ Good cfg j (ks j) ∧ (ks j).score ≤ cfg.fitness v)
    (ht : ∀ v ∈ tests, HasCount cfg.bits i v ∧ new.score ≤ cfg.fitness v) :
    ∀ v ∈ ev ++ tests, ∃ j, HasCount cfg.bits j v ∧ Good cfg j (setKey ks i new j) ∧
      (setKey ks i new j).score ≤ cfg.fitness v := by
  intro v hv
  rcases List.mem_append.1 hv with hv | hv
  · obtain ⟨j, h1, h2, h3⟩ := hev v hv
    by_cases hj : j = i
    · subst hj
      refine ⟨j, h1, by simpa [setKey] using hnew, ?_⟩
      rcases hb with hb | hb
      · exact absurd h2 hb
      · simp only [setKey, if_true]; exact hb.trans h3
    · exact ⟨j, h1, by simpa [setKey, hj] using h2, by simpa [setKey, hj] using h3⟩
  · obtain ⟨h1, h2⟩ := ht v hv
    exact ⟨i, h1, by simpa [setKey] using hnew, by simpa [setKey] using h2⟩

theorem slots_setKey {maxK : K} {cfg : Config K} {ks : Nat → SffsState K} {i : Nat} {new : SffsState K}
    (hnew : Good cfg i new) (h : ∀ j, ks j = blank maxK ∨ Good cfg j (ks j)) (j : Nat) :
    setKey ks i new j = blank maxK ∨ Good cfg j (setKey ks i new j) := by
  by_cases hj : j = i
  · subst hj; right; simpa [setKey] using hnew
  · simpa [setKey, hj] using h j

theorem inv_step {threads : Nat} (hth : 0 < threads) {maxK : K} {cfg : Config K} (hmax : ∀ v, cfg.fitness v < maxK)
    {c c' : Conf K} (hi : Inv maxK cfg c) (hs : Step threads maxK cfg c c') : Inv maxK cfg c' := by
  cases hs with
  | enter h hk => exact ⟨by simp, hi.slots, hi.cur, fun _ => hk, hi.best, by simp⟩
  | ret h hk =>
    refine ⟨by simp, hi.slots, hi.cur, by simp, hi.best, ?_⟩
    intro r hr; simp only [Pc.returned.injEq] at hr; exact hr.symm
  | leave h hk => exact ⟨by simp, hi.slots, hi.cur, fun _ => hi.room (.inl h), hi.best, by simp⟩
  | backward h hk tests new ht hn hb =>
    have hkpos : 0 < c.k := by omega
    have hroom := hi.room (.inl h)
    obtain ⟨tests', h1, h2, h3⟩ := round hi.cur.1 false
    rw [ht] at h1
    obtain rfl := Except.ok.inj h1
    have hne := h3 (fun _ => hkpos) (by simp)
    obtain ⟨hm, hsc, hle⟩ := C71_best_candidate threads hth maxK cfg.fitness hmax tests hne new hn
    have hcnt : ∀ t ∈ tests, HasCount cfg.bits (c.k - 1) t := by
      intro t htm
      obtain ⟨i, hi1, hi2⟩ := h2 t htm
      have : i = c.k - 1 := by simp at hi2; omega
      exact this ▸ hi1
    have hgood : Good cfg (c.k - 1) new := ⟨hcnt _ hm, hsc⟩
    refine ⟨by simp, slots_setKey hgood hi.slots, by simpa [setKey] using hgood, ?_, ?_, by simp⟩
    · intro _; show c.k - 1 < _; omega
    · refine best_setKey hgood ?_ hi.best (fun v hv => ⟨hcnt v hv, hle v hv⟩)
      rcases hb with hb | hb
      · left; intro hg
        have := hg.1.size
        have : 0 < cfg.bits := by omega
        omega
      · exact .inr hb.le
  | noBackward h hk tests new ht hn hb =>
    have hkpos : 0 < c.k := by omega
    obtain ⟨tests', h1, h2, h3⟩ := round hi.cur.1 false
    rw [ht] at h1
    obtain rfl := Except.ok.inj h1
    have hne := h3 (fun _ => hkpos) (by simp)
    obtain ⟨hm, hsc, hle⟩ := C71_best_candidate threads hth maxK cfg.fitness hmax tests hne new hn
    have hcnt : ∀ t ∈ tests, HasCount cfg.bits (c.k - 1) t := by
      intro t htm
      obtain ⟨i, hi1, hi2⟩ := h2 t htm
      have : i = c.k - 1 := by simp at hi2; omega
      exact this ▸ hi1
    push Not at hb
    have hgood : Good cfg (c.k - 1) (c.ks (c.k - 1)) := by
      rcases hi.slots (c.k - 1) with hs | hs
      · exfalso; apply hb.1; rw [hs]; rfl
      · exact hs
    refine ⟨by simp, hi.slots, hi.cur, fun _ => hi.room (.inl h), ?_, by simp⟩
    intro v hv
    rcases List.mem_append.1 hv with hv | hv
    · exact hi.best v hv
    · exact ⟨c.k - 1, hcnt v hv, hgood, hb.2.trans (hle v hv)⟩
  | forward h tests new ht hn =>
    have hroom := hi.room (.inr h)
    obtain ⟨tests', h1, h2, h3⟩ := round hi.cur.1 true
    rw [ht] at h1
    obtain rfl := Except.ok.inj h1
    have hne := h3 (by simp) (fun _ => by omega)
    obtain ⟨hm, hsc, hle⟩ := C71_best_candidate threads hth maxK cfg.fitness hmax tests hne new hn
    have hcnt : ∀ t ∈ tests, HasCount cfg.bits (c.k + 1) t := by
      intro t htm
      obtain ⟨i, hi1, hi2⟩ := h2 t htm
      have : i = c.k + 1 := by simp at hi2; omega
      exact this ▸ hi1
    have hgood : Good cfg (c.k + 1) new := ⟨hcnt _ hm, hsc⟩
    by_cases hb : (c.ks (c.k + 1)).data.size = 0 ∨ new.score < (c.ks (c.k + 1)).score
    · rw [if_pos hb]
      refine ⟨by simp, slots_setKey hgood hi.slots, by simpa [setKey] using hgood, by simp, ?_, by simp⟩
      refine best_setKey hgood ?_ hi.best (fun v hv => ⟨hcnt v hv, hle v hv⟩)
      rcases hb with hb | hb
      · left; intro hg
        have := hg.1.size
        have : 0 < cfg.bits := by omega
        omega
      · exact .inr hb.le
    · rw [if_neg hb]
      push Not at hb
      have hg : Good cfg (c.k + 1) (c.ks (c.k + 1)) := by
        rcases hi.slots (c.k + 1) with hs | hs
        · exfalso; apply hb.1; rw [hs]; rfl
        · exact hs
      refine ⟨by simp, hi.slots, hg, by simp, ?_, by simp⟩
      intro v hv
      rcases List.mem_append.1 hv with hv | hv
      · exact hi.best v hv
      · exact ⟨c.k + 1, hcnt v hv, hg, hb.2.trans (hle v hv)⟩
  | crashBackward h hk f ht =>
    obtain ⟨tests', h1, _⟩ := round hi.cur.1 false
    rw [ht] at h1; cases h1
  | crashForward h f ht =>
    obtain ⟨tests', h1, _⟩ := round hi.cur.1 true
    rw [ht] at h1; cases h1

/-- The seed is absent or a well-formed vector of the configured size (`start_search` checks the size). -/
def SeedOk (cfg : Config K) : Prop := ∀ s, cfg.seed = some s → ∃ j, HasCount cfg.bits j s

/-- The vector the search starts from. -/
def firstVector (cfg : Config K) : BitVector := cfg.seed.getD (BitVector.ofSize cfg.bits)

theorem start_ok (maxK : K) (cfg : Config K) (hseed : SeedOk cfg) :
    ∃ c, start maxK cfg = .ok c ∧ Inv maxK cfg c ∧ c.evaluated = [firstVector cfg] ∧ c.pc = .outer := by
  have hf : ∃ j, HasCount cfg.bits j (firstVector cfg) := by
    unfold firstVector
    cases hs : cfg.seed with
    | none => exact ⟨_, _, repr_ofSize _, by simp, rfl⟩
    | some s => exact hseed s hs
  obtain ⟨j, hj⟩ := hf
  have he : start maxK cfg = .ok ⟨setKey (fun _ => blank maxK) j ⟨firstVector cfg, cfg.fitness (firstVector cfg)⟩, j,
      .outer, [firstVector cfg]⟩ := by
    obtain ⟨l, hr, _, hc⟩ := hj
    have hcnt : (firstVector cfg).count = .ok j := by rw [count_repr hr, hc]
    have hst : start maxK cfg = ((firstVector cfg).count >>= fun k => .ok ⟨setKey (fun _ => blank maxK) k
        ⟨firstVector cfg, cfg.fitness (firstVector cfg)⟩, k, .outer, [firstVector cfg]⟩) := by
      unfold start firstVector; cases cfg.seed <;> rfl
    rw [hst, hcnt]; rfl
  have hg : Good cfg j ⟨firstVector cfg, cfg.fitness (firstVector cfg)⟩ := ⟨hj, rfl⟩
  refine ⟨_, he, ⟨by simp, slots_setKey hg (fun _ => .inl rfl), by simpa [setKey] using hg, by simp, ?_, by simp⟩, rfl, rfl⟩
  intro v hv
  simp only [List.mem_singleton] at hv
  subst hv
  exact ⟨j, hj, by simpa [setKey] using hg, by simp [setKey]⟩

theorem inv_reach {threads : Nat} (hth : 0 < threads) {maxK : K} {cfg : Config K} (hmax : ∀ v, cfg.fitness v < maxK)
    {c₀ c : Conf K} (h0 : Inv maxK cfg c₀) {n : Nat} (h : Reach threads maxK cfg c₀ n c) : Inv maxK cfg c := by
  induction h with
  | start => exact h0
  | step _ hs ih => exact inv_step hth hmax ih hs

/-- Throughout the search, for every fitness function and schedule: there is no undefined behaviour; whatever is stored
for cardinality `j` is either nothing or a vector of the right size with exactly `j` bits set, together with its own
fitness; and the entry of the current cardinality is present. -/
theorem C71_consistent (threads : Nat) (hth : 0 < threads) (maxK : K) (cfg : Config K)
    (hmax : ∀ v, cfg.fitness v < maxK) (hseed : SeedOk cfg) :
    ∃ c₀, start maxK cfg = .ok c₀ ∧ ∀ n c, Reach threads maxK cfg c₀ n c →
      (∀ f, c.pc ≠ .fault f) ∧
      (∀ j, (c.ks j).data.size ≠ 0 → HasCount cfg.bits j (c.ks j).data ∧ (c.ks j).score = cfg.fitness (c.ks j).data) ∧
      HasCount cfg.bits c.k (c.ks c.k).data ∧ (c.ks c.k).score = cfg.fitness (c.ks c.k).data := by
  obtain ⟨c₀, h1, h2, _⟩ := start_ok maxK cfg hseed
  refine ⟨c₀, h1, fun n c hc => ?_⟩
  have hi := inv_reach hth hmax h2 hc
  refine ⟨hi.nofault, ?_, hi.cur⟩
  intro j hj
  rcases hi.slots j with hs | hs
  · exfalso; apply hj; rw [hs]; rfl
  · exact hs

theorem selectBest_spec (maxK : K) (ks : Nat → SffsState K) (n : Nat) (b : SffsState K) :
    let r := (List.range n).foldl (fun best i => if (ks i).score < best.score then ks i else best) b
    (r = b ∨ ∃ i < n, r = ks i) ∧ r.score ≤ b.score ∧ ∀ i < n, r.score ≤ (ks i).score := by
  intro r
  have key : r = ((List.range n).map ks).foldl keepBest b := by
    simp only [r, List.foldl_map, keepBest]
  obtain ⟨h1, h2, h3⟩ := foldl_keepBest ((List.range n).map ks) b
  rw [← key] at h1 h2 h3
  refine ⟨?_, h2, ?_⟩
  · rcases h1 with h1 | h1
    · exact .inl h1
    · rw [List.mem_map] at h1
      obtain ⟨i, hi, he⟩ := h1
      exact .inr ⟨i, by simpa using hi, he.symm⟩
  · intro i hi
    exact h3 _ (List.mem_map.2 ⟨i, by simpa using hi, rfl⟩)

theorem evaluated_mono {threads : Nat} {maxK : K} {cfg : Config K} {c₀ c : Conf K} {n : Nat}
    (h : Reach threads maxK cfg c₀ n c) : ∀ v ∈ c₀.evaluated, v ∈ c.evaluated := by
  induction h with
  | start => exact fun v h => h
  | step _ hs ih =>
    intro v hv
    have := ih v hv
    cases hs <;> simp_all

/-- What the search returns, for every fitness function and schedule: a well-formed vector of the configured size with
its own fitness as score, and no vector whose fitness was computed during the whole search - in particular not the
seed - has a smaller fitness. -/
theorem C71_result (threads : Nat) (hth : 0 < threads) (maxK : K) (cfg : Config K)
    (hmax : ∀ v, cfg.fitness v < maxK) (hseed : SeedOk cfg) :
    ∃ c₀, start maxK cfg = .ok c₀ ∧ ∀ n c r, Reach threads maxK cfg c₀ n c → c.pc = .returned r →
      (∃ j, HasCount cfg.bits j r.data) ∧ r.score = cfg.fitness r.data ∧
      r.score ≤ cfg.fitness (firstVector cfg) ∧ ∀ v ∈ c.evaluated, r.score ≤ cfg.fitness v := by
  obtain ⟨c₀, h1, h2, h3, _⟩ := start_ok maxK cfg hseed
  refine ⟨c₀, h1, fun n c r hc hr => ?_⟩
  have hi := inv_reach hth hmax h2 hc
  have hr' := hi.ret r hr
  obtain ⟨g1, g2, g3⟩ := selectBest_spec maxK c.ks (cfg.bits + 1) (blank maxK)
  change _ at g1
  have hsel : selectBest maxK cfg.bits c.ks = (List.range (cfg.bits + 1)).foldl
    (fun best i => if (c.ks i).score < best.score then c.ks i else best) (blank maxK) := rfl
  rw [← hsel, ← hr'] at g1 g2 g3
  have hle : ∀ v ∈ c.evaluated, r.score ≤ cfg.fitness v := by
    intro v hv
    obtain ⟨j, hj1, hj2, hj3⟩ := hi.best v hv
    exact (g3 j (Nat.lt_succ_of_le hj1.le)).trans hj3
  have hfirst : firstVector cfg ∈ c.evaluated := evaluated_mono hc _ (by simp [h3])
  have hnb : r ≠ blank maxK := by
    rintro rfl
    have := hle _ hfirst
    exact absurd (hmax (firstVector cfg)) (not_lt.2 this)
  rcases g1 with g1 | ⟨i, hi', g1⟩
  · exact absurd g1 hnb
  · rcases hi.slots i with hs | hs
    · exact absurd (g1.trans hs) hnb
    · rw [← g1] at hs
      exact ⟨⟨i, hs.1⟩, hs.2, hle _ hfirst, hle⟩

/-- The search cannot get stuck: until it has returned another step is always possible. -/
theorem C71_progress (threads : Nat) (hth : 0 < threads) (maxK : K) (cfg : Config K)
    (hmax : ∀ v, cfg.fitness v < maxK) (hseed : SeedOk cfg) :
    ∃ c₀, start maxK cfg = .ok c₀ ∧ ∀ n c, Reach threads maxK cfg c₀ n c → (∀ r, c.pc ≠ .returned r) →
      ∃ c', Step threads maxK cfg c c' := by
  obtain ⟨c₀, h1, h2, _⟩ := start_ok maxK cfg hseed
  refine ⟨c₀, h1, fun n c hc hr => ?_⟩
  have hi := inv_reach hth hmax h2 hc
  cases hp : c.pc with
  | outer =>
    by_cases hk : c.k < min cfg.bits cfg.max
    · exact ⟨_, .enter c hp hk⟩
    · exact ⟨_, .ret c hp hk⟩
  | inner =>
    by_cases hk : c.k > cfg.min
    · obtain ⟨tests, ht, _⟩ := round hi.cur.1 false
      obtain ⟨new, hn⟩ := getState_exists threads maxK cfg.fitness tests
      by_cases hb : (c.ks (c.k - 1)).data.size = 0 ∨ new.score < (c.ks (c.k - 1)).score
      · exact ⟨_, .backward c hp hk tests new ht hn hb⟩
      · exact ⟨_, .noBackward c hp hk tests new ht hn hb⟩
    · exact ⟨_, .leave c hp hk⟩
  | forward =>
    obtain ⟨tests, ht, _⟩ := round hi.cur.1 true
    obtain ⟨new, hn⟩ := getState_exists threads maxK cfg.fitness tests
    exact ⟨_, .forward c hp tests new ht hn⟩
  | returned r => exact absurd hp (hr r)
  | fault f => exact absurd hp (hi.nofault f)

/-! ### Termination -/

/-- How many vectors are strictly better than a score. -/
noncomputable def rank (cfg : Config K) (s : K) : Nat :=
  Set.ncard {l : List.Vector Bool cfg.bits | ∃ v, BitVector.Repr v l.1 ∧ cfg.fitness v < s}

theorem rank_le (cfg : Config K) (s : K) : rank cfg s ≤ 2 ^ cfg.bits := by
  unfold rank
  refine (Set.ncard_le_ncard (Set.subset_univ _) (Set.toFinite _)).trans ?_
  rw [Set.ncard_univ, Nat.card_eq_fintype_card, card_vector, Fintype.card_bool]

theorem rank_lt {cfg : Config K} {j : Nat} {new : SffsState K} {s : K} (hg : Good cfg j new) (h : new.score < s) :
    rank cfg new.score < rank cfg s := by
  unfold rank
  apply Set.ncard_lt_ncard _ (Set.toFinite _)
  obtain ⟨⟨l, hr, hl, hc⟩, hsc⟩ := hg
  rw [Set.ssubset_iff_of_subset]
  · refine ⟨⟨l, hl⟩, ⟨new.data, hr, by rw [← hsc]; exact h⟩, ?_⟩
    rintro ⟨v, hv, hlt⟩
    rw [repr_unique hv hr, ← hsc] at hlt
    exact lt_irrefl _ hlt
  · rintro l ⟨v, h1, h2⟩
    exact ⟨v, h1, h2.trans h⟩

/-- Potential of one key. -/
noncomputable def slot (cfg : Config K) (s : SffsState K) : Nat :=
  if s.data.size = 0 then 2 ^ cfg.bits + 1 else rank cfg s.score

noncomputable def potential (cfg : Config K) (ks : Nat → SffsState K) : Nat :=
  ∑ j ∈ Finset.range (cfg.bits + 1), slot cfg (ks j)

def phase : Pc K → Nat
  | .outer => 3
  | .inner => 2
  | .forward => 1
  | .returned _ => 0
  | .fault _ => 0

noncomputable def measure (cfg : Config K) (c : Conf K) : Nat :=
  match c.pc with
  | .returned _ => 0
  | .fault _ => 0
  | p => potential cfg c.ks * (4 * cfg.bits + 4) + (4 * (cfg.bits - c.k) + phase p)

theorem slot_lt {cfg : Config K} (hbits : 0 < cfg.bits) {j : Nat} {new old : SffsState K} (hg : Good cfg j new)
    (hb : old.data.size = 0 ∨ new.score < old.score) : slot cfg new < slot cfg old := by
  have hs := hg.1.size
  unfold slot
  rw [if_neg (by omega)]
  split
  · have := rank_le cfg new.score; omega
  · rcases hb with hb | hb
    · contradiction
    · exact rank_lt hg hb

theorem potential_lt {cfg : Config K} (hbits : 0 < cfg.bits) {j : Nat} {ks : Nat → SffsState K} {new : SffsState K}
    (hg : Good cfg j new) (hb : (ks j).data.size = 0 ∨ new.score < (ks j).score) :
    potential cfg (setKey ks j new) < potential cfg ks := by
  unfold potential
  apply Finset.sum_lt_sum
  · intro i _
    by_cases hi : i = j
    · subst hi; simp only [setKey, if_true]; exact (slot_lt hbits hg hb).le
    · simp [setKey, hi]
  · refine ⟨j, ?_, ?_⟩
    · have := hg.1.le; simp; omega
    · simp only [setKey, if_true]; exact slot_lt hbits hg hb

theorem measure_step {threads : Nat} (hth : 0 < threads) {maxK : K} {cfg : Config K} (hmax : ∀ v, cfg.fitness v < maxK)
    {c c' : Conf K} (hi : Inv maxK cfg c) (hs : Step threads maxK cfg c c') : measure cfg c' < measure cfg c := by
  have hi' := inv_step hth hmax hi hs
  have hk' : c'.k ≤ cfg.bits := hi'.cur.1.le
  cases hs with
  | enter h hk => simp [measure, h, phase]
  | ret h hk => simp [measure, h, phase]
  | leave h hk => simp [measure, h, phase]
  | backward h hk tests new ht hn hb =>
    have hroom := hi.room (.inl h)
    have hg : Good cfg (c.k - 1) new := by simpa [setKey] using hi'.cur
    have := potential_lt (by omega) hg hb
    simp only [measure, h, phase]
    have h1 : potential cfg (setKey c.ks (c.k - 1) new) + 1 ≤ potential cfg c.ks := this
    have h2 := Nat.mul_le_mul_right (4 * cfg.bits + 4) h1
    rw [Nat.add_mul] at h2
    have hb' : cfg.bits - (c.k - 1) ≤ cfg.bits := Nat.sub_le _ _
    omega
  | noBackward h hk tests new ht hn hb => simp [measure, h, phase]
  | forward h tests new ht hn =>
    have hroom := hi.room (.inr h)
    by_cases hb : (c.ks (c.k + 1)).data.size = 0 ∨ new.score < (c.ks (c.k + 1)).score
    · have hg : Good cfg (c.k + 1) new := by simpa [setKey, if_pos hb] using hi'.cur
      have := potential_lt (by omega) hg hb
      simp only [measure, h, phase, if_pos hb]
      have h1 : potential cfg (setKey c.ks (c.k + 1) new) + 1 ≤ potential cfg c.ks := this
      have h2 := Nat.mul_le_mul_right (4 * cfg.bits + 4) h1
      rw [Nat.add_mul] at h2
      have hb' : cfg.bits - (c.k + 1) ≤ cfg.bits := Nat.sub_le _ _
      omega
    · simp only [measure, h, phase, if_neg hb]
      omega
  | crashBackward h hk f ht => simp [measure, h, phase]
  | crashForward h f ht => simp [measure, h, phase]

/-- Termination with an explicit bound: no execution of the search, whatever the fitness function and the schedules,
is longer than `4 (bits+1) ((bits+1) (2^bits + 1) + 1)` steps. -/
theorem C71_terminates (threads : Nat) (hth : 0 < threads) (maxK : K) (cfg : Config K)
    (hmax : ∀ v, cfg.fitness v < maxK) (hseed : SeedOk cfg) :
    ∃ c₀, start maxK cfg = .ok c₀ ∧ ∀ n c, Reach threads maxK cfg c₀ n c →
      n ≤ 4 * (cfg.bits + 1) * ((cfg.bits + 1) * (2 ^ cfg.bits + 1) + 1) := by
  obtain ⟨c₀, h1, h2, _, hpc⟩ := start_ok maxK cfg hseed
  refine ⟨c₀, h1, fun n c hc => ?_⟩
  have key : ∀ n c, Reach threads maxK cfg c₀ n c → n + measure cfg c ≤ measure cfg c₀ := by
    intro n c h
    induction h with
    | start => simp
    | step h' hs ih => have := measure_step hth hmax (inv_reach hth hmax h2 h') hs; omega
  have hk := key n c hc
  have hpot : potential cfg c₀.ks ≤ (cfg.bits + 1) * (2 ^ cfg.bits + 1) := by
    unfold potential
    refine (Finset.sum_le_card_nsmul _ _ (2 ^ cfg.bits + 1) ?_).trans (by simp)
    intro j _
    unfold slot
    split
    · exact le_rfl
    · exact (rank_le cfg _).trans (by omega)
  have hm : measure cfg c₀ ≤ (cfg.bits + 1) * (2 ^ cfg.bits + 1) * (4 * cfg.bits + 4) + (4 * cfg.bits + 3) := by
    simp only [measure, hpc, phase]
    have := Nat.mul_le_mul_right (4 * cfg.bits + 4) hpot
    have h4 : cfg.bits - c₀.k ≤ cfg.bits := Nat.sub_le _ _
    omega
  have : 4 * (cfg.bits + 1) * ((cfg.bits + 1) * (2 ^ cfg.bits + 1) + 1)
      = (cfg.bits + 1) * (2 ^ cfg.bits + 1) * (4 * cfg.bits + 4) + (4 * cfg.bits + 4) := by ring
  omega

/-- Hence from every point of every execution the search goes on to return a result. -/
theorem C71_returns (threads : Nat) (hth : 0 < threads) (maxK : K) (cfg : Config K)
    (hmax : ∀ v, cfg.fitness v < maxK) (hseed : SeedOk cfg) :
    ∃ c₀, start maxK cfg = .ok c₀ ∧ ∀ n c, Reach threads maxK cfg c₀ n c →
      ∃ m c' r, Reach threads maxK cfg c₀ (n + m) c' ∧ c'.pc = .returned r := by
  obtain ⟨c₀, h1, hp⟩ := C71_progress threads hth maxK cfg hmax hseed
  obtain ⟨c₁, h1', hb⟩ := C71_terminates threads hth maxK cfg hmax hseed
  obtain rfl := Except.ok.inj (h1.symm.trans h1')
  refine ⟨c₀, h1, ?_⟩
  have key : ∀ B n c, Reach threads maxK cfg c₀ n c →
      4 * (cfg.bits + 1) * ((cfg.bits + 1) * (2 ^ cfg.bits + 1) + 1) - n ≤ B →
      ∃ m c' r, Reach threads maxK cfg c₀ (n + m) c' ∧ c'.pc = .returned r := by
    intro B
    induction B with
    | zero =>
      intro n c h hB
      by_cases hr : ∃ r, c.pc = .returned r
      · obtain ⟨r, hr⟩ := hr; exact ⟨0, c, r, h, hr⟩
      · obtain ⟨c', hs⟩ := hp n c h (fun r e => hr ⟨r, e⟩)
        have := hb _ _ (h.step hs)
        omega
    | succ B ih =>
      intro n c h hB
      by_cases hr : ∃ r, c.pc = .returned r
      · obtain ⟨r, hr⟩ := hr; exact ⟨0, c, r, h, hr⟩
      · obtain ⟨c', hs⟩ := hp n c h (fun r e => hr ⟨r, e⟩)
        obtain ⟨m, c'', r, g1, g2⟩ := ih _ _ (h.step hs) (by omega)
        exact ⟨1 + m, c'', r, by rwa [← Nat.add_assoc], g2⟩
  exact fun n c h => key _ n c h le_rfl

/-! ### Independence of the schedule -/

theorem getState_unique {threads : Nat} (hth : 0 < threads) {maxK : K} {fitness : BitVector → K}
    (hmax : ∀ v, fitness v < maxK) {tests : List BitVector}
    (hinj : ∀ u ∈ tests, ∀ v ∈ tests, fitness u = fitness v → u = v) {r r' : SffsState K}
    (h : GetState threads maxK fitness tests r) (h' : GetState threads maxK fitness tests r') : r = r' := by
  by_cases hne : tests = []
  · subst hne
    obtain ⟨n, c, hc, hret, rfl⟩ := h
    obtain ⟨n', c', hc', hret', rfl⟩ := h'
    have h1 := (Jobs.C33_exactly_once (job fitness) [] threads hth n c hc hret).2.1
    have h2 := (Jobs.C33_exactly_once (job fitness) [] threads hth n' c' hc' hret').2.1
    simp only [List.flatMap_nil, List.perm_nil] at h1 h2
    rw [h1, h2]
  · obtain ⟨a1, a2, a3⟩ := C71_best_candidate threads hth maxK fitness hmax tests hne r h
    obtain ⟨b1, b2, b3⟩ := C71_best_candidate threads hth maxK fitness hmax tests hne r' h'
    have hs : r.score = r'.score := by
      apply le_antisymm
      · have := a3 _ b1; rwa [← b2] at this
      · have := b3 _ a1; rwa [← a2] at this
    have hd : r.data = r'.data := hinj _ a1 _ b1 (by rw [← a2, ← b2, hs])
    obtain ⟨d, s⟩ := r
    obtain ⟨d', s'⟩ := r'
    simp only at hd hs
    rw [hd, hs]

theorem step_unique {threads : Nat} (hth : 0 < threads) {maxK : K} {cfg : Config K}
    (hmax : ∀ v, cfg.fitness v < maxK)
    (hinj : ∀ i j u v, HasCount cfg.bits i u → HasCount cfg.bits j v → cfg.fitness u = cfg.fitness v → u = v)
    {c c' c'' : Conf K} (hi : Inv maxK cfg c) (h' : Step threads maxK cfg c c') (h'' : Step threads maxK cfg c c'') :
    c' = c'' := by
  have huniq : ∀ b tests tests' r r', candidates cfg.bits (c.ks c.k).data b = .ok tests →
      candidates cfg.bits (c.ks c.k).data b = .ok tests' →
      GetState threads maxK cfg.fitness tests r → GetState threads maxK cfg.fitness tests' r' → tests = tests' ∧ r = r' := by
    intro b tests tests' r r' h1 h2 g1 g2
    rw [h1] at h2
    obtain rfl := Except.ok.inj h2
    refine ⟨rfl, getState_unique hth hmax ?_ g1 g2⟩
    obtain ⟨t, e1, e2, _⟩ := round hi.cur.1 b
    rw [h1] at e1
    obtain rfl := Except.ok.inj e1
    intro u hu v hv he
    obtain ⟨i, hu', _⟩ := e2 u hu
    obtain ⟨j, hv', _⟩ := e2 v hv
    exact hinj _ _ u v hu' hv' he
  cases h' with
  | enter h hk => cases h'' <;> simp_all
  | ret h hk => cases h'' <;> simp_all
  | leave h hk =>
    cases h'' <;> first | rfl | (simp_all; done) | omega
  | backward h hk tests new ht hn hb =>
    cases h'' with
    | backward h2 hk2 tests2 new2 ht2 hn2 hb2 =>
      obtain ⟨rfl, rfl⟩ := huniq _ _ _ _ _ ht ht2 hn hn2; rfl
    | noBackward h2 hk2 tests2 new2 ht2 hn2 hb2 =>
      obtain ⟨rfl, rfl⟩ := huniq _ _ _ _ _ ht ht2 hn hn2; exact absurd hb hb2
    | crashBackward h2 hk2 f ht2 => rw [ht] at ht2; cases ht2
    | leave h2 hk2 => exact absurd hk hk2
    | enter h2 => rw [h] at h2; cases h2
    | ret h2 => rw [h] at h2; cases h2
    | forward h2 => rw [h] at h2; cases h2
    | crashForward h2 => rw [h] at h2; cases h2
  | noBackward h hk tests new ht hn hb =>
    cases h'' with
    | backward h2 hk2 tests2 new2 ht2 hn2 hb2 =>
      obtain ⟨rfl, rfl⟩ := huniq _ _ _ _ _ ht ht2 hn hn2; exact absurd hb2 hb
    | noBackward h2 hk2 tests2 new2 ht2 hn2 hb2 =>
      obtain ⟨rfl, rfl⟩ := huniq _ _ _ _ _ ht ht2 hn hn2; rfl
    | crashBackward h2 hk2 f ht2 => rw [ht] at ht2; cases ht2
    | leave h2 hk2 => exact absurd hk hk2
    | enter h2 => rw [h] at h2; cases h2
    | ret h2 => rw [h] at h2; cases h2
    | forward h2 => rw [h] at h2; cases h2
    | crashForward h2 => rw [h] at h2; cases h2
  | forward h tests new ht hn =>
    cases h'' with
    | forward h2 tests2 new2 ht2 hn2 => obtain ⟨rfl, rfl⟩ := huniq _ _ _ _ _ ht ht2 hn hn2; rfl
    | crashForward h2 f ht2 => rw [ht] at ht2; cases ht2
    | enter h2 => rw [h] at h2; cases h2
    | ret h2 => rw [h] at h2; cases h2
    | leave h2 => rw [h] at h2; cases h2
    | backward h2 => rw [h] at h2; cases h2
    | noBackward h2 => rw [h] at h2; cases h2
    | crashBackward h2 => rw [h] at h2; cases h2
  | crashBackward h hk f ht =>
    obtain ⟨t, e1, _⟩ := round hi.cur.1 false
    rw [ht] at e1; cases e1
  | crashForward h f ht =>
    obtain ⟨t, e1, _⟩ := round hi.cur.1 true
    rw [ht] at e1; cases e1

/-- If no two vectors of the searched size have the same fitness, the result does not depend on the schedule of the
worker threads: any two executions return the same vector and score. -/
theorem C71_schedule_independent (threads : Nat) (hth : 0 < threads) (maxK : K) (cfg : Config K)
    (hmax : ∀ v, cfg.fitness v < maxK) (hseed : SeedOk cfg)
    (hinj : ∀ i j u v, HasCount cfg.bits i u → HasCount cfg.bits j v → cfg.fitness u = cfg.fitness v → u = v) :
    ∃ c₀, start maxK cfg = .ok c₀ ∧ ∀ n n' c c' r r', Reach threads maxK cfg c₀ n c → Reach threads maxK cfg c₀ n' c' →
      c.pc = .returned r → c'.pc = .returned r' → r = r' := by
  obtain ⟨c₀, h1, h2, _, hpc⟩ := start_ok maxK cfg hseed
  refine ⟨c₀, h1, fun n n' c c' r r' hc hc' hr hr' => ?_⟩
  have same : ∀ n c c', Reach threads maxK cfg c₀ n c → Reach threads maxK cfg c₀ n c' → c = c' := by
    intro n
    induction n with
    | zero => intro c c' a b; cases a; cases b; rfl
    | succ n ih =>
      intro c c' a b
      cases a with
      | step a1 a2 =>
        cases b with
        | step b1 b2 =>
          obtain rfl := ih _ _ a1 b1
          exact step_unique hth hmax hinj (inv_reach hth hmax h2 a1) a2 b2
  have nostep : ∀ n m c c' r, Reach threads maxK cfg c₀ n c → c.pc = .returned r →
      Reach threads maxK cfg c₀ m c' → m ≤ n := by
    intro n m
    induction m with
    | zero => intros; omega
    | succ m ih =>
      intro c c' r a ar b
      cases b with
      | step b1 b2 =>
        have hm := ih _ _ _ a ar b1
        rcases Nat.lt_or_eq_of_le hm with h | h
        · exact h
        · subst h
          obtain rfl := same _ _ _ a b1
          exfalso
          cases b2 <;> simp_all
  have e : n = n' := le_antisymm (nostep _ _ _ _ _ hc' hr' hc) (nostep _ _ _ _ _ hc hr hc')
  subst e
  obtain rfl := same _ _ _ hc hc'
  rw [hr] at hr'
  exact Pc.returned.inj hr'

/-! ### Seeds -/

theorem findSeed_aux (fitness : BitVector → K) (r : List BitVector) (b : BitVector × K) :
    let res := r.foldl (fun (best : BitVector × K) v => if fitness v < best.2 then (v, fitness v) else best) b
    (res = b ∨ res.1 ∈ r ∧ res.2 = fitness res.1) ∧ res.2 ≤ b.2 ∧ ∀ v ∈ r, res.2 ≤ fitness v := by
  induction r generalizing b with
  | nil => simp
  | cons a r ih =>
    simp only [List.foldl_cons]
    have := ih (if fitness a < b.2 then (a, fitness a) else b)
    simp only at this
    split at this
    · rename_i hlt
      rw [if_pos hlt]
      obtain ⟨h1, h2, h3⟩ := this
      refine ⟨.inr ?_, h2.trans hlt.le, ?_⟩
      · rcases h1 with h1 | h1
        · rw [h1]; simp
        · exact ⟨by simp [h1.1], h1.2⟩
      · intro v hv
        rcases List.mem_cons.1 hv with rfl | hv
        · exact h2
        · exact h3 v hv
    · rename_i hlt
      rw [if_neg hlt]
      obtain ⟨h1, h2, h3⟩ := this
      refine ⟨?_, h2, ?_⟩
      · rcases h1 with h1 | h1
        · exact .inl h1
        · exact .inr ⟨by simp [h1.1], h1.2⟩
      · intro v hv
        rcases List.mem_cons.1 hv with rfl | hv
        · exact h2.trans (not_lt.1 hlt)
        · exact h3 v hv

/-- The seed search returns one of the vectors it drew, and none it drew has a smaller fitness; without tries it
returns the all-zero vector. -/
theorem C71_find_seed (maxK : K) (bits : Nat) (fitness : BitVector → K) (hmax : ∀ v, fitness v < maxK)
    (r : List BitVector) :
    (r = [] → findSeed maxK bits fitness r = BitVector.ofSize bits) ∧
    (r ≠ [] → findSeed maxK bits fitness r ∈ r ∧ ∀ v ∈ r, fitness (findSeed maxK bits fitness r) ≤ fitness v) := by
  constructor
  · rintro rfl; rfl
  · intro hne
    obtain ⟨h1, h2, h3⟩ := findSeed_aux fitness r (BitVector.ofSize bits, maxK)
    rcases h1 with h1 | h1
    · exfalso
      obtain ⟨v, hv⟩ := List.exists_mem_of_ne_nil _ hne
      have := h3 v hv
      rw [h1] at this
      exact absurd (hmax v) (not_lt.2 this)
    · unfold findSeed
      refine ⟨h1.1, fun v hv => ?_⟩
      rw [← h1.2]; exact h3 v hv

/-- A random vector has the requested size and bit `b` is the lowest bit of the `b`-th draw; no undefined behaviour. -/
theorem C71_random_vector (bits : Nat) (draws : Nat → BitVec 64) :
    ∃ v, randomBitVector bits draws = .ok v ∧
      BitVector.Repr v ((List.range bits).map fun b => (draws b).getLsbD 0) := by
  have key : ∀ m, m ≤ bits → ∃ v, (List.range m).foldlM (fun bv b => BitVector.setBit bv b ((draws b) &&& 1#64 != 0#64))
      (BitVector.ofSize bits) = (.ok v : R _) ∧ BitVector.Repr v
        (((List.range m).map fun b => (draws b).getLsbD 0) ++ List.replicate (bits - m) false) := by
    intro m
    induction m with
    | zero => intro _; exact ⟨_, rfl, by simpa using repr_ofSize bits⟩
    | succ m ih =>
      intro hm
      obtain ⟨v, h1, h2⟩ := ih (by omega)
      rw [List.range_succ, List.foldlM_append, h1]
      have hl : m < (((List.range m).map fun b => (draws b).getLsbD 0) ++ List.replicate (bits - m) false).length := by
        simp; omega
      obtain ⟨u, g1, g2⟩ := setBit_repr h2 m hl ((draws m) &&& 1#64 != 0#64)
      refine ⟨u, ?_, ?_⟩
      · simp only [List.foldlM_cons, List.foldlM_nil]
        show (BitVector.setBit v m _ >>= _) = _
        rw [g1]; rfl
      · have hb : ((draws m) &&& 1#64 != 0#64) = (draws m).getLsbD 0 := by
          generalize draws m = x
          rw [← and_one_eq64]
          rcases Nat.mod_two_eq_zero_or_one x.toNat with h | h
          · have : x &&& 1#64 = 0#64 := by
              apply BitVec.eq_of_toNat_eq; simp [Nat.and_one_is_mod, h]
            rw [this]; rfl
          · have : x &&& 1#64 = 1#64 := by
              apply BitVec.eq_of_toNat_eq; simp [Nat.and_one_is_mod, h]
            rw [this]; rfl
        rw [hb] at g2
        convert g2 using 1
        rw [List.set_append_right _ _ (by simp)]
        simp only [List.length_map, List.length_range, Nat.sub_self, List.map_append, List.map_cons, List.map_nil,
          List.append_assoc]
        congr 1
        rw [show bits - m = (bits - (m + 1)) + 1 by omega, List.replicate_succ]
        rfl
  obtain ⟨v, h1, h2⟩ := key bits le_rfl
  exact ⟨v, h1, by simpa using h2⟩

/-! ### Non-vacuity -/

/-- A four-bit search, fitness the value of the data byte times 7 mod 16; the hypotheses of the theorems above hold. -/
def exampleConfig : Config Nat :=
  { bits := 4, fitness := fun v => ((v.data.headD 0#8).toNat * 7 + 3) % 16, seed := none, min := 0, max := 3 }

example : ∀ v, exampleConfig.fitness v < 1000 := fun v =>
  Nat.lt_of_lt_of_le (Nat.mod_lt _ (by decide)) (by decide)

example : SeedOk exampleConfig := by intro s h; exact absurd h (by simp [exampleConfig])

example : SeedOk { exampleConfig with seed := some ⟨4, [0b1010#8]⟩ } := by
  intro s h
  simp only [Option.some.injEq] at h
  subst h
  refine ⟨2, [false, true, false, true], ⟨rfl, rfl, ?_⟩, rfl, rfl⟩
  intro i
  unfold dataBit
  by_cases h : i < 8
  · interval_cases i <;> rfl
  · rw [show ([0b1010#8] : List (BitVec 8)).getD (i / 8) 0#8 = 0#8 by
      rw [List.getD_eq_default]; simp; omega]
    rw [List.getD_eq_default _ _ (by simp; omega)]
    simp

/-- The candidates of `1010` (bits 1 and 3 set) going backward. -/
example : candidates 4 ⟨4, [0b1010#8]⟩ false = .ok [⟨4, [0b1000#8]⟩, ⟨4, [0b0010#8]⟩] := by decide +kernel
example : neighbours [false, true, false, true] false = [[false, false, false, true], [false, true, false, false]] := by
  decide +kernel
example : findSeed 1000 4 exampleConfig.fitness [⟨4, [3#8]⟩, ⟨4, [2#8]⟩, ⟨4, [4#8]⟩] = ⟨4, [2#8]⟩ := by decide +kernel

end TFR.Sffs
