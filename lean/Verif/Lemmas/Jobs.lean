import Verif.Model.Jobs
import Mathlib.Data.Multiset.Basic
import Mathlib.Data.Multiset.AddSub
import Mathlib.Algebra.Order.Group.Multiset
import Mathlib.Algebra.BigOperators.Group.List.Basic
import Mathlib.Tactic.Abel

namespace TFR.Jobs
variable {J A : Type}

/-- Jobs a thread has taken but not run. -/
def Worker.held : Worker J A → Multiset J
  | .leaving (some j) => {j}
  | .running j => {j}
  | _ => 0

/-- Results a thread has still to hand over. -/
def Worker.owes : Worker J A → Multiset A
  | .wantCollect rs => (rs : Multiset A)
  | .inCollect rs => (rs : Multiset A)
  | _ => 0

def Worker.hasQ : Worker J A → Bool
  | .inQueue | .copied _ | .leaving _ => true
  | _ => false

def Worker.hasC : Worker J A → Bool
  | .inCollect _ => true
  | _ => false

def total {M : Type} [AddCommMonoid M] (f : Worker J A → M) (l : List (Worker J A)) : M := (l.map f).sum

theorem total_mid {M : Type} [AddCommMonoid M] (f : Worker J A → M) (pre post) (x : Worker J A) :
    total f (pre ++ x :: post) = total f pre + f x + total f post := by
  simp [total, add_assoc]

def execd (run : J → List A) (l : List J) : Multiset A := (l.flatMap run : List A)

theorem mid_get {α : Type} (pre post : List α) (x : α) (i : Nat) :
    (pre ++ x :: post)[i]? = if i = pre.length then some x else if i < pre.length then pre[i]? else post[i - pre.length - 1]? := by
  split
  · next h => subst h; simp
  · split
    · next h => rw [List.getElem?_append_left h]
    · next h1 h2 =>
      rw [List.getElem?_append_right (by omega)]
      obtain ⟨k, hk⟩ : ∃ k, i - pre.length = k + 1 := ⟨i - pre.length - 1, by omega⟩
      rw [hk, List.getElem?_cons_succ]; congr 1

/-- A lock predicate is consistent: the lock is held by `i` exactly when thread `i` is in the section. -/
def LockOk (p : Worker J A → Bool) (lock : Option Nat) (threads : List (Worker J A)) : Prop :=
  ∀ i, lock = some i ↔ ∃ x, threads[i]? = some x ∧ p x = true

theorem LockOk.other {p : Worker J A → Bool} {lock : Option Nat} {pre post : List (Worker J A)} {x y : Worker J A}
    (h : LockOk p lock (pre ++ x :: post)) (hxy : p x = p y) : LockOk p lock (pre ++ y :: post) := by
  intro i
  rw [h i]
  simp only [mid_get]
  split
  · simp [hxy]
  · rfl

theorem LockOk.acquire {p : Worker J A → Bool} {pre post : List (Worker J A)} {x y : Worker J A}
    (h : LockOk p none (pre ++ x :: post)) (hy : p y = true) : LockOk p (some pre.length) (pre ++ y :: post) := by
  intro i
  have hi := h i
  simp only [mid_get] at hi ⊢
  by_cases hip : i = pre.length
  · simp [hip, hy]
  · simp only [hip, if_false] at hi ⊢
    constructor
    · intro h1; exact absurd (Option.some.inj h1).symm hip
    · intro h1; exact absurd (hi.2 h1) (by simp)

theorem LockOk.release {p : Worker J A → Bool} {lock : Option Nat} {pre post : List (Worker J A)} {x y : Worker J A}
    (h : LockOk p lock (pre ++ x :: post)) (hx : p x = true) (hy : p y = false) : LockOk p none (pre ++ y :: post) := by
  have hl : lock = some pre.length := (h pre.length).2 ⟨x, by simp, hx⟩
  intro i
  have hi := h i
  simp only [mid_get] at hi ⊢
  by_cases hip : i = pre.length
  · simp [hip, hy]
  · simp only [hip, if_false] at hi ⊢
    constructor
    · intro h1; cases h1
    · intro h1
      have := hi.2 h1
      rw [hl] at this
      exact absurd (Option.some.inj this).symm hip

theorem LockOk.spawn {p : Worker J A → Bool} {lock : Option Nat} {l : List (Worker J A)} {y : Worker J A}
    (h : LockOk p lock l) (hy : p y = false) : LockOk p lock (l ++ [y]) := by
  intro i
  rw [h i]
  rcases Nat.lt_trichotomy i l.length with hi | hi | hi
  · rw [List.getElem?_append_left hi]
  · subst hi; simp [hy]
  · rw [List.getElem?_append_right (by omega), List.getElem?_eq_none (l := l) (by omega), List.getElem?_eq_none (by simp; omega)]

/-- The invariant of all reachable configurations. -/
structure Inv (run : J → List A) (T : Nat) (jobs : List J) (c : Conf J A) : Prop where
  jobs_eq : (jobs : Multiset J) = c.queue + total Worker.held c.threads + c.executed
  results_eq : execd run c.executed = c.collected + total Worker.owes c.threads
  q : LockOk Worker.hasQ c.qlock c.threads
  cl : LockOk Worker.hasC c.clock c.threads
  copied : ∀ (i : Nat) (j : J), c.threads[i]? = some (Worker.copied j) → c.queue.getLast? = some j
  exited : (∃ i : Nat, c.threads[i]? = some (Worker.done : Worker J A) ∨ c.threads[i]? = some (Worker.leaving none)) → c.queue = []
  len : c.threads.length ≤ T
  joined : c.joined ≤ T
  joinedDone : ∀ i : Nat, i < c.joined → c.threads[i]? = some Worker.done

theorem dropLast_ms {l : List J} {j : J} (h : l.getLast? = some j) : (l : Multiset J) = (l.dropLast : Multiset J) + {j} := by
  have h1 := List.dropLast_append_getLast? j (by rw [h]; rfl)
  conv_lhs => rw [← h1]
  rw [← Multiset.coe_add]; rfl

/-- No `copied` thread can coexist with another thread that holds the queue mutex. -/
theorem Inv.unique_q {run : J → List A} {T : Nat} {jobs : List J} {c : Conf J A} (h : Inv run T jobs c)
    {i k : Nat} {x y : Worker J A} (hx : c.threads[i]? = some x) (hy : c.threads[k]? = some y) (px : x.hasQ = true)
    (py : y.hasQ = true) : i = k := by
  have h1 := (h.q i).2 ⟨x, hx, px⟩
  have h2 := (h.q k).2 ⟨y, hy, py⟩
  rw [h1] at h2; exact Option.some.inj h2

theorem inv_init (run : J → List A) (T : Nat) (jobs : List J) : Inv run T jobs (init jobs) := by
  constructor <;> simp [init, total, execd, LockOk]

theorem execd_append (run : J → List A) (l : List J) (j : J) : execd run (l ++ [j]) = execd run l + (run j : Multiset A) := by
  simp [execd]

theorem inv_step {run : J → List A} {T : Nat} {jobs : List J} {c c' : Conf J A} (h : Inv run T jobs c)
    (hs : Step run T c c') : Inv run T jobs c' := by
  -- a worker's step leaves the other threads alone
  have hmid : ∀ {pre post : List (Worker J A)} {x y : Worker J A}, c.threads = pre ++ x :: post → ∀ i z,
      (pre ++ y :: post)[i]? = some z → (i = pre.length ∧ z = y) ∨ (i ≠ pre.length ∧ c.threads[i]? = some z) := by
    intro pre post x y hc i z hz
    rw [hc]
    rw [mid_get] at hz ⊢
    by_cases hi : i = pre.length
    · left; simp [hi] at hz; exact ⟨hi, hz.symm⟩
    · right; simp only [hi, if_false] at hz ⊢; exact ⟨hi, hz⟩
  have hself : ∀ {pre post : List (Worker J A)} {x : Worker J A}, c.threads = pre ++ x :: post → c.threads[pre.length]? = some x := by
    intro pre post x hc; rw [hc]; simp
  have hlen : ∀ {pre post : List (Worker J A)} {x y : Worker J A}, c.threads = pre ++ x :: post → (pre ++ y :: post).length ≤ T := by
    intro pre post x y hc
    have := h.len; rw [hc] at this; simpa using this
  have hjd : ∀ {pre post : List (Worker J A)} {x y : Worker J A}, c.threads = pre ++ x :: post → x ≠ .done →
      ∀ i < c.joined, (pre ++ y :: post)[i]? = some .done := by
    intro pre post x y hc hx i hi
    have h1 := h.joinedDone i hi
    rw [hc] at h1
    rw [mid_get] at h1 ⊢
    by_cases hip : i = pre.length
    · simp [hip] at h1; exact absurd h1 hx
    · simp only [hip, if_false] at h1 ⊢; exact h1
  obtain ⟨hj, hr, hq, hc, hcop, hex, hl, hjn, hjdone⟩ := h
  have hinv : Inv run T jobs c := ⟨hj, hr, hq, hc, hcop, hex, hl, hjn, hjdone⟩
  cases hs with
  | spawn hlt =>
    refine ⟨?_, ?_, hq.spawn rfl, hc.spawn rfl, ?_, ?_, by simp; omega, hjn, ?_⟩
    · simpa [total, Worker.held] using hj
    · simpa [total, Worker.owes] using hr
    · intro i j hi
      rcases Nat.lt_trichotomy i c.threads.length with h1 | h1 | h1
      · rw [List.getElem?_append_left h1] at hi; exact hcop i j hi
      · subst h1; simp at hi
      · rw [List.getElem?_eq_none (by simp; omega)] at hi; cases hi
    · rintro ⟨i, hi⟩
      apply hex
      refine ⟨i, ?_⟩
      rcases Nat.lt_trichotomy i c.threads.length with h1 | h1 | h1
      · rwa [List.getElem?_append_left h1] at hi
      · subst h1; simp at hi
      · rw [List.getElem?_eq_none (by simp; omega)] at hi; simp at hi
    · intro i hi
      have := hjdone i hi
      rw [List.getElem?_append_left]
      · exact this
      · by_contra hge
        rw [List.getElem?_eq_none (by omega)] at this; cases this
  | join hT hd =>
    refine ⟨hj, hr, hq, hc, hcop, hex, hl, ?_, ?_⟩
    · show c.joined + 1 ≤ T
      by_contra hge
      rw [List.getElem?_eq_none (by omega)] at hd; cases hd
    · intro i hi
      rcases Nat.lt_succ_iff_lt_or_eq.1 hi with h1 | h1
      · exact hjdone i h1
      · rw [h1]; exact hd
  | lockQueue pre post ht hn =>
    rw [ht] at hj hr
    rw [ht] at hq hc
    rw [total_mid] at hj hr
    rw [hn] at hq
    refine ⟨?_, ?_, hq.acquire rfl, hc.other rfl, ?_, ?_, hlen ht, hjn, hjd ht (by simp)⟩
    · simp only [total_mid]; exact hj
    · simp only [total_mid]; exact hr
    · intro i j hi
      rcases hmid ht i _ hi with ⟨_, h1⟩ | ⟨_, h1⟩
      · cases h1
      · exact hcop i j h1
    · rintro ⟨i, hi | hi⟩
      · rcases hmid ht i _ hi with ⟨_, h1⟩ | ⟨_, h1⟩
        · cases h1
        · exact hex ⟨i, Or.inl h1⟩
      · rcases hmid ht i _ hi with ⟨_, h1⟩ | ⟨_, h1⟩
        · cases h1
        · exact hex ⟨i, Or.inr h1⟩
  | empty pre post ht he =>
    rw [ht] at hj hr
    rw [ht] at hq hc
    rw [total_mid] at hj hr
    refine ⟨?_, ?_, hq.other rfl, hc.other rfl, ?_, fun _ => he, hlen ht, hjn, hjd ht (by simp)⟩
    · simp only [total_mid]; exact hj
    · simp only [total_mid]; exact hr
    · intro i j hi
      rcases hmid ht i _ hi with ⟨_, h1⟩ | ⟨_, h1⟩
      · cases h1
      · exact hcop i j h1
  | back pre post j ht hb =>
    rw [ht] at hj hr
    rw [ht] at hq hc
    rw [total_mid] at hj hr
    refine ⟨?_, ?_, hq.other rfl, hc.other rfl, ?_, ?_, hlen ht, hjn, hjd ht (by simp)⟩
    · simp only [total_mid]; exact hj
    · simp only [total_mid]; exact hr
    · intro i j' hi
      rcases hmid ht i _ hi with ⟨_, h1⟩ | ⟨_, h1⟩
      · cases h1; exact hb
      · exact hcop i j' h1
    · rintro ⟨i, hi | hi⟩
      · rcases hmid ht i _ hi with ⟨_, h1⟩ | ⟨_, h1⟩
        · cases h1
        · exact hex ⟨i, Or.inl h1⟩
      · rcases hmid ht i _ hi with ⟨_, h1⟩ | ⟨_, h1⟩
        · cases h1
        · exact hex ⟨i, Or.inr h1⟩
  | pop pre post j ht =>
    have hlast := hcop _ j (hself ht)
    rw [ht] at hj hr
    rw [ht] at hq hc
    rw [total_mid] at hj hr
    refine ⟨?_, ?_, hq.other rfl, hc.other rfl, ?_, ?_, hlen ht, hjn, hjd ht (by simp)⟩
    · simp only [total_mid]
      rw [hj, dropLast_ms hlast]
      simp only [Worker.held, add_zero]
      abel
    · simp only [total_mid]; exact hr
    · intro i j' hi
      rcases hmid ht i _ hi with ⟨_, h1⟩ | ⟨h0, h1⟩
      · cases h1
      · exact absurd (hinv.unique_q h1 (hself ht) rfl rfl) h0
    · rintro ⟨i, hi | hi⟩
      · rcases hmid ht i _ hi with ⟨_, h1⟩ | ⟨_, h1⟩
        · cases h1
        · rw [hex ⟨i, Or.inl h1⟩] at hlast; cases hlast
      · rcases hmid ht i _ hi with ⟨_, h1⟩ | ⟨_, h1⟩
        · cases h1
        · rw [hex ⟨i, Or.inr h1⟩] at hlast; cases hlast
  | finish pre post ht =>
    have hempty := hex ⟨_, Or.inr (hself ht)⟩
    rw [ht] at hj hr
    rw [ht] at hq hc
    rw [total_mid] at hj hr
    refine ⟨?_, ?_, hq.release rfl rfl, hc.other rfl, ?_, fun _ => hempty, hlen ht, hjn, hjd ht (by simp)⟩
    · simp only [total_mid]; exact hj
    · simp only [total_mid]; exact hr
    · intro i j hi
      rcases hmid ht i _ hi with ⟨_, h1⟩ | ⟨_, h1⟩
      · cases h1
      · exact hcop i j h1
  | take pre post j ht =>
    rw [ht] at hj hr
    rw [ht] at hq hc
    rw [total_mid] at hj hr
    refine ⟨?_, ?_, hq.release rfl rfl, hc.other rfl, ?_, ?_, hlen ht, hjn, hjd ht (by simp)⟩
    · simp only [total_mid]; exact hj
    · simp only [total_mid]; exact hr
    · intro i j hi
      rcases hmid ht i _ hi with ⟨_, h1⟩ | ⟨_, h1⟩
      · cases h1
      · exact hcop i j h1
    · rintro ⟨i, hi | hi⟩
      · rcases hmid ht i _ hi with ⟨_, h1⟩ | ⟨_, h1⟩
        · cases h1
        · exact hex ⟨i, Or.inl h1⟩
      · rcases hmid ht i _ hi with ⟨_, h1⟩ | ⟨_, h1⟩
        · cases h1
        · exact hex ⟨i, Or.inr h1⟩
  | runEmpty pre post j ht he =>
    rw [ht] at hj hr
    rw [ht] at hq hc
    rw [total_mid] at hj hr
    refine ⟨?_, ?_, hq.other rfl, hc.other rfl, ?_, ?_, hlen ht, hjn, hjd ht (by simp)⟩
    · simp only [total_mid]
      rw [hj, ← Multiset.coe_add]
      simp only [Worker.held, add_zero]
      rw [show ((([j] : List J) : Multiset J)) = {j} from rfl]
      abel
    · simp only [total_mid]
      rw [execd_append, he, hr]; simp [Worker.owes]
    · intro i j hi
      rcases hmid ht i _ hi with ⟨_, h1⟩ | ⟨_, h1⟩
      · cases h1
      · exact hcop i j h1
    · rintro ⟨i, hi | hi⟩
      · rcases hmid ht i _ hi with ⟨_, h1⟩ | ⟨_, h1⟩
        · cases h1
        · exact hex ⟨i, Or.inl h1⟩
      · rcases hmid ht i _ hi with ⟨_, h1⟩ | ⟨_, h1⟩
        · cases h1
        · exact hex ⟨i, Or.inr h1⟩
  | run pre post j ht he =>
    rw [ht] at hj hr
    rw [ht] at hq hc
    rw [total_mid] at hj hr
    refine ⟨?_, ?_, hq.other rfl, hc.other rfl, ?_, ?_, hlen ht, hjn, hjd ht (by simp)⟩
    · simp only [total_mid]
      rw [hj, ← Multiset.coe_add]
      simp only [Worker.held, add_zero]
      rw [show ((([j] : List J) : Multiset J)) = {j} from rfl]
      abel
    · simp only [total_mid]
      rw [execd_append, hr]
      simp only [Worker.owes, add_zero]
      abel
    · intro i j hi
      rcases hmid ht i _ hi with ⟨_, h1⟩ | ⟨_, h1⟩
      · cases h1
      · exact hcop i j h1
    · rintro ⟨i, hi | hi⟩
      · rcases hmid ht i _ hi with ⟨_, h1⟩ | ⟨_, h1⟩
        · cases h1
        · exact hex ⟨i, Or.inl h1⟩
      · rcases hmid ht i _ hi with ⟨_, h1⟩ | ⟨_, h1⟩
        · cases h1
        · exact hex ⟨i, Or.inr h1⟩
  | lockCollect pre post rs ht hn =>
    rw [ht] at hj hr
    rw [ht] at hq hc
    rw [total_mid] at hj hr
    rw [hn] at hc
    refine ⟨?_, ?_, hq.other rfl, hc.acquire rfl, ?_, ?_, hlen ht, hjn, hjd ht (by simp)⟩
    · simp only [total_mid]; exact hj
    · simp only [total_mid]; exact hr
    · intro i j hi
      rcases hmid ht i _ hi with ⟨_, h1⟩ | ⟨_, h1⟩
      · cases h1
      · exact hcop i j h1
    · rintro ⟨i, hi | hi⟩
      · rcases hmid ht i _ hi with ⟨_, h1⟩ | ⟨_, h1⟩
        · cases h1
        · exact hex ⟨i, Or.inl h1⟩
      · rcases hmid ht i _ hi with ⟨_, h1⟩ | ⟨_, h1⟩
        · cases h1
        · exact hex ⟨i, Or.inr h1⟩
  | add pre post r rs ht =>
    rw [ht] at hj hr
    rw [ht] at hq hc
    rw [total_mid] at hj hr
    refine ⟨?_, ?_, hq.other rfl, hc.other rfl, ?_, ?_, hlen ht, hjn, hjd ht (by simp)⟩
    · simp only [total_mid]; exact hj
    · simp only [total_mid]
      rw [hr, ← Multiset.coe_add]
      simp only [Worker.owes]
      rw [← Multiset.cons_coe, ← Multiset.singleton_add, show ((([r] : List A) : Multiset A)) = {r} from rfl]
      abel
    · intro i j hi
      rcases hmid ht i _ hi with ⟨_, h1⟩ | ⟨_, h1⟩
      · cases h1
      · exact hcop i j h1
    · rintro ⟨i, hi | hi⟩
      · rcases hmid ht i _ hi with ⟨_, h1⟩ | ⟨_, h1⟩
        · cases h1
        · exact hex ⟨i, Or.inl h1⟩
      · rcases hmid ht i _ hi with ⟨_, h1⟩ | ⟨_, h1⟩
        · cases h1
        · exact hex ⟨i, Or.inr h1⟩
  | unlockCollect pre post ht =>
    rw [ht] at hj hr
    rw [ht] at hq hc
    rw [total_mid] at hj hr
    refine ⟨?_, ?_, hq.other rfl, hc.release rfl rfl, ?_, ?_, hlen ht, hjn, hjd ht (by simp)⟩
    · simp only [total_mid]; exact hj
    · simp only [total_mid]; exact hr
    · intro i j hi
      rcases hmid ht i _ hi with ⟨_, h1⟩ | ⟨_, h1⟩
      · cases h1
      · exact hcop i j h1
    · rintro ⟨i, hi | hi⟩
      · rcases hmid ht i _ hi with ⟨_, h1⟩ | ⟨_, h1⟩
        · cases h1
        · exact hex ⟨i, Or.inl h1⟩
      · rcases hmid ht i _ hi with ⟨_, h1⟩ | ⟨_, h1⟩
        · cases h1
        · exact hex ⟨i, Or.inr h1⟩

theorem inv_reach {run : J → List A} {T : Nat} {jobs : List J} {k : Nat} {c : Conf J A}
    (h : Reach run T (init jobs) k c) : Inv run T jobs c := by
  induction h with
  | start => exact inv_init run T jobs
  | step _ hs ih => exact inv_step ih hs

/-! ### termination measure -/

def Worker.weight (run : J → List A) : Worker J A → Nat
  | .done => 0
  | .leaving none => 1
  | .copied _ => 2
  | .inQueue => 3
  | .wantQueue => 4
  | .inCollect rs => rs.length + 5
  | .wantCollect rs => rs.length + 6
  | .running j => (run j).length + 7
  | .leaving (some j) => (run j).length + 8

/-- An upper bound on the number of steps still possible. -/
def budget (run : J → List A) (T : Nat) (c : Conf J A) : Nat :=
  (c.queue.map (fun j => (run j).length + 7)).sum + total (Worker.weight run) c.threads + 5 * (T - c.threads.length) + (T - c.joined)

theorem budget_step {run : J → List A} {T : Nat} {jobs : List J} {c c' : Conf J A} (h : Inv run T jobs c)
    (hs : Step run T c c') : budget run T c' + 1 ≤ budget run T c := by
  unfold budget
  cases hs with
  | spawn hlt =>
    simp only [List.length_append, List.length_singleton]
    have : total (Worker.weight run) (c.threads ++ [.wantQueue]) = total (Worker.weight run) c.threads + 4 := by
      simp [total, Worker.weight]
    rw [this]; omega
  | join hT hd =>
    have : c.joined < c.threads.length := by
      by_contra hge
      rw [List.getElem?_eq_none (by omega)] at hd; cases hd
    dsimp only
    omega
  | lockQueue pre post ht hn => rw [ht]; simp only [total_mid, List.length_append, List.length_cons, Worker.weight]; omega
  | empty pre post ht he => rw [ht]; simp only [total_mid, List.length_append, List.length_cons, Worker.weight]; omega
  | back pre post j ht hb => rw [ht]; simp only [total_mid, List.length_append, List.length_cons, Worker.weight]; omega
  | pop pre post j ht =>
    have hlast := h.copied pre.length j (by rw [ht]; simp)
    have h1 := List.dropLast_append_getLast? j (by rw [hlast]; rfl)
    have h2 : (c.queue.map (fun j => (run j).length + 7)).sum = (c.queue.dropLast.map (fun j => (run j).length + 7)).sum + ((run j).length + 7) := by
      conv_lhs => rw [← h1]
      simp
    rw [ht, h2]; simp only [total_mid, List.length_append, List.length_cons, Worker.weight]; omega
  | finish pre post ht => rw [ht]; simp only [total_mid, List.length_append, List.length_cons, Worker.weight]; omega
  | take pre post j ht => rw [ht]; simp only [total_mid, List.length_append, List.length_cons, Worker.weight]; omega
  | runEmpty pre post j ht he => rw [ht]; simp only [total_mid, List.length_append, List.length_cons, Worker.weight]; omega
  | run pre post j ht he => rw [ht]; simp only [total_mid, List.length_append, List.length_cons, Worker.weight]; omega
  | lockCollect pre post rs ht hn => rw [ht]; simp only [total_mid, List.length_append, List.length_cons, Worker.weight]; omega
  | add pre post r rs ht => rw [ht]; simp only [total_mid, List.length_append, List.length_cons, Worker.weight]; omega
  | unlockCollect pre post ht => rw [ht]; simp only [total_mid, List.length_append, List.length_cons, Worker.weight]; omega

/-! ### progress -/

theorem split_at {α : Type} {l : List α} {i : Nat} {x : α} (h : l[i]? = some x) : ∃ pre post, l = pre ++ x :: post ∧ pre.length = i := by
  obtain ⟨hi, rfl⟩ := List.getElem?_eq_some_iff.1 h
  exact ⟨l.take i, l.drop (i + 1), by simp, by simp; omega⟩

theorem progress {run : J → List A} {T : Nat} {jobs : List J} {c : Conf J A} (h : Inv run T jobs c)
    (hnot : ¬ Returned T c) : ∃ c', Step run T c c' := by
  by_cases hsp : c.threads.length < T
  · exact ⟨_, .spawn c hsp⟩
  have hT : c.threads.length = T := by have := h.len; omega
  -- a thread inside the queue section can always move
  have hQ : ∀ (i : Nat) (x : Worker J A), c.threads[i]? = some x → x.hasQ = true → ∃ c', Step run T c c' := by
    intro i x hx hp
    obtain ⟨pre, post, ht, _⟩ := split_at hx
    cases x with
    | inQueue =>
      rcases hq : c.queue.getLast? with _ | j
      · exact ⟨_, .empty c pre post ht (List.getLast?_eq_none_iff.1 hq)⟩
      · exact ⟨_, .back c pre post j ht hq⟩
    | copied j => exact ⟨_, .pop c pre post j ht⟩
    | leaving o =>
      cases o with
      | none => exact ⟨_, .finish c pre post ht⟩
      | some j => exact ⟨_, .take c pre post j ht⟩
    | _ => simp [Worker.hasQ] at hp
  have hC : ∀ (i : Nat) (x : Worker J A), c.threads[i]? = some x → x.hasC = true → ∃ c', Step run T c c' := by
    intro i x hx hp
    obtain ⟨pre, post, ht, _⟩ := split_at hx
    cases x with
    | inCollect rs =>
      cases rs with
      | nil => exact ⟨_, .unlockCollect c pre post ht⟩
      | cons r rs => exact ⟨_, .add c pre post r rs ht⟩
    | _ => simp [Worker.hasC] at hp
  have hj : c.joined < T := by
    have := h.joined
    unfold Returned at hnot; omega
  obtain ⟨x, hx⟩ : ∃ x, c.threads[c.joined]? = some x := ⟨_, List.getElem?_eq_getElem (by omega)⟩
  obtain ⟨pre, post, ht, _⟩ := split_at hx
  cases x with
  | done => exact ⟨_, .join c hT hx⟩
  | wantQueue =>
    rcases hl : c.qlock with _ | i
    · exact ⟨_, .lockQueue c pre post ht hl⟩
    · obtain ⟨y, hy, hp⟩ := (h.q i).1 hl
      exact hQ i y hy hp
  | wantCollect rs =>
    rcases hl : c.clock with _ | i
    · exact ⟨_, .lockCollect c pre post rs ht hl⟩
    · obtain ⟨y, hy, hp⟩ := (h.cl i).1 hl
      exact hC i y hy hp
  | running j =>
    by_cases he : run j = []
    · exact ⟨_, .runEmpty c pre post j ht he⟩
    · exact ⟨_, .run c pre post j ht he⟩
  | inQueue => exact hQ _ _ hx rfl
  | copied j => exact hQ _ _ hx rfl
  | leaving o => exact hQ _ _ hx rfl
  | inCollect rs => exact hC _ _ hx rfl

theorem total_done {M : Type} [AddCommMonoid M] (f : Worker J A → M) (l : List (Worker J A)) (h : ∀ x ∈ l, x = .done)
    (h0 : f .done = 0) : total f l = 0 := by
  apply List.sum_eq_zero
  intro x hx
  obtain ⟨y, hy, rfl⟩ := List.mem_map.1 hx
  rw [h y hy, h0]

theorem all_done {run : J → List A} {T : Nat} {jobs : List J} {c : Conf J A} (h : Inv run T jobs c)
    (hret : Returned T c) : ∀ x ∈ c.threads, x = .done := by
  intro x hx
  obtain ⟨i, hi, rfl⟩ := List.mem_iff_getElem.1 hx
  have := h.joinedDone i (by have := h.len; unfold Returned at hret; omega)
  rw [List.getElem?_eq_getElem hi] at this
  exact Option.some.inj this

end TFR.Jobs
