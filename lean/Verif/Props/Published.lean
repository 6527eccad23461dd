import Verif.Spec.Published
import Verif.Model.Catalogue
import Verif.Lemmas.Streams
import Verif.Props.Mixers
import Verif.Props.Prngs
import Verif.Props.Twister
import Verif.Props.HardwarePrngs
/-
C147. The mixers, combiners and generators compute the published sequences of operations.
-/
namespace TFR
open Spec Function Mt

namespace Published

/-- The value of an expression computed with bit vectors. -/
def bv (w : Nat) (ρ : Nat → BitVec w) : WExp → BitVec w
  | .var i => ρ i
  | .num n => BitVec.ofNat w n
  | .add a b => bv w ρ a + bv w ρ b
  | .mul a b => bv w ρ a * bv w ρ b
  | .xor a b => bv w ρ a ^^^ bv w ρ b
  | .or a b => bv w ρ a ||| bv w ρ b
  | .and a b => bv w ρ a &&& bv w ρ b
  | .shr a b => bv w ρ a >>> (bv w ρ b).toNat
  | .shl a b => bv w ρ a <<< (bv w ρ b).toNat
  | .rotl a k => (bv w ρ a <<< k) ||| (bv w ρ a >>> (w - k))
  | .rotr a k => (bv w ρ a >>> k) ||| (bv w ρ a <<< (w - k))

theorem value_bv (w : Nat) (ρ : Nat → BitVec w) (e : WExp) : e.value w (fun i => (ρ i).toNat) = (bv w ρ e).toNat := by
  induction e with
  | var i => rfl
  | num n => simp [WExp.value, bv]
  | add a b iha ihb => simp [WExp.value, bv, iha, ihb]
  | mul a b iha ihb => simp [WExp.value, bv, iha, ihb]
  | xor a b iha ihb => simp [WExp.value, bv, iha, ihb]
  | or a b iha ihb => simp [WExp.value, bv, iha, ihb]
  | and a b iha ihb => simp [WExp.value, bv, iha, ihb]
  | shr a b iha ihb => simp [WExp.value, bv, iha, ihb, Nat.shiftRight_eq_div_pow]
  | shl a b iha ihb => simp [WExp.value, bv, iha, ihb, Nat.shiftLeft_eq]
  | rotl a k iha => simp [WExp.value, bv, iha, Nat.shiftRight_eq_div_pow, Nat.shiftLeft_eq]
  | rotr a k iha => simp [WExp.value, bv, iha, Nat.shiftRight_eq_div_pow, Nat.shiftLeft_eq]

/-- A program computed with bit vectors. -/
def runBv (w : Nat) (p : WProgram) (ρ : Nat → BitVec w) : Nat → BitVec w := p.foldl (fun e s => update e s.1 (bv w e s.2)) ρ

theorem run_bv (w : Nat) (p : WProgram) (ρ : Nat → BitVec w) : p.run w (fun i => (ρ i).toNat) = fun i => (runBv w p ρ i).toNat := by
  induction p generalizing ρ with
  | nil => rfl
  | cons s p ih =>
    have h : update (fun i => (ρ i).toNat) s.1 (s.2.value w fun i => (ρ i).toNat) = fun i => (update ρ s.1 (bv w ρ s.2) i).toNat := by
      funext i
      by_cases hi : i = s.1
      · subst hi; simp [value_bv]
      · simp [hi]
    show WProgram.run w p (update (fun i => (ρ i).toNat) s.1 (s.2.value w fun i => (ρ i).toNat)) = _
    rw [h, ih]; rfl

theorem result_bv (w : Nat) (p : WProgram) (x y : BitVec w) :
    p.result w x.toNat y.toNat = (runBv w p (fun i => if i = 0 then x else y) 0).toNat := by
  have h : (fun i => if i = 0 then x.toNat else y.toNat) = fun i : Nat => (if i = 0 then x else y : BitVec w).toNat := by
    funext i; split <;> rfl
  show WProgram.run w p (fun i => if i = 0 then x.toNat else y.toNat) 0 = _
  rw [h, run_bv]

theorem result_one (w : Nat) (p : WProgram) (x : BitVec w) :
    p.result w x.toNat = (runBv w p (fun i => if i = 0 then x else 0#w) 0).toNat := by
  have := result_bv w p x 0#w
  simpa using this




/-- The values of the seed's four words. -/
def words (s : SeedData) : Nat → BitVec 64
  | 0 => s.d0
  | 1 => s.d1
  | 2 => s.d2
  | 3 => s.d3
  | _ => 0#64

theorem output_eq (g : Generator) {w : Nat} (st : Stream (BitVec w)) (env : st.σ → Nat → BitVec g.word) (live : Nat → Bool) (d : Nat → BitVec 64)
    (h0 : ∀ i, live i → runBv g.word g.seed (fun i => (d i).setWidth g.word) i = env st.state i)
    (hstep : ∀ s ρ, (∀ i, live i → ρ i = env s i) →
      (∀ i, live i → runBv g.word g.call ρ i = env (st.step s).2 i) ∧ (runBv g.word g.call ρ 9).setWidth w = (st.step s).1) (k : Nat) :
    (st.nth k).toNat = g.output w (fun i => (d i).toNat) k := by
  have hr : ∀ j (ρ : Nat → BitVec g.word), (g.call.run g.word)^[j] (fun i => (ρ i).toNat) = fun i => ((runBv g.word g.call)^[j] ρ i).toNat := by
    intro j
    induction j with
    | zero => intro ρ; rfl
    | succ j ih => intro ρ; rw [iterate_succ_apply, iterate_succ_apply, run_bv, ih]
  have hs : ∀ j, ∀ i, live i → (runBv g.word g.call)^[j] (runBv g.word g.seed fun i => (d i).setWidth g.word) i = env (st.stateAt j) i := by
    intro j
    induction j with
    | zero => exact h0
    | succ j ih => rw [iterate_succ_apply', Stream.stateAt_succ]; exact (hstep _ _ ih).1
  unfold Generator.output
  rw [show (fun i => (d i).toNat % 2 ^ g.word) = fun i => ((d i).setWidth g.word).toNat from funext fun i => by simp, run_bv, hr, iterate_succ_apply',
    Stream.nth_eq, ← (hstep _ _ (hs k)).2]
  simp

end Published
open Published

/-- C147. Every mixer of 32 bits computes, for every word, the published program of its name. -/
theorem C147_mixers32 : ∀ m ∈ getMixers32, ∃ p, published32.lookup m.name = some p ∧ ∀ x : BitVec 32, (m.mix x).toNat = p.result 32 x.toNat := by
  intro m hm
  simp only [getMixers32, List.mem_cons, List.not_mem_nil, or_false] at hm
  rcases hm with rfl | rfl | rfl | rfl | rfl | rfl | rfl | rfl | rfl <;> refine ⟨_, rfl, fun x => ?_⟩ <;> rw [result_one] <;> try rfl
  show (mix32_h2_sql x).toNat = _
  have hc : ∀ a : BitVec 32, (a >>> 16) ^^^ a = a ^^^ (a >>> 16) := fun a => BitVec.xor_comm _ _
  unfold mix32_h2_sql
  simp only [hc]
  rfl

/-- C147. The mixer of 8 bits: it never faults and computes the published program. -/
theorem C147_mixers8 : ∀ x : BitVec 8, ∃ y, mix8_xm3x x = .ok y ∧ ∃ p, published8.lookup "mix8::xm3x" = some p ∧ y.toNat = p.result 8 x.toNat := by
  intro x
  have h : ∀ z : BitVec 8, mulAssign z 119#8 = .ok (z * 119#8) := fun z => mulAssign_ok _ _ (by have := z.isLt; simp; omega)
  refine ⟨_, ?_, _, rfl, by rw [result_one]⟩
  unfold mix8_xm3x
  simp only [h]
  rfl

/-- C147. The mixer of 16 bits: it never faults and computes the published program. -/
theorem C147_mixers16 : ∀ x : BitVec 16, ∃ y, mix16_xm3x x = .ok y ∧ ∃ p, published16.lookup "mix16::xm3x" = some p ∧ y.toNat = p.result 16 x.toNat := by
  intro x
  have h : ∀ z : BitVec 16, mulAssign z 13487#16 = .ok (z * 13487#16) := fun z => mulAssign_ok _ _ (by have := z.isLt; simp; omega)
  refine ⟨_, ?_, _, rfl, by rw [result_one]⟩
  unfold mix16_xm3x
  simp only [h]
  rfl

/-- C147. Every mixer of 64 bits computes, for every word, the published program of its name. -/
theorem C147_mixers64 : ∀ m ∈ getMixers64, ∃ p, published64.lookup m.name = some p ∧ ∀ x : BitVec 64, (m.mix x).toNat = p.result 64 x.toNat := by
  intro m hm
  simp only [getMixers64, List.mem_cons, List.not_mem_nil, or_false] at hm
  rcases hm with rfl | rfl | rfl | rfl | rfl | rfl | rfl | rfl | rfl | rfl | rfl | rfl <;> refine ⟨_, rfl, fun x => ?_⟩ <;> rw [result_one] <;> rfl

/-- C147. Every combiner computes, for every two words, the published program of its name. -/
theorem C147_combiners : ∀ c ∈ getCombiners32, ∃ p, publishedCombiners.lookup c.name = some p ∧
    ∀ x y : BitVec 32, (c.combine x y).toNat = p.result 32 x.toNat y.toNat := by
  intro c hc
  simp only [getCombiners32, List.mem_cons, List.not_mem_nil, or_false] at hc
  rcases hc with rfl | rfl | rfl | rfl <;> refine ⟨_, rfl, fun x y => ?_⟩ <;> rw [result_bv] <;> rfl

namespace Published

abbrev only (l : List Nat) : Nat → Bool := fun i => l.contains i

theorem of_only0 {P : Nat → Prop} (h : P 0) : ∀ i, only [0] i → P i := by
  intro i hi; simp at hi; subst hi; exact h
theorem of_only01 {P : Nat → Prop} (h : P 0) (h' : P 1) : ∀ i, only [0, 1] i → P i := by
  intro i hi; simp at hi; rcases hi with rfl | rfl <;> assumption
theorem of_only4 {P : Nat → Prop} (h0 : P 0) (h1 : P 1) (h2 : P 2) (h3 : P 3) : ∀ i, only [0, 1, 2, 3] i → P i := by
  intro i hi; simp at hi; rcases hi with rfl | rfl | rfl | rfl <;> assumption

/-- A generator whose state is one word. -/
theorem one (g : Generator) {w : Nat} (st : Stream (BitVec w)) (env : st.σ → BitVec g.word) (d : Nat → BitVec 64)
    (h0 : runBv g.word g.seed (fun i => (d i).setWidth g.word) 0 = env st.state)
    (hstep : ∀ s ρ, ρ 0 = env s → runBv g.word g.call ρ 0 = env (st.step s).2 ∧ (runBv g.word g.call ρ 9).setWidth w = (st.step s).1) (k : Nat) :
    (st.nth k).toNat = g.output w (fun i => (d i).toNat) k :=
  output_eq g st (fun s _ => env s) (only [0]) d (of_only0 h0)
    (fun s ρ h => ⟨of_only0 (hstep s ρ (h 0 rfl)).1, (hstep s ρ (h 0 rfl)).2⟩) k

theorem full {w : Nat} {a b : BitVec w} (h : a = b) : a.setWidth w = b := by rw [h, BitVec.setWidth_eq]

theorem p_mx64_1 (s : SeedData) : ∀ k, ((rng64_mx1 s).nth k).toNat = mx1_64.output 64 (fun i => (words s i).toNat) k :=
  one mx1_64 (rng64_mx1 s) id (words s) (BitVec.setWidth_eq _) fun st ρ h => by
    obtain rfl : ρ 0 = st := h
    exact ⟨rfl, full (w := 64) rfl⟩

theorem p_mx64_2 (s : SeedData) : ∀ k, ((rng64_mx2 s).nth k).toNat = mx2_64.output 64 (fun i => (words s i).toNat) k :=
  one mx2_64 (rng64_mx2 s) id (words s) (BitVec.setWidth_eq _) fun st ρ h => by
    obtain rfl : ρ 0 = st := h
    exact ⟨rfl, full (w := 64) rfl⟩

theorem p_mx64_3 (s : SeedData) : ∀ k, ((rng64_mx3 s).nth k).toNat = mx3_64.output 64 (fun i => (words s i).toNat) k :=
  one mx3_64 (rng64_mx3 s) id (words s) (BitVec.setWidth_eq _) fun st ρ h => by
    obtain rfl : ρ 0 = st := h
    exact ⟨rfl, full (w := 64) rfl⟩

theorem p_splitmix64 (s : SeedData) : ∀ k, ((rng64_splitmix s).nth k).toNat = splitmix.output 64 (fun i => (words s i).toNat) k :=
  one splitmix (rng64_splitmix s) id (words s) (BitVec.setWidth_eq _) fun st ρ h => by
    obtain rfl : ρ 0 = st := h
    exact ⟨rfl, full (w := 64) rfl⟩

theorem p_mx1_64 (s : SeedData) : ∀ k, ((rng32_mx1_64 s).nth k).toNat = mx1_64.output 32 (fun i => (words s i).toNat) k :=
  one mx1_64 (rng32_mx1_64 s) id (words s) (BitVec.setWidth_eq _) fun st ρ h => by
    obtain rfl : ρ 0 = st := h
    exact ⟨rfl, rfl⟩

theorem p_mx2_64 (s : SeedData) : ∀ k, ((rng32_mx2_64 s).nth k).toNat = mx2_64.output 32 (fun i => (words s i).toNat) k :=
  one mx2_64 (rng32_mx2_64 s) id (words s) (BitVec.setWidth_eq _) fun st ρ h => by
    obtain rfl : ρ 0 = st := h
    exact ⟨rfl, rfl⟩

theorem p_mx3_64 (s : SeedData) : ∀ k, ((rng32_mx3_64 s).nth k).toNat = mx3_64.output 32 (fun i => (words s i).toNat) k :=
  one mx3_64 (rng32_mx3_64 s) id (words s) (BitVec.setWidth_eq _) fun st ρ h => by
    obtain rfl : ρ 0 = st := h
    exact ⟨rfl, rfl⟩

theorem p_splitmix_64 (s : SeedData) : ∀ k, ((rng32_splitmix_64 s).nth k).toNat = splitmix.output 32 (fun i => (words s i).toNat) k :=
  one splitmix (rng32_splitmix_64 s) id (words s) (BitVec.setWidth_eq _) fun st ρ h => by
    obtain rfl : ρ 0 = st := h
    exact ⟨rfl, rfl⟩

theorem p_splitmix16 (s : SeedData) : ∀ k, ((rng16_splitmix_64 s).nth k).toNat = (splitmix.top 16).output 16 (fun i => (words s i).toNat) k :=
  one (splitmix.top 16) (rng16_splitmix_64 s) id (words s) (BitVec.setWidth_eq _) fun st ρ h => by
    obtain rfl : ρ 0 = st := h
    exact ⟨rfl, rfl⟩

theorem p_splitmix8 (s : SeedData) : ∀ k, ((rng8_splitmix_64 s).nth k).toNat = (splitmix.top 8).output 8 (fun i => (words s i).toNat) k :=
  one (splitmix.top 8) (rng8_splitmix_64 s) id (words s) (BitVec.setWidth_eq _) fun st ρ h => by
    obtain rfl : ρ 0 = st := h
    exact ⟨rfl, rfl⟩

theorem p_xorshift64 (s : SeedData) : ∀ k, ((rng64_xorshift s).nth k).toNat = xorshift64.output 64 (fun i => (words s i).toNat) k :=
  one xorshift64 (rng64_xorshift s) id (words s) (BitVec.setWidth_eq _) fun st ρ h => by
    obtain rfl : ρ 0 = st := h
    exact ⟨rfl, full (w := 64) rfl⟩

theorem p_xorshift_64 (s : SeedData) : ∀ k, ((rng32_xorshift_64 s).nth k).toNat = (xorshift64.top 32).output 32 (fun i => (words s i).toNat) k :=
  one (xorshift64.top 32) (rng32_xorshift_64 s) id (words s) (BitVec.setWidth_eq _) fun st ρ h => by
    obtain rfl : ρ 0 = st := h
    exact ⟨rfl, rfl⟩

theorem p_xorshift32 (s : SeedData) : ∀ k, ((rng32_xorshift s).nth k).toNat = xorshift32.output 32 (fun i => (words s i).toNat) k :=
  one xorshift32 (rng32_xorshift s) id (words s) rfl fun st ρ h => by
    obtain rfl : ρ 0 = st := h
    exact ⟨rfl, full (w := 32) rfl⟩

theorem p_mx32_1 (s : SeedData) : ∀ k, ((rng32_mx1 s).nth k).toNat = (counterBased 32 2471660141 [16, 14] [2471660141]).output 32 (fun i => (words s i).toNat) k :=
  one (counterBased 32 2471660141 [16, 14] [2471660141]) (rng32_mx1 s) id (words s) rfl fun st ρ h => by
    obtain rfl : ρ 0 = st := h
    exact ⟨rfl, full (w := 32) rfl⟩

theorem p_mx32_2 (s : SeedData) : ∀ k, ((rng32_mx2 s).nth k).toNat = (counterBased 32 1159349557 [16, 14, 13] [1159349557, 1159349557]).output 32 (fun i => (words s i).toNat) k :=
  one (counterBased 32 1159349557 [16, 14, 13] [1159349557, 1159349557]) (rng32_mx2 s) id (words s) rfl fun st ρ h => by
    obtain rfl : ρ 0 = st := h
    exact ⟨rfl, full (w := 32) rfl⟩

theorem p_mx32_3 (s : SeedData) : ∀ k, ((rng32_mx3 s).nth k).toNat = (counterBased 32 1159349557 [16, 14, 16, 14] [1159349557, 1159349557, 1159349557]).output 32 (fun i => (words s i).toNat) k :=
  one (counterBased 32 1159349557 [16, 14, 16, 14] [1159349557, 1159349557, 1159349557]) (rng32_mx3 s) id (words s) rfl fun st ρ h => by
    obtain rfl : ρ 0 = st := h
    exact ⟨rfl, full (w := 32) rfl⟩

-- two words
theorem two (g : Generator) {w : Nat} (st : Stream (BitVec w)) (f0 f1 : st.σ → BitVec g.word) (d : Nat → BitVec 64)
    (h0 : runBv g.word g.seed (fun i => (d i).setWidth g.word) 0 = f0 st.state)
    (h1 : runBv g.word g.seed (fun i => (d i).setWidth g.word) 1 = f1 st.state)
    (hstep : ∀ s ρ, ρ 0 = f0 s → ρ 1 = f1 s → runBv g.word g.call ρ 0 = f0 (st.step s).2 ∧ runBv g.word g.call ρ 1 = f1 (st.step s).2 ∧
      (runBv g.word g.call ρ 9).setWidth w = (st.step s).1) : ∀ k,
    (st.nth k).toNat = g.output w (fun i => (d i).toNat) k :=
  output_eq g st (fun s i => if i = 0 then f0 s else f1 s) (only [0, 1]) d (of_only01 h0 h1) fun s ρ h =>
    ⟨of_only01 (hstep s ρ (h 0 rfl) (h 1 rfl)).1 (hstep s ρ (h 0 rfl) (h 1 rfl)).2.1, (hstep s ρ (h 0 rfl) (h 1 rfl)).2.2⟩

theorem rol_pos {w : Nat} (v : BitVec w) (k : Nat) (h0 : 0 < k) (hk : k < w) : rol v (k : Int) = (v <<< k) ||| (v >>> (w - k)) := by
  have : (k : Int).tmod w = (k : Int) := Int.tmod_eq_of_lt (by omega) (by omega)
  unfold rol
  simp only [this]
  rw [if_neg (by omega), if_pos (by omega)]
  rfl

theorem p_xs128 (s : SeedData) : ∀ k, ((rng64_xorshift128plus s).nth k).toNat = xorshift128plus.output 64 (fun i => (words s i).toNat) k :=
  two xorshift128plus (rng64_xorshift128plus s) Prod.fst Prod.snd (words s) (BitVec.setWidth_eq _) (BitVec.setWidth_eq _) fun st ρ h h' => by
    obtain ⟨a, b⟩ := st
    obtain rfl : ρ 0 = a := h
    obtain rfl : ρ 1 = b := h'
    exact ⟨rfl, rfl, full (w := 64) (BitVec.add_comm (ρ 0) (ρ 1))⟩
theorem p_xo128 (s : SeedData) : ∀ k, ((rng64_xoroshiro128plus s).nth k).toNat = xoroshiro128plus.output 64 (fun i => (words s i).toNat) k :=
  two xoroshiro128plus (rng64_xoroshiro128plus s) Prod.fst Prod.snd (words s) (BitVec.setWidth_eq _) (BitVec.setWidth_eq _) fun st ρ h h' => by
    obtain ⟨a, b⟩ := st
    obtain rfl : ρ 0 = a := h
    obtain rfl : ρ 1 = b := h'
    exact ⟨rfl, rfl, full (w := 64) rfl⟩

-- four words
theorem four (g : Generator) {w : Nat} (st : Stream (BitVec w)) (f0 f1 f2 f3 : st.σ → BitVec g.word) (d : Nat → BitVec 64)
    (h0 : runBv g.word g.seed (fun i => (d i).setWidth g.word) 0 = f0 st.state)
    (h1 : runBv g.word g.seed (fun i => (d i).setWidth g.word) 1 = f1 st.state)
    (h2 : runBv g.word g.seed (fun i => (d i).setWidth g.word) 2 = f2 st.state)
    (h3 : runBv g.word g.seed (fun i => (d i).setWidth g.word) 3 = f3 st.state)
    (hstep : ∀ s ρ, ρ 0 = f0 s → ρ 1 = f1 s → ρ 2 = f2 s → ρ 3 = f3 s →
      runBv g.word g.call ρ 0 = f0 (st.step s).2 ∧ runBv g.word g.call ρ 1 = f1 (st.step s).2 ∧
      runBv g.word g.call ρ 2 = f2 (st.step s).2 ∧ runBv g.word g.call ρ 3 = f3 (st.step s).2 ∧
      (runBv g.word g.call ρ 9).setWidth w = (st.step s).1) : ∀ k,
    (st.nth k).toNat = g.output w (fun i => (d i).toNat) k :=
  output_eq g st (fun s i => if i = 0 then f0 s else if i = 1 then f1 s else if i = 2 then f2 s else f3 s) (only [0, 1, 2, 3]) d
    (of_only4 h0 h1 h2 h3) fun s ρ h =>
    let H := hstep s ρ (h 0 rfl) (h 1 rfl) (h 2 rfl) (h 3 rfl)
    ⟨of_only4 H.1 H.2.1 H.2.2.1 H.2.2.2.1, H.2.2.2.2⟩

theorem p_xp (s : SeedData) : ∀ k, ((rng32_xoshiro128plus s).nth k).toNat = xoshiro128plus.output 32 (fun i => (words s i).toNat) k :=
  four xoshiro128plus (rng32_xoshiro128plus s) (·.1) (·.2.1) (·.2.2.1) (·.2.2.2) (words s) rfl rfl rfl rfl fun st ρ h h' h2 h3 => by
    obtain ⟨a, b, c, d⟩ := st
    obtain rfl : ρ 0 = a := h
    obtain rfl : ρ 1 = b := h'
    obtain rfl : ρ 2 = c := h2
    obtain rfl : ρ 3 = d := h3
    exact ⟨rfl, rfl, rfl, rfl, full (w := 32) rfl⟩
theorem p_xpp (s : SeedData) : ∀ k, ((rng32_xoshiro128plusplus s).nth k).toNat = xoshiro128plusplus.output 32 (fun i => (words s i).toNat) k :=
  four xoshiro128plusplus (rng32_xoshiro128plusplus s) (·.1) (·.2.1) (·.2.2.1) (·.2.2.2) (words s) rfl rfl rfl rfl fun st ρ h h' h2 h3 => by
    obtain ⟨a, b, c, d⟩ := st
    obtain rfl : ρ 0 = a := h
    obtain rfl : ρ 1 = b := h'
    obtain rfl : ρ 2 = c := h2
    obtain rfl : ρ 3 = d := h3
    exact ⟨rfl, rfl, rfl, rfl, full (w := 32) rfl⟩

-- sfc
theorem run_calls (w n : Nat) (call : WProgram) (ρ : Nat → BitVec w) :
    runBv w (List.replicate n call).flatten ρ = (runBv w call)^[n] ρ := by
  induction n generalizing ρ with
  | zero => rfl
  | succ n ih =>
    rw [List.replicate_succ, List.flatten_cons, iterate_succ_apply, ← ih]
    exact List.foldl_append

theorem run_append (w : Nat) (p q : WProgram) (ρ : Nat → BitVec w) : runBv w (p ++ q) ρ = runBv w q (runBv w p ρ) := List.foldl_append

/-- The variables hold the state of `sfc`. -/
def Holds {w : Nat} (ρ : Nat → BitVec w) (s : Sfc w) : Prop := ρ 0 = s.a ∧ ρ 1 = s.b ∧ ρ 2 = s.c ∧ ρ 3 = s.d

def SfcCall (word p q r : Nat) : Prop := ∀ (ρ : Nat → BitVec word) (s : Sfc word), Holds ρ s →
  Holds (runBv word (sfcCall p q r) ρ) (sfcNext p q r s).2 ∧ runBv word (sfcCall p q r) ρ 9 = (sfcNext p q r s).1

theorem call64 : SfcCall 64 24 11 3 := by
  rintro ρ ⟨a, b, c, d⟩ ⟨h0, h1, h2, h3⟩
  obtain rfl : ρ 0 = a := h0
  obtain rfl : ρ 1 = b := h1
  obtain rfl : ρ 2 = c := h2
  obtain rfl : ρ 3 = d := h3
  exact ⟨⟨rfl, rfl, rfl, rfl⟩, rfl⟩
theorem call32 : SfcCall 32 21 9 3 := by
  rintro ρ ⟨a, b, c, d⟩ ⟨h0, h1, h2, h3⟩
  obtain rfl : ρ 0 = a := h0
  obtain rfl : ρ 1 = b := h1
  obtain rfl : ρ 2 = c := h2
  obtain rfl : ρ 3 = d := h3
  exact ⟨⟨rfl, rfl, rfl, rfl⟩, rfl⟩
theorem call16 : SfcCall 16 6 5 3 := by
  rintro ρ ⟨a, b, c, d⟩ ⟨h0, h1, h2, h3⟩
  obtain rfl : ρ 0 = a := h0
  obtain rfl : ρ 1 = b := h1
  obtain rfl : ρ 2 = c := h2
  obtain rfl : ρ 3 = d := h3
  exact ⟨⟨rfl, rfl, rfl, rfl⟩, rfl⟩

theorem p_sfc (name : String) {word p q r : Nat} (hc : SfcCall word p q r) (d : Nat → BitVec 64) (seed : BitVec word)
    (hseed : (d 0).setWidth word = seed) (k : Nat) :
    ((sfcStream name p q r (sfcSeed p q r seed)).nth k).toNat = (sfc word p q r).output word (fun i => (d i).toNat) k := by
  have hiter : ∀ n (ρ : Nat → BitVec word) (s : Sfc word), Holds ρ s →
      Holds ((runBv word (sfcCall p q r))^[n] ρ) ((fun s => (sfcNext p q r s).2)^[n] s) := by
    intro n
    induction n with
    | zero => intro ρ s h; exact h
    | succ n ih => intro ρ s h; rw [iterate_succ_apply, iterate_succ_apply]; exact ih _ _ (hc ρ s h).1
  have h0 : Holds (runBv word (sfc word p q r).seed fun i => (d i).setWidth word) (sfcSeed p q r seed) := by
    show Holds (runBv word ([(1, WExp.x), (2, WExp.x), (3, 1)] ++ (List.replicate 12 (sfcCall p q r)).flatten) fun i => (d i).setWidth word) _
    rw [run_append, run_calls]
    exact hiter 12 _ _ ⟨hseed, hseed, hseed, rfl⟩
  exact four (sfc word p q r) (sfcStream name p q r (sfcSeed p q r seed)) Sfc.a Sfc.b Sfc.c Sfc.d d h0.1 h0.2.1 h0.2.2.1 h0.2.2.2
    (fun s ρ g0 g1 g2 g3 => by
      obtain ⟨⟨e0, e1, e2, e3⟩, e9⟩ := hc ρ s ⟨g0, g1, g2, g3⟩
      exact ⟨e0, e1, e2, e3, full (w := word) e9⟩) k

-- pcg
/-- A stream that keeps only the state of `pcg`, not its increment. -/
def plain {w : Nat} (e : Pcg) (out : BitVec 64 → BitVec w) : Stream (BitVec w) where
  σ := BitVec 64
  name := ""
  state := e.state
  step s := (out s, pcgBump e.inc s)

theorem nth_plain {w : Nat} (e : Pcg) (out : BitVec 64 → BitVec w) (k : Nat) : (plain e out).nth k = out ((pcgBump e.inc)^[k] e.state) := by
  rw [Stream.nth_eq]; rfl

theorem amount (s : BitVec 64) : (5#64 + s >>> (59#64).toNat).toNat = 5 + ((s >>> 59).toNat &&& 31) := by
  have h : (s >>> 59).toNat < 32 := by
    rw [BitVec.toNat_ushiftRight, Nat.shiftRight_eq_div_pow]; have := s.isLt; omega
  rw [show (31 : Nat) = 2 ^ 5 - 1 from rfl, Nat.and_two_pow_sub_one_eq_mod, Nat.mod_eq_of_lt h]
  show (5#64 + s >>> 59).toNat = _
  rw [BitVec.toNat_add, Nat.mod_eq_of_lt] <;> simp only [BitVec.toNat_ofNat] <;> omega

theorem rxs_eq (s : BitVec 64) : ((s ^^^ s >>> ((5#64 + s >>> (59#64).toNat).toNat)) * 12605985483714917081#64) ^^^
    (((s ^^^ s >>> ((5#64 + s >>> (59#64).toNat).toNat)) * 12605985483714917081#64) >>> 43) = pcgRxsMXs s := by
  rw [amount]
  unfold pcgRxsMXs
  simp only [BitVec.ushiftRight_zero]

theorem p_pcg (w : Nat) (d : Nat → BitVec 64) (k : Nat) :
    (((plain (pcgSeed (d 0)) (fun s => (pcgRxsMXs s).setWidth w))).nth k).toNat = pcg64.output w (fun i => (d i).toNat) k :=
  one pcg64 (plain (pcgSeed (d 0)) (fun s => (pcgRxsMXs s).setWidth w)) id d
    (by
      show ((d 0).setWidth 64 + _) * _ + _ = _
      rw [BitVec.setWidth_eq]; rfl)
    (fun st ρ h => by
      obtain rfl : ρ 0 = st := h
      exact ⟨rfl, congrArg (BitVec.setWidth w) (rxs_eq (ρ 0))⟩) k

theorem rot_eq (t : BitVec 64) (r : Nat) (hr : r < 32) :
    (((t &&& 0xffffffff#64) >>> r) ||| (((t &&& 0xffffffff#64) <<< (32 - r)) &&& 0xffffffff#64)).setWidth 32 = (t.setWidth 32).rotateRight r := by
  have hm : ∀ i, (0xffffffff#64).getLsbD i = decide (i < 32) := by
    intro i
    by_cases h : i < 64
    · revert i; decide
    · rw [BitVec.getLsbD_of_ge _ _ (by omega)]; simp; omega
  apply BitVec.eq_of_getLsbD_eq
  intro i hi
  rw [BitVec.getLsbD_rotateRight, Nat.mod_eq_of_lt hr]
  simp only [BitVec.getLsbD_setWidth, BitVec.getLsbD_or, BitVec.getLsbD_ushiftRight, BitVec.getLsbD_and, BitVec.getLsbD_shiftLeft, hm]
  by_cases h : i < 32 - r
  · simp [h, hi, show r + i < 32 by omega]
  · simp [h, hi, show ¬ r + i < 32 by omega, show i - (32 - r) < 32 by omega, show i < 64 by omega]

theorem xsh_eq (s : BitVec 64) :
    (((((s ^^^ s >>> 18) >>> 27) &&& 0xffffffff#64) >>> (s >>> 59).toNat) |||
      (((((s ^^^ s >>> 18) >>> 27) &&& 0xffffffff#64) <<< ((s >>> 59 ^^^ 31#64) + 1#64).toNat) &&& 0xffffffff#64)).setWidth 32 = pcgXshRr s := by
  have h : (s >>> 59).toNat < 32 := by
    rw [BitVec.toNat_ushiftRight, Nat.shiftRight_eq_div_pow]; have := s.isLt; omega
  have key : ∀ n < 32, ((BitVec.ofNat 64 n ^^^ 31#64) + 1#64).toNat = 32 - n := by decide +kernel
  have hk := key _ h
  rw [BitVec.ofNat_toNat, BitVec.setWidth_eq] at hk
  rw [hk, rot_eq _ _ h]
  unfold pcgXshRr
  have h2 : (((s >>> 59).toNat &&& 31) <<< 0) &&& 31 = (s >>> 59).toNat := by
    rw [Nat.shiftLeft_zero, show (31 : Nat) = 2 ^ 5 - 1 from rfl, Nat.and_two_pow_sub_one_eq_mod, Nat.and_two_pow_sub_one_eq_mod, Nat.mod_mod,
      Nat.mod_eq_of_lt h]
  simp only [h2]

theorem p_pcg32 (d : Nat → BitVec 64) (k : Nat) :
    ((plain (pcgSeed (d 0)) pcgXshRr).nth k).toNat = pcg32.output 32 (fun i => (d i).toNat) k :=
  one pcg32 (plain (pcgSeed (d 0)) pcgXshRr) id d
    (by
      show ((d 0).setWidth 64 + _) * _ + _ = _
      rw [BitVec.setWidth_eq]; rfl)
    (fun st ρ h => by
      obtain rfl : ρ 0 = st := h
      exact ⟨rfl, xsh_eq (ρ 0)⟩) k

theorem nth_of_nth {α : Type} (s t : Stream α) (h : ∀ k, s.nth k = t.nth k) : s.nth = t.nth := funext h

theorem p_pcg64 (s : SeedData) (k : Nat) : ((rng64_pcg s).nth k).toNat = pcg64.output 64 (fun i => (words s i).toNat) k := by
  rw [← p_pcg, nth_plain, BitVec.setWidth_eq]
  exact congrArg BitVec.toNat (nth_pcg64 (pcgSeed s.s64) k)
theorem p_pcg16 (s : SeedData) (k : Nat) : ((rng16_pcg_64 s).nth k).toNat = pcg64.output 16 (fun i => (words s i).toNat) k := by
  rw [← p_pcg, nth_plain]
  unfold rng16_pcg_64
  rw [Stream.nth_mapS]
  exact congrArg (fun v : BitVec 64 => (v.setWidth 16).toNat) (nth_pcg64 (pcgSeed s.s64) k)
theorem p_pcg8 (s : SeedData) (k : Nat) : ((rng8_pcg_64 s).nth k).toNat = pcg64.output 8 (fun i => (words s i).toNat) k := by
  rw [← p_pcg, nth_plain]
  unfold rng8_pcg_64
  rw [Stream.nth_mapS]
  exact congrArg (fun v : BitVec 64 => (v.setWidth 8).toNat) (nth_pcg64 (pcgSeed s.s64) k)
theorem p_pcg32_64 (s : SeedData) (k : Nat) : ((rng32_pcg_64 s).nth k).toNat = pcg32.output 32 (fun i => (words s i).toNat) k := by
  rw [← p_pcg32, nth_plain]
  exact congrArg BitVec.toNat (nth_pcg32 (pcgSeed s.s64) k)

end Published

/-- The values of the four seed words. -/
def seedWords (s : SeedData) (i : Nat) : Nat := if i = 0 then s.d0.toNat else if i = 1 then s.d1.toNat else if i = 2 then s.d2.toNat else
  if i = 3 then s.d3.toNat else 0

theorem Published.words_eq (s : SeedData) : seedWords s = fun i => (words s i).toNat := by
  funext i
  match i with
  | 0 => rfl
  | 1 => rfl
  | 2 => rfl
  | 3 => rfl
  | i + 4 => simp [seedWords, words]

/-- C147. Every registered generator of 64 bits delivers, for every seed and at every position, what the published generator of its name
delivers. -/
theorem C147_prngs64 : ∀ rng ∈ getPrngs64, ∀ seed, ∃ g, generators64.lookup (rng seed).name = some g ∧
    ∀ k, ((rng seed).nth k).toNat = g.output 64 (seedWords seed) k := by
  intro rng hr seed
  rw [words_eq]
  simp only [getPrngs64, List.mem_cons, List.not_mem_nil, or_false] at hr
  rcases hr with rfl | rfl | rfl | rfl | rfl | rfl | rfl | rfl | rfl
  · exact ⟨_, rfl, p_mx64_1 seed⟩
  · exact ⟨_, rfl, p_mx64_2 seed⟩
  · exact ⟨_, rfl, p_mx64_3 seed⟩
  · exact ⟨_, rfl, p_splitmix64 seed⟩
  · exact ⟨_, rfl, p_pcg64 seed⟩
  · exact ⟨_, rfl, p_xorshift64 seed⟩
  · exact ⟨_, rfl, p_xs128 seed⟩
  · exact ⟨_, rfl, p_xo128 seed⟩
  · exact ⟨_, rfl, p_sfc _ call64 (words seed) _ (BitVec.setWidth_eq _)⟩

/-- C147. The registered generators of 32 bits, except for the two that are not programs on words (the next two theorems). -/
theorem C147_prngs32 : ∀ rng ∈ getPrngs32, ∀ seed, (rng seed).name = "rng32::mt19937" ∨ (rng seed).name = "rng32::minstd_rand" ∨
    ∃ g, generators32.lookup (rng seed).name = some g ∧ ∀ k, ((rng seed).nth k).toNat = g.output 32 (seedWords seed) k := by
  intro rng hr seed
  rw [words_eq]
  simp only [getPrngs32, List.mem_cons, List.not_mem_nil, or_false] at hr
  rcases hr with rfl | rfl | rfl | rfl | rfl | rfl | rfl | rfl | rfl | rfl | rfl | rfl | rfl | rfl | rfl
  · exact .inr (.inr ⟨_, rfl, p_mx32_1 seed⟩)
  · exact .inr (.inr ⟨_, rfl, p_mx32_2 seed⟩)
  · exact .inr (.inr ⟨_, rfl, p_mx32_3 seed⟩)
  · exact .inr (.inr ⟨_, rfl, p_mx1_64 seed⟩)
  · exact .inr (.inr ⟨_, rfl, p_mx2_64 seed⟩)
  · exact .inr (.inr ⟨_, rfl, p_mx3_64 seed⟩)
  · exact .inr (.inr ⟨_, rfl, p_splitmix_64 seed⟩)
  · exact .inr (.inr ⟨_, rfl, p_pcg32_64 seed⟩)
  · exact .inr (.inr ⟨_, rfl, p_xp seed⟩)
  · exact .inr (.inr ⟨_, rfl, p_xpp seed⟩)
  · exact .inr (.inr ⟨_, rfl, p_sfc _ call32 (words seed) _ rfl⟩)
  · exact .inl rfl
  · exact .inr (.inr ⟨_, rfl, p_xorshift32 seed⟩)
  · exact .inr (.inr ⟨_, rfl, p_xorshift_64 seed⟩)
  · exact .inr (.inl rfl)

/-- C147. The registered generators of 16 bits. -/
theorem C147_prngs16 : ∀ rng ∈ getPrngs16, ∀ seed, ∃ g, generators16.lookup (rng seed).name = some g ∧
    ∀ k, ((rng seed).nth k).toNat = g.output 16 (seedWords seed) k := by
  intro rng hr seed
  rw [words_eq]
  simp only [getPrngs16, List.mem_cons, List.not_mem_nil, or_false] at hr
  rcases hr with rfl | rfl | rfl
  · exact ⟨_, rfl, p_splitmix16 seed⟩
  · exact ⟨_, rfl, p_pcg16 seed⟩
  · exact ⟨_, rfl, p_sfc _ call16 (words seed) _ rfl⟩

/-- C147. The registered generators of 8 bits. -/
theorem C147_prngs8 : ∀ rng ∈ getPrngs8, ∀ seed, ∃ g, generators8.lookup (rng seed).name = some g ∧
    ∀ k, ((rng seed).nth k).toNat = g.output 8 (seedWords seed) k := by
  intro rng hr seed
  rw [words_eq]
  simp only [getPrngs8, List.mem_cons, List.not_mem_nil, or_false] at hr
  rcases hr with rfl | rfl
  · exact ⟨_, rfl, p_splitmix8 seed⟩
  · exact ⟨_, rfl, p_pcg8 seed⟩

/-- C147. minstd: the powers of 48271 times the seed, modulo `2^31 - 1`; a seed divisible by the modulus counts as 1. -/
theorem C147_minstd (seed : SeedData) (k : Nat) :
    ((rng32_minstd seed).nth k).toNat =
      48271 ^ (k + 1) * (if seed.d0.toNat % 2 ^ 32 % (2 ^ 31 - 1) = 0 then 1 else seed.d0.toNat % 2 ^ 32 % (2 ^ 31 - 1)) % (2 ^ 31 - 1) := by
  have hs : minstdSeed seed.s32 = if seed.d0.toNat % 2 ^ 32 % (2 ^ 31 - 1) = 0 then 1 else seed.d0.toNat % 2 ^ 32 % (2 ^ 31 - 1) := by
    unfold minstdSeed SeedData.s32
    rw [BitVec.toNat_setWidth]; rfl
  have hv := minstdSeed_valid seed.s32
  rw [nth_minstd, minstd_iter _ _ (by omega), hs, BitVec.toNat_ofNat, Nat.mod_eq_of_lt]
  · norm_num
  exact lt_trans (Nat.mod_lt _ (show 0 < 2147483647 by norm_num)) (show 2147483647 < 2 ^ 32 by norm_num)

theorem Published.twist_nat (a b : BitVec 32) : (mtTwist ((a &&& 0x80000000#32) ||| (b &&& 0x7fffffff#32))).toNat = mt19937Twist a.toNat b.toNat := by
  have hy : ((a &&& 0x80000000#32) ||| (b &&& 0x7fffffff#32)).toNat = (a.toNat &&& 0x80000000) ||| (b.toNat &&& 0x7fffffff) := by simp
  unfold mtTwist mt19937Twist
  rw [← hy]
  generalize ((a &&& 0x80000000#32) ||| (b &&& 0x7fffffff#32)) = y
  rw [BitVec.toNat_xor, BitVec.toNat_ushiftRight, Nat.shiftRight_eq_div_pow]
  have hb : y.getLsbD 0 = decide (y.toNat % 2 = 1) := by simp [BitVec.getLsbD, Nat.testBit_zero]
  rw [hb]
  by_cases h : y.toNat % 2 = 1 <;> simp [h]

theorem Published.temper_nat (a : BitVec 32) : (mtTemper a).toNat = mt19937Temper a.toNat := by
  have hones : ∀ v : BitVec 32, v &&& 0xffffffff#32 = v := by
    intro v
    rw [show (0xffffffff#32) = BitVec.allOnes 32 from by decide, BitVec.and_allOnes]
  unfold mtTemper mt19937Temper
  simp only [hones]
  simp [Nat.shiftRight_eq_div_pow, Nat.shiftLeft_eq]

/-- C147. MT19937: the words are set from the seed, follow the recurrence, and the results are the tempered words from number 624 on. -/
theorem C147_mt19937 (seed : SeedData) : ∃ X : Nat → Nat,
    X 0 = seed.d0.toNat % 2 ^ 32 ∧
    (∀ i < 623, X (i + 1) = (1812433253 * (X i ^^^ X i / 2 ^ 30) + (i + 1)) % 2 ^ 32) ∧
    (∀ i, X (i + 624) = X (i + 397) ^^^ mt19937Twist (X i) (X (i + 1))) ∧
    ∀ k, ((rng32_mt19937 seed).nth k).toNat = mt19937Temper (X (k + 624)) := by
  refine ⟨fun i => (word (fun i => mtSeedWord seed.s32 i.val) i).toNat, ?_, ?_, ?_, ?_⟩
  · beta_reduce
    rw [word_lt _ 0 (by omega)]
    show (seed.d0.setWidth 32).toNat = _
    rw [BitVec.toNat_setWidth]
  · intro i hi
    beta_reduce
    rw [word_lt _ i (by omega), word_lt _ (i + 1) (by omega)]
    show (1812433253#32 * (mtSeedWord seed.s32 i ^^^ (mtSeedWord seed.s32 i >>> 30)) + BitVec.ofNat 32 (i + 1)).toNat = _
    generalize mtSeedWord seed.s32 i = v
    simp [Nat.shiftRight_eq_div_pow]
  · intro i
    beta_reduce
    rw [word_rec, BitVec.toNat_xor, ← Published.twist_nat]
    rfl
  · intro k
    rw [← Published.temper_nat, ← nth_mt]
    rfl

/-- C147. The two generators on AES rounds (they are not registered) begin with the lower halves of the seed words, the first one with that of
the first: their results are the iterates of `aes_mix` and the first words of the states of `aes_prng128` (C116). -/
theorem C147_aes (d0 d1 d2 d3 : BitVec 64) (k : Nat) :
    (rng32_aes ⟨d0, d1, d2, d3⟩).nth k = aesMix^[k + 1] (BitVec.ofNat 32 d0.toNat) ∧
    (rng32_aes_128 ⟨d0, d1, d2, d3⟩).nth k = ((fun s => (aesPrng128 s).2)^[k + 1]
      (BitVec.ofNat 32 d0.toNat, BitVec.ofNat 32 d1.toNat, BitVec.ofNat 32 d2.toNat, BitVec.ofNat 32 d3.toNat)).1 := by
  have hs : ∀ d : BitVec 64, BitVec.ofNat 32 d.toNat = d.setWidth 32 := fun d => BitVec.eq_of_toNat_eq (by simp)
  simp only [hs]
  exact ⟨Aes.nth_aes _ k, Aes.nth_aes128 _ k⟩

/-- C147. The catalogues have exactly the published mixers and combiners, in this order. -/
theorem C147_catalogue :
    getMixers32.map Mixer.name = published32.map Prod.fst ∧ getMixers64.map Mixer.name = published64.map Prod.fst ∧
    getCombiners32.map Combiner.name = publishedCombiners.map Prod.fst := by decide +kernel

-- Known answers of the published programs: fmix32(1), fmix64(1).
example : (published32.lookup "mix32::murmur").map (fun p => p.result 32 1) = some 0x514E28B7 ∧
    (published64.lookup "mix64::murmur3").map (fun p => p.result 64 1) = some 0xB456BCFC34C2CB2C := by decide +kernel

-- SplitMix64 with seed 0: the first three results.
example : (List.range 3).map (splitmix.output 64 fun _ => 0) = [0xE220A8397B1DCDAF, 0x6E789E6AA1B965F4, 0x06C45D188009454F] := by decide +kernel

-- MT19937 with the default seed 5489: the first result is 3499211612.
example : ((rng32_mt19937 ⟨5489#64, 0#64, 0#64, 0#64⟩).nth 0).toNat = 3499211612 := by decide +kernel

-- minstd_rand with seed 1: the first two results.
example : ((rng32_minstd ⟨1#64, 0#64, 0#64, 0#64⟩).nth 0).toNat = 48271 ∧ ((rng32_minstd ⟨1#64, 0#64, 0#64, 0#64⟩).nth 1).toNat = 182605794 := by
  decide +kernel

example : (getPrngs64.length, getPrngs32.length, getPrngs16.length, getPrngs8.length) = (9, 15, 3, 2) := rfl
end TFR
