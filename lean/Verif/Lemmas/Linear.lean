import Verif.Lemmas.GF2
import Verif.Lemmas.Bits
import Verif.Model.Prngs
import Verif.Props.Bits
import Mathlib.NumberTheory.LucasPrimality
import Mathlib.Tactic.NormNum.Prime
/-
The linear generators as endomorphisms over GF(2), and their certificates.
-/
namespace TFR
open Function

/-- Words with `xor` as addition. -/
def XV (w : Nat) := BitVec w

namespace XV
variable {w : Nat}
instance : DecidableEq (XV w) := inferInstanceAs (DecidableEq (BitVec w))
instance : Add (XV w) := ⟨fun a b => BitVec.xor a b⟩
instance : Zero (XV w) := ⟨BitVec.ofNat w 0⟩
instance : Neg (XV w) := ⟨fun a => a⟩
instance : AddCommGroup (XV w) where
  add_assoc := fun a b c => BitVec.xor_assoc a b c
  zero_add := fun a => BitVec.zero_xor (x := a)
  add_zero := fun a => BitVec.xor_zero (x := a)
  neg_add_cancel := fun a => BitVec.xor_self (x := a)
  add_comm := fun a b => BitVec.xor_comm a b
  nsmul := nsmulRec
  zsmul := zsmulRec

theorem add_self (v : XV w) : v + v = 0 := BitVec.xor_self (x := v)

/-- The word with only bit `j`. -/
def e (j : Nat) : XV w := BitVec.shiftLeft (1#w) j

/-- Words below `2^k` are sums of the first `k` unit words. -/
theorem span_aux {W : Type*} [AddCommGroup W] (f : XV w →+ W) (h : ∀ j < w, f (e j) = 0) :
    ∀ k, k ≤ w → ∀ v : BitVec w, v.toNat < 2 ^ k → f (show XV w from v) = 0 := by
  intro k
  induction k with
  | zero =>
    intro _ v hv
    have : v = 0#w := BitVec.eq_of_toNat_eq (by simpa using hv)
    subst this; exact map_zero f
  | succ k ih =>
    intro hk v hv
    by_cases hb : v.getLsbD k
    · have hsplit : (show XV w from v) = (show XV w from (v ^^^ (1#w <<< k))) + e k := by
        show v = (v ^^^ (1#w <<< k)) ^^^ (1#w <<< k)
        rw [BitVec.xor_assoc, BitVec.xor_self, BitVec.xor_zero]
      refine (congrArg f hsplit).trans ?_
      rw [map_add, h k (by omega), add_zero]
      apply ih (by omega)
      apply Nat.lt_pow_two_of_testBit
      intro i hi
      show (v ^^^ (1#w <<< k)).getLsbD i = false
      by_cases hik : i = k
      · subst hik; simp [BitVec.getLsbD_xor, hb, BitVec.getLsbD_shiftLeft, show i < w by omega, show 0 < w by omega]
      · have h1 : v.getLsbD i = false :=
          Nat.testBit_lt_two_pow (lt_of_lt_of_le hv (Nat.pow_le_pow_right (by omega) (by omega)))
        simp [BitVec.getLsbD_xor, h1, BitVec.getLsbD_shiftLeft, BitVec.getLsbD_one, show ¬ i < k by omega,
          show i - k ≠ 0 by omega]
    · apply ih (by omega)
      apply Nat.lt_pow_two_of_testBit
      intro i hi
      by_cases hik : i = k
      · subst hik; simpa [BitVec.getLsbD] using hb
      · exact Nat.testBit_lt_two_pow (lt_of_lt_of_le hv (Nat.pow_le_pow_right (by omega) (by omega)))

theorem span {W : Type*} [AddCommGroup W] (f : XV w →+ W) (h : ∀ j < w, f (e j) = 0) : f = 0 := by
  ext v
  exact span_aux f h w le_rfl v (BitVec.isLt (w := w) v)
end XV

/-- Polynomial `p` (its low `k` bits) at `step`, applied to `v`, by Horner's rule. -/
def evAt {V : Type*} [Add V] [Zero V] (step : V → V) (v : V) : Nat → Nat → V
  | 0, _ => 0
  | k + 1, p => (if p % 2 = 1 then v else 0) + step (evAt step v k (p / 2))

theorem ev_apply {V : Type*} [AddCommGroup V] (T : AddMonoid.End V) (v : V) (k p : Nat) (hp : p < 2 ^ k) :
    ev T p v = evAt T v k p := by
  induction k generalizing p with
  | zero => have : p = 0 := by simpa using hp
            subst this; rw [ev_zero]; rfl
  | succ k ih =>
    rw [ev_rec, evAt, ← ih (p / 2) (by rw [Nat.pow_succ] at hp; omega)]
    show (if p % 2 = 1 then (1 : AddMonoid.End V) else 0) v + T (ev T (p / 2) v) = _
    congr 1
    split <;> rfl

theorem rol_xor {w : Nat} (x y : BitVec w) (r : Int) : rol (x ^^^ y) r = rol x r ^^^ rol y r := by
  apply BitVec.eq_of_getLsbD_eq
  intro i hi
  rw [BitVec.getLsbD_xor, getLsbD_rol _ _ _ hi, getLsbD_rol _ _ _ hi, getLsbD_rol _ _ _ hi, BitVec.getLsbD_xor]

theorem shl_xor {w : Nat} (x y : BitVec w) (k : Nat) : (x ^^^ y) <<< k = (x <<< k) ^^^ (y <<< k) := by
  apply BitVec.eq_of_getLsbD_eq
  intro i hi
  simp only [BitVec.getLsbD_xor, BitVec.getLsbD_shiftLeft, hi, decide_true, Bool.true_and]
  by_cases h : i < k <;> simp [h]

theorem shr_xor {w : Nat} (x y : BitVec w) (k : Nat) : (x ^^^ y) >>> k = (x >>> k) ^^^ (y >>> k) := by
  apply BitVec.eq_of_getLsbD_eq
  intro i hi
  simp only [BitVec.getLsbD_xor, BitVec.getLsbD_ushiftRight]

theorem xsl_lin {w : Nat} (x y : BitVec w) (k : Nat) :
    (x ^^^ y) ^^^ ((x ^^^ y) <<< k) = (x ^^^ (x <<< k)) ^^^ (y ^^^ (y <<< k)) := by
  rw [shl_xor]; ac_rfl
theorem xsr_lin {w : Nat} (x y : BitVec w) (k : Nat) :
    (x ^^^ y) ^^^ ((x ^^^ y) >>> k) = (x ^^^ (x >>> k)) ^^^ (y ^^^ (y >>> k)) := by
  rw [shr_xor]; ac_rfl

theorem xorshift64_xor (x y : BitVec 64) : xorshift64Step (x ^^^ y) = xorshift64Step x ^^^ xorshift64Step y := by
  unfold xorshift64Step
  simp only
  rw [xsl_lin x y 13]
  rw [xsr_lin (x ^^^ x <<< 13) (y ^^^ y <<< 13) 7]
  rw [xsl_lin _ _ 17]
theorem xorshift32_xor (x y : BitVec 32) : xorshift32Step (x ^^^ y) = xorshift32Step x ^^^ xorshift32Step y := by
  unfold xorshift32Step
  simp only
  rw [xsl_lin x y 13]
  rw [xsr_lin (x ^^^ x <<< 13) (y ^^^ y <<< 13) 17]
  rw [xsl_lin _ _ 5]

def T64 : AddMonoid.End (XV 64) where
  toFun := xorshift64Step
  map_zero' := by show xorshift64Step 0#64 = 0#64; decide +kernel
  map_add' := xorshift64_xor
def T32 : AddMonoid.End (XV 32) where
  toFun := xorshift32Step
  map_zero' := by show xorshift32Step 0#32 = 0#32; decide +kernel
  map_add' := xorshift32_xor
theorem lin_a {w : Nat} (a b c d : BitVec w) (k l : Nat) :
    (a ^^^ b) ^^^ (c ^^^ d) ^^^ ((a ^^^ b) >>> k) ^^^ ((c ^^^ d) >>> l) =
      (a ^^^ c ^^^ (a >>> k) ^^^ (c >>> l)) ^^^ (b ^^^ d ^^^ (b >>> k) ^^^ (d >>> l)) := by
  rw [shr_xor, shr_xor]
  generalize a >>> k = p; generalize b >>> k = q; generalize c >>> l = r; generalize d >>> l = s
  ac_rfl

theorem lin_b {w : Nat} (a b c d : BitVec w) (r : Int) (k : Nat) :
    rol (a ^^^ b) r ^^^ (c ^^^ d) ^^^ ((c ^^^ d) <<< k) =
      (rol a r ^^^ c ^^^ (c <<< k)) ^^^ (rol b r ^^^ d ^^^ (d <<< k)) := by
  rw [shl_xor, rol_xor]
  generalize rol a r = p; generalize rol b r = q; generalize c <<< k = r; generalize d <<< k = s
  ac_rfl

theorem lin_c {w : Nat} (a b c d : BitVec w) : (a ^^^ b) ^^^ (c ^^^ d) = (a ^^^ c) ^^^ (b ^^^ d) := by ac_rfl

theorem xorshift128_xor (x y : BitVec 64 × BitVec 64) : xorshift128Step (x.1 ^^^ y.1, x.2 ^^^ y.2) =
    ((xorshift128Step x).1 ^^^ (xorshift128Step y).1, (xorshift128Step x).2 ^^^ (xorshift128Step y).2) := by
  obtain ⟨x1, x2⟩ := x
  obtain ⟨y1, y2⟩ := y
  unfold xorshift128Step
  dsimp only
  rw [xsl_lin x1 y1 23]
  generalize x1 ^^^ x1 <<< 23 = a
  generalize y1 ^^^ y1 <<< 23 = b
  rw [lin_a]

theorem xoroshiro128_xor (x y : BitVec 64 × BitVec 64) : xoroshiro128Step (x.1 ^^^ y.1, x.2 ^^^ y.2) =
    ((xoroshiro128Step x).1 ^^^ (xoroshiro128Step y).1, (xoroshiro128Step x).2 ^^^ (xoroshiro128Step y).2) := by
  obtain ⟨x1, x2⟩ := x
  obtain ⟨y1, y2⟩ := y
  unfold xoroshiro128Step
  dsimp only
  rw [lin_c x2 y2 x1 y1]
  generalize x2 ^^^ x1 = a
  generalize y2 ^^^ y1 = b
  rw [lin_b, rol_xor a b]

theorem xoshiro128_xor (x y : X128) :
    xoshiro128Step (x.1 ^^^ y.1, x.2.1 ^^^ y.2.1, x.2.2.1 ^^^ y.2.2.1, x.2.2.2 ^^^ y.2.2.2) =
      ((xoshiro128Step x).1 ^^^ (xoshiro128Step y).1, (xoshiro128Step x).2.1 ^^^ (xoshiro128Step y).2.1,
        (xoshiro128Step x).2.2.1 ^^^ (xoshiro128Step y).2.2.1, (xoshiro128Step x).2.2.2 ^^^ (xoshiro128Step y).2.2.2) := by
  obtain ⟨x0, x1, x2, x3⟩ := x
  obtain ⟨y0, y1, y2, y3⟩ := y
  unfold xoshiro128Step
  dsimp only
  rw [lin_c x2 y2 x0 y0, lin_c x3 y3 x1 y1, shl_xor]
  generalize x2 ^^^ x0 = a
  generalize y2 ^^^ y0 = b
  generalize x3 ^^^ x1 = c
  generalize y3 ^^^ y1 = d
  rw [lin_c x0 y0, lin_c x1 y1, lin_c a b, rol_xor]

def T128a : AddMonoid.End (XV 64 × XV 64) where
  toFun := xorshift128Step
  map_zero' := by show xorshift128Step (0#64, 0#64) = (0#64, 0#64); decide +kernel
  map_add' := xorshift128_xor
def T128b : AddMonoid.End (XV 64 × XV 64) where
  toFun := xoroshiro128Step
  map_zero' := by show xoroshiro128Step (0#64, 0#64) = (0#64, 0#64); decide +kernel
  map_add' := xoroshiro128_xor
def T128c : AddMonoid.End (XV 32 × XV 32 × XV 32 × XV 32) where
  toFun := xoshiro128Step
  map_zero' := by show xoshiro128Step (0#32, 0#32, 0#32, 0#32) = (0#32, 0#32, 0#32, 0#32); decide +kernel
  map_add' := xoshiro128_xor

theorem span2 {W : Type*} [AddCommGroup W] {a b : Nat} (f : XV a × XV b →+ W) (h1 : ∀ j < a, f (XV.e j, 0) = 0)
    (h2 : ∀ j < b, f (0, XV.e j) = 0) : f = 0 := by
  have g1 : f.comp (AddMonoidHom.inl (XV a) (XV b)) = 0 := XV.span _ h1
  have g2 : f.comp (AddMonoidHom.inr (XV a) (XV b)) = 0 := XV.span _ h2
  ext ⟨x, y⟩
  have e1 : f (x, 0) = 0 := DFunLike.congr_fun g1 x
  have e2 : f (0, y) = 0 := DFunLike.congr_fun g2 y
  have : (x, y) = (x, 0) + ((0, y) : XV a × XV b) := by simp
  rw [this, map_add, e1, e2]; simp

theorem span4 {W : Type*} [AddCommGroup W] {w : Nat} (f : XV w × XV w × XV w × XV w →+ W)
    (h : ∀ j < w, f (XV.e j, 0, 0, 0) = 0 ∧ f (0, XV.e j, 0, 0) = 0 ∧ f (0, 0, XV.e j, 0) = 0 ∧ f (0, 0, 0, XV.e j) = 0) :
    f = 0 := by
  have g1 : f.comp (AddMonoidHom.inl (XV w) (XV w × XV w × XV w)) = 0 := XV.span _ (fun j hj => (h j hj).1)
  have g2 : f.comp ((AddMonoidHom.inr (XV w) (XV w × XV w × XV w)).comp
    (AddMonoidHom.inl (XV w) (XV w × XV w))) = 0 := XV.span _ (fun j hj => (h j hj).2.1)
  have g3 : f.comp ((AddMonoidHom.inr (XV w) (XV w × XV w × XV w)).comp
    (AddMonoidHom.inr (XV w) (XV w × XV w))) = 0 :=
    span2 _ (fun j hj => (h j hj).2.2.1) (fun j hj => (h j hj).2.2.2)
  ext ⟨x, y, z⟩
  have e1 : f (x, 0) = 0 := DFunLike.congr_fun g1 x
  have e2 : f (0, y, 0) = 0 := DFunLike.congr_fun g2 y
  have e3 : f (0, 0, z) = 0 := DFunLike.congr_fun g3 z
  have : (x, y, z) = (x, 0) + ((0, y, 0) + ((0, 0, z)) : XV w × XV w × XV w × XV w) := by simp
  rw [this, map_add, map_add, e1, e2, e3]; simp

set_option maxRecDepth 100000

def P32 : Nat := 4299080257
def P64 : Nat := 18536486914334208513
def P128a : Nat := 393808575383607335054555469227158281647
def P128b : Nat := 340808024664656551940088912187419115521
def P128c : Nat := 341592887087740410831446291735224318977

theorem evP32 : ev T32 P32 = 0 := by
  have h : ∀ j < 32, evAt T32 (XV.e j : XV 32) 33 P32 = 0 := by decide +kernel
  exact XV.span (ev T32 P32) fun j hj => (ev_apply T32 _ 33 P32 (by decide)).trans (h j hj)

theorem evP64 : ev T64 P64 = 0 := by
  have h : ∀ j < 64, evAt T64 (XV.e j : XV 64) 65 P64 = 0 := by decide +kernel
  exact XV.span (ev T64 P64) fun j hj => (ev_apply T64 _ 65 P64 (by decide)).trans (h j hj)

theorem evP128a : ev T128a P128a = 0 := by
  have h1 : ∀ j < 64, evAt T128a ((XV.e j, 0) : XV 64 × XV 64) 129 P128a = 0 := by decide +kernel
  have h2 : ∀ j < 64, evAt T128a ((0, XV.e j) : XV 64 × XV 64) 129 P128a = 0 := by decide +kernel
  exact span2 (ev T128a P128a) (fun j hj => (ev_apply T128a _ 129 P128a (by decide)).trans (h1 j hj))
    (fun j hj => (ev_apply T128a _ 129 P128a (by decide)).trans (h2 j hj))

theorem evP128b : ev T128b P128b = 0 := by
  have h1 : ∀ j < 64, evAt T128b ((XV.e j, 0) : XV 64 × XV 64) 129 P128b = 0 := by decide +kernel
  have h2 : ∀ j < 64, evAt T128b ((0, XV.e j) : XV 64 × XV 64) 129 P128b = 0 := by decide +kernel
  exact span2 (ev T128b P128b) (fun j hj => (ev_apply T128b _ 129 P128b (by decide)).trans (h1 j hj))
    (fun j hj => (ev_apply T128b _ 129 P128b (by decide)).trans (h2 j hj))

theorem evP128c : ev T128c P128c = 0 := by
  have h : ∀ j < 32, evAt T128c ((XV.e j, 0, 0, 0) : XV 32 × XV 32 × XV 32 × XV 32) 129 P128c = 0 ∧
      evAt T128c ((0, XV.e j, 0, 0) : XV 32 × XV 32 × XV 32 × XV 32) 129 P128c = 0 ∧
      evAt T128c ((0, 0, XV.e j, 0) : XV 32 × XV 32 × XV 32 × XV 32) 129 P128c = 0 ∧
      evAt T128c ((0, 0, 0, XV.e j) : XV 32 × XV 32 × XV 32 × XV 32) 129 P128c = 0 := by decide +kernel
  refine span4 (ev T128c P128c) fun j hj => ?_
  have e : ∀ v, ev T128c P128c v = evAt T128c v 129 P128c := fun v => ev_apply T128c v 129 P128c (by decide)
  have hj := h j hj
  rw [← e, ← e, ← e, ← e] at hj
  exact hj

def cert32 : List (Nat × Nat) := [(3, 2585467165), (5, 627944065), (17, 1428936566), (257, 2895861762), (65537, 3511099410)]
theorem cert32_ok : periodCert 32 P32 (2 ^ 32 - 1) cert32 = true := by decide +kernel

def cert64 : List (Nat × Nat) := [(3, 15511182550047884770), (5, 11814715471047095913), (17, 7202445018898142789), (257, 9031751854939573325), (65537, 17109817795786126257), (641, 138158124418806406), (6700417, 5204763322158105013)]
theorem cert64_ok : periodCert 64 P64 (2 ^ 64 - 1) cert64 = true := by decide +kernel

def cert128a : List (Nat × Nat) := [(3, 158559727607240789902919099517439469047), (5, 113526408348880941083180420693471817064), (17, 149808063571662190574603864620377744220), (257, 51306174325386397428511966121656031994), (65537, 161647651825394152921544737375745907074), (641, 3268343882342998841821371150616072681), (6700417, 338670947001646916172314639469603959837), (274177, 56652727513372076627891934522887607217), (67280421310721, 262487359091900871616605872545234828590)]
theorem cert128a_ok : periodCert 128 P128a (2 ^ 128 - 1) cert128a = true := by decide +kernel

def cert128b : List (Nat × Nat) := [(3, 339684922512269150648188650129484257985), (5, 90991884491403615689821015006884264618), (17, 67481503958701135341991910118637827629), (257, 200643509749754149543881246771237346283), (65537, 314640099785086560439829855140133681932), (641, 223166042147608860999685649669858008525), (6700417, 27636064999617809599041363807146333937), (274177, 310885545668885776524078371853018124112), (67280421310721, 26064454974707524672697536179217033117)]
theorem cert128b_ok : periodCert 128 P128b (2 ^ 128 - 1) cert128b = true := by decide +kernel

def cert128c : List (Nat × Nat) := [(3, 32633097235849249870287979738670633877), (5, 277435409453467619097345968410624289780), (17, 166640993442403432366759952892064705362), (257, 331707896873957130909386624351431266253), (65537, 165100398451025042585645145076737775906), (641, 85988378671516255400565745670560759691), (6700417, 276061777348479961299566151919856046626), (274177, 93422864948956968609259514956537479865), (67280421310721, 75789009165674735289783591463107151402)]
theorem cert128c_ok : periodCert 128 P128c (2 ^ 128 - 1) cert128c = true := by decide +kernel


end TFR
