import Verif.Lemmas.Period
import Mathlib.Data.Fintype.Prod
import Mathlib.Data.Fintype.BigOperators

namespace TFR
open Spec Function

instance instFintypeBitVec (w : Nat) : Fintype (BitVec w) :=
  Fintype.ofEquiv (Fin (2 ^ w)) ⟨BitVec.ofFin, BitVec.toFin, fun _ => rfl, fun _ => rfl⟩

theorem card_bv (w : Nat) : Fintype.card (BitVec w) = 2 ^ w := by
  rw [Fintype.ofEquiv_card, Fintype.card_fin]

theorem fiber_card {V A B : Type*} [Fintype V] [Fintype B] [DecidableEq A] (φ : V → A × B) (hφ : Bijective φ)
    (y : A) : (Finset.univ.filter (fun v => (φ v).1 = y)).card = Fintype.card B := by
  rw [← Finset.card_univ (α := B)]
  apply Finset.card_bij (fun v _ => (φ v).2)
  · intro _ _; exact Finset.mem_univ _
  · intro a ha b hb h
    apply hφ.1
    rw [Finset.mem_filter] at ha hb
    exact Prod.ext (ha.2.trans hb.2.symm) h
  · intro b _
    obtain ⟨v, hv⟩ := hφ.2 (y, b)
    exact ⟨v, by rw [Finset.mem_filter]; exact ⟨Finset.mem_univ _, by rw [hv]⟩, by rw [hv]⟩

/-- Injective maps between types of the same size are bijective. -/
theorem bij_of_inj_card {V W : Type*} [Fintype V] [Fintype W] (φ : V → W) (h : Injective φ)
    (hc : Fintype.card V = Fintype.card W) : Bijective φ :=
  (Fintype.bijective_iff_injective_and_card φ).2 ⟨h, hc⟩

section
variable {V β : Type*} [Fintype V] [DecidableEq V] [DecidableEq β]

theorem full_orbit_count (T : V → V) (s : V) (hp : minimalPeriod T s = Fintype.card V)
    (g : V → β) (y : β) (n : Nat) :
    occurrences (fun k => g (T^[k] s)) y n (Fintype.card V) = (Finset.univ.filter (fun v => g v = y)).card :=
  orbit_count T s _ (Fintype.card_pos_iff.2 ⟨s⟩) hp Finset.univ (fun _ => Finset.mem_univ _) rfl g y n

theorem nonzero_orbit_count (T : V → V) (s z : V) (hs : ∀ n, T^[n] s ≠ z) (hp : minimalPeriod T s = Fintype.card V - 1)
    (hN : 0 < Fintype.card V - 1) (g : V → β) (y : β) (n : Nat) :
    occurrences (fun k => g (T^[k] s)) y n (Fintype.card V - 1) =
      (Finset.univ.filter (fun v => g v = y)).card - (if g z = y then 1 else 0) := by
  rw [orbit_count T s _ hN hp (Finset.univ.erase z) (fun n => Finset.mem_erase.2 ⟨hs n, Finset.mem_univ _⟩)
    (by rw [Finset.card_erase_of_mem (Finset.mem_univ _), Finset.card_univ]), Finset.filter_erase]
  split
  · next h => rw [Finset.card_erase_of_mem (by simp [h])]
  · next h => rw [Finset.erase_eq_of_notMem (by simp [h])]; rfl
end

/-- The low `w` bits of a 64-bit word take each value equally often. -/
theorem low_fiber (w n : Nat) (hw : w ≤ n) (y : BitVec w) :
    (Finset.univ.filter (fun v : BitVec n => v.setWidth w = y)).card = 2 ^ (n - w) := by
  have := fiber_card (fun v : BitVec n => (v.setWidth w, (v >>> w).setWidth (n - w)))
    (bij_of_inj_card _ (fun a b h => ?_) ?_) y
  · rw [card_bv] at this; exact this
  · apply BitVec.eq_of_getLsbD_eq
    intro i hi
    by_cases hiw : i < w
    · have := congrArg (fun z => z.1.getLsbD i) h
      simpa [BitVec.getLsbD_setWidth, hiw] using this
    · have := congrArg (fun z => z.2.getLsbD (i - w)) h
      simp only [BitVec.getLsbD_setWidth, BitVec.getLsbD_ushiftRight, show i - w < n - w by omega,
        show w + (i - w) = i by omega, decide_true, Bool.true_and] at this
      exact this
  · rw [Fintype.card_prod, card_bv, card_bv, card_bv, ← pow_add]; congr 1; omega

/-- The high `w` bits likewise. -/
theorem high_fiber (w n : Nat) (hw : w ≤ n) (y : BitVec w) :
    (Finset.univ.filter (fun v : BitVec n => (v >>> (n - w)).setWidth w = y)).card = 2 ^ (n - w) := by
  have := fiber_card (fun v : BitVec n => ((v >>> (n - w)).setWidth w, v.setWidth (n - w)))
    (bij_of_inj_card _ (fun a b h => ?_) ?_) y
  · rw [card_bv] at this; exact this
  · apply BitVec.eq_of_getLsbD_eq
    intro i hi
    by_cases hiw : i < n - w
    · have := congrArg (fun z => z.2.getLsbD i) h
      simpa [BitVec.getLsbD_setWidth, hiw] using this
    · have := congrArg (fun z => z.1.getLsbD (i - (n - w))) h
      simp only [BitVec.getLsbD_setWidth, BitVec.getLsbD_ushiftRight, show i - (n - w) < w by omega,
        show n - w + (i - (n - w)) = i by omega, decide_true, Bool.true_and] at this
      exact this
  · rw [Fintype.card_prod, card_bv, card_bv, card_bv, ← pow_add]; congr 1; omega

theorem bij_fiber {V : Type*} [Fintype V] [DecidableEq V] (g : V → V) (hg : Bijective g) (y : V) :
    (Finset.univ.filter (fun v => g v = y)).card = 1 := by
  rw [Finset.card_eq_one]
  obtain ⟨v, hv⟩ := hg.2 y
  refine ⟨v, ?_⟩
  ext u
  simp only [Finset.mem_filter, Finset.mem_univ, true_and, Finset.mem_singleton]
  exact ⟨fun h => hg.1 (h.trans hv.symm), fun h => by rw [h, hv]⟩

end TFR
