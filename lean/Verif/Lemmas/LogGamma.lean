import Verif.Model.Gamma
import Verif.Lemmas.PolyList
import Mathlib.Analysis.SpecialFunctions.Gamma.BohrMollerup
import Mathlib.Analysis.SpecialFunctions.Stirling
import Mathlib.Analysis.SpecialFunctions.Complex.LogBounds
import Mathlib.Analysis.Real.Pi.Bounds
import Mathlib.Analysis.Calculus.Deriv.MeanValue
/-
`log_gamma` against the logarithm of the gamma function.  Both satisfy (almost) the same recurrence and have (almost) the same
limit behaviour; the defect of the recurrence is bounded through its second derivative, a rational function.
-/
namespace TFR.LogGamma
open PolyList Filter Topology Set

/-- `10^22` times the numerator of the rational function in `log_gamma`. -/
def P0 : List ℤ := [34096626553342928400000000000, 41623878912255880352064375840, 22228804194936126674429171208,
  6782897015023496033342872808, 1293472585287238638754353170, 157848804566987600662902050, 12038342013884626228342262,
  524583333333548524715942, 9999999999995183000000]

/-- The same numerator, shifted by one. -/
def Q0 : List ℤ := [106196100990759875869189733280, 112469294846599156917790324776, 52108690177608196391181097864,
  13794962658786693048169209198, 2282352154997119896669055320, 241655106650299607299990404, 15990425347219331025353856,
  604583333333509988715942, 9999999999995183000000]

/-- The rational function in `log_gamma`. -/
noncomputable def rat (z : ℝ) : ℝ :=
  0 + 1659470187408462 / 10 ^ 22 / (z + 7) + 9934937113930748 / 10 ^ 21 / (z + 6) - 1385710331296526 / 10 ^ 16 / (z + 5) +
    1250734324009056 / 10 ^ 14 / (z + 4) - 1766150291498386 / 10 ^ 13 / (z + 3) + 7713234287757674 / 10 ^ 13 / (z + 2) -
    1259139216722289 / 10 ^ 12 / (z + 1) + 6765203681218835 / 10 ^ 13 / z + 9999999999995183 / 10 ^ 16

theorem logGamma_eq (z : ℝ) :
    logGamma z = Real.log (rat z) - 558106146679532777 / 10 ^ 17 - z + (z - 1 / 2) * Real.log (z + 13 / 2) := rfl

theorem Q0_eq (z : ℝ) : ev Q0 z = ev P0 (z + 1) := by
  simp only [P0, Q0, ev]
  push_cast
  ring

theorem P0_pos {z : ℝ} (hz : 0 ≤ z) : 0 < ev P0 z := ev_pos _ _ (by decide) (by decide) z hz
theorem Q0_pos {z : ℝ} (hz : 0 ≤ z) : 0 < ev Q0 z := ev_pos _ _ (by decide) (by decide) z hz

theorem rat_eq {z : ℝ} (hz : 0 < z) :
    rat z = ev P0 z / (10 ^ 22 * (z * (z + 1) * (z + 2) * (z + 3) * (z + 4) * (z + 5) * (z + 6) * (z + 7))) := by
  simp only [P0, ev, rat]
  push_cast
  field_simp
  ring

theorem rat_pos {z : ℝ} (hz : 0 < z) : 0 < rat z := by
  rw [rat_eq hz]
  have := P0_pos hz.le
  positivity

/-! ### The defect of the recurrence -/

noncomputable def defect (z : ℝ) : ℝ :=
  Real.log (ev Q0 z) - Real.log (ev P0 z) - Real.log (z + 8) - 1 + (z + 1 / 2) * Real.log (z + 15 / 2) -
    (z - 1 / 2) * Real.log (z + 13 / 2)

theorem defect_eq {z : ℝ} (hz : 0 < z) : logGamma (z + 1) - logGamma z - Real.log z = defect z := by
  rw [logGamma_eq, logGamma_eq, defect, rat_eq hz, rat_eq (show 0 < z + 1 by linarith), Q0_eq]
  have hp := P0_pos (z := z) hz.le
  have hq := P0_pos (z := z + 1) (by linarith)
  rw [Real.log_div hp.ne' (by positivity), Real.log_div hq.ne' (by positivity)]
  have e1 : (10 : ℝ) ^ 22 * (z * (z + 1) * (z + 2) * (z + 3) * (z + 4) * (z + 5) * (z + 6) * (z + 7)) =
      z * (10 ^ 22 * ((z + 1) * (z + 2) * (z + 3) * (z + 4) * (z + 5) * (z + 6) * (z + 7))) := by ring
  have e2 : (10 : ℝ) ^ 22 * ((z + 1) * (z + 1 + 1) * (z + 1 + 2) * (z + 1 + 3) * (z + 1 + 4) * (z + 1 + 5) * (z + 1 + 6) * (z + 1 + 7)) =
      (z + 8) * (10 ^ 22 * ((z + 1) * (z + 2) * (z + 3) * (z + 4) * (z + 5) * (z + 6) * (z + 7))) := by ring
  rw [e1, e2, Real.log_mul hz.ne' (by positivity), Real.log_mul (by positivity) (by positivity),
    show z + 1 + 13 / 2 = z + 15 / 2 by ring]
  ring

noncomputable def defect1 (z : ℝ) : ℝ :=
  ev (pder Q0) z / ev Q0 z - ev (pder P0) z / ev P0 z - 1 / (z + 8) + Real.log (z + 15 / 2) - Real.log (z + 13 / 2) -
    7 / (z + 15 / 2) + 7 / (z + 13 / 2)

noncomputable def defect2 (z : ℝ) : ℝ :=
  (ev (pder (pder Q0)) z * ev Q0 z - ev (pder Q0) z ^ 2) / ev Q0 z ^ 2 -
    (ev (pder (pder P0)) z * ev P0 z - ev (pder P0) z ^ 2) / ev P0 z ^ 2 +
    1 / (z + 8) ^ 2 + 1 / (z + 15 / 2) - 1 / (z + 13 / 2) + 7 / (z + 15 / 2) ^ 2 - 7 / (z + 13 / 2) ^ 2

private theorem hasDerivAt_log_shift {z : ℝ} (hz : 0 < z) (c : ℝ) (hc : 0 < c) :
    HasDerivAt (fun z => Real.log (z + c)) (1 / (z + c)) z :=
  ((hasDerivAt_id z).add_const c).log (by simp only [id]; positivity)

private theorem hasDerivAt_inv_shift {z : ℝ} (hz : 0 < z) (c k : ℝ) (hc : 0 < c) :
    HasDerivAt (fun z => k / (z + c)) (-(k / (z + c) ^ 2)) z := by
  have h := (hasDerivAt_const z k).div ((hasDerivAt_id z).add_const c) (by simp only [id]; positivity)
  refine h.congr_deriv ?_
  simp only [id]
  ring

theorem hasDerivAt_defect {z : ℝ} (hz : 0 < z) : HasDerivAt defect (defect1 z) z := by
  have hp := P0_pos hz.le
  have hq := Q0_pos hz.le
  have h1 := (hasDerivAt_ev Q0 z).log hq.ne'
  have h2 := (hasDerivAt_ev P0 z).log hp.ne'
  have h3 := hasDerivAt_log_shift hz 8 (by norm_num)
  have h4 := ((hasDerivAt_id z).add_const (1 / 2 : ℝ)).mul (hasDerivAt_log_shift hz (15 / 2) (by norm_num))
  have h5 := ((hasDerivAt_id z).sub_const (1 / 2 : ℝ)).mul (hasDerivAt_log_shift hz (13 / 2) (by norm_num))
  have h := ((((h1.sub h2).sub h3).sub_const 1).add h4).sub h5
  unfold defect
  refine h.congr_deriv ?_
  unfold defect1
  simp only [id]
  have : z + 15 / 2 ≠ 0 := by positivity
  have : z + 13 / 2 ≠ 0 := by positivity
  have e1 : (z + 1 / 2) * (1 / (z + 15 / 2)) = 1 - 7 / (z + 15 / 2) := by field_simp; ring
  have e2 : (z - 1 / 2) * (1 / (z + 13 / 2)) = 1 - 7 / (z + 13 / 2) := by field_simp; ring
  rw [e1, e2]
  ring

theorem hasDerivAt_defect1 {z : ℝ} (hz : 0 < z) : HasDerivAt defect1 (defect2 z) z := by
  have hp := P0_pos hz.le
  have hq := Q0_pos hz.le
  have h1 := (hasDerivAt_ev (pder Q0) z).div (hasDerivAt_ev Q0 z) hq.ne'
  have h2 := (hasDerivAt_ev (pder P0) z).div (hasDerivAt_ev P0 z) hp.ne'
  have h3 := hasDerivAt_inv_shift hz 8 1 (by norm_num)
  have h4 := hasDerivAt_log_shift hz (15 / 2) (by norm_num)
  have h5 := hasDerivAt_log_shift hz (13 / 2) (by norm_num)
  have h6 := hasDerivAt_inv_shift hz (15 / 2) 7 (by norm_num)
  have h7 := hasDerivAt_inv_shift hz (13 / 2) 7 (by norm_num)
  have h := (((((h1.sub h2).sub h3).add h4).sub h5).sub h6).add h7
  unfold defect1
  refine h.congr_deriv ?_
  unfold defect2
  ring

/-! ### The comparison function `5e-11 (1/(z+20) - 1/(z+21))` -/

noncomputable def eps : ℝ := 5 / 10 ^ 11

noncomputable def comp (z : ℝ) : ℝ := eps / (z + 20) - eps / (z + 21)
noncomputable def comp1 (z : ℝ) : ℝ := -(eps / (z + 20) ^ 2) + eps / (z + 21) ^ 2
noncomputable def comp2 (z : ℝ) : ℝ := 2 * eps / (z + 20) ^ 3 - 2 * eps / (z + 21) ^ 3

theorem hasDerivAt_comp {z : ℝ} (hz : 0 < z) : HasDerivAt comp (comp1 z) z := by
  have h := (hasDerivAt_inv_shift hz 20 eps (by norm_num)).sub (hasDerivAt_inv_shift hz 21 eps (by norm_num))
  unfold comp
  refine h.congr_deriv ?_
  unfold comp1
  ring

private theorem hasDerivAt_inv_sq {z : ℝ} (hz : 0 < z) (c k : ℝ) (hc : 0 < c) :
    HasDerivAt (fun z => k / (z + c) ^ 2) (-(2 * k / (z + c) ^ 3)) z := by
  have hzc : z + c ≠ 0 := by positivity
  have h := (hasDerivAt_const z k).div (((hasDerivAt_id z).add_const c).pow 2) (by simp only [Pi.pow_apply, id]; positivity)
  refine h.congr_deriv ?_
  simp only [Pi.pow_apply, id]
  field_simp
  push_cast
  ring

theorem hasDerivAt_comp1 {z : ℝ} (hz : 0 < z) : HasDerivAt comp1 (comp2 z) z := by
  have h := (hasDerivAt_inv_sq hz 20 eps (by norm_num)).neg.add (hasDerivAt_inv_sq hz 21 eps (by norm_num))
  unfold comp1
  refine h.congr_deriv ?_
  unfold comp2
  ring

/-! ### Positivity of two polynomials of degree 40 -/

def sq (a : List ℤ) : List ℤ := pmul a a
def cube (a : List ℤ) : List ℤ := pmul a (pmul a a)
def LA : List ℤ := [8, 1]
def LB : List ℤ := [15, 2]
def LC : List ℤ := [13, 2]
def LZ : List ℤ := [20, 1]
def LY : List ℤ := [21, 1]
/-- `p'' p - p'^2`. -/
def wr (p : List ℤ) : List ℤ := padd (pmul (pder (pder p)) p) (pscale (-1) (sq (pder p)))

def core : List ℤ :=
  padd (pmul (pmul (wr Q0) (sq P0)) (pmul (sq LA) (pmul (sq LB) (sq LC))))
  (padd (pscale (-1) (pmul (pmul (wr P0) (sq Q0)) (pmul (sq LA) (pmul (sq LB) (sq LC)))))
  (pmul (pmul (sq P0) (sq Q0))
    (padd (pmul (sq LB) (sq LC))
    (padd (pscale 2 (pmul (sq LA) (pmul LB (sq LC))))
    (padd (pscale (-2) (pmul (sq LA) (pmul (sq LB) LC)))
    (padd (pscale 28 (pmul (sq LA) (sq LC)))
          (pscale (-28) (pmul (sq LA) (sq LB)))))))))

def side : List ℤ :=
  pmul (pmul (sq P0) (sq Q0)) (pmul (pmul (sq LA) (pmul (sq LB) (sq LC))) (padd (cube LY) (pscale (-1) (cube LZ))))

def upperPoly : List ℤ := padd (pscale (10 ^ 10) (pmul core (pmul (cube LZ) (cube LY)))) side
def lowerPoly : List ℤ := padd (pscale (-10 ^ 10) (pmul core (pmul (cube LZ) (cube LY)))) side

theorem upperPoly_nonneg : ∀ c ∈ upperPoly, 0 ≤ c := by decide +kernel
theorem lowerPoly_nonneg : ∀ c ∈ lowerPoly, 0 ≤ c := by decide +kernel

private theorem alg (p p1 p2 q q1 q2 A B C : ℝ) (hp : p ≠ 0) (hq : q ≠ 0) (hA : A ≠ 0) (hB : B ≠ 0) (hC : C ≠ 0) :
    (q2 * q - q1 ^ 2) / q ^ 2 - (p2 * p - p1 ^ 2) / p ^ 2 + 1 / A ^ 2 + 2 / B - 2 / C + 28 / B ^ 2 - 28 / C ^ 2 =
    ((q2 * q - q1 ^ 2) * p ^ 2 * (A ^ 2 * B ^ 2 * C ^ 2) - (p2 * p - p1 ^ 2) * q ^ 2 * (A ^ 2 * B ^ 2 * C ^ 2) +
      p ^ 2 * q ^ 2 * (B ^ 2 * C ^ 2 + 2 * A ^ 2 * B * C ^ 2 - 2 * A ^ 2 * B ^ 2 * C + 28 * A ^ 2 * C ^ 2 - 28 * A ^ 2 * B ^ 2)) /
      (p ^ 2 * q ^ 2 * (A ^ 2 * B ^ 2 * C ^ 2)) := by
  field_simp
  ring

private theorem defect2_eq {z : ℝ} (hz : 0 < z) :
    defect2 z = ev core z / (ev P0 z ^ 2 * ev Q0 z ^ 2 * (ev LA z ^ 2 * ev LB z ^ 2 * ev LC z ^ 2)) := by
  have hA : ev LA z = z + 8 := by simp [LA, ev]; ring
  have hB : ev LB z = 2 * z + 15 := by simp [LB, ev]; ring
  have hC : ev LC z = 2 * z + 13 := by simp [LC, ev]; ring
  have h := alg (ev P0 z) (ev (pder P0) z) (ev (pder (pder P0)) z) (ev Q0 z) (ev (pder Q0) z) (ev (pder (pder Q0)) z)
    (ev LA z) (ev LB z) (ev LC z) (P0_pos hz.le).ne' (Q0_pos hz.le).ne' (by rw [hA]; positivity) (by rw [hB]; positivity)
    (by rw [hC]; positivity)
  have e1 : ev core z = (ev (pder (pder Q0)) z * ev Q0 z - ev (pder Q0) z ^ 2) * ev P0 z ^ 2 * (ev LA z ^ 2 * ev LB z ^ 2 * ev LC z ^ 2) -
      (ev (pder (pder P0)) z * ev P0 z - ev (pder P0) z ^ 2) * ev Q0 z ^ 2 * (ev LA z ^ 2 * ev LB z ^ 2 * ev LC z ^ 2) +
      ev P0 z ^ 2 * ev Q0 z ^ 2 * (ev LB z ^ 2 * ev LC z ^ 2 + 2 * ev LA z ^ 2 * ev LB z * ev LC z ^ 2 -
        2 * ev LA z ^ 2 * ev LB z ^ 2 * ev LC z + 28 * ev LA z ^ 2 * ev LC z ^ 2 - 28 * ev LA z ^ 2 * ev LB z ^ 2) := by
    simp only [core, wr, sq, ev_padd, ev_pmul, ev_pscale]
    push_cast
    ring
  rw [e1, ← h]
  unfold defect2
  rw [hA, hB, hC]
  have e2 : 1 / (z + 15 / 2) = 2 / (2 * z + 15) := by field_simp
  have e3 : 1 / (z + 13 / 2) = 2 / (2 * z + 13) := by field_simp
  have e4 : 7 / (z + 15 / 2) ^ 2 = 28 / (2 * z + 15) ^ 2 := by field_simp; ring
  have e5 : 7 / (z + 13 / 2) ^ 2 = 28 / (2 * z + 13) ^ 2 := by field_simp; ring
  rw [e2, e3, e4, e5]

private theorem alg2 (m c W Z Y : ℝ) (hW : W ≠ 0) (hZ : Z ≠ 0) (hY : Y ≠ 0) :
    m * (c / W) + (2 * eps / Z ^ 3 - 2 * eps / Y ^ 3) =
      (10 ^ 10 * m * (c * (Z ^ 3 * Y ^ 3)) + W * (Y ^ 3 - Z ^ 3)) / (10 ^ 10 * (W * (Z ^ 3 * Y ^ 3))) := by
  unfold eps
  field_simp
  ring

private theorem second_nonneg {z : ℝ} (hz : 0 < z) : 0 ≤ defect2 z + comp2 z ∧ 0 ≤ -defect2 z + comp2 z := by
  have hA : ev LA z = z + 8 := by simp [LA, ev]; ring
  have hB : ev LB z = 2 * z + 15 := by simp [LB, ev]; ring
  have hC : ev LC z = 2 * z + 13 := by simp [LC, ev]; ring
  have hZ : ev LZ z = z + 20 := by simp [LZ, ev]; ring
  have hY : ev LY z = z + 21 := by simp [LY, ev]; ring
  have hp := P0_pos hz.le
  have hq := Q0_pos hz.le
  have hA0 : 0 < ev LA z := by rw [hA]; positivity
  have hB0 : 0 < ev LB z := by rw [hB]; positivity
  have hC0 : 0 < ev LC z := by rw [hC]; positivity
  have hZ0 : 0 < ev LZ z := by rw [hZ]; positivity
  have hY0 : 0 < ev LY z := by rw [hY]; positivity
  have hW : 0 < ev P0 z ^ 2 * ev Q0 z ^ 2 * (ev LA z ^ 2 * ev LB z ^ 2 * ev LC z ^ 2) := by positivity
  have u := ev_nonneg upperPoly upperPoly_nonneg z hz.le
  have l := ev_nonneg lowerPoly lowerPoly_nonneg z hz.le
  have hside : ev side z = ev P0 z ^ 2 * ev Q0 z ^ 2 * (ev LA z ^ 2 * ev LB z ^ 2 * ev LC z ^ 2) * (ev LY z ^ 3 - ev LZ z ^ 3) := by
    simp only [side, sq, cube, ev_padd, ev_pmul, ev_pscale]
    push_cast
    ring
  rw [upperPoly, ev_padd, ev_pscale, hside] at u
  rw [lowerPoly, ev_padd, ev_pscale, hside] at l
  simp only [cube, ev_pmul] at u l
  push_cast at u l
  have hc2 : comp2 z = 2 * eps / ev LZ z ^ 3 - 2 * eps / ev LY z ^ 3 := by rw [hZ, hY, comp2]
  constructor
  · have h := alg2 1 (ev core z) _ (ev LZ z) (ev LY z) hW.ne' hZ0.ne' hY0.ne'
    rw [defect2_eq hz, hc2, ← one_mul (_ / _), h]
    apply div_nonneg _ (by positivity)
    linarith
  · have h := alg2 (-1) (ev core z) _ (ev LZ z) (ev LY z) hW.ne' hZ0.ne' hY0.ne'
    rw [defect2_eq hz, hc2, ← neg_one_mul (_ / _), h]
    apply div_nonneg _ (by positivity)
    linarith

/-! ### Limits -/

theorem tendsto_inv_shift (c k : ℝ) : Tendsto (fun z : ℝ => k / (z + c)) atTop (𝓝 0) :=
  Tendsto.div_atTop tendsto_const_nhds (tendsto_atTop_add_const_right _ c tendsto_id)

theorem tendsto_rat : Tendsto rat atTop (𝓝 (9999999999995183 / 10 ^ 16)) := by
  unfold rat
  have h0 : Tendsto (fun z : ℝ => 6765203681218835 / 10 ^ 13 / z) atTop (𝓝 0) := Tendsto.div_atTop tendsto_const_nhds tendsto_id
  have h := ((((((((tendsto_const_nhds (x := (0 : ℝ))).add (tendsto_inv_shift 7 (1659470187408462 / 10 ^ 22))).add
    (tendsto_inv_shift 6 (9934937113930748 / 10 ^ 21))).sub (tendsto_inv_shift 5 (1385710331296526 / 10 ^ 16))).add
    (tendsto_inv_shift 4 (1250734324009056 / 10 ^ 14))).sub (tendsto_inv_shift 3 (1766150291498386 / 10 ^ 13))).add
    (tendsto_inv_shift 2 (7713234287757674 / 10 ^ 13))).sub (tendsto_inv_shift 1 (1259139216722289 / 10 ^ 12))).add h0
  have h' := h.add (tendsto_const_nhds (x := (9999999999995183 / 10 ^ 16 : ℝ)))
  simpa using h'

theorem tendsto_log_rat : Tendsto (fun z => Real.log (rat z)) atTop (𝓝 (Real.log (9999999999995183 / 10 ^ 16))) :=
  tendsto_rat.log (by norm_num)

theorem tendsto_log_ratio (c : ℝ) : Tendsto (fun z : ℝ => Real.log (1 + c / z)) atTop (𝓝 0) := by
  have h : Tendsto (fun z : ℝ => 1 + c / z) atTop (𝓝 (1 + 0)) :=
    tendsto_const_nhds.add (Tendsto.div_atTop tendsto_const_nhds tendsto_id)
  rw [add_zero] at h
  have := h.log (by norm_num)
  rwa [Real.log_one] at this

theorem log_shift {z c : ℝ} (hz : 0 < z) (hc : 0 < c) : Real.log (z + c) = Real.log z + Real.log (1 + c / z) := by
  rw [← Real.log_mul hz.ne' (by positivity)]
  congr 1
  field_simp

theorem tendsto_defect : Tendsto defect atTop (𝓝 0) := by
  have h1 : Tendsto (fun z : ℝ => Real.log (rat (z + 1)) - Real.log (rat z) - 1 +
      (z * Real.log (1 + (15 / 2) / z) + 1 / 2 * Real.log (1 + (15 / 2) / z)) -
      (z * Real.log (1 + (13 / 2) / z) - 1 / 2 * Real.log (1 + (13 / 2) / z))) atTop (𝓝 0) := by
    have a1 := tendsto_log_rat.comp (tendsto_atTop_add_const_right atTop (1 : ℝ) tendsto_id)
    have h := ((a1.sub tendsto_log_rat).sub_const 1).add
      ((Real.tendsto_mul_log_one_add_div_atTop (15 / 2)).add ((tendsto_log_ratio (15 / 2)).const_mul (1 / 2)))
    have h' := h.sub ((Real.tendsto_mul_log_one_add_div_atTop (13 / 2)).sub ((tendsto_log_ratio (13 / 2)).const_mul (1 / 2)))
    have e : Real.log (9999999999995183 / 10 ^ 16) - Real.log (9999999999995183 / 10 ^ 16) - 1 + (15 / 2 + 1 / 2 * 0) -
      (13 / 2 - 1 / 2 * 0) = (0 : ℝ) := by ring
    rw [e] at h'
    exact h'
  refine h1.congr' ?_
  filter_upwards [eventually_gt_atTop (0 : ℝ)] with z hz
  rw [← defect_eq hz, logGamma_eq, logGamma_eq, show z + 1 + 13 / 2 = z + 15 / 2 by ring, log_shift hz (by norm_num : (0 : ℝ) < 15 / 2),
    log_shift hz (by norm_num : (0 : ℝ) < 13 / 2)]
  ring

private theorem tendsto_pder (a : List ℤ) (c : ℤ) (l : List ℤ) (hal : a = c :: l) (hc : 0 < c) (h : ∀ c ∈ l, 0 ≤ c) :
    Tendsto (fun z => ev (pder a) z / ev a z) atTop (𝓝 0) := by
  have hall : ∀ x ∈ a, 0 ≤ x := by
    intro x hx
    rw [hal] at hx
    rcases List.mem_cons.1 hx with rfl | hx
    · exact hc.le
    · exact h x hx
  have hup : Tendsto (fun z : ℝ => (a.length : ℝ) / z) atTop (𝓝 0) := Tendsto.div_atTop tendsto_const_nhds tendsto_id
  refine squeeze_zero' ?_ ?_ hup
  · filter_upwards [eventually_gt_atTop (0 : ℝ)] with z hz
    exact div_nonneg (ev_pder_le a hall z hz.le).1 (ev_nonneg a hall z hz.le)
  · filter_upwards [eventually_gt_atTop (0 : ℝ)] with z hz
    have hp : 0 < ev a z := by rw [hal]; exact ev_pos c l hc h z hz.le
    rw [div_le_div_iff₀ hp hz]
    have := (ev_pder_le a hall z hz.le).2
    linarith

theorem tendsto_defect1 : Tendsto defect1 atTop (𝓝 0) := by
  have hQ := tendsto_pder Q0 _ _ rfl (by decide) (by decide)
  have hP := tendsto_pder P0 _ _ rfl (by decide) (by decide)
  have h := (((((hQ.sub hP).sub (tendsto_inv_shift 8 1)).add (tendsto_log_ratio (15 / 2))).sub (tendsto_log_ratio (13 / 2))).sub
    (tendsto_inv_shift (15 / 2) 7)).add (tendsto_inv_shift (13 / 2) 7)
  simp only [sub_zero, add_zero] at h
  refine h.congr' ?_
  filter_upwards [eventually_gt_atTop (0 : ℝ)] with z hz
  unfold defect1
  rw [log_shift hz (by norm_num : (0 : ℝ) < 15 / 2), log_shift hz (by norm_num : (0 : ℝ) < 13 / 2)]
  ring

theorem tendsto_comp : Tendsto comp atTop (𝓝 0) := by
  have := (tendsto_inv_shift 20 eps).sub (tendsto_inv_shift 21 eps)
  rwa [sub_zero] at this

theorem tendsto_comp1 : Tendsto comp1 atTop (𝓝 0) := by
  have h : ∀ c : ℝ, Tendsto (fun z : ℝ => eps / (z + c) ^ 2) atTop (𝓝 0) := by
    intro c
    refine Tendsto.div_atTop tendsto_const_nhds ?_
    exact (tendsto_pow_atTop (by norm_num)).comp (tendsto_atTop_add_const_right _ c tendsto_id)
  have := (h 20).neg.add (h 21)
  rwa [neg_zero, add_zero] at this

/-- A function with non-negative second derivative that vanishes at infinity with its derivative is non-negative. -/
private theorem nonneg_of_second (f f1 f2 : ℝ → ℝ) (h1 : ∀ z, 0 < z → HasDerivAt f (f1 z) z)
    (h2 : ∀ z, 0 < z → HasDerivAt f1 (f2 z) z) (h3 : ∀ z, 0 < z → 0 ≤ f2 z) (l0 : Tendsto f atTop (𝓝 0))
    (l1 : Tendsto f1 atTop (𝓝 0)) (z : ℝ) (hz : 0 < z) : 0 ≤ f z := by
  have m1 : MonotoneOn f1 (Ioi 0) := by
    apply monotoneOn_of_deriv_nonneg (convex_Ioi 0)
    · exact fun z hz => (h2 z hz).continuousAt.continuousWithinAt
    · intro z hz
      rw [interior_Ioi] at hz
      exact (h2 z hz).differentiableAt.differentiableWithinAt
    · intro z hz
      rw [interior_Ioi] at hz
      rw [(h2 z hz).deriv]; exact h3 z hz
  have n1 : ∀ z, 0 < z → f1 z ≤ 0 := by
    intro z hz
    refine ge_of_tendsto l1 ?_
    filter_upwards [eventually_ge_atTop z] with y hy
    exact m1 hz (lt_of_lt_of_le hz hy) hy
  have m0 : AntitoneOn f (Ioi 0) := by
    apply antitoneOn_of_deriv_nonpos (convex_Ioi 0)
    · exact fun z hz => (h1 z hz).continuousAt.continuousWithinAt
    · intro z hz
      rw [interior_Ioi] at hz
      exact (h1 z hz).differentiableAt.differentiableWithinAt
    · intro z hz
      rw [interior_Ioi] at hz
      rw [(h1 z hz).deriv]; exact n1 z hz
  refine le_of_tendsto l0 ?_
  filter_upwards [eventually_ge_atTop z] with y hy
  exact m0 hz (lt_of_lt_of_le hz hy) hy

/-- The recurrence of the gamma function holds up to a small defect. -/
theorem defect_le {z : ℝ} (hz : 0 < z) : |defect z| ≤ comp z := by
  have u := nonneg_of_second (fun z => defect z + comp z) (fun z => defect1 z + comp1 z) (fun z => defect2 z + comp2 z)
    (fun z hz => (hasDerivAt_defect hz).add (hasDerivAt_comp hz)) (fun z hz => (hasDerivAt_defect1 hz).add (hasDerivAt_comp1 hz))
    (fun z hz => (second_nonneg hz).1) (by simpa using tendsto_defect.add tendsto_comp)
    (by simpa using tendsto_defect1.add tendsto_comp1) z hz
  have l := nonneg_of_second (fun z => -defect z + comp z) (fun z => -defect1 z + comp1 z) (fun z => -defect2 z + comp2 z)
    (fun z hz => (hasDerivAt_defect hz).neg.add (hasDerivAt_comp hz)) (fun z hz => (hasDerivAt_defect1 hz).neg.add (hasDerivAt_comp1 hz))
    (fun z hz => (second_nonneg hz).2) (by simpa using tendsto_defect.neg.add tendsto_comp)
    (by simpa using tendsto_defect1.neg.add tendsto_comp1) z hz
  rw [abs_le]
  constructor
  · have : 0 ≤ defect z + comp z := u
    linarith
  · have : 0 ≤ -defect z + comp z := l
    linarith

/-! ### Behaviour at infinity -/

private theorem log_Gamma_succ {y : ℝ} (hy : 0 < y) : Real.log (Real.Gamma (y + 1)) = Real.log (Real.Gamma y) + Real.log y := by
  rw [Real.Gamma_add_one hy.ne', Real.log_mul hy.ne' (Real.Gamma_pos_of_pos hy).ne']
  ring

private theorem log_Gamma_add_nat {x : ℝ} (hx : 0 < x) (n : ℕ) :
    Real.log (Real.Gamma (x + n)) = Real.log (Real.Gamma x) + ∑ m ∈ Finset.range n, Real.log (x + m) := by
  induction n with
  | zero => simp
  | succ n ih =>
    rw [Finset.sum_range_succ, ← add_assoc, ← ih, Nat.cast_succ, ← add_assoc]
    exact log_Gamma_succ (by positivity)

/-- Stirling's formula for `log Γ (x + n + 1)`. -/
private theorem tendsto_log_Gamma {x : ℝ} (hx : 0 < x) :
    Tendsto (fun n : ℕ => Real.log (Real.Gamma (x + (n + 1 : ℕ))) - ((x + n + 1 / 2) * Real.log n - n)) atTop
      (𝓝 (1 / 2 * Real.log 2 + 1 / 2 * Real.log Real.pi)) := by
  have h1 := (Real.BohrMollerup.tendsto_log_gamma hx).const_sub (Real.log (Real.Gamma x))
  rw [sub_self] at h1
  have h2 := Stirling.tendsto_stirlingSeq_sqrt_pi.log (Real.sqrt_pos.2 Real.pi_pos).ne'
  rw [Real.log_sqrt Real.pi_pos.le] at h2
  have h := (h1.add h2).add_const (1 / 2 * Real.log 2)
  have e : 0 + Real.log Real.pi / 2 + 1 / 2 * Real.log 2 = 1 / 2 * Real.log 2 + 1 / 2 * Real.log Real.pi := by ring
  rw [e] at h
  refine h.congr' ?_
  filter_upwards [eventually_gt_atTop 0] with n hn
  have hn' : (0 : ℝ) < n := by exact_mod_cast hn
  rw [log_Gamma_add_nat hx, Stirling.log_stirlingSeq_formula, Real.log_mul (by norm_num) hn'.ne',
    Real.log_div hn'.ne' (Real.exp_pos 1).ne', Real.log_exp, Real.BohrMollerup.logGammaSeq]
  ring

private theorem tendsto_logGamma {x : ℝ} (hx : 0 < x) :
    Tendsto (fun n : ℕ => logGamma (x + (n + 1 : ℕ)) - ((x + n + 1 / 2) * Real.log n - n)) atTop
      (𝓝 (Real.log (9999999999995183 / 10 ^ 16) - 558106146679532777 / 10 ^ 17 + 13 / 2)) := by
  have g : Tendsto (fun n : ℕ => x + (n + 1 : ℕ)) atTop atTop := by
    refine tendsto_atTop_add_const_left _ x ?_
    exact (tendsto_natCast_atTop_atTop (R := ℝ)).comp (tendsto_add_atTop_nat 1)
  have h1 := tendsto_log_rat.comp g
  have h2 := (Real.tendsto_mul_log_one_add_div_atTop (x + 15 / 2)).comp (tendsto_natCast_atTop_atTop (R := ℝ))
  have h3 := ((tendsto_log_ratio (x + 15 / 2)).comp (tendsto_natCast_atTop_atTop (R := ℝ))).const_mul (x + 1 / 2)
  have h := (((h1.sub_const (558106146679532777 / 10 ^ 17)).sub_const (x + 1)).add h2).add h3
  have e : Real.log (9999999999995183 / 10 ^ 16) - 558106146679532777 / 10 ^ 17 - (x + 1) + (x + 15 / 2) + (x + 1 / 2) * 0 =
    Real.log (9999999999995183 / 10 ^ 16) - 558106146679532777 / 10 ^ 17 + 13 / 2 := by ring
  rw [e] at h
  refine h.congr' ?_
  filter_upwards [eventually_gt_atTop 0] with n hn
  have hn' : (0 : ℝ) < n := by exact_mod_cast hn
  simp only [Function.comp]
  rw [logGamma_eq, show x + ((n + 1 : ℕ) : ℝ) + 13 / 2 = (n : ℝ) + (x + 15 / 2) by push_cast; ring,
    log_shift hn' (by positivity : 0 < x + 15 / 2)]
  push_cast
  ring

/-- The error of `log_gamma`. -/
noncomputable def err (z : ℝ) : ℝ := logGamma z - Real.log (Real.Gamma z)

private theorem tendsto_err {x : ℝ} (hx : 0 < x) :
    Tendsto (fun n : ℕ => err (x + (n + 1 : ℕ))) atTop
      (𝓝 (Real.log (9999999999995183 / 10 ^ 16) - 558106146679532777 / 10 ^ 17 + 13 / 2 -
        (1 / 2 * Real.log 2 + 1 / 2 * Real.log Real.pi))) := by
  refine ((tendsto_logGamma hx).sub (tendsto_log_Gamma hx)).congr ?_
  intro n
  unfold err
  ring

private theorem log_two_pi : |1 / 2 * Real.log 2 + 1 / 2 * Real.log Real.pi - 91893853320467223 / 10 ^ 17| ≤ 1 / 10 ^ 13 := by
  have hpi := Real.pi_gt_d20
  have hpi' := Real.pi_lt_d20
  have e : 1 / 2 * Real.log 2 + 1 / 2 * Real.log Real.pi = 1 / 2 * Real.log (2 * Real.pi) := by
    rw [Real.log_mul (by norm_num) Real.pi_pos.ne']; ring
  have lo : (18378770664092 / 10 ^ 13 : ℝ) ≤ Real.log (2 * Real.pi) := by
    rw [Real.le_log_iff_exp_le (by positivity), show (18378770664092 / 10 ^ 13 : ℝ) = ((4 : ℕ) : ℝ) * (4594692666023 / 10 ^ 13) by norm_num,
      Real.exp_nat_mul]
    have h := Real.exp_bound' (x := 4594692666023 / 10 ^ 13) (by norm_num) (by norm_num) (n := 16) (by norm_num)
    refine (pow_le_pow_left₀ (Real.exp_pos _).le h 4).trans (le_trans ?_ (by linarith : 2 * (3.14159265358979323846 : ℝ) ≤ 2 * Real.pi))
    simp only [Finset.sum_range_succ, Finset.sum_range_zero, Nat.factorial]
    norm_num
  have hi : Real.log (2 * Real.pi) ≤ (18378770664095 / 10 ^ 13 : ℝ) := by
    rw [Real.log_le_iff_le_exp (by positivity), show (18378770664095 / 10 ^ 13 : ℝ) = ((4 : ℕ) : ℝ) * (18378770664095 / (4 * 10 ^ 13)) by norm_num,
      Real.exp_nat_mul]
    have h := Real.sum_le_exp_of_nonneg (x := 18378770664095 / (4 * 10 ^ 13)) (by norm_num) 16
    refine le_trans (by linarith : 2 * Real.pi ≤ 2 * (3.14159265358979323847 : ℝ)) (le_trans ?_ (pow_le_pow_left₀ ?_ h 4))
    · simp only [Finset.sum_range_succ, Finset.sum_range_zero, Nat.factorial]
      norm_num
    · exact Finset.sum_nonneg fun i _ => by positivity
  rw [e, abs_le]
  constructor <;> linarith

private theorem log_c0 : |Real.log (9999999999995183 / 10 ^ 16)| ≤ 1 / 2 / 10 ^ 12 := by
  rw [abs_le]
  have h1 := Real.one_sub_inv_le_log_of_pos (x := 9999999999995183 / 10 ^ 16) (by norm_num)
  have h2 := Real.log_nonpos (x := 9999999999995183 / 10 ^ 16) (by norm_num) (by norm_num)
  constructor
  · refine le_trans ?_ h1
    norm_num
  · refine h2.trans (by norm_num)

private theorem err_succ {z : ℝ} (hz : 0 < z) : err (z + 1) = err z + defect z := by
  unfold err
  rw [log_Gamma_succ hz, ← defect_eq hz]
  ring

private theorem err_add_nat {x : ℝ} (hx : 0 < x) (n : ℕ) : |err (x + n) - err x| ≤ eps / (x + 20) - eps / (x + n + 20) := by
  induction n with
  | zero => simp
  | succ n ih =>
    have hn : 0 < x + n := by positivity
    have h := defect_le hn
    have e : err (x + (n + 1 : ℕ)) - err x = (err (x + n) - err x) + defect (x + n) := by
      rw [Nat.cast_succ, ← add_assoc, err_succ hn]; ring
    rw [e]
    refine (abs_add_le _ _).trans ((add_le_add ih h).trans (le_of_eq ?_))
    unfold comp
    push_cast
    rw [show x + (n + 1 : ℝ) + 20 = x + n + 21 by ring]
    ring

/-- The error of `log_gamma` for every positive argument. -/
theorem err_le {z : ℝ} (hz : 0 < z) : |err z| ≤ 4 / 10 ^ 12 := by
  have hlim := (tendsto_err hz).sub_const (err z)
  have hb : |Real.log (9999999999995183 / 10 ^ 16) - 558106146679532777 / 10 ^ 17 + 13 / 2 -
        (1 / 2 * Real.log 2 + 1 / 2 * Real.log Real.pi) - err z| ≤ eps / 20 := by
    refine le_of_tendsto hlim.abs ?_
    filter_upwards with n
    refine (err_add_nat hz (n + 1)).trans ?_
    have : 0 ≤ eps / (z + (n + 1 : ℕ) + 20) := by unfold eps; positivity
    have h2 : eps / (z + 20) ≤ eps / 20 := by
      unfold eps
      gcongr
      linarith
    linarith
  have h1 := abs_le.1 log_two_pi
  have h2 := abs_le.1 log_c0
  have h3 := abs_le.1 hb
  have he : eps / 20 = 25 / 10 ^ 13 := by unfold eps; norm_num
  rw [he] at h3
  rw [abs_le]
  constructor <;> linarith [h1.1, h1.2, h2.1, h2.2, h3.1, h3.2]

end TFR.LogGamma
