import Verif.Props.OverlapMore
/-
C148, continued: the xorshift generators. Their states run through one cycle of `2^w - 1` states, and the first state of every source has a known
place on it, checked by a jump.
-/
namespace TFR
open Spec Function
variable {w : Nat}

namespace Overlap

/-- Two starting points on a cycle of `M` states, at least `b` steps from each other in both directions, do not meet within `b` steps. -/
theorem apart_orbit {V : Type*} (T : V → V) (v : V) (M : Nat) (hM : 0 < M) (hmin : minimalPeriod T v = M) (b p q : Nat) (hp : p < M) (hq : q < M)
    (h1 : b ≤ (p + M - q) * 1 % M) (h2 : b ≤ (q + M - p) * 1 % M) (k l : Nat) (hk : k < b) (hl : l < b) :
    T (T^[k] (T^[p] v)) ≠ T (T^[l] (T^[q] v)) := by
  rw [← iterate_succ_apply' T, ← iterate_succ_apply' T, ← iterate_add_apply, ← iterate_add_apply]
  intro h
  have hmod : (k + 1 + p) % M = (l + 1 + q) % M := by
    rw [← iterate_mod_minimalPeriod_eq, ← iterate_mod_minimalPeriod_eq (n := l + 1 + q), hmin] at h
    exact iterate_injOn_Iio_minimalPeriod (by rw [hmin]; exact Nat.mod_lt _ hM) (by rw [hmin]; exact Nat.mod_lt _ hM) h
  rw [Nat.mul_one] at h1 h2
  have one : ∀ p q k l : Nat, p < M → q < M → k < b → l ≤ k → (k + 1 + p) % M = (l + 1 + q) % M → (q + M - p) % M < b := by
    intro p q k l hp hq hk hlk he
    have e1 : (k - l + p) % M = q % M := by
      have : k - l + p + (l + 1) ≡ q + (l + 1) [MOD M] := by
        show (k - l + p + (l + 1)) % M = (q + (l + 1)) % M
        rw [show k - l + p + (l + 1) = k + 1 + p by omega, show q + (l + 1) = l + 1 + q by omega]; exact he
      exact Nat.ModEq.add_right_cancel' _ this
    have e2 : (q + M - p) % M = (k - l) % M := by
      have : q + M - p + p ≡ k - l + p [MOD M] := by
        show (q + M - p + p) % M = (k - l + p) % M
        rw [show q + M - p + p = q + M by omega, Nat.add_mod_right, e1]
      exact Nat.ModEq.add_right_cancel' _ this
    rw [e2]
    exact lt_of_le_of_lt (Nat.mod_le _ _) (by omega)
  rcases le_total l k with hlk | hlk
  · exact absurd h2 (Nat.not_le.2 (one p q k l hp hq hk hlk hmod))
  · exact absurd h1 (Nat.not_le.2 (one q p l k hq hp hl hlk hmod.symm))

theorem zip_all (M : Nat) (f : Nat → Nat) (S P : List Nat) (hlen : S.length = P.length)
    (h : (List.zipWith (fun s p => Nat.blt p M && Nat.beq (f p) s) S P).all id = true) (s : Nat) (hs : s ∈ S) :
    ∃ p ∈ P, p < M ∧ f p = s := by
  obtain ⟨i, hi, rfl⟩ := List.getElem_of_mem hs
  have hip : i < P.length := by omega
  have := List.all_eq_true.1 h _ (List.getElem_mem (l := List.zipWith (fun s p => Nat.blt p M && Nat.beq (f p) s) S P) (n := i)
    (by rw [List.length_zipWith]; omega))
  rw [List.getElem_zipWith, id, Bool.and_eq_true] at this
  exact ⟨P[i], List.getElem_mem _, Nat.le_of_ble_eq_true this.1, Nat.eq_of_beq_eq_true this.2⟩

/-- The word at place `i` of `S` is `f` of the number at place `i` of `P`. -/
def okAt (M : Nat) (f : Nat → Nat) (S P : List Nat) (i : Nat) : Bool := Nat.blt (P.getD i 0) M && Nat.beq (f (P.getD i 0)) (S.getD i 0)

theorem at_all (M : Nat) (f : Nat → Nat) (S P : List Nat) (hlen : S.length = P.length) (h : ∀ i < S.length, okAt M f S P i = true) (s : Nat)
    (hs : s ∈ S) : ∃ p ∈ P, p < M ∧ f p = s := by
  obtain ⟨i, hi, rfl⟩ := List.getElem_of_mem hs
  have hip : i < P.length := by omega
  have := h i hi
  rw [okAt, Bool.and_eq_true, List.getD_eq_getElem _ _ hi, List.getD_eq_getElem _ _ hip] at this
  exact ⟨P[i], List.getElem_mem _, Nat.le_of_ble_eq_true this.1, Nat.eq_of_beq_eq_true this.2⟩

/-! #### the places -/

/-- The state 1 of the xorshift generators, as a vector of bits. -/
def one64 : XV 64 := (BitVec.ofNat 64 1 : BitVec 64)
/-- The state 1 of the 32-bit xorshift generator, as a vector of bits. -/
def one32 : XV 32 := (BitVec.ofNat 32 1 : BitVec 32)

/-- The state of xorshift64 `p` steps after 1. -/
def after64 (p : Nat) : Nat := BitVec.toNat (w := 64) (evAt (V := XV 64) T64 one64 64 (polyPow 64 P64 64 p))
/-- The state of xorshift32 `p` steps after 1. -/
def after32 (p : Nat) : Nat := BitVec.toNat (w := 32) (evAt (V := XV 32) T32 one32 32 (polyPow 32 P32 32 p))

theorem after64_eq (p : Nat) (hp : p < 2 ^ 64 - 1) (v : BitVec 64) (h : after64 p = v.toNat) : xorshift64Step^[p] 1#64 = v := by
  have h1 := ev_polyPow XV.add_self T64 64 P64 64 p evP64 (by omega) (polyPow_lt 64 P64 (by norm_num) (by decide) (by decide))
  have h2 := ev_apply T64 one64 64 (polyPow 64 P64 64 p) (polyPow_lt 64 P64 (by norm_num) (by decide) (by decide) _ _)
  have h3 : evAt (V := XV 64) T64 one64 64 (polyPow 64 P64 64 p) = v := BitVec.eq_of_toNat_eq (n := 64) h
  rw [h1, h3, AddMonoid.End.coe_pow] at h2
  exact h2

theorem after32_eq (p : Nat) (hp : p < 2 ^ 32 - 1) (v : BitVec 32) (h : after32 p = v.toNat) : xorshift32Step^[p] 1#32 = v := by
  have h1 := ev_polyPow XV.add_self T32 32 P32 32 p evP32 (by omega) (polyPow_lt 32 P32 (by norm_num) (by decide) (by decide))
  have h2 := ev_apply T32 one32 32 (polyPow 32 P32 32 p) (polyPow_lt 32 P32 (by norm_num) (by decide) (by decide) _ _)
  have h3 : evAt (V := XV 32) T32 one32 32 (polyPow 32 P32 32 p) = v := BitVec.eq_of_toNat_eq (n := 32) h
  rw [h1, h3, AddMonoid.End.coe_pow] at h2
  exact h2

/-- How many steps of xorshift64 lead from 1 to the words of `top64`. -/
def places64 : List Nat :=
  [14018669094462322948, 5336470727658054439, 2406919858771635560, 13522703848877871019, 17852215464088813296, 1242349313587753048,
  17893099098503527634, 2530941238964718648, 4149766432650096323, 5458236897002919957, 1203785782930256078, 9440288273446833861,
  9756196903346084325, 8910819084497568366, 13840946269688101630, 5803910458468178976, 17928309935234220432, 9209942441120413478,
  5675271608685008716, 15661357353051343903, 8430682904647308528, 1845390022343465891, 5348021891984833194, 6983771759592281653,
  8500843756909852875, 3544522109890875560, 2909483004609990010, 4119355944790431947, 12622984864838263064, 16510684885561829071,
  9601594738697255118, 11919918647627472378, 3779462054256791960, 3790376417609763032, 5658459469549594412, 5680455506378579876,
  1518445656866949078, 11013396504376108353, 17890580783721436693, 4933721092319288267, 6623331827875730266, 2986752448063910761,
  7532491105709691889, 3872686393448244694, 17316224935102704945, 5484604765851697738, 16601553395947842605, 15031444464156687956,
  14179023017253153471, 18023406435442035063, 14363001536828041493, 13111227662496923657, 10625427400681577006, 11952229499156023303,
  14489558017309566871, 2778841080488314404, 7567431137095320525, 14531932015906985164, 16155874861265583244, 12072502098550322407,
  17164148525180047842, 16298752028834048303, 5558125693420329677, 4922827687666911757, 12748688486382408667, 13314969714050442702,
  17378224515547884744, 9117723307669077586, 989157471898322010, 6427247659166292034, 12380590202584526758, 2650974652158825948,
  16936544282382324036, 13011330207769922496, 9518076550288643066, 7398704846991256901, 445616487749596966, 2740544087926433397,
  15793293838849863831, 18238187825661715225, 10313803687963696819, 16844136225664378274, 7957002684212872376, 10040939737841533624,
  7103478937206788602, 15699130521652565093, 1984136575833017303, 15717315454156176604, 14795187873544054880, 11955596408275527121,
  6851258976235413095, 11779528735079126648, 14304512082998696918, 10363558593654314055, 10836002382071810449, 10322081121652010698,
  14291964391308090683, 8412970497860272334, 609396843310346004, 5788408295273406101, 11570478985960801975, 16280587061630066266,
  17751741667493671437, 4540247174400969593, 12578023659160879069, 4598963086477254309, 8334247664832464899, 10223356683595130549,
  3187549206305414302, 14845644347902750670, 8300170826653277688, 2004066209833624869, 11604027579652635219, 9652805482175662421,
  2075411077331039478, 6115685262564912742, 3109902114087155502, 10500221194018811289, 8400512609699438532, 648984363183718124,
  6210474500794958197, 794579300862184773, 15909272218530228543, 3108732011255759015, 7360048313874570557, 14158220390597086396,
  5194323533616325121, 6982054301637210944, 15035292168845896609, 4209889269885616943, 7651032279632418483, 13090487827174443633,
  12407495324609552153, 10922650364373637415, 8136849682179093218, 14061028226209224949, 182025508945531720, 17022177271753575492,
  14256937859826242790, 2177702971515315878, 11443932638594995933, 16282043901707976579, 6630052991895301406, 17535007876250782680,
  11274317583726088680, 10468185476820733245, 12773910578241828923, 17281032496705463876, 5729377268759392013, 17631636133652270564,
  13440623465844535743, 11150271694961366331, 6334292332211589999, 3284216352860983528, 15633565236826347431, 13005442816652758684,
  14843962847644164863, 15752006358984729255, 5426130458022027064, 16764348915744625285, 6044199263428921770, 14249352706428917951,
  14306040075458121172, 12106599856033085892, 6808951346558900195, 2198706434748220381, 1688217452714111917, 15161297122970789699,
  403814226123399186, 18178133702397743648, 16789258772311708088, 13280457346130392410, 12425127535030492512, 7902778986211246335,
  14888736083537424045, 6752789569665338780, 6529436416826735340, 7289697087716712138, 8847170190185476557, 17073613226765160145,
  7725206605271140654, 696515040941702190, 17355966628099970135, 5450349216962276447, 2803648395296830058, 14706286184558108687,
  4395777591673616867, 17134884275009047134, 15525331884867011343, 3665121520817739516, 15749613528915011662, 16730828857149786050,
  6822016418761836674, 6352036065532442488, 14355184145274784408, 7496604162313024471, 12495777610845153918, 10901995549976475500,
  6969237236735255966, 5011192707640823017, 9490769387411131836, 17156671781813221512, 15872179620460668423, 12208460766258343940,
  12216168650782063342, 10909635029235551577, 581172865741940819, 11135090897252753695, 16710599035923803140, 5335337092732160404,
  8664473411464354030, 3020779915399528000, 11735368154690074713, 34940159954864966, 1267796434623218073, 2273783088175076713,
  18443327007302041121, 3074012068808897002, 14360055206254541201, 14384090147602619547, 4588661812519756308, 2021620333942212794,
  11281859026227806128, 10806543486660446152, 12664357507129163404, 770919120663234508, 12211165472689473716, 124246726688244231,
  17982029056171310658, 4742203851604339965, 10648033090130397941, 11594482215633832675, 18115622705376478010, 10161553803319610876,
  12314822388041884647, 6050312838245611916, 9518195845034045017, 539753506743879445, 18321521397847373070, 12125382493162279703,
  4190796793853650722, 2046992667224565719, 9096246809953446489, 9834112318677212595, 14516123795989382270, 9344420519064609998,
  7489556061614072189, 4784420544837701571, 12644965648321996183, 182992955372931056, 1125859506827781285, 2576638950234980113,
  5932663650851851008, 53913166963918044, 15235423639120359875, 11586278490690448604]

/-- How many steps of xorshift32 lead from 1 to the words of `top32`. -/
def places32 : List Nat :=
  [3303771738, 2380761565, 522166911, 1936772864, 1438599515, 3114255189, 2951384674, 1486778493, 912496377, 3214529454, 2744315789,
  207162357, 3295493142, 3945066807, 1913498852, 806623756, 4281521847, 3734318732, 3266115043, 1972087714, 545583069, 81591250,
  2282307705, 340525910, 3494706101, 1999314310, 3534811845, 4146879271, 3525420196, 3298343551, 1102416485, 759746899, 4251756380,
  2937697211, 1501280245, 221663070, 1793584065, 2452696752, 1169571045, 3147233628, 1015481166, 538787536, 1155961233, 746331152,
  1428024255, 393176386, 775398692, 2081652908, 1432803744, 3679662670, 955780478, 745254501, 1860485548, 269341128, 3629972205,
  1685026562, 3926826554, 1842726458, 1281255823, 1390628585, 156164962, 2483709903, 3805492282, 64289201, 3435199488, 1956376874,
  924658968, 1945074988, 840458942, 1414044836, 256615438, 414214287, 3052476433, 1267937370, 3409179202, 3335424774, 944689805,
  3646350756, 1857547324, 2845363301, 418158685, 2849168244, 3812696108, 4189580319, 2099734959, 2199474190, 1544112041, 3612390492,
  125345864, 3113115311, 2618297879, 2135338984, 3473059627, 3385395368, 135212473, 961810528, 408785664, 2946112883, 1078236451,
  2230595067, 1790986578, 1358740070, 1246117765, 833344661, 1167609748, 4039100838, 63520387, 4081771755, 2837392715, 1863382801,
  241737733, 2352312110, 3287417720, 2174462945, 3807586966, 4118494251, 258053078, 448345660, 2042461533, 1182391047, 3783630723,
  4038497382, 303457700, 1649498277, 1137812601, 1507109574, 1198622725, 1732560540]

set_option maxRecDepth 100000 in
theorem places64_0 : (List.range' 0 16).all (okAt (2 ^ 64 - 1) after64 top64 places64) = true := by decide +kernel
set_option maxRecDepth 100000 in
theorem places64_1 : (List.range' 16 16).all (okAt (2 ^ 64 - 1) after64 top64 places64) = true := by decide +kernel
set_option maxRecDepth 100000 in
theorem places64_2 : (List.range' 32 16).all (okAt (2 ^ 64 - 1) after64 top64 places64) = true := by decide +kernel
set_option maxRecDepth 100000 in
theorem places64_3 : (List.range' 48 16).all (okAt (2 ^ 64 - 1) after64 top64 places64) = true := by decide +kernel
set_option maxRecDepth 100000 in
theorem places64_4 : (List.range' 64 16).all (okAt (2 ^ 64 - 1) after64 top64 places64) = true := by decide +kernel
set_option maxRecDepth 100000 in
theorem places64_5 : (List.range' 80 16).all (okAt (2 ^ 64 - 1) after64 top64 places64) = true := by decide +kernel
set_option maxRecDepth 100000 in
theorem places64_6 : (List.range' 96 16).all (okAt (2 ^ 64 - 1) after64 top64 places64) = true := by decide +kernel
set_option maxRecDepth 100000 in
theorem places64_7 : (List.range' 112 16).all (okAt (2 ^ 64 - 1) after64 top64 places64) = true := by decide +kernel
set_option maxRecDepth 100000 in
theorem places64_8 : (List.range' 128 16).all (okAt (2 ^ 64 - 1) after64 top64 places64) = true := by decide +kernel
set_option maxRecDepth 100000 in
theorem places64_9 : (List.range' 144 16).all (okAt (2 ^ 64 - 1) after64 top64 places64) = true := by decide +kernel
set_option maxRecDepth 100000 in
theorem places64_10 : (List.range' 160 16).all (okAt (2 ^ 64 - 1) after64 top64 places64) = true := by decide +kernel
set_option maxRecDepth 100000 in
theorem places64_11 : (List.range' 176 16).all (okAt (2 ^ 64 - 1) after64 top64 places64) = true := by decide +kernel
set_option maxRecDepth 100000 in
theorem places64_12 : (List.range' 192 16).all (okAt (2 ^ 64 - 1) after64 top64 places64) = true := by decide +kernel
set_option maxRecDepth 100000 in
theorem places64_13 : (List.range' 208 16).all (okAt (2 ^ 64 - 1) after64 top64 places64) = true := by decide +kernel
set_option maxRecDepth 100000 in
theorem places64_14 : (List.range' 224 16).all (okAt (2 ^ 64 - 1) after64 top64 places64) = true := by decide +kernel
set_option maxRecDepth 100000 in
theorem places64_15 : (List.range' 240 16).all (okAt (2 ^ 64 - 1) after64 top64 places64) = true := by decide +kernel

theorem places64_len : top64.length = 256 ∧ places64.length = 256 := by
  refine ⟨?_, ?_⟩ <;> decide +kernel

theorem places64_ok : ∀ i < top64.length, okAt (2 ^ 64 - 1) after64 top64 places64 i = true := by
  intro i hi
  rw [places64_len.1] at hi
  have hm : i ∈ List.range' (16 * (i / 16)) 16 := by
    rw [List.mem_range'_1]
    omega
  have hc : i / 16 < 16 := by omega
  generalize hg : i / 16 = c at hm hc
  interval_cases c
  · exact List.all_eq_true.1 places64_0 i hm
  · exact List.all_eq_true.1 places64_1 i hm
  · exact List.all_eq_true.1 places64_2 i hm
  · exact List.all_eq_true.1 places64_3 i hm
  · exact List.all_eq_true.1 places64_4 i hm
  · exact List.all_eq_true.1 places64_5 i hm
  · exact List.all_eq_true.1 places64_6 i hm
  · exact List.all_eq_true.1 places64_7 i hm
  · exact List.all_eq_true.1 places64_8 i hm
  · exact List.all_eq_true.1 places64_9 i hm
  · exact List.all_eq_true.1 places64_10 i hm
  · exact List.all_eq_true.1 places64_11 i hm
  · exact List.all_eq_true.1 places64_12 i hm
  · exact List.all_eq_true.1 places64_13 i hm
  · exact List.all_eq_true.1 places64_14 i hm
  · exact List.all_eq_true.1 places64_15 i hm

set_option maxRecDepth 100000 in
theorem places32_ok : (List.zipWith (fun s p => Nat.blt p (2 ^ 32 - 1) && Nat.beq (after32 p) s) top32 places32).all id = true ∧
    top32.length = places32.length := by
  refine ⟨?_, ?_⟩ <;> decide +kernel

set_option maxRecDepth 100000 in
theorem apart_places : allApart (2 ^ 64 - 1) 1 (2 ^ 46) places64 = true ∧ allApart (2 ^ 32 - 1) 1 603456 places32 = true := by
  refine ⟨?_, ?_⟩ <;> decide +kernel

/-- The sources of xorshift64 never meet within `2^46` values. -/
theorem xorshift64_apart (s s' : SeedData) (hs : s.d0.toNat ∈ top64) (hs' : s'.d0.toNat ∈ top64) (hne : s.d0.toNat ≠ s'.d0.toNat) (k l : Nat)
    (hk : k < 2 ^ 46) (hl : l < 2 ^ 46) : (rng64_xorshift s).nth k ≠ (rng64_xorshift s').nth l := by
  obtain ⟨p, p1, p2, p3⟩ := at_all _ _ _ _ (places64_len.1.trans places64_len.2.symm) places64_ok _ hs
  obtain ⟨q, q1, q2, q3⟩ := at_all _ _ _ _ (places64_len.1.trans places64_len.2.symm) places64_ok _ hs'
  have hpq : p ≠ q := by
    rintro rfl
    exact hne (p3.symm.trans q3)
  obtain ⟨g1, g2⟩ := allApart_iff _ _ _ _ apart_places.1 _ _ p1 q1 hpq
  have e1 : xorshift64Step^[p] 1#64 = s.s64 := after64_eq p p2 _ p3
  have e2 : xorshift64Step^[q] 1#64 = s'.s64 := after64_eq q q2 _ q3
  rw [nth_xorshift64, nth_xorshift64, ← e1, ← e2]
  exact apart_orbit _ _ _ (by norm_num) (minimalPeriod_of_iff _ _ _ (by norm_num) (per64 _ (by decide))) _ p q p2 q2 g1 g2 k l hk hl

theorem xorshift32_apart (s s' : SeedData) (hs : s.s32.toNat ∈ top32) (hs' : s'.s32.toNat ∈ top32) (hne : s.s32.toNat ≠ s'.s32.toNat) (k l : Nat)
    (hk : k < 603456) (hl : l < 603456) : (rng32_xorshift s).nth k ≠ (rng32_xorshift s').nth l := by
  obtain ⟨p, p1, p2, p3⟩ := zip_all _ _ _ _ places32_ok.2 places32_ok.1 _ hs
  obtain ⟨q, q1, q2, q3⟩ := zip_all _ _ _ _ places32_ok.2 places32_ok.1 _ hs'
  have hpq : p ≠ q := by
    rintro rfl
    exact hne (p3.symm.trans q3)
  obtain ⟨g1, g2⟩ := allApart_iff _ _ _ _ apart_places.2 _ _ p1 q1 hpq
  rw [nth_xorshift32, nth_xorshift32, ← after32_eq p p2 _ p3, ← after32_eq q q2 _ q3]
  exact apart_orbit _ _ _ (by norm_num) (minimalPeriod_of_iff _ _ _ (by norm_num) (per32 _ (by decide))) _ p q p2 q2 g1 g2 k l hk hl

/-! #### minstd_rand -/

/-- `48271 ^ p` modulo 2147483647, by squaring. -/
def powM : Nat → Nat → Nat
  | 0, _ => 1
  | fuel + 1, p => (fun r => r * r % 2147483647 * 48271 ^ (p % 2) % 2147483647) (powM fuel (p / 2))

theorem powM_eq (fuel : Nat) : ∀ p, p < 2 ^ fuel → powM fuel p = 48271 ^ p % 2147483647 := by
  induction fuel with
  | zero =>
    intro p hp
    obtain rfl : p = 0 := by simpa using hp
    rfl
  | succ fuel ih =>
    intro p hp
    show powM fuel (p / 2) * powM fuel (p / 2) % 2147483647 * 48271 ^ (p % 2) % 2147483647 = _
    rw [ih (p / 2) (by rw [pow_succ] at hp; omega), ← Nat.mul_mod, Nat.mod_mul_mod, ← pow_add, ← pow_add]
    congr 2
    omega

/-- How many steps of minstd_rand lead from 1 to the first state of the seeds of `top32`. -/
def placesM : List Nat :=
  [837720820, 1101377014, 1428234613, 2130099991, 480407400, 1204802139, 798841482, 238522623, 2145475014, 1229258091, 1222387148,
  512059471, 36726817, 1633313197, 158783035, 1241648247, 774145938, 1059306348, 1713509304, 1088098358, 743397556, 1801734900,
  443202644, 1424375580, 1665463625, 418168724, 1513253682, 492929026, 1204594746, 1560184872, 1635162849, 1935524265, 1691879573,
  181865774, 1320129206, 409605909, 884349902, 70092988, 1998417704, 1622635639, 1531258127, 2024360010, 1310075642, 1662314783,
  1283174140, 1161578243, 579869391, 1944780818, 1836234354, 824501577, 1935245644, 2138886506, 1356915199, 1635476337, 756931681,
  1528500631, 370506950, 1877904839, 695940743, 1594143194, 2142294959, 463030920, 351343579, 1550939128, 742607005, 35221139,
  599438440, 259710056, 2127649289, 1158074797, 275615681, 69116680, 1412994075, 2143758324, 366153978, 1161660937, 356581869,
  677315707, 314039981, 1015646966, 11658567, 77758145, 21682662, 293302126, 643545215, 1714096579, 229818186, 1374364527, 869030908,
  771139746, 108404262, 1926623924, 337934357, 1901091081, 312788909, 529679055, 41067700, 1695641529, 1015371571, 1855540847, 19379918,
  1167473947, 1961012537, 1208845086, 899858158, 847493784, 1734870429, 158145133, 1498401536, 232751996, 2133653083, 1378362951,
  1551547116, 505721932, 1098672821, 563207045, 1716802618, 1492412598, 951404283, 1350136987, 2005492245, 956544380, 509374120,
  1855132067, 1890177680, 1680666996, 1073741823, 0]

set_option maxRecDepth 100000 in
theorem placesM_ok : (List.zipWith (fun s p => Nat.blt p 2147483646 && Nat.beq (powM 31 p) s)
    (top32.map fun s => minstdSeed (BitVec.ofNat 32 s)) placesM).all id = true ∧
    (top32.map fun s => minstdSeed (BitVec.ofNat 32 s)).length = placesM.length ∧
    (top32.map fun s => minstdSeed (BitVec.ofNat 32 s)).Nodup := by
  refine ⟨?_, ?_, ?_⟩ <;> decide +kernel

set_option maxRecDepth 100000 in
theorem apart_placesM : allApart 2147483646 1 82694 placesM = true := by decide +kernel

theorem minstd_apart (s s' : SeedData) (hs : s.s32.toNat ∈ top32) (hs' : s'.s32.toNat ∈ top32) (hne : s.s32.toNat ≠ s'.s32.toNat) (k l : Nat)
    (hk : k < 82694) (hl : l < 82694) : (rng32_minstd s).nth k ≠ (rng32_minstd s').nth l := by
  have hmem : ∀ u : SeedData, u.s32.toNat ∈ top32 → minstdSeed u.s32 ∈ top32.map fun s => minstdSeed (BitVec.ofNat 32 s) := fun u hu =>
    List.mem_map.2 ⟨_, hu, by rw [← word_eq u.s32 _ rfl]⟩
  have hinj : minstdSeed s.s32 ≠ minstdSeed s'.s32 := by
    intro h
    rw [word_eq s.s32 _ rfl, word_eq s'.s32 _ rfl] at h
    exact hne (List.inj_on_of_nodup_map placesM_ok.2.2 hs hs' h)
  obtain ⟨p, p1, p2, p3⟩ := zip_all _ _ _ _ placesM_ok.2.1 placesM_ok.1 _ (hmem s hs)
  obtain ⟨q, q1, q2, q3⟩ := zip_all _ _ _ _ placesM_ok.2.1 placesM_ok.1 _ (hmem s' hs')
  have hpq : p ≠ q := by
    rintro rfl
    exact hinj (p3.symm.trans q3)
  obtain ⟨g1, g2⟩ := allApart_iff _ _ _ _ apart_placesM _ _ p1 q1 hpq
  have it : ∀ r, r < 2147483646 → minstdStep^[r] 1 = powM 31 r := fun r hr => by
    rw [minstd_iter _ _ (by norm_num), Nat.mul_one, powM_eq 31 r (by omega)]
  have hlt : ∀ k, minstdStep^[k] 1 < 2 ^ 32 := fun k => by
    have := ((C24_step 1 (by norm_num) (by norm_num)).1 k).2
    omega
  rw [nth_minstd, nth_minstd, ← p3, ← q3, ← it p p2, ← it q q2]
  intro h
  have h := congrArg BitVec.toNat h
  rw [BitVec.toNat_ofNat, BitVec.toNat_ofNat, ← iterate_add_apply, ← iterate_add_apply, Nat.mod_eq_of_lt (hlt _), Nat.mod_eq_of_lt (hlt _),
    iterate_add_apply, iterate_add_apply _ _ q, iterate_succ_apply', iterate_succ_apply'] at h
  exact apart_orbit _ _ _ (by norm_num) (minimalPeriod_of_iff _ _ _ (by norm_num) (C24_step 1 (by norm_num) (by norm_num)).2) _ p q p2 q2 g1 g2
    k l hk hl h

end Overlap
open Overlap

/-- C148. The 256 sources of `rng64::xorshift`, their rotations undone, have no common value among the first `2^46` of each. -/
theorem C148_apart_xorshift_64 (fuel : Nat) (hfuel : 2 ^ 64 ≤ fuel) :
    ∃ sources, createPrngSources .u64 rng64_xorshift fuel = some (.ok sources) ∧ sources.length = 256 ∧
      ∀ i j si sj, i ≠ j → sources[i]? = some si → sources[j]? = some sj → ∀ k l, k < 2 ^ 46 → l < 2 ^ 46 →
        turnBack i (si.nth k) ≠ turnBack j (sj.nth l) := by
  obtain ⟨all, sources, h1, h2, h3, -, -, h6⟩ := C74_prng_setup .u64 rng64_xorshift fuel hfuel
  refine ⟨sources, h2, h3, ?_⟩
  have h3 : sources.length = 256 := h3
  intro i j si sj hij hsi hsj k l hk hl
  have hi : i < 256 := by rw [← h3]; exact (List.getElem?_eq_some_iff.1 hsi).1
  have hj : j < 256 := by rw [← h3]; exact (List.getElem?_eq_some_iff.1 hsj).1
  obtain ⟨s, st, a1, a2, a3⟩ := h6 i hi
  obtain ⟨s', st', b1, b2, b3⟩ := h6 j hj
  rw [hsi] at a2; cases a2
  rw [hsj] at b2; cases b2
  rw [a3, b3, turnBack, turnBack, turnBack_ror, turnBack_ror]
  have hf : 1024 ≤ fuel := le_trans (by norm_num) hfuel
  exact xorshift64_apart s s' (seeds_top64 fuel hf all h1 i hi s a1) (seeds_top64 fuel hf all h1 j hj s' b1)
    (seeds_ne .u64 fuel hfuel all h1 i j hij s s' a1 b1) k l hk hl

theorem Overlap.apart32_of (rng : SeedData → Stream (BitVec WT.u32.bits)) (b fuel : Nat) (hfuel : 2 ^ 32 ≤ fuel)
    (hap : ∀ s s' : SeedData, s.s32.toNat ∈ top32 → s'.s32.toNat ∈ top32 → s.s32.toNat ≠ s'.s32.toNat → ∀ k l, k < b → l < b →
      (rng s).nth k ≠ (rng s').nth l) :
    ∃ sources, createPrngSources .u32 rng fuel = some (.ok sources) ∧ sources.length = 128 ∧
      ∀ i j si sj, i ≠ j → sources[i]? = some si → sources[j]? = some sj → ∀ k l, k < b → l < b →
        turnBack i (si.nth k) ≠ turnBack j (sj.nth l) := by
  obtain ⟨all, sources, h1, h2, h3, -, -, h6⟩ := C74_prng_setup .u32 rng fuel hfuel
  refine ⟨sources, h2, h3, ?_⟩
  have h3 : sources.length = 128 := h3
  intro i j si sj hij hsi hsj k l hk hl
  have hi : i < 128 := by rw [← h3]; exact (List.getElem?_eq_some_iff.1 hsi).1
  have hj : j < 128 := by rw [← h3]; exact (List.getElem?_eq_some_iff.1 hsj).1
  obtain ⟨s, st, a1, a2, a3⟩ := h6 i hi
  obtain ⟨s', st', b1, b2, b3⟩ := h6 j hj
  rw [hsi] at a2; cases a2
  rw [hsj] at b2; cases b2
  rw [a3, b3, turnBack, turnBack, turnBack_ror, turnBack_ror]
  have hf : 1024 ≤ fuel := le_trans (by norm_num) hfuel
  have m1 := seeds_top32 fuel hf all h1 i hi s a1
  have m2 := seeds_top32 fuel hf all h1 j hj s' b1
  have hlt : ∀ u ∈ top32, u < 2 ^ 32 := fun u hu =>
    of_decide_eq_true (List.all_eq_true.1 (show top32.all (fun x => decide (x < 2 ^ 32)) = true by decide +kernel) u hu)
  have hne := seeds_ne .u32 fuel hfuel all h1 i j hij s s' a1 b1
  have d1 := s32_toNat s (hlt _ m1)
  have d2 := s32_toNat s' (hlt _ m2)
  rw [← d1] at m1 hne
  rw [← d2] at m2 hne
  exact hap s s' m1 m2 hne k l hk hl

/-- C148. The 128 sources of `rng32::xorshift`, their rotations undone, have no common value among the first 603456 of each. -/
theorem C148_apart_xorshift_32 (fuel : Nat) (hfuel : 2 ^ 32 ≤ fuel) :
    ∃ sources, createPrngSources .u32 rng32_xorshift fuel = some (.ok sources) ∧ sources.length = 128 ∧
      ∀ i j si sj, i ≠ j → sources[i]? = some si → sources[j]? = some sj → ∀ k l, k < 603456 → l < 603456 →
        turnBack i (si.nth k) ≠ turnBack j (sj.nth l) :=
  apart32_of _ _ fuel hfuel xorshift32_apart

/-- C148. The 128 sources of `rng32::minstd_rand`, their rotations undone, have no common value among the first 82694 of each; by `C148_overlap_more` 82694 is exact. -/
theorem C148_apart_minstd (fuel : Nat) (hfuel : 2 ^ 32 ≤ fuel) :
    ∃ sources, createPrngSources .u32 rng32_minstd fuel = some (.ok sources) ∧ sources.length = 128 ∧
      ∀ i j si sj, i ≠ j → sources[i]? = some si → sources[j]? = some sj → ∀ k l, k < 82694 → l < 82694 →
        turnBack i (si.nth k) ≠ turnBack j (sj.nth l) :=
  apart32_of _ _ fuel hfuel minstd_apart

/-- The hypotheses of the theorems are about the fuel alone; the places are those of a real walk: 3 steps from 1. -/
example : after32 3 = (xorshift32Step (xorshift32Step (xorshift32Step 1#32))).toNat ∧ 2 ^ 64 ≤ 2 ^ 64 := by
  refine ⟨?_, le_refl _⟩
  decide +kernel

end TFR
