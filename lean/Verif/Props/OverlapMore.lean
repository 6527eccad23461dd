import Verif.Props.Overlap
import Verif.Props.LinearPrngs
/-
C148, continued: the linear congruential and the xorshift generators.
-/
namespace TFR
open Spec Function
variable {w : Nat}

namespace Overlap

/-! #### pcg -/

/-- `p` steps of `x ↦ a x + c` at once: the multiplier and the summand, by squaring. -/
def jump (a c : BitVec 64) : Nat → Nat → BitVec 64 × BitVec 64
  | 0, _ => (1#64, 0#64)
  | fuel + 1, p =>
    let h := jump a c fuel (p / 2)
    let s := (h.1 * h.1, h.1 * h.2 + h.2)
    if p % 2 = 1 then (a * s.1, a * s.2 + c) else s

theorem jump_spec (a c : BitVec 64) (fuel : Nat) : ∀ (p : Nat) (x : BitVec 64), p < 2 ^ fuel →
    (fun x => x * a + c)^[p] x = (jump a c fuel p).1 * x + (jump a c fuel p).2 := by
  induction fuel with
  | zero =>
    intro p x hp
    obtain rfl : p = 0 := by simpa using hp
    show x = 1#64 * x + 0#64
    rw [BitVec.one_mul, BitVec.add_zero]
  | succ fuel ih =>
    intro p x hp
    have hp2 : p / 2 < 2 ^ fuel := by rw [pow_succ] at hp; omega
    have e : (fun x => x * a + c)^[p / 2 + p / 2] x = (jump a c fuel (p / 2)).1 * (jump a c fuel (p / 2)).1 * x +
        ((jump a c fuel (p / 2)).1 * (jump a c fuel (p / 2)).2 + (jump a c fuel (p / 2)).2) := by
      rw [iterate_add_apply, ih _ _ hp2, ih _ _ hp2, BitVec.mul_add, BitVec.mul_assoc, BitVec.add_assoc]
    unfold jump
    dsimp only
    by_cases h : p % 2 = 1
    · rw [if_pos h]
      conv_lhs => rw [show p = (p / 2 + p / 2) + 1 by omega]
      rw [iterate_succ_apply', e]
      dsimp only
      rw [BitVec.mul_comm _ a, BitVec.mul_add, ← BitVec.mul_assoc, BitVec.add_assoc]
    · rw [if_neg h]
      conv_lhs => rw [show p = p / 2 + p / 2 by omega]
      exact e

/-- How many steps of the generator lead from 0 to the first state of the seeds of `top64`. -/
def positions : List Nat :=
  [15395540314994824366, 472955520382438206, 16481678897063973784, 9432826573128669100, 3416274259125504065, 10171120501294047121,
  4661554014990554735, 16780453011073576490, 17592734175035584141, 16244575981794542695, 5289652252287215417, 17132335762073409148,
  8944153806928248612, 9209706377839746395, 9467307303645962915, 3555178391681807747, 13590745133979665412, 4986487854086689944,
  2051179671652212227, 8481611721666259440, 16663946452306063589, 11623929695770841867, 9157473906685835610, 15786639975514162626,
  13664579247944252762, 17802854659483417023, 9059492152216346197, 13548257322895200520, 13576602224084490689, 3850542750874490330,
  8924168862439725781, 2644309310445403146, 5260066052191969570, 12573132379658958528, 17358138003143718626, 12004536529970546815,
  15705485071893336764, 18432192093795807911, 1734144504093835711, 17356662886404585089, 2587926609810161767, 792279744811325448,
  1078211388584288613, 16822571226445534221, 14003940980163731826, 987982211400024618, 1519511217516576518, 11148576927732427716,
  16492769803640585984, 13194256274501460182, 8027098166573442265, 9792121960781617486, 656926010288754978, 10179177734539657116,
  13504741970658630885, 7485454626336106085, 2435632076412878284, 18039715594775001256, 8842126248981508959, 6247357697241083084,
  9782391200064969324, 18391743208322236722, 7041014648146163330, 2530863546192817143, 10877258220574198609, 16801275342849544623,
  18374774142734530389, 4413930870553559850, 16656199281208747633, 6641604790699660343, 16385345748227395254, 16858060154550341835,
  1965549807292350953, 3927748059262955772, 14260438316618580174, 17834324264365488423, 6035512251136152896, 866935421315989555,
  4834554767549521882, 17712328530668947825, 6345354624062509729, 17998956169982642354, 6534157744781029711, 11968112133278249043,
  7478396221146125370, 9841999756321663942, 17046900110108370908, 17969624892089811948, 15402602858641933929, 6282212563693456805,
  9890517195507170325, 10025407134600063417, 8049175991728358688, 3241084157595804227, 3062967869914280176, 8296335643574720251,
  5101270492168049826, 6965530306779300235, 6355010604707748600, 5216744904200303887, 15228806909080802942, 10570674969210920719,
  14124093923305094011, 6783511642616587609, 4757013152610349466, 10749171567582900197, 1174231984167696560, 18225709887453233912,
  6766268169553529592, 4281005341520892186, 4448208304575514090, 14308359420852968796, 6787725767427324731, 5490715902179377498,
  6908352468364319584, 17246980289655580325, 11741985610533385633, 1340644296521560434, 8088612152276824533, 6828536953771663589,
  15235437482888540299, 13530080781071950946, 1203117240960843161, 5462908823583443328, 2164010379485015541, 14981579695880220587,
  4216612483461561493, 2608200969854412882, 18208273576836029071, 13666389179235311679, 2602421051131753947, 7938134217475722707,
  6747418754020138559, 15153113690802856516, 9223788431873137330, 14948887532305626345, 15131495113280867687, 16648626797375328713,
  12780772463853746528, 5837536643223377371, 16092290494008748959, 6157441966977581743, 15464853161796981695, 3818388354927665367,
  10499787712407047189, 1014126146527205540, 8786314301275751678, 14178175314056130621, 14306911266196374794, 4278863074782433578,
  12735450527381771112, 5494077793446337065, 18171726696662257070, 18034996900738462688, 9759268984321664267, 1586001414825692039,
  16496982471824675867, 9702740161793511583, 13439681042211073689, 14107705096675190034, 10197461984833964901, 5349718663917108006,
  3449479453337567322, 2233423001721704026, 6324878042487731529, 2870405436045682179, 3161759964588041107, 17253489701551025203,
  3064213090565132950, 12804970493976962595, 15855535570329392116, 14583384728547915536, 5150467083891309646, 10512652289963275120,
  6768945471182069530, 11469077896965253001, 1172639099959272669, 6767985269706851801, 18148812587029094552, 2226126910171535258,
  883717169121288366, 10193893093828083830, 8923845559188992590, 8829671913937333518, 5606842599025072537, 6507014917344489068,
  9404906669722801146, 8361479287629412979, 3498785299818768737, 17557974681119933082, 6746781794727700790, 15009947734056337330,
  13287114650638982433, 12444324350862108832, 18161161620806433646, 5479025070131116910, 17584700868503010158, 5190794693979405166,
  17440585680427154286, 14342109136796253038, 12792870864980802414, 2794879692218301294, 7019256142691826542, 18354816404783364974,
  5575852462119582574, 8409742527642467182, 603315523549133678, 15146846095212018542, 3971867307333909358, 16831121987104406382,
  4814005253280103278, 8028818923222727534, 9636225758194039662, 1216557138824919918, 15453466902849911662, 4125177711152855918,
  7684405152159103854, 240646835807452014, 5742139714486401902, 8492886153825876846, 644887336640838510, 15167632001757870958,
  3982260260606835566, 16836318463740869486, 4816603491598334830, 1112589014740761454, 15977943593111255918, 16060746290427853678,
  7347149963477908334, 7719131408741956462, 13699003051986123630, 6608194057692773230, 16683504421063097198, 6679594244167957358,
  14058148880571169646, 2395809556275919726, 13479322816427326318, 3361854222609677166, 4008002423790893934, 6095067120956799854,
  10504122126707293038, 1521689745353784174, 11248992682802240366, 14430795930204810094, 3281508288336843630, 10573421567635138414,
  1689873139116560750, 5703045195557512814, 12168028146373923054, 7190574047380596270, 8459871865988724942, 1608949293057948702,
  12089318383746098246, 8469867818667662842, 5269797143639041212, 9633616543308148343]

set_option maxRecDepth 100000 in
theorem positions_ok : (List.zipWith (fun s p => decide (p < 2 ^ 64 ∧ (jump pcgMult pcgDefaultInc 64 p).2 = BitVec.ofNat 64 s + pcgDefaultInc))
    top64 positions).all id = true ∧ top64.length = 256 ∧ positions.length = 256 := by
  refine ⟨?_, ?_, ?_⟩ <;> decide +kernel

set_option maxRecDepth 100000 in
theorem apart_positions : allApart (2 ^ 64) 1 (2 ^ 48) positions = true := by decide +kernel

/-- The state of the generator as a function of its position. -/
def pcgAt (v : BitVec 64) : BitVec 64 := (pcgBump pcgDefaultInc)^[v.toNat] 0#64

theorem pcg_per (a b : Nat) : (pcgBump pcgDefaultInc)^[a] 0#64 = (pcgBump pcgDefaultInc)^[b] 0#64 ↔ a % 2 ^ 64 = b % 2 ^ 64 := by
  have hm := minimalPeriod_pcg pcgDefaultInc 0#64 (by decide)
  rw [← iterate_mod_minimalPeriod_eq (n := a), ← iterate_mod_minimalPeriod_eq (n := b), hm]
  constructor
  · intro h
    exact iterate_injOn_Iio_minimalPeriod (by rw [hm]; exact Nat.mod_lt _ (by norm_num)) (by rw [hm]; exact Nat.mod_lt _ (by norm_num)) h
  · intro h; rw [h]

theorem pcgAt_injective : Function.Injective pcgAt := by
  intro a b h
  have := (pcg_per _ _).1 h
  rw [Nat.mod_eq_of_lt a.isLt, Nat.mod_eq_of_lt b.isLt] at this
  exact BitVec.eq_of_toNat_eq this

theorem nth_pcg_at (seed : SeedData) (p : Nat) (hp : p < 2 ^ 64)
    (h : (jump pcgMult pcgDefaultInc 64 p).2 = seed.s64 + pcgDefaultInc) (k : Nat) :
    (rng64_pcg seed).nth k = pcgRxsMXs (pcgAt (BitVec.ofNat 64 p + BitVec.ofNat 64 (k + 1) * 1#64)) := by
  unfold rng64_pcg
  rw [nth_pcg64]
  congr 1
  have h0 : (pcgBump pcgDefaultInc)^[p] 0#64 = seed.s64 + pcgDefaultInc := by
    rw [← h]
    have := jump_spec pcgMult pcgDefaultInc 64 p 0#64 hp
    rw [BitVec.mul_zero, BitVec.zero_add] at this
    exact this
  show (pcgBump pcgDefaultInc)^[k] (pcgBump pcgDefaultInc (seed.s64 + pcgDefaultInc)) = _
  rw [← iterate_succ_apply, ← h0, ← iterate_add_apply]
  unfold pcgAt
  rw [pcg_per, BitVec.mul_one, ← BitVec.ofNat_add, BitVec.toNat_ofNat, Nat.mod_mod]
  congr 1
  omega

/-- The position of a seed. -/
theorem position (s : Nat) (hs : s ∈ top64) : ∃ p ∈ positions, p < 2 ^ 64 ∧ (jump pcgMult pcgDefaultInc 64 p).2 = BitVec.ofNat 64 s + pcgDefaultInc := by
  obtain ⟨h1, h2, h3⟩ := positions_ok
  obtain ⟨i, hi, rfl⟩ := List.getElem_of_mem hs
  have hip : i < positions.length := by omega
  have := List.all_eq_true.1 h1 _ (List.getElem_mem (l := List.zipWith (fun s p => decide (p < 2 ^ 64 ∧
    (jump pcgMult pcgDefaultInc 64 p).2 = BitVec.ofNat 64 s + pcgDefaultInc)) top64 positions) (n := i) (by rw [List.length_zipWith]; omega))
  rw [List.getElem_zipWith] at this
  exact ⟨positions[i], List.getElem_mem _, of_decide_eq_true this⟩

/-! #### sources that are not rotated, 32 bits -/

theorem plain_sources (rng : SeedData → Stream (BitVec WT.u32.bits)) (fuel : Nat) (hfuel : 2 ^ 32 ≤ fuel) :
    ∃ sources, createPrngSources .u32 rng fuel = some (.ok sources) ∧ ∀ i < 128, 31 ≤ i → ∃ s st, sources[i]? = some st ∧
      (∀ k, st.nth k = (rng s).nth k) ∧ s.s32.toNat ∈ top32 ∧ top32.countP (fun x => decide (s.s32.toNat < x)) = i := by
  obtain ⟨all, sources, h1, h2, -, -, -, h6⟩ := C74_prng_setup .u32 rng fuel hfuel
  refine ⟨sources, h2, ?_⟩
  have hf : 1024 ≤ fuel := le_trans (by norm_num) hfuel
  intro i hi h31
  obtain ⟨s, st, a1, a2, a3⟩ := h6 i hi
  have m1 := seeds_top32 fuel hf all h1 i hi s a1
  have r1 := seeds_rank32 fuel hf all h1 i hi s a1
  have e1 := s32_toNat s (by
    have h := List.all_eq_true.1 (show top32.all (fun x => decide (x < 2 ^ 32)) = true by decide +kernel) _ m1
    exact of_decide_eq_true h)
  rw [← e1] at m1 r1
  refine ⟨s, st, a2, fun k => ?_, m1, r1⟩
  rw [a3, if_neg]
  show ¬ i + 1 < 32
  omega

set_option maxRecDepth 100000 in
theorem rank_unique' : (∀ u ∈ top32, top32.countP (fun x => decide (u < x)) = 32 → u = 4246132729) ∧
    (∀ u ∈ top32, top32.countP (fun x => decide (u < x)) = 64 → u = 4104691956) ∧
    (∀ u ∈ top32, top32.countP (fun x => decide (u < x)) = 45 → u = 4180774901) ∧
    (∀ u ∈ top32, top32.countP (fun x => decide (u < x)) = 106 → u = 3923706554) := by
  refine ⟨?_, ?_, ?_, ?_⟩ <;> decide +kernel

theorem word_eq (v : BitVec 32) (n : Nat) (h : v.toNat = n) : v = BitVec.ofNat 32 n := by rw [← h]; simp

/-- The word of the sequence that source 106 begins with, as a vector of bits. -/
def seed106 : XV 32 := (BitVec.ofNat 32 3923706554 : BitVec 32)

theorem xorshift_jump : xorshift32Step^[1076651] (BitVec.ofNat 32 3923706554) = BitVec.ofNat 32 4180774901 := by
  have h1 := ev_polyPow XV.add_self T32 32 P32 21 1076651 evP32 (by norm_num)
    (polyPow_lt 32 P32 (by norm_num) (by decide) (by decide))
  have h2 := ev_apply T32 seed106 32 (polyPow 32 P32 21 1076651) (by decide +kernel)
  have h4 : BitVec.toNat (w := 32) (evAt (V := XV 32) T32 seed106 32 (polyPow 32 P32 21 1076651)) = 4180774901 := by decide +kernel
  have h3 : evAt (V := XV 32) T32 seed106 32 (polyPow 32 P32 21 1076651) = (BitVec.ofNat 32 4180774901 : BitVec 32) :=
    BitVec.eq_of_toNat_eq (n := 32) (h4.trans (by decide +kernel))
  rw [h1, h3] at h2
  rw [AddMonoid.End.coe_pow] at h2
  exact h2

theorem minstd_jump : minstdStep^[82694] (minstdSeed (BitVec.ofNat 32 4104691956)) = minstdSeed (BitVec.ofNat 32 4246132729) := by
  rw [minstd_iter _ _ (by decide +kernel)]
  decide +kernel

end Overlap
open Overlap

set_option maxRecDepth 100000 in
/-- C148. The 256 sources of `rng64::pcg`, their rotations undone, have no common value among the first `2^48` of each. -/
theorem C148_apart_pcg (fuel : Nat) (hfuel : 2 ^ 64 ≤ fuel) :
    ∃ sources, createPrngSources .u64 rng64_pcg fuel = some (.ok sources) ∧ sources.length = 256 ∧
      ∀ i j si sj, i ≠ j → sources[i]? = some si → sources[j]? = some sj → ∀ k l, k < 2 ^ 48 → l < 2 ^ 48 →
        turnBack i (si.nth k) ≠ turnBack j (sj.nth l) := by
  obtain ⟨all, sources, h1, h2, h3, -, -, h6⟩ := C74_prng_setup .u64 rng64_pcg fuel hfuel
  refine ⟨sources, h2, h3, ?_⟩
  have h3 : sources.length = 256 := h3
  intro i j si sj hij hsi hsj k l hk hl
  have hi : i < 256 := by rw [← h3]; exact (List.getElem?_eq_some_iff.1 hsi).1
  have hj : j < 256 := by rw [← h3]; exact (List.getElem?_eq_some_iff.1 hsj).1
  obtain ⟨s, st, a1, a2, a3⟩ := h6 i hi
  obtain ⟨s', st', b1, b2, b3⟩ := h6 j hj
  rw [hsi] at a2; cases a2
  rw [hsj] at b2; cases b2
  rw [a3, b3, turnBack, turnBack, turnBack_ror, turnBack_ror]
  have hne := seeds_ne .u64 fuel hfuel all h1 i j hij s s' a1 b1
  have hf : 1024 ≤ fuel := le_trans (by norm_num) hfuel
  obtain ⟨p, p1, p2, p3⟩ := position _ (seeds_top64 fuel hf all h1 i hi s a1)
  obtain ⟨q, q1, q2, q3⟩ := position _ (seeds_top64 fuel hf all h1 j hj s' b1)
  have hs : ∀ s : SeedData, BitVec.ofNat 64 s.d0.toNat = s.s64 := fun s => by
    show _ = s.d0
    simp
  rw [hs] at p3 q3
  have hpq : p ≠ q := by
    rintro rfl
    rw [p3] at q3
    exact hne (congrArg BitVec.toNat ((BitVec.add_left_inj _).1 q3))
  obtain ⟨g1, g2⟩ := allApart_iff _ _ _ _ apart_positions _ _ p1 q1 hpq
  rw [nth_pcg_at s p p2 p3, nth_pcg_at s' q q2 q3]
  have tp : (BitVec.ofNat 64 p).toNat = p := by rw [BitVec.toNat_ofNat, Nat.mod_eq_of_lt p2]
  have tq : (BitVec.ofNat 64 q).toNat = q := by rw [BitVec.toNat_ofNat, Nat.mod_eq_of_lt q2]
  exact no_meeting (fun v => pcgRxsMXs (pcgAt v)) (bij_rxsMXs.1.comp pcgAt_injective) 1#64 1#64 (by decide) (2 ^ 48) (by norm_num)
    (BitVec.ofNat 64 p) (BitVec.ofNat 64 q) (by rw [tp, tq]; exact g1) (by rw [tp, tq]; exact g2) k l hk hl

/-- C148. Two sources of `rng32::xorshift` and of `rng32::minstd_rand`, neither rotated, overlap: source 45 of xorshift is source 106 from its value
1076651 on, source 32 of minstd_rand is source 64 from its value 82694 on. -/
theorem C148_overlap_more (fuel : Nat) (hfuel : 2 ^ 32 ≤ fuel) :
    (∃ sources s s', createPrngSources .u32 rng32_xorshift fuel = some (.ok sources) ∧ sources[45]? = some s ∧ sources[106]? = some s' ∧
      ∀ k, s.nth k = s'.nth (k + 1076651)) ∧
    (∃ sources s s', createPrngSources .u32 rng32_minstd fuel = some (.ok sources) ∧ sources[32]? = some s ∧ sources[64]? = some s' ∧
      ∀ k, s.nth k = s'.nth (k + 82694)) := by
  obtain ⟨u1, u2, u3, u4⟩ := rank_unique'
  constructor
  · obtain ⟨sources, h, hval⟩ := plain_sources rng32_xorshift fuel hfuel
    obtain ⟨s, st, a1, a2, a3, a4⟩ := hval 45 (by norm_num) (by norm_num)
    obtain ⟨s', st', b1, b2, b3, b4⟩ := hval 106 (by norm_num) (by norm_num)
    refine ⟨sources, st, st', h, a1, b1, fun k => ?_⟩
    rw [a2, b2, nth_xorshift32, nth_xorshift32, word_eq _ _ (u3 _ a3 a4), word_eq _ _ (u4 _ b3 b4), ← xorshift_jump, ← iterate_add_apply]
  · obtain ⟨sources, h, hval⟩ := plain_sources rng32_minstd fuel hfuel
    obtain ⟨s, st, a1, a2, a3, a4⟩ := hval 32 (by norm_num) (by norm_num)
    obtain ⟨s', st', b1, b2, b3, b4⟩ := hval 64 (by norm_num) (by norm_num)
    refine ⟨sources, st, st', h, a1, b1, fun k => ?_⟩
    rw [a2, b2, nth_minstd, nth_minstd, word_eq _ _ (u1 _ a3 a4), word_eq _ _ (u2 _ b3 b4), show k + 82694 + 1 = k + 1 + 82694 by omega,
      ← minstd_jump, ← iterate_add_apply]

/-- Two steps of `jump`: multiplier and summand of the square of the map. -/
example : jump 5#64 3#64 2 2 = (25#64, 18#64) ∧ (fun x => x * 5#64 + 3#64)^[2] 1#64 = 43#64 := by decide +kernel

end TFR
