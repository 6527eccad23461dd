import Verif.Props.TestSetups
import Verif.Props.Prngs
/-
C148. Whether the sources a counter-based generator is tested with overlap.
-/
namespace TFR
open Spec
variable {w : Nat}

namespace Overlap

theorem perm_setInsert (x : BitVec w) (l : List (BitVec w)) (h : x ∉ l) : (wordSetInsert x l).Perm (x :: l) := by
  induction l with
  | nil => exact List.Perm.refl _
  | cons a l ih =>
    unfold wordSetInsert
    split
    · exact List.Perm.refl _
    · split
      · exact ((ih (fun hx => h (List.mem_cons_of_mem _ hx))).cons a).trans (List.Perm.swap x a l)
      · have : x = a := BitVec.eq_of_toNat_eq (by omega)
        exact absurd (this ▸ List.mem_cons_self) h

/-- The loop when every word is new. -/
theorem seedLoop_new (mix : BitVec w → R (BitVec w)) (f : BitVec w → BitVec w) (hmix : ∀ x, mix x = .ok (f x)) (m : Nat) :
    ∀ (fuel : Nat) (added : List (BitVec w)) (x0 : BitVec w), m ≤ fuel → Ascending added →
      ((List.range m).map fun i => f (x0 + BitVec.ofNat w i)).Nodup → (∀ i < m, f (x0 + BitVec.ofNat w i) ∉ added) →
      ∃ r, seedLoop mix (added.length + m) fuel added x0 = some (.ok r) ∧ Ascending r ∧
        r.Perm (((List.range m).map fun i => f (x0 + BitVec.ofNat w i)) ++ added) := by
  induction m with
  | zero =>
    intro fuel added x0 _ hs _ _
    refine ⟨added, ?_, hs, List.Perm.refl _⟩
    unfold seedLoop
    rw [if_neg (by omega)]
  | succ m ih =>
    intro fuel added x0 hf hs hn hd
    obtain ⟨fuel, rfl⟩ : ∃ k, fuel = k + 1 := ⟨fuel - 1, by omega⟩
    have e : (List.range (m + 1)).map (fun i => f (x0 + BitVec.ofNat w i)) =
        f x0 :: (List.range m).map fun i => f (x0 + 1 + BitVec.ofNat w i) := by
      rw [List.range_succ_eq_map, List.map_cons, List.map_map]
      congr 1
      · simp
      · apply List.map_congr_left
        intro i _
        simp only [Function.comp_apply]
        congr 1
        rw [Nat.succ_eq_add_one, BitVec.ofNat_add, BitVec.add_assoc, BitVec.add_comm (BitVec.ofNat w i)]
        rfl
    rw [e, List.nodup_cons] at hn
    have h0 : f x0 ∉ added := by have := hd 0 (by omega); simpa using this
    have hp := perm_setInsert (f x0) added h0
    have hl : (wordSetInsert (f x0) added).length = added.length + 1 := hp.length_eq
    obtain ⟨r, h1, h2, h3⟩ := ih fuel (wordSetInsert (f x0) added) (x0 + 1) (by omega) (ascending_setInsert _ _ hs) hn.2 (by
      intro i hi hm
      rcases (mem_setInsert _ _ _).1 hm with hm | hm
      · exact hn.1 (List.mem_map.2 ⟨i, List.mem_range.2 hi, hm⟩)
      · have := hd (i + 1) (by omega)
        apply this
        rw [Nat.add_comm i 1, BitVec.ofNat_add, ← BitVec.add_assoc]
        exact hm)
    refine ⟨r, ?_, h2, ?_⟩
    · unfold seedLoop
      rw [if_pos (by omega)]
      simp only [hmix]
      rw [← h1, hl]
      congr 1
      omega
    · rw [e]
      exact h3.trans ((hp.append_left _).trans (by
        rw [List.cons_append]; exact List.perm_middle))

/-- The rank of an element of a strictly descending list. -/
theorem rank (d : List Nat) (h : d.Pairwise (· > ·)) (i : Nat) (hi : i < d.length) : d.countP (fun x => decide (d[i] < x)) = i := by
  have h0 : ∀ p : Nat → Bool, d.countP p = (d.take i).countP p + (d.drop i).countP p := by
    intro p; rw [← List.countP_append, List.take_append_drop]
  rw [h0]
  have h1 : (d.take i).countP (fun x => decide (d[i] < x)) = (d.take i).length := by
    rw [List.countP_eq_length]
    intro x hx
    obtain ⟨j, hj, rfl⟩ := List.getElem_of_mem hx
    rw [List.getElem_take]
    rw [List.length_take] at hj
    exact decide_eq_true (List.pairwise_iff_getElem.1 h j i (by omega) hi (by omega))
  have h2 : (d.drop i).countP (fun x => decide (d[i] < x)) = 0 := by
    rw [List.countP_eq_zero]
    intro x hx
    obtain ⟨j, hj, rfl⟩ := List.getElem_of_mem hx
    rw [List.getElem_drop]
    rw [List.length_drop] at hj
    rw [decide_eq_true_eq, not_lt]
    rcases Nat.eq_zero_or_pos j with rfl | hj0
    · exact le_refl _
    · exact Nat.le_of_lt (List.pairwise_iff_getElem.1 h i (i + j) hi (by omega) (by omega))
  rw [h1, h2, List.length_take]; omega

/-- The words behind the seeds: the mixed numbers from 1234 on and the rotations and complements of 1. -/
def pool (t : WT) (f : BitVec t.bits → BitVec t.bits) : List (BitVec t.bits) :=
  ((List.range (1024 - 2 * t.bits)).map fun i => f (BitVec.ofNat t.bits 1234 + BitVec.ofNat t.bits i)) ++ structuredSeeds t

/-- The first words of the seeds of the sources, ranked: those of rank `i` in the pool, for `i < 4w`. -/
theorem seeds_ranked (t : WT) (f : BitVec t.bits → BitVec t.bits) (hf : Function.Injective f) (hmix : ∀ x, defaultMix t x = .ok (f x))
    (hb : 32 ≤ t.bits) (hd : ∀ i < 1024 - 2 * t.bits, f (BitVec.ofNat t.bits 1234 + BitVec.ofNat t.bits i) ∉ structuredSeeds t)
    (fuel : Nat) (hfuel : 1024 ≤ fuel) (all : List SeedData) (h : generateSeeds t (min (2 ^ t.bits - 2) 1024) fuel = some (.ok all)) :
    ∀ i s, all.reverse[i]? = some s → ((pool t f).map BitVec.toNat).countP (fun x => decide (s.d0.toNat < x)) = i ∧
      s.d0.toNat ∈ (pool t f).map BitVec.toNat := by
  have hlen : t.bits ≤ 64 := by cases t <;> decide
  have hbig : (2 : Nat) ^ 32 ≤ 2 ^ t.bits := Nat.pow_le_pow_right (by norm_num) hb
  have hmin : min (2 ^ t.bits - 2) 1024 = 1024 := by
    apply Nat.min_eq_right
    have : (1024 : Nat) + 2 ≤ 2 ^ 32 := by norm_num
    omega
  rw [hmin] at h
  obtain ⟨s1, s2, -⟩ := structuredSeeds_spec t
  obtain ⟨r, h1, h2, h3⟩ := seedLoop_new (defaultMix t) f hmix (1024 - 2 * t.bits) fuel (structuredSeeds t) (BitVec.ofNat t.bits 1234) (by omega) s1
    (by
      apply List.Nodup.map_on _ List.nodup_range
      intro a ha b hb' hab
      have h5 := (BitVec.add_right_inj _).1 (hf hab)
      have h6 := congrArg BitVec.toNat h5
      rw [List.mem_range] at ha hb'
      rw [BitVec.toNat_ofNat, BitVec.toNat_ofNat, Nat.mod_eq_of_lt, Nat.mod_eq_of_lt] at h6
      · exact h6
      · have : (1024 : Nat) ≤ 2 ^ 32 := by norm_num
        omega
      · have : (1024 : Nat) ≤ 2 ^ 32 := by norm_num
        omega) hd
  rw [s2, show 2 * t.bits + (1024 - 2 * t.bits) = 1024 by omega] at h1
  unfold generateSeeds at h
  rw [h1] at h
  have hall : all = fillSeeds r 12345 := by
    have := Option.some.inj h
    cases this; rfl
  have hd2 : all.map (fun s => s.d0.toNat) = r.map BitVec.toNat := by
    have := congrArg (List.map BitVec.toNat) (fillSeeds_spec r 12345).1
    rw [List.map_map, List.map_map] at this
    rw [hall]
    refine this.trans (List.map_congr_left fun v _ => ?_)
    simp only [Function.comp_apply]
    rw [BitVec.toNat_setWidth, Nat.mod_eq_of_lt (v.isLt.trans_le (Nat.pow_le_pow_right (by decide) hlen))]
  have hdesc : ((all.map fun s => s.d0.toNat).reverse).Pairwise (· > ·) := by
    rw [List.pairwise_reverse, hd2, List.pairwise_map]
    exact h2
  have hperm : ((all.map fun s => s.d0.toNat).reverse).Perm ((pool t f).map BitVec.toNat) := by
    rw [hd2]
    exact (List.reverse_perm _).trans (h3.map _)
  intro i s hs
  obtain ⟨hi, he⟩ := List.getElem?_eq_some_iff.1 hs
  have hi' : i < ((all.map fun s => s.d0.toNat).reverse).length := by
    rw [List.length_reverse, List.length_map]; rwa [List.length_reverse] at hi
  have he' : ((all.map fun s => s.d0.toNat).reverse)[i] = s.d0.toNat := by
    rw [← he]
    simp [List.getElem_reverse]
  have hr := rank _ hdesc i hi'
  rw [he'] at hr
  refine ⟨?_, ?_⟩
  · rw [← hperm.countP_eq]; exact hr
  · rw [← hperm.mem_iff, ← he']; exact List.getElem_mem _

/-- The 256 largest words of the pool for 64 bits, in the order of the pool. -/
def top64 : List Nat :=
  [15649366065663734847, 15009781872728056463, 15200788055153122089, 17368349824085941677, 17330767215433179200, 17099052655488118672,
  17805605556602498998, 15894319348639008363, 14918385086990988076, 18286546996460619374, 17685725407405198520, 15059687929418403005,
  17450911674388469253, 18288903848910515810, 18267585089115789162, 16654435662016840010, 14442465862233386085, 17633187607656153129,
  15700034028839210442, 15422097924283947617, 18439011611374754692, 14591031792902654354, 15354690808300609499, 16157014867077527203,
  17664677246229320667, 16995649593385339526, 16181336316236938228, 14917178842145331801, 17493451662566015424, 15560096224934625883,
  16819308119184773236, 17422066046427950795, 15999050510762119811, 18441734064948965489, 15838270277040115011, 14622142339143267142,
  16843261235156829693, 17226519225589439150, 15778290584632775302, 17848304249448638080, 16154529608605327982, 17767036962824953177,
  17626466117595153412, 18075444703498956972, 16927674074217627795, 14725115082161326699, 15047741214181300151, 15131220819536330533,
  15138792267317623217, 17535189733941414471, 17233824217932188248, 17402943411817995871, 16206683755939021443, 17680959528994138205,
  15169669622821291908, 17628797097117776132, 16057814734347965005, 16228809794356235385, 16413963623489357606, 15744233174289173837,
  18227735073626881901, 17516016899075714387, 18192564752875991139, 15985774670839267710, 14965239678864798544, 15681485796406817014,
  17479962145044366580, 18249911659621594987, 16395306105312328304, 15421494552400809918, 16361466579206206631, 16998113110931299666,
  18383059477547461992, 16259535607113599293, 15084549420916811743, 15721594720735468846, 15338121614840187121, 18036324031251564410,
  16357580091541537883, 18109574522121928048, 16154742178956109472, 16096976457242406611, 17224665885920148374, 16952689095976931482,
  14616015919559792955, 17663916105628432759, 16171834553732930973, 14339069414071531245, 14876791949805203944, 15941389207033031748,
  17376343307295133108, 15955611395014029112, 16429732431329665105, 18315818936695096330, 17199564160356072801, 15695425380476899586,
  15710644796371496963, 16973975553311448082, 15049582078195268617, 17922739408709755222, 17081101755587645647, 15208649703293565782,
  15960618206866467202, 17185713230253206232, 17454562368406795035, 16310536968024599172, 15568366630077584417, 16562547885573276681,
  15229611663413734409, 18025770783034186907, 16931832540832150315, 16342710383828070685, 15286663700606197570, 15151870185926985691,
  17828380397447090065, 18285435135188858180, 16254806185117706656, 16662996581302980755, 16431787004635395956, 17976898508031216516,
  16329590958495146770, 14310994867545005251, 16805872257886663448, 16405672549224836657, 17299318624909918612, 16740304536926011186,
  15427237392941344308, 18207072127524362739, 14898635558563896022, 17372198146950143238, 16184377826163497698, 14750332348778322458,
  15622972983466453766, 17297651977601275813, 16371094475504392403, 16272890448197509224, 17326994103015548782, 14727440408560571720,
  16348625567023621521, 18437855412900657890, 16336773947164118374, 17819455458623707638, 15252479820032644230, 15129097473955935070,
  18273709477582249396, 16983102893124390277, 16359923394008196431, 18373154692036907484, 15727985094585091019, 14666597358823943531,
  16959718040919886393, 17539259726708524456, 17721105648417343807, 16220256815070595601, 15946781576032873362, 15036013909729966222,
  14930527002188043042, 16155504261560945254, 17512187912570004504, 17318490160511147955, 15907665766138072580, 16229800735121225559,
  14472322774497909467, 15067801698401423579, 16914786840650102984, 17847934278311024074, 16475166417203330522, 16967219122179249018,
  17572416585485348103, 14455134332564149994, 18032125886710284565, 17814645794426076161, 15287002030551381343, 17997239934092012001,
  14367664526837535387, 17341085616653060872, 17972458157363843196, 16163353176827620184, 16360825081352600617, 15312343633422295323,
  14693403811600846911, 15817215924583004007, 18116991673092477791, 15617002110293033759, 16000552024191045400, 18048936447361835885,
  17450216026839612923, 17326087104783913914, 15293393771886929248, 16518217289702912027, 15712699393989866791, 16698664494670100947,
  14339721453066428704, 17072499255162622417, 16140901064495857663, 17293822569102704639, 17870283321406128127, 18158513697557839871,
  18302628885633695743, 18374686479671623679, 18410715276690587647, 18428729675200069631, 18437736874454810623, 18442240474082181119,
  18444492273895866367, 18445618173802708991, 18446181123756130303, 18446462598732840959, 18446603336221196287, 18446673704965373951,
  18446708889337462783, 18446726481523507199, 18446735277616529407, 18446739675663040511, 18446741874686296063, 18446742974197923839,
  18446743523953737727, 18446743798831644671, 18446743936270598143, 18446744004990074879, 18446744039349813247, 18446744056529682431,
  18446744065119617023, 18446744069414584319, 18446744071562067967, 18446744072635809791, 18446744073172680703, 18446744073441116159,
  18446744073575333887, 18446744073642442751, 18446744073675997183, 18446744073692774399, 18446744073701163007, 18446744073705357311,
  18446744073707454463, 18446744073708503039, 18446744073709027327, 18446744073709289471, 18446744073709420543, 18446744073709486079,
  18446744073709518847, 18446744073709535231, 18446744073709543423, 18446744073709547519, 18446744073709549567, 18446744073709550591,
  18446744073709551103, 18446744073709551359, 18446744073709551487, 18446744073709551551, 18446744073709551583, 18446744073709551599,
  18446744073709551607, 18446744073709551611, 18446744073709551613, 18446744073709551614]

/-- The 128 largest words of the pool for 32 bits. -/
def top32 : List Nat :=
  [4092360040, 3958002981, 4282009440, 3915546585, 4040461496, 3855394026, 4069498401, 4024815988, 4149647319, 4063556573, 4269309010,
  4034458365, 4150759562, 4111037397, 3929278530, 3933203724, 3943548404, 3878390400, 3929467046, 4127291997, 3905021380, 3943981387,
  4083871652, 3970819526, 4200865673, 4291557347, 4094341692, 4109213630, 4049926159, 4148546993, 4056623838, 4217363852, 4213254618,
  4161798048, 3945151823, 3939898774, 4137323478, 3919182111, 3904822093, 4148600925, 3982815736, 3858940547, 4106668495, 4180774901,
  3908179013, 4104691956, 4023726348, 4246556172, 4258375043, 4013873077, 3871308293, 3923706554, 3948935843, 4037818630, 3959525299,
  3895706416, 3878326603, 3869889001, 3997409989, 4089670645, 3910839536, 3886381292, 3859977232, 4187131654, 4234721411, 4026806223,
  4238608294, 4132932717, 4200466461, 3863677282, 4011581696, 3999135211, 4003372038, 4143067364, 3882191585, 4246132729, 4162280620,
  3960405808, 4242679584, 4027613555, 4152248195, 4212837831, 4047585007, 4168480164, 3908836204, 3868677417, 4076648037, 4123533225,
  3890654682, 4024594479, 4261298475, 4213866683, 4131489109, 4069086650, 3928366827, 4238829939, 3866961289, 4049744606, 4072487294,
  4026531839, 4160749567, 4227858431, 4261412863, 4278190079, 4286578687, 4290772991, 4292870143, 4293918719, 4294443007, 4294705151,
  4294836223, 4294901759, 4294934527, 4294950911, 4294959103, 4294963199, 4294965247, 4294966271, 4294966783, 4294967039, 4294967167,
  4294967231, 4294967263, 4294967279, 4294967287, 4294967291, 4294967293, 4294967294]

set_option maxRecDepth 100000 in
theorem top64_eq : ((pool .u64 mix64_mx3).map BitVec.toNat).filter (fun x => decide (14310994867545005251 ≤ x)) = top64 := by decide +kernel
set_option maxRecDepth 100000 in
theorem top32_eq : ((pool .u32 mix32_mx3).map BitVec.toNat).filter (fun x => decide (3855394026 ≤ x)) = top32 := by decide +kernel

/-- The rotations of 1 and their complements, ascending. -/
def structured64 : List Nat :=
  [1, 2, 4, 8, 16, 32, 64, 128, 256, 512, 1024, 2048, 4096, 8192, 16384, 32768, 65536, 131072, 262144, 524288, 1048576, 2097152,
  4194304, 8388608, 16777216, 33554432, 67108864, 134217728, 268435456, 536870912, 1073741824, 2147483648, 4294967296, 8589934592,
  17179869184, 34359738368, 68719476736, 137438953472, 274877906944, 549755813888, 1099511627776, 2199023255552, 4398046511104,
  8796093022208, 17592186044416, 35184372088832, 70368744177664, 140737488355328, 281474976710656, 562949953421312, 1125899906842624,
  2251799813685248, 4503599627370496, 9007199254740992, 18014398509481984, 36028797018963968, 72057594037927936, 144115188075855872,
  288230376151711744, 576460752303423488, 1152921504606846976, 2305843009213693952, 4611686018427387904, 9223372036854775807,
  9223372036854775808, 13835058055282163711, 16140901064495857663, 17293822569102704639, 17870283321406128127, 18158513697557839871,
  18302628885633695743, 18374686479671623679, 18410715276690587647, 18428729675200069631, 18437736874454810623, 18442240474082181119,
  18444492273895866367, 18445618173802708991, 18446181123756130303, 18446462598732840959, 18446603336221196287, 18446673704965373951,
  18446708889337462783, 18446726481523507199, 18446735277616529407, 18446739675663040511, 18446741874686296063, 18446742974197923839,
  18446743523953737727, 18446743798831644671, 18446743936270598143, 18446744004990074879, 18446744039349813247, 18446744056529682431,
  18446744065119617023, 18446744069414584319, 18446744071562067967, 18446744072635809791, 18446744073172680703, 18446744073441116159,
  18446744073575333887, 18446744073642442751, 18446744073675997183, 18446744073692774399, 18446744073701163007, 18446744073705357311,
  18446744073707454463, 18446744073708503039, 18446744073709027327, 18446744073709289471, 18446744073709420543, 18446744073709486079,
  18446744073709518847, 18446744073709535231, 18446744073709543423, 18446744073709547519, 18446744073709549567, 18446744073709550591,
  18446744073709551103, 18446744073709551359, 18446744073709551487, 18446744073709551551, 18446744073709551583, 18446744073709551599,
  18446744073709551607, 18446744073709551611, 18446744073709551613, 18446744073709551614]

/-- The same for 32 bits. -/
def structured32 : List Nat :=
  [1, 2, 4, 8, 16, 32, 64, 128, 256, 512, 1024, 2048, 4096, 8192, 16384, 32768, 65536, 131072, 262144, 524288, 1048576, 2097152,
  4194304, 8388608, 16777216, 33554432, 67108864, 134217728, 268435456, 536870912, 1073741824, 2147483647, 2147483648, 3221225471,
  3758096383, 4026531839, 4160749567, 4227858431, 4261412863, 4278190079, 4286578687, 4290772991, 4292870143, 4293918719, 4294443007,
  4294705151, 4294836223, 4294901759, 4294934527, 4294950911, 4294959103, 4294963199, 4294965247, 4294966271, 4294966783, 4294967039,
  4294967167, 4294967231, 4294967263, 4294967279, 4294967287, 4294967291, 4294967293, 4294967294]

set_option maxRecDepth 100000 in
theorem structured64_eq : (structuredSeeds .u64).map BitVec.toNat = structured64 := by decide +kernel
set_option maxRecDepth 100000 in
theorem structured32_eq : (structuredSeeds .u32).map BitVec.toNat = structured32 := by decide +kernel

set_option maxRecDepth 100000 in
theorem new64 : ∀ i < 1024 - 2 * WT.u64.bits, mix64_mx3 (BitVec.ofNat 64 1234 + BitVec.ofNat 64 i) ∉ structuredSeeds .u64 := by
  have h : ∀ i < 1024 - 2 * WT.u64.bits, (structured64.contains (mix64_mx3 (BitVec.ofNat 64 1234 + BitVec.ofNat 64 i)).toNat) = false := by
    decide +kernel
  intro i hi hm
  have h1 : (mix64_mx3 (BitVec.ofNat 64 1234 + BitVec.ofNat 64 i)).toNat ∈ structured64 := by
    rw [← structured64_eq]; exact List.mem_map_of_mem hm
  have h2 := h i hi
  rw [List.contains_iff_mem.2 h1] at h2
  cases h2
set_option maxRecDepth 100000 in
theorem new32 : ∀ i < 1024 - 2 * WT.u32.bits, mix32_mx3 (BitVec.ofNat 32 1234 + BitVec.ofNat 32 i) ∉ structuredSeeds .u32 := by
  have h : ∀ i < 1024 - 2 * WT.u32.bits, (structured32.contains (mix32_mx3 (BitVec.ofNat 32 1234 + BitVec.ofNat 32 i)).toNat) = false := by
    decide +kernel
  intro i hi hm
  have h1 : (mix32_mx3 (BitVec.ofNat 32 1234 + BitVec.ofNat 32 i)).toNat ∈ structured32 := by
    rw [← structured32_eq]; exact List.mem_map_of_mem hm
  have h2 := h i hi
  rw [List.contains_iff_mem.2 h1] at h2
  cases h2

/-- Apart by at least `b` steps of the counter, in both directions: `iv` is the inverse of the increment. -/
def apartBy (m iv b : Nat) (x y : Nat) : Bool := Nat.ble b ((x + m - y) * iv % m) && Nat.ble b ((y + m - x) * iv % m)

def allApart (m iv b : Nat) : List Nat → Bool
  | [] => true
  | x :: l => l.all (apartBy m iv b x) && allApart m iv b l

theorem allApart_iff (m iv b : Nat) (l : List Nat) (h : allApart m iv b l = true) (x y : Nat) (hx : x ∈ l) (hy : y ∈ l) (hne : x ≠ y) :
    b ≤ (x + m - y) * iv % m ∧ b ≤ (y + m - x) * iv % m := by
  induction l with
  | nil => simp at hx
  | cons z l ih =>
    unfold allApart at h
    rw [Bool.and_eq_true, List.all_eq_true] at h
    have one : ∀ u, u ∈ l → b ≤ (z + m - u) * iv % m ∧ b ≤ (u + m - z) * iv % m := by
      intro u hu
      have := h.1 u hu
      unfold apartBy at this
      rw [Bool.and_eq_true] at this
      exact ⟨Nat.le_of_ble_eq_true this.1, Nat.le_of_ble_eq_true this.2⟩
    rcases List.mem_cons.1 hx with hx' | hx'
    · rcases List.mem_cons.1 hy with hy' | hy'
      · exact absurd (hx'.trans hy'.symm) hne
      · rw [hx']; exact one y hy'
    · rcases List.mem_cons.1 hy with hy' | hy'
      · rw [hy']; exact (one x hx').symm
      · exact ih h.2 hx' hy'

/-- Two counters that are apart deliver different words within that many steps. -/
theorem no_meeting (mix : BitVec w → BitVec w) (hm : Function.Injective mix) (inc iv : BitVec w) (hinv : inc * iv = 1#w) (b : Nat)
    (hbw : b < 2 ^ w) (x y : BitVec w) (h1 : b ≤ (x.toNat + 2 ^ w - y.toNat) * iv.toNat % 2 ^ w)
    (h2 : b ≤ (y.toNat + 2 ^ w - x.toNat) * iv.toNat % 2 ^ w) (k l : Nat) (hk : k < b) (hl : l < b) :
    mix (x + BitVec.ofNat w (k + 1) * inc) ≠ mix (y + BitVec.ofNat w (l + 1) * inc) := by
  intro h
  have h := hm h
  have one : ∀ (u v : BitVec w) (p q : Nat), p < b → q ≤ p → u + BitVec.ofNat w (q + 1) * inc = v + BitVec.ofNat w (p + 1) * inc →
      (u.toNat + 2 ^ w - v.toNat) * iv.toNat % 2 ^ w < b := by
    intro u v p q hp hq he
    have e1 : u - v = BitVec.ofNat w (p - q) * inc := by
      have e2 : BitVec.ofNat w (p + 1) = BitVec.ofNat w (q + 1) + BitVec.ofNat w (p - q) := by
        rw [← BitVec.ofNat_add]; congr 1; omega
      rw [e2, BitVec.add_mul, ← BitVec.add_assoc, BitVec.add_comm (v + _), BitVec.add_comm u, BitVec.add_comm v, ← BitVec.add_assoc,
        BitVec.add_comm (BitVec.ofNat w (p - q) * inc), BitVec.add_assoc, BitVec.add_right_inj] at he
      rw [he, BitVec.add_sub_cancel]
    have e3 : (u - v) * iv = BitVec.ofNat w (p - q) := by
      rw [e1, BitVec.mul_assoc, hinv, BitVec.mul_one]
    have e4 := congrArg BitVec.toNat e3
    rw [BitVec.toNat_mul, BitVec.toNat_sub, BitVec.toNat_ofNat, Nat.mod_eq_of_lt (by omega : p - q < 2 ^ w), Nat.mod_mul_mod] at e4
    have e5 : u.toNat + 2 ^ w - v.toNat = 2 ^ w - v.toNat + u.toNat := by have := v.isLt; omega
    rw [e5, e4]
    omega
  rcases Nat.le_total k l with hkl | hkl
  · have := one x y l k hl hkl h
    omega
  · have := one y x k l hk hkl h.symm
    omega

set_option maxRecDepth 100000 in
theorem apart64 : allApart (2 ^ 64) 1530889947527838453 (2 ^ 44) top64 = true ∧ allApart (2 ^ 64) 9005942539178983715 (2 ^ 44) top64 = true ∧
    allApart (2 ^ 64) 15925278495583763557 (2 ^ 44) top64 = true ∧ allApart (2 ^ 64) 17428512612931826493 (2 ^ 44) top64 = true := by
  refine ⟨?_, ?_, ?_, ?_⟩ <;> decide +kernel
set_option maxRecDepth 100000 in
theorem apart32_64 : allApart (2 ^ 64) 1530889947527838453 (2 ^ 47) top32 = true ∧ allApart (2 ^ 64) 9005942539178983715 (2 ^ 47) top32 = true ∧
    allApart (2 ^ 64) 15925278495583763557 (2 ^ 47) top32 = true ∧ allApart (2 ^ 64) 17428512612931826493 (2 ^ 47) top32 = true := by
  refine ⟨?_, ?_, ?_, ?_⟩ <;> decide +kernel
set_option maxRecDepth 100000 in
theorem apart32 : allApart (2 ^ 32) 4022275941 67469 top32 = true ∧ allApart (2 ^ 32) 3961496861 566313 top32 = true := by
  refine ⟨?_, ?_⟩ <;> decide +kernel

set_option maxRecDepth 100000 in
/-- The first words of the seeds of the sources. -/
theorem seeds_top64 (fuel : Nat) (hfuel : 1024 ≤ fuel) (all : List SeedData)
    (h : generateSeeds .u64 (min (2 ^ WT.u64.bits - 2) 1024) fuel = some (.ok all)) (i : Nat) (hi : i < 256) (s : SeedData)
    (hs : all.reverse[i]? = some s) : s.d0.toNat ∈ top64 := by
  obtain ⟨h1, h2⟩ := seeds_ranked .u64 mix64_mx3 bij_mx64_3.1 (fun _ => rfl) (by decide) new64 fuel hfuel all h i s hs
  rw [← top64_eq, List.mem_filter]
  refine ⟨h2, decide_eq_true ?_⟩
  by_contra hc
  have h3 : ((pool .u64 mix64_mx3).map BitVec.toNat).countP (fun x => decide (14310994867545005251 ≤ x)) = 256 := by
    rw [List.countP_eq_length_filter, top64_eq]; rfl
  have h4 := List.countP_mono_left (l := (pool .u64 mix64_mx3).map BitVec.toNat) (p := fun x => decide (14310994867545005251 ≤ x))
    (q := fun x => decide (s.d0.toNat < x)) (fun x _ hx => decide_eq_true (lt_of_lt_of_le (not_le.1 hc) (of_decide_eq_true hx)))
  omega
set_option maxRecDepth 100000 in
theorem seeds_top32 (fuel : Nat) (hfuel : 1024 ≤ fuel) (all : List SeedData)
    (h : generateSeeds .u32 (min (2 ^ WT.u32.bits - 2) 1024) fuel = some (.ok all)) (i : Nat) (hi : i < 128) (s : SeedData)
    (hs : all.reverse[i]? = some s) : s.d0.toNat ∈ top32 := by
  obtain ⟨h1, h2⟩ := seeds_ranked .u32 mix32_mx3 bij_mx32_3.1 (fun _ => rfl) (by decide) new32 fuel hfuel all h i s hs
  rw [← top32_eq, List.mem_filter]
  refine ⟨h2, decide_eq_true ?_⟩
  by_contra hc
  have h3 : ((pool .u32 mix32_mx3).map BitVec.toNat).countP (fun x => decide (3855394026 ≤ x)) = 128 := by
    rw [List.countP_eq_length_filter, top32_eq]; rfl
  have h4 := List.countP_mono_left (l := (pool .u32 mix32_mx3).map BitVec.toNat) (p := fun x => decide (3855394026 ≤ x))
    (q := fun x => decide (s.d0.toNat < x)) (fun x _ hx => decide_eq_true (lt_of_lt_of_le (not_le.1 hc) (of_decide_eq_true hx)))
  omega

/-- Seeds of different rank differ. -/
theorem seeds_ne (t : WT) (fuel : Nat) (hfuel : 2 ^ t.bits ≤ fuel) (all : List SeedData)
    (h : generateSeeds t (min (2 ^ t.bits - 2) 1024) fuel = some (.ok all)) (i j : Nat) (hij : i ≠ j) (s s' : SeedData)
    (hs : all.reverse[i]? = some s) (hs' : all.reverse[j]? = some s') : s.d0.toNat ≠ s'.d0.toNat := by
  obtain ⟨all', h1, -, h3, -⟩ := C72_seeds t _ ((Nat.min_le_left _ 1024).trans (Nat.sub_le _ 2)) fuel hfuel
  rw [h] at h1
  cases h1
  have h4 : ((all.reverse).map fun s => s.d0.toNat).Nodup := by
    rw [List.map_reverse, List.nodup_reverse]
    exact h3.imp (fun h => Nat.ne_of_lt h)
  obtain ⟨hi, e1⟩ := List.getElem?_eq_some_iff.1 hs
  obtain ⟨hj, e2⟩ := List.getElem?_eq_some_iff.1 hs'
  intro he
  apply hij
  apply (List.Nodup.getElem_inj_iff h4 (hi := by rw [List.length_map]; exact hi) (hj := by rw [List.length_map]; exact hj)).1
  rw [List.getElem_map, List.getElem_map, e1, e2, he]

/-- The rank among the words of the seeds. -/
theorem seeds_rank32 (fuel : Nat) (hfuel : 1024 ≤ fuel) (all : List SeedData)
    (h : generateSeeds .u32 (min (2 ^ WT.u32.bits - 2) 1024) fuel = some (.ok all)) (i : Nat) (hi : i < 128) (s : SeedData)
    (hs : all.reverse[i]? = some s) : top32.countP (fun x => decide (s.d0.toNat < x)) = i := by
  obtain ⟨h1, h2⟩ := seeds_ranked .u32 mix32_mx3 bij_mx32_3.1 (fun _ => rfl) (by decide) new32 fuel hfuel all h i s hs
  have hm := seeds_top32 fuel hfuel all h i hi s hs
  rw [← top32_eq] at hm ⊢
  have hc := of_decide_eq_true (List.mem_filter.1 hm).2
  rw [List.countP_filter]
  refine Eq.trans (List.countP_congr fun x _ => ?_) h1
  simp only [Bool.and_eq_true, decide_eq_true_eq]
  omega

set_option maxRecDepth 100000 in
theorem rank_unique : (∀ u ∈ top32, top32.countP (fun x => decide (u < x)) = 35 → u = 4238608294) ∧
    (∀ u ∈ top32, top32.countP (fun x => decide (u < x)) = 47 → u = 4162280620) ∧
    (∀ u ∈ top32, top32.countP (fun x => decide (u < x)) = 76 → u = 4049744606) ∧
    (∀ u ∈ top32, top32.countP (fun x => decide (u < x)) = 108 → u = 3915546585) := by
  refine ⟨?_, ?_, ?_, ?_⟩ <;> decide +kernel

theorem turnBack_ror (i : Nat) (v : BitVec w) : (if i + 1 < w then rol (if i + 1 < w then ror v ((i : Int) + 1) else v) ((i : Int) + 1)
    else if i + 1 < w then ror v ((i : Int) + 1) else v) = v := by
  by_cases hc : i + 1 < w
  · rw [if_pos hc, if_pos hc]; exact C01_rol_ror v _
  · rw [if_neg hc, if_neg hc]

/-- The first word as a 32-bit word. -/
theorem s32_toNat (s : SeedData) (h : s.d0.toNat < 2 ^ 32) : s.s32.toNat = s.d0.toNat := by
  show (s.d0.setWidth 32).toNat = _
  rw [BitVec.toNat_setWidth, Nat.mod_eq_of_lt h]
end Overlap
open Overlap

/-- What the source at index `i` (of words of `w` bits) rotated right by `i + 1` bits turned back: the sources from index `w - 1` on are not
rotated. -/
def Spec.turnBack (i : Nat) (v : BitVec w) : BitVec w := if i + 1 < w then rol v ((i : Int) + 1) else v

/-- C148. The 256 sources a 64-bit counter-based generator is tested with, their rotations undone, have no common value among the first `2^44`
of each. -/
theorem C148_apart_64 (rng : SeedData → Stream (BitVec WT.u64.bits)) (hr : rng ∈ [rng64_mx1, rng64_mx2, rng64_mx3, rng64_splitmix]) (fuel : Nat)
    (hfuel : 2 ^ 64 ≤ fuel) :
    ∃ sources, createPrngSources .u64 rng fuel = some (.ok sources) ∧ sources.length = 256 ∧
      ∀ i j si sj, i ≠ j → sources[i]? = some si → sources[j]? = some sj → ∀ k l, k < 2 ^ 44 → l < 2 ^ 44 →
        turnBack i (si.nth k) ≠ turnBack j (sj.nth l) := by
  obtain ⟨all, sources, h1, h2, h3, -, -, h6⟩ := C74_prng_setup .u64 rng fuel hfuel
  refine ⟨sources, h2, h3, ?_⟩
  have h3 : sources.length = 256 := h3
  intro i j si sj hij hsi hsj k l hk hl
  have hi : i < 256 := by rw [← h3]; exact (List.getElem?_eq_some_iff.1 hsi).1
  have hj : j < 256 := by rw [← h3]; exact (List.getElem?_eq_some_iff.1 hsj).1
  obtain ⟨s, st, a1, a2, a3⟩ := h6 i hi
  obtain ⟨s', st', b1, b2, b3⟩ := h6 j hj
  rw [hsi] at a2; cases a2
  rw [hsj] at b2; cases b2
  rw [a3, b3, turnBack, turnBack, turnBack_ror, turnBack_ror]
  have hne := seeds_ne .u64 fuel hfuel all h1 i j hij s s' a1 b1
  have hf : 1024 ≤ fuel := le_trans (by norm_num) hfuel
  have m1 := seeds_top64 fuel hf all h1 i hi s a1
  have m2 := seeds_top64 fuel hf all h1 j hj s' b1
  obtain ⟨q1, q2, q3, q4⟩ := apart64
  simp only [List.mem_cons, List.not_mem_nil, or_false] at hr
  rcases hr with rfl | rfl | rfl | rfl
  · obtain ⟨g1, g2⟩ := allApart_iff _ _ _ _ q1 _ _ m1 m2 hne
    rw [nth_mx64_1, nth_mx64_1]
    exact no_meeting mix64_mx1 bij_mx64_1.1 _ 1530889947527838453#64 (by decide +kernel) (2 ^ 44) (by norm_num) s.s64 s'.s64 g1 g2 k l hk hl
  · obtain ⟨g1, g2⟩ := allApart_iff _ _ _ _ q2 _ _ m1 m2 hne
    rw [nth_mx64_2, nth_mx64_2]
    exact no_meeting mix64_mx2 bij_mx64_2.1 _ 9005942539178983715#64 (by decide +kernel) (2 ^ 44) (by norm_num) s.s64 s'.s64 g1 g2 k l hk hl
  · obtain ⟨g1, g2⟩ := allApart_iff _ _ _ _ q3 _ _ m1 m2 hne
    rw [nth_mx64_3, nth_mx64_3]
    exact no_meeting mix64_mx3 bij_mx64_3.1 _ 15925278495583763557#64 (by decide +kernel) (2 ^ 44) (by norm_num) s.s64 s'.s64 g1 g2 k l hk hl
  · obtain ⟨g1, g2⟩ := allApart_iff _ _ _ _ q4 _ _ m1 m2 hne
    rw [nth_splitmix, nth_splitmix]
    exact no_meeting mix64_split_mix bij_split_mix.1 _ 17428512612931826493#64 (by decide +kernel) (2 ^ 44) (by norm_num) s.s64 s'.s64 g1 g2 k l hk hl

/-- C148. The first words of the seeds of 32-bit generators: the 64-bit counter-based generators with the 128 seeds of the sources - of which the
generators `rng32::mx1_64`, `mx2_64`, `mx3_64` and `splitmix_64` deliver the lower halves - have no common value among the first `2^47` of each. -/
theorem C148_apart_32_64 (rng : SeedData → Stream (BitVec 64)) (hr : rng ∈ [rng64_mx1, rng64_mx2, rng64_mx3, rng64_splitmix]) (fuel : Nat)
    (hfuel : 2 ^ 32 ≤ fuel) :
    ∃ all, generateSeeds .u32 (min (2 ^ 32 - 2) 1024) fuel = some (.ok all) ∧
      ∀ i j s s', i ≠ j → i < 128 → j < 128 → all.reverse[i]? = some s → all.reverse[j]? = some s' → ∀ k l, k < 2 ^ 47 → l < 2 ^ 47 →
        (rng s).nth k ≠ (rng s').nth l := by
  obtain ⟨all, -, h1, -⟩ := C74_prng_setup .u32 (fun s => (rng s).mapS "" fun x => x.setWidth 32) fuel hfuel
  refine ⟨all, h1, ?_⟩
  intro i j s s' hij hi hj a1 b1 k l hk hl
  have hne := seeds_ne .u32 fuel hfuel all h1 i j hij s s' a1 b1
  have hf : 1024 ≤ fuel := le_trans (by norm_num) hfuel
  have m1 := seeds_top32 fuel hf all h1 i hi s a1
  have m2 := seeds_top32 fuel hf all h1 j hj s' b1
  obtain ⟨q1, q2, q3, q4⟩ := apart32_64
  simp only [List.mem_cons, List.not_mem_nil, or_false] at hr
  rcases hr with rfl | rfl | rfl | rfl
  · obtain ⟨g1, g2⟩ := allApart_iff _ _ _ _ q1 _ _ m1 m2 hne
    rw [nth_mx64_1, nth_mx64_1]
    exact no_meeting mix64_mx1 bij_mx64_1.1 _ 1530889947527838453#64 (by decide +kernel) (2 ^ 47) (by norm_num) s.s64 s'.s64 g1 g2 k l hk hl
  · obtain ⟨g1, g2⟩ := allApart_iff _ _ _ _ q2 _ _ m1 m2 hne
    rw [nth_mx64_2, nth_mx64_2]
    exact no_meeting mix64_mx2 bij_mx64_2.1 _ 9005942539178983715#64 (by decide +kernel) (2 ^ 47) (by norm_num) s.s64 s'.s64 g1 g2 k l hk hl
  · obtain ⟨g1, g2⟩ := allApart_iff _ _ _ _ q3 _ _ m1 m2 hne
    rw [nth_mx64_3, nth_mx64_3]
    exact no_meeting mix64_mx3 bij_mx64_3.1 _ 15925278495583763557#64 (by decide +kernel) (2 ^ 47) (by norm_num) s.s64 s'.s64 g1 g2 k l hk hl
  · obtain ⟨g1, g2⟩ := allApart_iff _ _ _ _ q4 _ _ m1 m2 hne
    rw [nth_splitmix, nth_splitmix]
    exact no_meeting mix64_split_mix bij_split_mix.1 _ 17428512612931826493#64 (by decide +kernel) (2 ^ 47) (by norm_num) s.s64 s'.s64 g1 g2 k l hk hl

set_option maxRecDepth 100000 in
/-- C148. The 128 sources of `rng32::mx1`, `mx2` and `mx3`, their rotations undone, have no common value among the first 67469 (`mx1`) or 566313
(`mx2`, `mx3`) of each. -/
theorem C148_apart_32 (rng : SeedData → Stream (BitVec WT.u32.bits)) (b : Nat)
    (hr : (rng = rng32_mx1 ∧ b = 67469) ∨ ((rng = rng32_mx2 ∨ rng = rng32_mx3) ∧ b = 566313)) (fuel : Nat) (hfuel : 2 ^ 32 ≤ fuel) :
    ∃ sources, createPrngSources .u32 rng fuel = some (.ok sources) ∧ sources.length = 128 ∧
      ∀ i j si sj, i ≠ j → sources[i]? = some si → sources[j]? = some sj → ∀ k l, k < b → l < b →
        turnBack i (si.nth k) ≠ turnBack j (sj.nth l) := by
  obtain ⟨all, sources, h1, h2, h3, -, -, h6⟩ := C74_prng_setup .u32 rng fuel hfuel
  refine ⟨sources, h2, h3, ?_⟩
  have h3 : sources.length = 128 := h3
  intro i j si sj hij hsi hsj k l hk hl
  have hi : i < 128 := by rw [← h3]; exact (List.getElem?_eq_some_iff.1 hsi).1
  have hj : j < 128 := by rw [← h3]; exact (List.getElem?_eq_some_iff.1 hsj).1
  obtain ⟨s, st, a1, a2, a3⟩ := h6 i hi
  obtain ⟨s', st', b1, b2, b3⟩ := h6 j hj
  rw [hsi] at a2; cases a2
  rw [hsj] at b2; cases b2
  rw [a3, b3, turnBack, turnBack, turnBack_ror, turnBack_ror]
  have hne := seeds_ne .u32 fuel hfuel all h1 i j hij s s' a1 b1
  have hf : 1024 ≤ fuel := le_trans (by norm_num) hfuel
  have m1 := seeds_top32 fuel hf all h1 i hi s a1
  have m2 := seeds_top32 fuel hf all h1 j hj s' b1
  have lt : ∀ x ∈ top32, x < 2 ^ 32 := by decide +kernel
  have e1 := s32_toNat s (lt _ m1)
  have e2 := s32_toNat s' (lt _ m2)
  rw [← e1, ← e2] at hne
  rw [← e1] at m1
  rw [← e2] at m2
  obtain ⟨q1, q2⟩ := apart32
  rcases hr with ⟨rfl, rfl⟩ | ⟨rfl | rfl, rfl⟩
  · obtain ⟨g1, g2⟩ := allApart_iff _ _ _ _ q1 _ _ m1 m2 hne
    rw [nth_mx32_1, nth_mx32_1]
    exact no_meeting mix32_mx1 bij_mx32_1.1 _ 4022275941#32 (by decide +kernel) 67469 (by norm_num) s.s32 s'.s32 g1 g2 k l hk hl
  · obtain ⟨g1, g2⟩ := allApart_iff _ _ _ _ q2 _ _ m1 m2 hne
    rw [nth_mx32_2, nth_mx32_2]
    exact no_meeting mix32_mx2 bij_mx32_2.1 _ 3961496861#32 (by decide +kernel) 566313 (by norm_num) s.s32 s'.s32 g1 g2 k l hk hl
  · obtain ⟨g1, g2⟩ := allApart_iff _ _ _ _ q2 _ _ m1 m2 hne
    rw [nth_mx32_3, nth_mx32_3]
    exact no_meeting mix32_mx3 bij_mx32_3.1 _ 3961496861#32 (by decide +kernel) 566313 (by norm_num) s.s32 s'.s32 g1 g2 k l hk hl

set_option maxRecDepth 100000 in
/-- C148. But two of them, neither rotated, overlap soon after: with `rng32::mx1` source 35 is source 47 from its value 662178 on, with
`rng32::mx2` and `mx3` source 108 is source 76 from its value 753519 on; so the samples of two sources partly are the same from `2^20` on. -/
theorem C148_overlap_32 (rng : SeedData → Stream (BitVec WT.u32.bits)) (p q d : Nat)
    (hr : (rng = rng32_mx1 ∧ p = 35 ∧ q = 47 ∧ d = 662178) ∨ ((rng = rng32_mx2 ∨ rng = rng32_mx3) ∧ p = 108 ∧ q = 76 ∧ d = 753519))
    (fuel : Nat) (hfuel : 2 ^ 32 ≤ fuel) :
    ∃ sources s s', createPrngSources .u32 rng fuel = some (.ok sources) ∧ sources[p]? = some s ∧ sources[q]? = some s' ∧
      ∀ k, s.nth k = s'.nth (k + d) := by
  obtain ⟨all, sources, h1, h2, -, -, -, h6⟩ := C74_prng_setup .u32 rng fuel hfuel
  have hf : 1024 ≤ fuel := le_trans (by norm_num) hfuel
  have lt : ∀ x ∈ top32, x < 2 ^ 32 := by decide +kernel
  have hval : ∀ i < 128, 31 ≤ i → ∃ s st, sources[i]? = some st ∧ (∀ k, st.nth k = (rng s).nth k) ∧
      s.s32.toNat ∈ top32 ∧ top32.countP (fun x => decide (s.s32.toNat < x)) = i := by
    intro i hi h31
    obtain ⟨s, st, a1, a2, a3⟩ := h6 i hi
    have m1 := seeds_top32 fuel hf all h1 i hi s a1
    have r1 := seeds_rank32 fuel hf all h1 i hi s a1
    have e1 := s32_toNat s (lt _ m1)
    rw [← e1] at m1 r1
    refine ⟨s, st, a2, fun k => ?_, m1, r1⟩
    rw [a3, if_neg]
    show ¬ i + 1 < 32
    omega
  obtain ⟨u1, u2, u3, u4⟩ := rank_unique
  have shift : ∀ (mix : BitVec 32 → BitVec 32) (inc x y : BitVec 32) (d : Nat), x = y + BitVec.ofNat 32 d * inc →
      ∀ k, mix (x + BitVec.ofNat 32 (k + 1) * inc) = mix (y + BitVec.ofNat 32 (k + d + 1) * inc) := by
    intro mix inc x y d hx k
    rw [hx, BitVec.add_assoc, ← BitVec.add_mul, ← BitVec.ofNat_add, show d + (k + 1) = k + d + 1 by omega]
  have word : ∀ (v : BitVec 32) (n : Nat), v.toNat = n → v = BitVec.ofNat 32 n := by
    intro v n h; rw [← h]; simp
  rcases hr with ⟨rfl, rfl, rfl, rfl⟩ | ⟨hr, rfl, rfl, rfl⟩
  · obtain ⟨s, st, a1, a2, a3, a4⟩ := hval 35 (by norm_num) (by norm_num)
    obtain ⟨s', st', b1, b2, b3, b4⟩ := hval 47 (by norm_num) (by norm_num)
    refine ⟨sources, st, st', h2, a1, b1, fun k => ?_⟩
    rw [a2, b2, nth_mx32_1, nth_mx32_1]
    refine shift mix32_mx1 _ _ _ 662178 ?_ k
    rw [word _ _ (u1 _ a3 a4), word _ _ (u2 _ b3 b4)]
    decide +kernel
  · obtain ⟨s, st, a1, a2, a3, a4⟩ := hval 108 (by norm_num) (by norm_num)
    obtain ⟨s', st', b1, b2, b3, b4⟩ := hval 76 (by norm_num) (by norm_num)
    refine ⟨sources, st, st', h2, a1, b1, fun k => ?_⟩
    rw [a2, b2]
    have e : s.s32 = s'.s32 + BitVec.ofNat 32 753519 * 1159349557#32 := by
      rw [word _ _ (u4 _ a3 a4), word _ _ (u3 _ b3 b4)]
      decide +kernel
    rcases hr with rfl | rfl
    · rw [nth_mx32_2, nth_mx32_2]
      exact shift mix32_mx2 _ _ _ 753519 e k
    · rw [nth_mx32_3, nth_mx32_3]
      exact shift mix32_mx3 _ _ _ 753519 e k

/-- The turned back value of source 3 (rotated by 4). -/
example : turnBack 3 (ror 0x12345678#32 4) = 0x12345678#32 ∧ turnBack 40 0x12345678#32 = 0x12345678#32 := by decide +kernel

end TFR
