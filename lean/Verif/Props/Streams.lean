import Verif.Lemmas.Streams
import Verif.Props.Bits
/-
C10, C11 (rrc) and C25 - C32 (streams).
`s.nth k` is the value returned by call number `k` (from 0) of a fresh copy of the stream `s`.
-/
namespace TFR
variable {w : Nat} {α : Type}

/-! ### C10 permute -/

/-- Bit-level meaning of the four transforms followed by the rotation. -/
theorem C10_permute_bit (t : WT) (x : BitVec t.bits) (rot i : Nat) (hi : i < t.bits) :
    (permute t x rot .identity).getLsbD i = x.getLsbD ((i + rot) % t.bits) ∧
    (permute t x rot .reverse).getLsbD i = x.getLsbD (t.bits - 1 - (i + rot) % t.bits) ∧
    (permute t x rot .complement).getLsbD i = !x.getLsbD ((i + rot) % t.bits) ∧
    (permute t x rot .reverseComplement).getLsbD i = !x.getLsbD (t.bits - 1 - (i + rot) % t.bits) := by
  have h : (i + rot) % t.bits < t.bits := Nat.mod_lt _ (by omega)
  simp only [permute]
  refine ⟨?_, ?_, ?_, ?_⟩
  · rw [C01_ror_bit_nat _ _ _ hi]
  · rw [C01_ror_bit_nat _ _ _ hi, C03_reverseBits_bit _ _ _ h]
  · rw [C01_ror_bit_nat _ _ _ hi]; simp [h]
  · rw [C01_ror_bit_nat _ _ _ hi, BitVec.getLsbD_not, C03_reverseBits_bit _ _ _ h]; simp [h]

/-- Each transform is one-to-one and onto, whatever the rotation amount. -/
theorem C10_permute_bijective (t : WT) (rot : Int) (ty : RrcType) :
    Function.Bijective (fun x => permute t x rot ty) := by
  have hr : Function.Bijective (fun x : BitVec t.bits => ror x rot) :=
    ⟨fun a b h => by rw [← C01_rol_ror a rot, ← C01_rol_ror b rot]; exact congrArg (rol · rot) h,
     fun b => ⟨rol b rot, C01_ror_rol b rot⟩⟩
  have hc : Function.Bijective (fun x : BitVec t.bits => ~~~x) :=
    ⟨fun a b h => by rw [← BitVec.not_not (b := a), ← BitVec.not_not (b := b)]; exact congrArg (~~~·) h,
     fun b => ⟨~~~b, BitVec.not_not⟩⟩
  cases ty
  · exact hr
  · exact hr.comp (C03_reverseBits_bijective t)
  · exact hr.comp hc
  · exact hr.comp (hc.comp (C03_reverseBits_bijective t))

/-- Position of a kind in `rrc_types`. -/
def RrcType.idx : RrcType → Nat
  | .identity => 0 | .reverse => 1 | .complement => 2 | .reverseComplement => 3

theorem getElem?_flatMap_const {β γ : Type*} (l : List β) (f : β → List γ) (n : Nat) (hf : ∀ b, (f b).length = n)
    (q r : Nat) (hr : r < n) : (l.flatMap f)[q * n + r]? = l[q]?.bind (fun b => (f b)[r]?) := by
  induction l generalizing q with
  | nil => simp
  | cons b l ih =>
    rw [List.flatMap_cons]
    cases q with
    | zero => rw [List.getElem?_append_left (by rw [hf]; omega)]; simp
    | succ q =>
      rw [List.getElem?_append_right (by rw [hf, Nat.succ_mul]; omega), hf,
        show (q + 1) * n + r - n = q * n + r by rw [Nat.succ_mul]; omega, ih]
      simp

/-- `get_rrc_permutations` has `4w` entries; the entry for kind `ty` and rotation `rot` stands at
`w * idx ty + rot`, so each pair is covered exactly once. -/
theorem C10_getRrcPermutations (t : WT) (x : BitVec t.bits) :
    (getRrcPermutations t x).length = 4 * t.bits ∧
    ∀ ty rot, rot < t.bits →
      (getRrcPermutations t x)[RrcType.idx ty * t.bits + rot]? = some (permute t x rot ty) := by
  constructor
  · simp [getRrcPermutations, rrcTypes, List.length_flatMap]; omega
  · intro ty rot h
    unfold getRrcPermutations
    rw [getElem?_flatMap_const _ _ t.bits (by simp) _ _ h]
    cases ty <;> simp [rrcTypes, RrcType.idx, h]

example : permute .u8 0b00010011#8 3 .reverseComplement = 0b11100110#8 := by decide +kernel

/-! ### C11 create_rrc_sources -/

/-- `create_rrc_sources` lists `4w` streams per source: source `q`, kind `ty`, rotation `rot` is at
`(4q + idx ty)·w + rot` and each of its values is the transform of the source's value: bit `i` is bit `i + rot` (cyclically;
counted from the other end for the reversing kinds) of the source's value, negated for the complementing kinds. -/
theorem C11_createRrcSources (t : WT) (sources : List (Stream (BitVec t.bits))) :
    (createRrcSources t sources).length = 4 * t.bits * sources.length ∧
    ∀ q s ty rot, sources[q]? = some s → rot < t.bits →
      ∃ r, (createRrcSources t sources)[q * (4 * t.bits) + (RrcType.idx ty * t.bits + rot)]? = some r ∧
        (∀ k, r.nth k = permute t (s.nth k) rot ty) ∧
        ∀ k i, i < t.bits → (r.nth k).getLsbD i =
          (decide (ty = .complement ∨ ty = .reverseComplement) ^^
            (s.nth k).getLsbD (if ty = .reverse ∨ ty = .reverseComplement then t.bits - 1 - (i + rot) % t.bits
              else (i + rot) % t.bits)) := by
  have hinner : ∀ s : Stream (BitVec t.bits), (rrcTypes.flatMap fun ty =>
      (List.range t.bits).map fun rot => addRrc t s rot ty).length = 4 * t.bits := by
    intro s; simp [rrcTypes, List.length_flatMap]; omega
  constructor
  · simp only [createRrcSources, List.length_flatMap, hinner]
    simp [Nat.mul_comm]
  · intro q s ty rot hs hrot
    have hidx : RrcType.idx ty * t.bits + rot < 4 * t.bits := by
      cases ty <;> simp [RrcType.idx] <;> omega
    have hval : ∀ k, (addRrc t s rot ty).nth k = permute t (s.nth k) rot ty := fun k => Stream.nth_mapS _ _ _ _
    refine ⟨addRrc t s rot ty, ?_, hval, fun k i hi => ?_⟩
    swap
    · rw [hval]
      obtain ⟨h1, h2, h3, h4⟩ := C10_permute_bit t (s.nth k) rot i hi
      cases ty <;> simp [h1, h2, h3, h4]
    unfold createRrcSources
    rw [getElem?_flatMap_const _ _ (4 * t.bits) hinner _ _ hidx, hs, Option.bind_some,
      getElem?_flatMap_const _ _ t.bits (by simp) _ _ hrot]
    cases ty <;> simp [rrcTypes, RrcType.idx, hrot]

example : ∃ r, (createRrcSources .u8 [counterStream 8 1 0, counterStream 8 7 3])[32 + (8 + 2)]? = some r ∧
    r.nth 5 = permute .u8 45#8 2 .reverse := by
  obtain ⟨r, h1, h2⟩ := (C11_createRrcSources .u8 [counterStream 8 1 0, counterStream 8 7 3]).2 1 _ .reverse 2 rfl (by decide)
  exact ⟨r, h1, by rw [h2.1, nth_counter]; rfl⟩

/-! ### C25 create_prng_from_mixer -/

/-- Value `k` is the mixer iterated `k+1` times on the seed. -/
theorem C25_iterates (m : Mixer w) (seed : BitVec w) (k : Nat) :
    (prngFromMixer m seed).nth k = m.mix^[k + 1] seed := nth_prngFromMixer m seed k

/-- `BitVec w` is finite. -/
instance : Finite (BitVec w) := Finite.of_injective BitVec.toFin (fun a b h => by
  cases a; cases b; simpa using h)

theorem iterate_periodic_of_bijective {β : Type} [Finite β] (f : β → β) (h : Function.Bijective f) :
    ∃ p, 0 < p ∧ f^[p] = id := by
  let e := Equiv.ofBijective f h
  refine ⟨orderOf e, orderOf_pos e, ?_⟩
  have := pow_orderOf_eq_one e
  funext x
  have h2 := congrArg (fun g : Equiv.Perm β => g x) this
  rw [show f = e from rfl, ← Equiv.Perm.coe_pow]
  exact h2

/-- For a bijective mixer the stream is purely periodic with a period common to all seeds, and the seed
itself is produced. -/
theorem C25_periodic (m : Mixer w) (h : Function.Bijective m.mix) :
    ∃ p, 0 < p ∧ ∀ seed k, (prngFromMixer m seed).nth (k + p) = (prngFromMixer m seed).nth k ∧
      (prngFromMixer m seed).nth (p - 1) = seed := by
  obtain ⟨p, hp, hid⟩ := iterate_periodic_of_bijective m.mix h
  refine ⟨p, hp, fun seed k => ⟨?_, ?_⟩⟩
  · rw [C25_iterates, C25_iterates, show k + p + 1 = (k + 1) + p by omega, Function.iterate_add_apply, hid]; rfl
  · rw [C25_iterates, show p - 1 + 1 = p by omega, hid]; rfl

/-- If two seeds ever produce a common value, each seed occurs in the other's stream. -/
theorem C25_cycles_disjoint (m : Mixer w) (h : Function.Bijective m.mix) (a b : BitVec w) (i j : Nat)
    (hij : (prngFromMixer m a).nth i = (prngFromMixer m b).nth j) :
    ∃ k, (prngFromMixer m a).nth k = b := by
  obtain ⟨p, hp, hid⟩ := iterate_periodic_of_bijective m.mix h
  have hmul : ∀ n, m.mix^[n * p] = id := by
    intro n; rw [Nat.mul_comm, Function.iterate_mul, hid, Function.iterate_id]
  rw [C25_iterates, C25_iterates] at hij
  -- apply mix^[(j+1)*p - (j+1)]
  have h3 := congrArg (m.mix^[(j + 1) * p - (j + 1)]) hij
  rw [← Function.iterate_add_apply, ← Function.iterate_add_apply,
    Nat.sub_add_cancel (Nat.le_mul_of_pos_right _ hp), hmul] at h3
  have hpos : ∃ k, k + 1 = (j + 1) * p - (j + 1) + (i + 1) := ⟨(j + 1) * p - (j + 1) + i, by omega⟩
  obtain ⟨k, hk⟩ := hpos
  exact ⟨k, by rw [C25_iterates, hk]; exact h3⟩

example : Function.Bijective (fun x : BitVec 8 => x + 1#8) ∧
    (prngFromMixer ⟨"inc", fun x : BitVec 8 => x + 1#8⟩ 254#8).nth 1 = 0#8 :=
  ⟨⟨fun a b h => by simpa using h, fun b => ⟨b - 1#8, BitVec.sub_add_cancel b 1#8⟩⟩, by decide +kernel⟩

/-! ### C26 counter stream -/

theorem C26_counter (inc start : BitVec 64) (k : Nat) (hw : w ≤ 64) :
    ((counterStream w inc start).nth k).toNat = (start.toNat + (k + 1) * inc.toNat) % 2 ^ 64 % 2 ^ w := by
  rw [nth_counter, BitVec.toNat_setWidth, BitVec.toNat_add, BitVec.toNat_mul, BitVec.toNat_ofNat]
  congr 1
  simp [Nat.add_mod, Nat.mul_mod]

/-- With an odd increment every window of `2^w` consecutive values contains every `w`-bit word exactly
once. -/
theorem C26_counter_window (inc start : BitVec 64) (hw : w ≤ 64) (hodd : inc.toNat % 2 = 1) (j : Nat) :
    Function.Bijective (fun k : Fin (2 ^ w) => (counterStream w inc start).nth (j + k)) := by
  have hinj : Function.Injective (fun k : Fin (2 ^ w) => (counterStream w inc start).nth (j + k)) := by
    intro a b hab
    have h1 := congrArg BitVec.toNat hab
    simp only [C26_counter _ _ _ hw] at h1
    rw [Nat.mod_mod_of_dvd _ (Nat.pow_dvd_pow 2 hw), Nat.mod_mod_of_dvd _ (Nat.pow_dvd_pow 2 hw)] at h1
    have h2 : ((j + a.1 + 1) * inc.toNat) ≡ ((j + b.1 + 1) * inc.toNat) [MOD 2 ^ w] :=
      Nat.ModEq.add_left_cancel' start.toNat h1
    have hcop : Nat.gcd (2 ^ w) inc.toNat = 1 := by
      apply Nat.Coprime.pow_left
      rw [Nat.coprime_two_left, Nat.odd_iff]; exact hodd
    have h3 := Nat.ModEq.cancel_right_of_coprime hcop h2
    have h4 : a.1 ≡ b.1 [MOD 2 ^ w] := by
      have : j + 1 + a.1 ≡ j + 1 + b.1 [MOD 2 ^ w] := by
        convert h3 using 1 <;> ring
      exact Nat.ModEq.add_left_cancel' (j + 1) this
    have h5 : a.1 % 2 ^ w = b.1 % 2 ^ w := h4
    rw [Nat.mod_eq_of_lt a.2, Nat.mod_eq_of_lt b.2] at h5
    exact Fin.ext h5
  refine ⟨hinj, fun y => ?_⟩
  have hs : Function.Surjective (fun k : Fin (2 ^ w) => ((counterStream w inc start).nth (j + k)).toFin) := by
    apply Finite.surjective_of_injective
    intro a b h
    exact hinj (BitVec.toFin_inj.1 h)
  obtain ⟨k, hk⟩ := hs y.toFin
  exact ⟨k, BitVec.toFin_inj.1 hk⟩

example : (counterStream 8 7 250).nth 3 = 22#8 := by decide +kernel

/-! ### C27 data stream -/

/-- Replays the data cyclically as long as the 64-bit index does not wrap. -/
theorem C27_dataStream (name : String) (data : List α) (start : BitVec 64) (k : Nat) (hne : data ≠ [])
    (hk : start.toNat + k < 2 ^ 64) :
    ∃ v, (dataStream name data start).nth k = .ok v ∧ data[(start.toNat + k) % data.length]? = some v := by
  have hlen : 0 < data.length := List.length_pos_of_ne_nil hne
  have hlt := Nat.mod_lt (start.toNat + k) hlen
  refine ⟨data[(start.toNat + k) % data.length], ?_, List.getElem?_eq_getElem hlt⟩
  rw [Stream.nth_eq, stateAt_data]
  show (if data.length = 0 then _ else _) = _
  have h1 : (start + BitVec.ofNat 64 k).toNat = start.toNat + k := by
    rw [BitVec.toNat_add, BitVec.toNat_ofNat]
    rw [Nat.mod_eq_of_lt (a := k) (by omega), Nat.mod_eq_of_lt hk]
  rw [if_neg (by omega), h1, List.getElem?_eq_getElem hlt]

/-- Even across the wrap of the index nothing faults. -/
theorem C27_dataStream_total (name : String) (data : List α) (start : BitVec 64) (k : Nat) (hne : data ≠ []) :
    ∃ v ∈ data, (dataStream name data start).nth k = .ok v := by
  have hlen : 0 < data.length := List.length_pos_of_ne_nil hne
  have hlt := Nat.mod_lt (start + BitVec.ofNat 64 k).toNat hlen
  refine ⟨data[(start + BitVec.ofNat 64 k).toNat % data.length], List.getElem_mem hlt, ?_⟩
  rw [Stream.nth_eq, stateAt_data]
  show (if data.length = 0 then _ else _) = _
  rw [if_neg (by omega), List.getElem?_eq_getElem hlt]

/-- `size` consecutive values are a rotation of the data. -/
theorem C27_rotation (name : String) (data : List α) (start : BitVec 64) (hne : data ≠ [])
    (hk : start.toNat + data.length ≤ 2 ^ 64) :
    (dataStream name data start).take data.length = (data.rotate start.toNat).map .ok := by
  apply List.ext_getElem
  · simp
  · intro k h1 h2
    have hlt : k < data.length := by simpa using h1
    obtain ⟨v, hv, hd⟩ := C27_dataStream name data start k hne (by omega)
    simp only [Stream.take_eq_map, List.getElem_map, List.getElem_range, hv, List.getElem_rotate]
    congr 1
    have h3 := Nat.mod_lt (start.toNat + k) (show 0 < data.length by omega)
    rw [List.getElem?_eq_getElem h3] at hd
    simp only [Option.some.injEq] at hd
    rw [← hd]
    simp only [Nat.add_comm]

theorem C27_empty_faults (name : String) (start : BitVec 64) (k : Nat) :
    (dataStream name ([] : List α) start).nth k = .error .divByZero := by
  rw [Stream.nth_eq]; rfl

example : (dataStream "d" [10, 20, 30] 2).take 5 = [.ok 30, .ok 10, .ok 20, .ok 30, .ok 10] := by
  decide +kernel

/-! ### C28 bit isolation -/

/-- Bit `i` of value `k` is bit `b` of source value `k*w + i`. -/
theorem C28_isolation (s : Stream (BitVec w)) (hw : w ≤ 64) (b : Nat) (hb : b < w) (k i : Nat) (hi : i < w) :
    ((bitIsolationStream s b).nth k).getLsbD i = (s.nth (k * w + i)).getLsbD b :=
  nth_isolation s hw b hb k i hi

/-- Every output consumes exactly `w` source values: after `k` calls the captured source has been called
`k*w` times. -/
theorem C28_consumption (s : Stream (BitVec w)) (b k : Nat) :
    (bitIsolationStream s b).drop k = bitIsolationStream (s.drop (k * w)) b := by
  rw [Stream.drop_eq, Stream.drop_eq, stateAt_isolation]; rfl

/-- All bits `b` of the source are recovered, each from exactly one place: bit `b` of source value `m` is
bit `m mod w` of output `m / w`. -/
theorem C28_no_loss (s : Stream (BitVec w)) (hw : w ≤ 64) (b : Nat) (hb : b < w) (m : Nat) :
    (s.nth m).getLsbD b = ((bitIsolationStream s b).nth (m / w)).getLsbD (m % w) := by
  rw [C28_isolation s hw b hb _ _ (Nat.mod_lt _ (by omega)), Nat.mul_comm, Nat.div_add_mod]

example : (bitIsolationStream (counterStream 8 1 0) 1).nth 0 = 0b01100110#8 := by decide +kernel

/-! ### C29 derived streams -/

theorem C29_reverse (t : WT) (s : Stream (BitVec t.bits)) (k : Nat) :
    (bitReverseStream t s).nth k = reverseBits t (s.nth k) := Stream.nth_mapS _ _ _ _

theorem C29_byteswap (n : Nat) (s : Stream (BitVec (8 * n))) (k : Nat) :
    (byteswapStream n s).nth k = byteswap n (s.nth k) := Stream.nth_mapS _ _ _ _

theorem C29_ror (s : Stream (BitVec w)) (r : Int) (k : Nat) :
    (rorStream s r).nth k = ror (s.nth k) r := by
  unfold rorStream
  split
  · next h => subst h; rw [ror_zero]
  · exact Stream.nth_mapS _ _ _ _

/-- Rotation by 0 is the source itself, name included. -/
theorem C29_ror_zero (s : Stream (BitVec w)) : rorStream s 0 = s := by simp [rorStream]

/-- The source can be recovered from each derived stream. -/
theorem C29_recover (t : WT) (s : Stream (BitVec t.bits)) (n : Nat) (s' : Stream (BitVec (8 * n)))
    (s'' : Stream (BitVec w)) (r : Int) (k : Nat) :
    (bitReverseStream t (bitReverseStream t s)).nth k = s.nth k ∧
    (byteswapStream n (byteswapStream n s')).nth k = s'.nth k ∧
    (rorStream (rorStream s'' r) (-r)).nth k = s''.nth k := by
  refine ⟨?_, ?_, ?_⟩
  · rw [C29_reverse, C29_reverse, C03_reverseBits_involution]
  · rw [C29_byteswap, C29_byteswap, C04_byteswap_involution]
  · rw [C29_ror, C29_ror, ror_ror, Int.add_right_neg, ror_zero]

example : (bitReverseStream .u8 (counterStream 8 1 0)).nth 2 = 0xC0#8 ∧
    (byteswapStream 2 (counterStream 16 1 0)).nth 0 = 0x0100#16 ∧
    (rorStream (counterStream 8 1 0) 1).nth 0 = 0x80#8 := by decide +kernel

/-! ### C30 shared data stream -/

/-- For every schedule (any list of consumers): the `m`-th atomic fetch gets index `start + m`, hence no
index is handed out twice as long as fewer than `2^64` calls are made, whoever calls; each consumer sees
increasing positions. -/
theorem C30_indices (consumers : List (List α)) (start : BitVec 64) (schedule : List Nat) :
    (sharedRun consumers start schedule).map (fun e => (e.1, e.2.1)) =
      schedule.zipIdx.map (fun p => (p.1, start + BitVec.ofNat 64 p.2)) := by
  have : ∀ (n : Nat) (schedule : List Nat),
      (sharedRun consumers (start + BitVec.ofNat 64 n) schedule).map (fun e => (e.1, e.2.1)) =
      (schedule.zipIdx n).map (fun p => (p.1, start + BitVec.ofNat 64 p.2)) := by
    intro n schedule
    induction schedule generalizing n with
    | nil => rfl
    | cons a l ih =>
      simp only [sharedRun, List.map_cons, List.zipIdx_cons, sharedStep]
      rw [BitVec.add_assoc, show BitVec.ofNat 64 n + 1 = BitVec.ofNat 64 (n + 1) by rw [BitVec.ofNat_add]; rfl, ih]
  simpa using this 0 schedule

theorem C30_no_index_twice (consumers : List (List α)) (start : BitVec 64) (schedule : List Nat)
    (hlen : schedule.length ≤ 2 ^ 64) :
    ((sharedRun consumers start schedule).map (fun e => e.2.1)).Nodup := by
  have h := congrArg (List.map Prod.snd) (C30_indices consumers start schedule)
  simp only [List.map_map, Function.comp_def] at h
  rw [h]
  have h2 : schedule.zipIdx.map (fun p => start + BitVec.ofNat 64 p.2) =
      (List.range schedule.length).map (fun i => start + BitVec.ofNat 64 i) := by
    apply List.ext_getElem <;> simp
  rw [h2]
  apply List.Nodup.map_on _ List.nodup_range
  intro a ha b hb hab
  rw [List.mem_range] at ha hb
  have := (BitVec.add_right_inj start).1 hab |> congrArg BitVec.toNat
  rw [BitVec.toNat_ofNat, BitVec.toNat_ofNat, Nat.mod_eq_of_lt (by omega), Nat.mod_eq_of_lt (by omega)] at this
  exact this

/-- When all consumers share one non-empty data vector and the index does not wrap, all values handed out,
taken together in the order of the fetches, are the data replayed cyclically: nothing is skipped and
nothing is repeated out of turn, for every schedule. -/
theorem C30_values (consumers : List (List α)) (data : List α) (hne : data ≠ []) (start : BitVec 64)
    (schedule : List Nat) (hall : ∀ c ∈ schedule, consumers.getD c [] = data)
    (hlen : start.toNat + schedule.length ≤ 2 ^ 64) :
    (sharedRun consumers start schedule).map (fun e => e.2.2) =
      (dataStream "" data start).take schedule.length := by
  induction schedule generalizing start with
  | nil => rfl
  | cons c l ih =>
    simp only [sharedRun, List.map_cons, List.length_cons, Stream.take]
    have hc := hall c (by simp)
    congr 1
    · simp only [sharedStep, hc]; rfl
    · simp only [sharedStep]
      show _ = (dataStream "" data (start + 1)).take l.length
      by_cases hl : l = []
      · subst hl; rfl
      · have hpos : 0 < l.length := List.length_pos_of_ne_nil hl
        apply ih _ (fun c hc => hall c (by simp [hc]))
        simp only [List.length_cons] at hlen
        rw [BitVec.toNat_add]
        have : (1 : BitVec 64).toNat = 1 := rfl
        rw [this, Nat.mod_eq_of_lt (by omega)]
        omega

example : (sharedRun [[7, 8, 9], [7, 8, 9]] 0 [0, 1, 1, 0]).map (fun e => e.2.2) = [.ok 7, .ok 8, .ok 9, .ok 7] := by
  decide +kernel

/-! ### C31 mixer and combiner streams -/

theorem C31_mixer (s : Stream (BitVec w)) (m : Mixer w) (k : Nat) :
    (mixerStream s m).nth k = m.mix (s.nth k) := Stream.nth_mapS _ _ _ _

theorem C31_combined (a b : Stream (BitVec w)) (c : Combiner w) (k : Nat) :
    (combinedStream a b c).nth k = c.combine (a.nth k) (b.nth k) := nth_combined a b c k

/-- The incremental combination folds the combiner over the first `k+1` source values. -/
theorem C31_incremental (seed : BitVec w) (s : Stream (BitVec w)) (c : Combiner w) (k : Nat) :
    (combinedIncrementalStream seed s c).nth k =
      ((List.range (k + 1)).map s.nth).foldl c.combine seed := by
  rw [← Stream.take_eq_map]
  have := congrArg Prod.fst (stateAt_incremental seed s c (k + 1))
  simp only at this
  rw [← this, Stream.stateAt_succ, Stream.nth_eq]; rfl

example : (combinedIncrementalStream 1#8 (counterStream 8 1 0) ⟨"add", fun x y => x + y⟩).nth 3 = 11#8 := by
  decide +kernel

/-! ### C32 ranged stream -/

theorem iterLoop_eq (s : Stream α) (n : BitVec 64) (index : BitVec 64) (k : Nat)
    (hk : (n - index).toNat = k) :
    iterLoop (StreamIter.mk' s n index) n = (s.take k, StreamIter.mk' (s.drop k) n n) := by
  induction k generalizing s index with
  | zero =>
    have h0 : n - index = 0#64 := BitVec.eq_of_toNat_eq (by simpa using hk)
    have h1 : index = n := by have := BitVec.sub_eq_iff_eq_add.1 h0; simpa using this.symm
    subst h1
    rw [iterLoop, dif_pos (by rfl)]; rfl
  | succ k ih =>
    have hne : index ≠ n := by rintro rfl; simp at hk
    have h2 : (n - (index + 1)).toNat = k := by
      have : n - (index + 1) = (n - index) - 1 := by
        simp [BitVec.sub_eq_add_neg, BitVec.neg_add, BitVec.add_assoc]
      rw [this, BitVec.toNat_sub, hk]
      have := (n - index).isLt
      have h1 : (1 : BitVec 64).toNat = 1 := rfl
      rw [h1]; omega
    rw [iterLoop, dif_neg (by exact hne)]
    have : (StreamIter.mk' s n index).incr = StreamIter.mk' s.next.2 n (index + 1) := rfl
    simp only [this, ih s.next.2 (index + 1) h2]
    rfl

/-- A range-for sees exactly the first `n` values of the source, as often as it is repeated (each
iteration starts from a fresh copy held by the range); `n = 0` gives nothing. -/
theorem C32_values (s : Stream α) (n : BitVec 64) :
    (RangedStream.mk s n).values = (List.range n.toNat).map s.nth := by
  rw [← Stream.take_eq_map]
  unfold RangedStream.values RangedStream.begin'
  show (iterLoop (StreamIter.mk' s n 0) n).1 = _
  rw [iterLoop_eq s n 0 n.toNat (by simp)]

/-- The price: the iterator's copy of the source has been called `n + 1` times, one more than values
were delivered. -/
theorem C32_calls (s : Stream α) (n : BitVec 64) :
    (iterLoop (RangedStream.mk s n).begin' (RangedStream.mk s n).end'.index).2.s = s.drop (n.toNat + 1) := by
  show (iterLoop (StreamIter.mk' s n 0) n).2.s = _
  rw [iterLoop_eq s n 0 n.toNat (by simp), ← Stream.drop_drop]
  rfl

/-- `get_raw_by_ref` returns the first `n` values and leaves the stream advanced by exactly `n`. -/
theorem C32_getRawByRef (s : Stream α) (n : Nat) :
    getRawByRef n s = ((List.range n).map s.nth, s.drop n) := by
  rw [← Stream.take_eq_map]
  induction n generalizing s with
  | zero => rfl
  | succ n ih => simp only [getRawByRef, ih]; rfl

example : (RangedStream.mk (counterStream 8 3 0) 4).values = [3#8, 6#8, 9#8, 12#8] := by
  rw [C32_values]; decide +kernel

end TFR
