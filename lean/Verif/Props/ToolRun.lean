import Verif.Model.ToolRun
import Verif.Props.Files
import Verif.Props.Streams
import Verif.Props.Catalogue
/- C121: pictures and data files.  C122: a whole run of `-test`. -/
namespace TFR
open Spec

private theorem hbind {α β : Type} (x : α) (f : α → R β) : ((Except.ok x : R α) >>= f) = f x := rfl

/-! ### C121 -/

/-- What a file must contain to be the picture of the words `f 0, ..., f (2^18 - 1)`: a reader finds 512 x 512 pixels with maximum 255, and
grey value `b` of word `k`, three times, for every byte `b` of every word. -/
def Spec.IsPicture (w : Nat) (f : Nat → BitVec w) (file : Option (List Byte)) : Prop :=
  ∃ bytes data, file = some bytes ∧ readPpm bytes = some (512, 512, 255, data) ∧ data.length = w / 8 * (3 * 512 * 512) ∧
    ∀ k < 2 ^ 18, ∀ b < w / 8, ∀ channel < 3, data[3 * (w / 8 * k + b) + channel]? = some ((f k).extractLsb' (8 * b) 8)

private theorem block_index {α β : Type} (f : α → List β) (m : Nat) (l : List α) (h : ∀ a ∈ l, (f a).length = m) (k j : Nat) (hj : j < m) :
    (l.flatMap f)[m * k + j]? = l[k]?.bind fun a => (f a)[j]? := by
  induction l generalizing k with
  | nil => simp
  | cons a l ih =>
    have ha := h a List.mem_cons_self
    rw [List.flatMap_cons]
    cases k with
    | zero => rw [Nat.mul_zero, Nat.zero_add, List.getElem?_append_left (by omega)]; simp
    | succ k =>
      rw [List.getElem?_append_right (by rw [ha]; nlinarith), ha, show m * (k + 1) + j - m = m * k + j by rw [Nat.mul_succ]; omega,
        ih (fun a h' => h a (List.mem_cons_of_mem _ h')) k]
      simp

private theorem grey_length {w : Nat} (v : BitVec w) : (greyPixels w v).length = 3 * (w / 8) := by
  have : ∀ l : List Byte, (l.flatMap fun b => [b, b, b]).length = 3 * l.length := by
    intro l
    induction l with
    | nil => rfl
    | cons b l ih => rw [List.flatMap_cons, List.length_append, ih, List.length_cons]; simp; ring
  unfold greyPixels
  rw [this, leBytes_length]

private theorem grey_index {w : Nat} (l : List (BitVec w)) (k b c : Nat) (hb : b < w / 8) (hc : c < 3) :
    (l.flatMap (greyPixels w))[3 * (w / 8 * k + b) + c]? = l[k]?.map fun v => v.extractLsb' (8 * b) 8 := by
  rw [show 3 * (w / 8 * k + b) + c = 3 * (w / 8) * k + (3 * b + c) by ring,
    block_index (greyPixels w) (3 * (w / 8)) l (fun a _ => grey_length a) k _ (by omega)]
  cases l[k]? with
  | none => rfl
  | some v =>
    simp only [Option.bind_some, Option.map_some]
    unfold greyPixels
    rw [block_index (fun b => [b, b, b]) 3 (leBytes w v) (fun _ _ => rfl) b c hc]
    have : (leBytes w v)[b]? = some (v.extractLsb' (8 * b) 8) := by
      unfold leBytes
      rw [List.getElem?_map, List.getElem?_range hb]; rfl
    rw [this]
    simp only [Option.bind_some]
    interval_cases c <;> rfl

/-- The words of a picture, by the number of the call. -/
private theorem calls_step {S : Type} {w : Nat} (step : S → BitVec w × S) (ys : List Nat) (width : Nat) (s : S) :
    (imageCalls (fun s _ _ => step s) width ys s).1 = (Stream.mk S "" s step).take (width * ys.length) := by
  have hrow : ∀ (xs : List Nat) (y : Nat) (s : S), (rowCalls (fun s (_ _ : BitVec w) => step s) y xs s).1 = (Stream.mk S "" s step).take xs.length ∧
      (rowCalls (fun s (_ _ : BitVec w) => step s) y xs s).2 = ((fun st => (step st).2)^[xs.length] s) := by
    intro xs y
    induction xs with
    | nil => intro s; exact ⟨rfl, rfl⟩
    | cons x xs ih =>
      intro s
      obtain ⟨a, b⟩ := ih (step s).2
      exact ⟨by simp only [rowCalls, a]; rfl, by simp only [rowCalls, b, List.length_cons, Function.iterate_succ_apply]⟩
  have happ : ∀ (a b : Nat) (s : S), (Stream.mk S "" s step).take (a + b) =
      (Stream.mk S "" s step).take a ++ (Stream.mk S "" ((fun st => (step st).2)^[a] s) step).take b := by
    intro a b
    induction a with
    | zero => intro s; rw [Nat.zero_add]; rfl
    | succ a ih =>
      intro s
      rw [Nat.succ_add]
      show (step s).1 :: (Stream.mk S "" (step s).2 step).take (a + b) = (step s).1 :: ((Stream.mk S "" (step s).2 step).take a ++ _)
      rw [ih, Function.iterate_succ_apply]
  induction ys generalizing s with
  | nil => rfl
  | cons y ys ih =>
    obtain ⟨a, b⟩ := hrow (List.range width) y s
    simp only [imageCalls]
    rw [a, b, ih, List.length_range, List.length_cons, Nat.mul_succ, Nat.add_comm, happ]

private theorem picture {S : Type} {w : Nat} (hw : 16 ≤ w) (func : S → BitVec w → BitVec w → BitVec w × S) (s : S) (fuel : Nat) (hf : 512 ≤ fuel)
    (f : Nat → BitVec w) (hfunc : ∀ k < 2 ^ 18, (imageCalls func 512 (List.range 512) s).1[k]? = some (f k)) :
    ∃ st, ppmData func s 512 512 fuel = some st ∧ IsPicture w f (some (ppmFile 512 512 st.2)) := by
  have hlt : 512 < 2 ^ w := lt_of_lt_of_le (by norm_num) (Nat.pow_le_pow_right (by norm_num) hw)
  obtain ⟨st, h1, h2⟩ := C70_size (by omega) func s 512 512 hlt hlt fuel (by simpa using hf)
  have h3 := C70_data (by omega) func s 512 512 hlt hlt fuel (by simpa using hf)
  refine ⟨st, h1, _, _, rfl, C70_header 512 512 st.2, h2, fun k hk b hb c hc => ?_⟩
  rw [h1, Option.some.injEq] at h3
  have h4 := congrArg Prod.snd h3
  dsimp only at h4
  rw [h4, grey_index _ k b c hb hc, hfunc k hk]
  rfl

private theorem picture_mixer {w : Nat} (hw : 16 ≤ w) (m : Mixer w) (fuel : Nat) (hf : 512 ≤ fuel) (canOpen : String → Bool) (fs : FileSystem) (path : String) :
    ∃ fs', writeMixerPpm canOpen fs path m fuel = some fs' ∧ (canOpen path = true → IsPicture w (fun k => m.mix (BitVec.ofNat w k)) (fs' path)) ∧
      (canOpen path = false → fs' path = fs path) ∧ ∀ p, p ≠ path → fs' p = fs p := by
  obtain ⟨st, h1, h2⟩ := picture hw (fun (_ : Unit) x y => (m.mix (y * 512#w + x), ())) () fuel hf (fun k => m.mix (BitVec.ofNat w k)) (fun k hk => by
    have hrow : ∀ (xs : List Nat) (y : Nat), (rowCalls (fun (_ : Unit) x y => (m.mix (y * 512#w + x), ())) y xs ()).1 =
        xs.map fun x => m.mix (BitVec.ofNat w (512 * y + x)) := by
      intro xs y
      induction xs with
      | nil => rfl
      | cons x xs ih =>
        simp only [rowCalls, List.map_cons]
        rw [ih]
        refine congrArg₂ List.cons (congrArg m.mix ?_) rfl
        apply BitVec.eq_of_toNat_eq
        simp [BitVec.toNat_add, BitVec.toNat_mul, Nat.mul_comm, Nat.add_mod, Nat.mul_mod]
    have himg : ∀ ys : List Nat, (imageCalls (fun (_ : Unit) x y => (m.mix (y * 512#w + x), ())) 512 ys ()).1 =
        ys.flatMap fun y => (List.range 512).map fun x => m.mix (BitVec.ofNat w (512 * y + x)) := by
      intro ys
      induction ys with
      | nil => rfl
      | cons y ys ih => simp only [imageCalls, List.flatMap_cons]; rw [ih, hrow]
    rw [himg]
    have := block_index (fun y => (List.range 512).map fun x => m.mix (BitVec.ofNat w (512 * y + x))) 512 (List.range 512)
      (fun _ _ => by simp) (k / 512) (k % 512) (Nat.mod_lt _ (by norm_num))
    rw [Nat.div_add_mod] at this
    rw [this, List.getElem?_range (by omega), Option.bind_some, List.getElem?_map, List.getElem?_range (Nat.mod_lt _ (by norm_num)), Option.map_some,
      Nat.div_add_mod])
  refine ⟨writePpm canOpen fs path 512 512 st.2, by unfold writeMixerPpm; rw [h1]; rfl, fun ho => ?_, fun ho => ?_, fun p hp => ?_⟩
  · unfold writePpm; rw [if_pos ho, if_pos rfl]; exact h2
  · unfold writePpm; rw [if_neg (by simp [ho])]
  · unfold writePpm
    split
    · exact if_neg hp
    · rfl

private theorem defined_nth {w : Nat} (s : Stream (R (BitVec w))) (k : Nat) (v : BitVec w) (h : s.nth k = .ok v) : (definedStream s).nth k = v := by
  rw [Stream.nth_eq] at h ⊢
  have : (definedStream s).stateAt k = s.stateAt k := rfl
  rw [this]
  show (match (s.step (s.stateAt k)).1 with | .ok v => v | .error _ => 0) = v
  rw [h]

private theorem picture_stream {w : Nat} (hw : 16 ≤ w) (source : Stream (BitVec w)) (fuel : Nat) (hf : 512 ≤ fuel) (canOpen : String → Bool)
    (fs : FileSystem) (path : String) :
    ∃ fs', writeStreamPpm canOpen fs path source fuel = some fs' ∧ (canOpen path = true → IsPicture w source.nth (fs' path)) ∧
      (canOpen path = false → fs' path = fs path) ∧ ∀ p, p ≠ path → fs' p = fs p := by
  obtain ⟨st, h1, h2⟩ := picture hw (fun s _ _ => source.step s) source.state fuel hf source.nth (fun k hk => by
    rw [calls_step, Stream.take_eq_map, List.getElem?_map, List.getElem?_range (by simpa using hk)]
    refine congrArg some ?_
    rw [Stream.nth_eq, Stream.nth_eq]
    rfl)
  refine ⟨writePpm canOpen fs path 512 512 st.2, by unfold writeStreamPpm; rw [h1]; rfl, fun ho => ?_, fun ho => ?_, fun p hp => ?_⟩
  · unfold writePpm; rw [if_pos ho, if_pos rfl]; exact h2
  · unfold writePpm; rw [if_neg (by simp [ho])]
  · unfold writePpm
    split
    · exact if_neg hp
    · rfl

/-- C121. `-ppm` for words of at least 16 bits, any catalogue of mixers with distinct names (none of them "trng"): the command ends; for
every mixer the file named after it is the picture of `mix(0), mix(1), ..., mix(2^18 - 1)`; if there is a data file, `trng.ppm` is the picture of its
words, read in a circle; files that cannot be opened and all other files are as before. -/
theorem C121_ppm (t : WT) (ht : 16 ≤ t.bits) (c : Config) (canOpen : String → Bool) (mixers : List (Mixer t.bits))
    (hnames : (mixers.map Mixer.name).Nodup) (htrng : "trng" ∉ mixers.map Mixer.name) (fuel : Nat) (hf : 512 ≤ fuel) (fs : FileSystem)
    (trng : Option (List (BitVec t.bits))) (hd : getFileData t.bits fs c.trngFilePath = .ok trng) (hne : trng ≠ some []) :
    ∃ fs', ppmCommand t c canOpen mixers fuel fs = .ok (some fs') ∧
      (∀ m ∈ mixers, canOpen (c.rootPath ++ s!"ppm{t.bits}/" ++ m.name ++ ".ppm") = true →
        IsPicture t.bits (fun k => m.mix (BitVec.ofNat t.bits k)) (fs' (c.rootPath ++ s!"ppm{t.bits}/" ++ m.name ++ ".ppm"))) ∧
      (∀ data, trng = some data → canOpen (c.rootPath ++ s!"ppm{t.bits}/" ++ "trng.ppm") = true →
        IsPicture t.bits (fun k => data.getD (k % data.length) 0) (fs' (c.rootPath ++ s!"ppm{t.bits}/" ++ "trng.ppm"))) ∧
      (∀ p, canOpen p = false → fs' p = fs p) ∧
      (∀ p, (∀ m ∈ mixers, p ≠ c.rootPath ++ s!"ppm{t.bits}/" ++ m.name ++ ".ppm") →
        (trng = none ∨ p ≠ c.rootPath ++ s!"ppm{t.bits}/" ++ "trng.ppm") → fs' p = fs p) := by
  have hdir : c.ppmDir t = c.rootPath ++ s!"ppm{t.bits}/" := by
    show c.rootPath ++ "ppm" ++ toString t.bits ++ "/" = c.rootPath ++ ("ppm" ++ toString t.bits ++ "/")
    simp [String.append_assoc]
  set dir := c.rootPath ++ s!"ppm{t.bits}/" with hdirdef
  have hinj : ∀ a b : String, dir ++ a ++ ".ppm" = dir ++ b ++ ".ppm" → a = b := by
    intro a b h
    have h' := congrArg String.toList h
    simp only [String.toList_append, List.append_assoc] at h'
    have := List.append_cancel_left h'
    exact String.toList_inj.1 (List.append_cancel_right this)
  clear_value dir
  have gen : ∀ (l : List (Mixer t.bits)), (l.map Mixer.name).Nodup → ∀ fs0 : FileSystem, ∃ fs', l.foldlM (fun fs m =>
      writeMixerPpm canOpen fs (c.ppmDir t ++ m.name ++ ".ppm") m fuel) fs0 = some fs' ∧
      (∀ m ∈ l, canOpen (dir ++ m.name ++ ".ppm") = true → IsPicture t.bits (fun k => m.mix (BitVec.ofNat t.bits k)) (fs' (dir ++ m.name ++ ".ppm"))) ∧
      (∀ p, canOpen p = false → fs' p = fs0 p) ∧ (∀ p, (∀ m ∈ l, p ≠ dir ++ m.name ++ ".ppm") → fs' p = fs0 p) := by
    intro l
    induction l with
    | nil => intro _ fs0; exact ⟨fs0, rfl, by simp, fun _ _ => rfl, fun _ _ => rfl⟩
    | cons m l ih =>
      intro hnd fs0
      rw [List.map_cons, List.nodup_cons] at hnd
      obtain ⟨fs1, h1, h2, h3, h4⟩ := picture_mixer ht m fuel hf canOpen fs0 (dir ++ m.name ++ ".ppm")
      obtain ⟨fs2, g1, g2, g3, g4⟩ := ih hnd.2 fs1
      refine ⟨fs2, ?_, ?_, ?_, ?_⟩
      · rw [List.foldlM_cons, hdir, h1]
        rw [hdir] at g1
        exact g1
      · intro m' hm' ho
        rcases List.mem_cons.1 hm' with rfl | hm'
        · rw [g4 _ (fun m2 hm2 h => hnd.1 (by rw [hinj _ _ h]; exact List.mem_map_of_mem hm2))]
          exact h2 ho
        · exact g2 m' hm' ho
      · intro p hp
        rw [g3 p hp]
        by_cases h : p = dir ++ m.name ++ ".ppm"
        · subst h; exact h3 hp
        · exact h4 p h
      · intro p hp
        rw [g4 p (fun m' hm' => hp m' (List.mem_cons_of_mem _ hm')), h4 p (hp m List.mem_cons_self)]
  unfold ppmCommand
  rw [hd, hbind]
  match trng, hne with
  | none, _ =>
    obtain ⟨fs', g1, g2, g3, g4⟩ := gen mixers hnames fs
    exact ⟨fs', by dsimp only; rw [hbind]; exact congrArg Except.ok g1, g2, by simp, g3, fun p hp _ => g4 p hp⟩
  | some (v :: rest), _ =>
    set data := v :: rest with hdata
    have hdne : data ≠ [] := by simp [hdata]
    obtain ⟨fs1, h1, h2, h3, h4⟩ := picture_stream ht (definedStream (dataStream "trng" data 0)) fuel hf canOpen fs (dir ++ "trng" ++ ".ppm")
    obtain ⟨fs', g1, g2, g3, g4⟩ := gen mixers hnames fs1
    have hpath : dir ++ "trng.ppm" = dir ++ "trng" ++ ".ppm" := by rw [String.append_assoc]; rfl
    refine ⟨fs', ?_, g2, ?_, ?_, ?_⟩
    · show Except.ok ((writeStreamPpm canOpen fs (c.ppmDir t ++ "trng" ++ ".ppm") (definedStream (dataStream "trng" data 0)) fuel).bind fun fs =>
        List.foldlM (fun fs m => writeMixerPpm canOpen fs (c.ppmDir t ++ m.name ++ ".ppm") m fuel) fs mixers) = Except.ok (some fs')
      rw [hdir] at g1 ⊢
      rw [h1]
      exact congrArg Except.ok g1
    · intro data' hd' ho
      obtain rfl : data = data' := Option.some.inj hd'
      rw [hpath] at ho ⊢
      rw [g4 _ (fun m hm h => htrng (by rw [hinj _ _ h]; exact List.mem_map_of_mem hm))]
      obtain ⟨bytes, dat, e1, e2, e3, e4⟩ := h2 ho
      refine ⟨bytes, dat, e1, e2, e3, fun k hk b hb ch hch => ?_⟩
      rw [e4 k hk b hb ch hch]
      obtain ⟨v, hv, hk'⟩ := C27_dataStream "trng" data 0 k hdne (by simp; omega)
      have hz : ((0 : BitVec 64).toNat + k) % data.length = k % data.length := by simp
      rw [hz] at hk'
      dsimp only
      rw [defined_nth _ k v hv, List.getD_eq_getElem?_getD, hk']
      rfl
    · intro p hp
      rw [g3 p hp]
      by_cases h : p = dir ++ "trng" ++ ".ppm"
      · subst h; exact h3 hp
      · exact h4 p h
    · intro p hp ht
      rw [g4 p hp]
      refine h4 p ?_
      rcases ht with ht | ht
      · simp at ht
      · rw [← hpath]; exact ht

/-- C121. What a viewer shows of such a file: the pixels beyond the announced 512 x 512 are ignored, so the pixel in column x of row y shows byte
`(512 y + x) mod (w/8)` of word `(512 y + x) / (w/8)`: only the first `2^18 / (w/8)` words are visible. -/
theorem C121_displayed (w : Nat) (hw : 8 ≤ w) (f : Nat → BitVec w) (file : Option (List Byte)) (h : IsPicture w f file) :
    ∃ bytes data, file = some bytes ∧ readPpm bytes = some (512, 512, 255, data) ∧ 3 * 512 * 512 ≤ data.length ∧
      ∀ x < 512, ∀ y < 512, ∀ channel < 3, data[3 * (512 * y + x) + channel]? =
        some ((f ((512 * y + x) / (w / 8))).extractLsb' (8 * ((512 * y + x) % (w / 8))) 8) := by
  obtain ⟨bytes, data, h1, h2, h3, h4⟩ := h
  have h8 : 0 < w / 8 := by omega
  refine ⟨bytes, data, h1, h2, by rw [h3]; exact Nat.le_mul_of_pos_left _ h8, fun x hx y hy ch hc => ?_⟩
  have := h4 ((512 * y + x) / (w / 8)) (lt_of_le_of_lt (Nat.div_le_self _ _) (by omega)) ((512 * y + x) % (w / 8)) (Nat.mod_lt _ h8) ch hc
  rw [Nat.div_add_mod] at this
  exact this

/-- C121. Two pictures are the same file only if the words are the same: the picture of a mixer determines its first `2^18` values. -/
theorem C121_faithful (w : Nat) (hw : w % 8 = 0) (f g : Nat → BitVec w) (file : Option (List Byte)) (hf : IsPicture w f file) (hg : IsPicture w g file) :
    ∀ k < 2 ^ 18, f k = g k := by
  obtain ⟨bytes, data, h1, h2, h3, h4⟩ := hf
  obtain ⟨bytes', data', g1, g2, g3, g4⟩ := hg
  obtain rfl : bytes = bytes' := Option.some.inj (h1.symm.trans g1)
  obtain rfl : data = data' := by
    have := h2.symm.trans g2
    simpa using this
  intro k hk
  have : leBytes w (f k) = leBytes w (g k) := by
    unfold leBytes
    refine List.map_congr_left fun b hb => ?_
    have hb' := List.mem_range.1 hb
    exact Option.some.inj ((h4 k hk b hb' 0 (by norm_num)).symm.trans (g4 k hk b hb' 0 (by norm_num)))
  rw [← leWord_leBytes hw (f k), this, leWord_leBytes hw]

/-- C121. For 8-bit words the command never ends (the loop counter wraps around at 256) if there is a data file or a mixer. -/
theorem C121_bytes_endless (c : Config) (canOpen : String → Bool) (mixers : List (Mixer WT.u8.bits)) (fuel : Nat) (fs : FileSystem)
    (trng : Option (List (BitVec WT.u8.bits))) (hd : getFileData WT.u8.bits fs c.trngFilePath = .ok trng) (hne : trng ≠ some [])
    (h : trng ≠ none ∨ mixers ≠ []) : ppmCommand .u8 c canOpen mixers fuel fs = .ok none := by
  have never : ∀ {S : Type} (func : S → BitVec WT.u8.bits → BitVec WT.u8.bits → BitVec WT.u8.bits × S) (s : S), ppmData func s 512 512 fuel = none :=
    fun func s => C70_never_ends func s 512 512 (Or.inl (show 2 ^ 8 ≤ 512 by norm_num)) fuel
  unfold ppmCommand
  rw [hd, hbind]
  match trng, hne with
  | none, _ =>
    cases mixers with
    | nil => simp at h
    | cons m l =>
      dsimp only
      rw [hbind, Option.bind_some, List.foldlM_cons]
      unfold writeMixerPpm
      rw [never]
      rfl
  | some (v :: rest), _ =>
    dsimp only
    rw [hbind]
    unfold writeStreamPpm
    rw [never]
    rfl


/-- C121, non-vacuity: `-ppm` with the shipped catalogue and a data file of six bytes (which is one word; the rest is ignored). -/
example (root : String) : ∃ fs', ppmCommand .u32 ⟨root⟩ (fun _ => true) (getMixers .u32) 512
      (fun p => if p = Config.trngFilePath ⟨root⟩ then some [1, 2, 3, 4, 5, 6] else none) = .ok (some fs') ∧
    IsPicture 32 (fun k => mix32_mx3 (BitVec.ofNat 32 k)) (fs' (root ++ "ppm32/mix32::mx3.ppm")) ∧
    IsPicture 32 (fun _ => 0x04030201#32) (fs' (root ++ "ppm32/trng.ppm")) := by
  have hn : (getMixers .u32).map Mixer.name = ["mix32::mx1", "mix32::mx2", "mix32::mx3", "mix32::prospector", "mix32::prospector_boost", "mix32::murmur",
      "mix32::h2sql", "mix32::wang_1", "mix32::jenkins"] := (C118_names ⟨0, 0, 0, 0⟩).2.2.1
  obtain ⟨fs', h1, h2, h3, -, -⟩ := C121_ppm .u32 (by decide) ⟨root⟩ (fun _ => true) (getMixers .u32) (by rw [hn]; decide) (by rw [hn]; decide) 512
    le_rfl (fun p => if p = Config.trngFilePath ⟨root⟩ then some [1, 2, 3, 4, 5, 6] else none) (some [0x04030201#32])
    (by
      obtain ⟨data, d1, d2, d3⟩ := (C69_file_data (w := 32) (by norm_num) (by norm_num)
        (fun p => if p = Config.trngFilePath ⟨root⟩ then some [1, 2, 3, 4, 5, 6] else none) (Config.trngFilePath ⟨root⟩)).2 [1, 2, 3, 4, 5, 6] (if_pos rfl) (by decide)
      obtain ⟨data', e1, e2, e3⟩ := C69_read (w := 32) (by norm_num) (by norm_num)
        (fun p => if p = Config.trngFilePath ⟨root⟩ then some [1, 2, 3, 4, 5, 6] else none) (Config.trngFilePath ⟨root⟩) [1, 2, 3, 4, 5, 6] (if_pos rfl) (by decide)
        (BitVec.allOnes 64)
      obtain rfl : data' = data := by rw [d2] at e1; exact (Except.ok.inj e1).symm
      match data', d3 with
      | [v], _ =>
        have : v = 0x04030201#32 := by
          rw [← leWord_leBytes (by norm_num) v]
          have : leBytes 32 v = [1, 2, 3, 4] := by simpa using e3
          rw [this]; rfl
        rw [← this]; exact d1) (by simp)
  refine ⟨fs', h1, ?_, ?_⟩
  · have := h2 ⟨"mix32::mx3", mix32_mx3⟩ (by show _ ∈ getMixers32; unfold getMixers32; simp) rfl
    rwa [show (root ++ s!"ppm{WT.u32.bits}/" ++ "mix32::mx3" ++ ".ppm") = root ++ "ppm32/mix32::mx3.ppm" by simp only [String.append_assoc]; rfl] at this
  · have := h3 _ rfl rfl
    rw [show (root ++ s!"ppm{WT.u32.bits}/" ++ "trng.ppm") = root ++ "ppm32/trng.ppm" by simp only [String.append_assoc]; rfl] at this
    simpa [Nat.mod_one] using this

/-! #### Data files -/

/-- A 64-bit word as words of `w` bits, least significant first. -/
def Spec.splitWord (w : Nat) (v : BitVec 64) : List (BitVec w) := (List.range (64 / w)).map fun j => v.extractLsb' (w * j) w

private theorem flatMap_bytes_inj {w : Nat} (hw : w % 8 = 0) (a b : List (BitVec w)) (hl : a.length = b.length)
    (h : a.flatMap (leBytes w) = b.flatMap (leBytes w)) : a = b := by
  induction a generalizing b with
  | nil => exact (List.length_eq_zero_iff.1 hl.symm).symm
  | cons x a ih =>
    match b, hl with
    | y :: b, hl =>
      rw [List.flatMap_cons, List.flatMap_cons] at h
      obtain ⟨h1, h2⟩ := List.append_inj h (by rw [leBytes_length, leBytes_length])
      rw [← leWord_leBytes hw x, h1, leWord_leBytes hw, ih b (by simpa using hl) h2]

private theorem bytes_length {w : Nat} (data : List (BitVec w)) : (data.flatMap (leBytes w)).length = data.length * (w / 8) := by
  induction data with
  | nil => simp
  | cons v data ih => rw [List.flatMap_cons, List.length_append, ih, leBytes_length, List.length_cons]; ring

private theorem split_bytes (t : WT) (v : BitVec 64) : leBytes 64 v = (splitWord t.bits v).flatMap (leBytes t.bits) := by
  have key : ∀ i w n : Nat, 8 * i + 8 ≤ w → (v.extractLsb' (w * n) w).extractLsb' (8 * i) 8 = v.extractLsb' (w * n + 8 * i) 8 := by
    intro i w n hi
    apply BitVec.eq_of_getLsbD_eq
    intro j hj
    rw [BitVec.getLsbD_extractLsb', BitVec.getLsbD_extractLsb', BitVec.getLsbD_extractLsb', Nat.add_assoc]
    simp [hj, show 8 * i + j < w by omega]
  have hlen : ((splitWord t.bits v).flatMap (leBytes t.bits)).length = 8 := by
    rw [bytes_length]; unfold splitWord; rw [List.length_map, List.length_range]
    cases t <;> rfl
  obtain ⟨m, h8, hm, h64⟩ : ∃ m, t.bits = 8 * m ∧ 0 < m ∧ 64 / t.bits * m = 8 := by
    cases t
    · exact ⟨1, rfl, by norm_num, rfl⟩
    · exact ⟨2, rfl, by norm_num, rfl⟩
    · exact ⟨4, rfl, by norm_num, rfl⟩
    · exact ⟨8, rfl, by norm_num, rfl⟩
  have hm8 : t.bits / 8 = m := by omega
  apply List.ext_getElem?
  intro i
  by_cases hi : i < 8
  · have hb := block_index (leBytes t.bits) m (splitWord t.bits v) (fun a _ => by rw [leBytes_length, hm8]) (i / m) (i % m) (Nat.mod_lt _ hm)
    rw [Nat.div_add_mod] at hb
    rw [hb]
    have hq : i / m < 64 / t.bits := by rw [Nat.div_lt_iff_lt_mul hm, h64]; exact hi
    have hr := Nat.mod_lt i hm
    have e1 : (splitWord t.bits v)[i / m]? = some (v.extractLsb' (t.bits * (i / m)) t.bits) := by
      unfold splitWord
      rw [List.getElem?_map, List.getElem?_range hq]; rfl
    rw [e1, Option.bind_some]
    unfold leBytes
    rw [List.getElem?_map, List.getElem?_map, List.getElem?_range (by simpa using hi), List.getElem?_range (by omega), Option.map_some, Option.map_some,
      key _ _ _ (by omega)]
    refine congrArg (fun k => some (v.extractLsb' k 8)) ?_
    rw [h8]
    have := Nat.div_add_mod i m
    nlinarith
  · rw [List.getElem?_eq_none (by rw [leBytes_length]; omega), List.getElem?_eq_none (by rw [hlen]; omega)]

/-- C121. `export_rdrand(p)` appends the `2^p` values to the data file: whoever reads it afterwards as words of 8, 16, 32 or 64 bits gets the
words that were there before, followed by the values, each split into words from the least significant end.  No other file changes. -/
theorem C121_export (c : Config) (power : Nat) (hp : power ≤ 59) (rdrand : Nat → BitVec 64) (fs : FileSystem) (old : List (BitVec 64))
    (hold : (fs c.drngFilePath = none ∧ old = []) ∨ fs c.drngFilePath = some (old.flatMap (leBytes 64)))
    (hsize : (old.length + 2 ^ power) * 8 < 2 ^ 63) :
    ∃ fs', exportRdrand c power rdrand fs = .ok fs' ∧ (∀ p, p ≠ c.drngFilePath → fs' p = fs p) ∧
      ∀ t : WT, getFileData t.bits fs' c.drngFilePath = .ok (some ((old ++ (List.range (2 ^ power)).map rdrand).flatMap (splitWord t.bits))) := by
  have hpow : (2 : Nat) ^ power ≤ 2 ^ 59 := Nat.pow_le_pow_right (by norm_num) hp
  have hmax : ¬ vectorMaxSize 64 < 2 ^ power := by
    have : vectorMaxSize 64 = (2 ^ 63 - 1) / 8 := rfl
    omega
  refine ⟨writeBinary fs c.drngFilePath ((List.range (2 ^ power)).map rdrand) true, ?_, fun p h => ?_, fun t => ?_⟩
  · unfold exportRdrand
    rw [if_neg (by omega), Int.toNat_natCast, if_neg hmax]
  · simp [writeBinary, h]
  · set words := old ++ (List.range (2 ^ power)).map rdrand with hwords
    have hfile : writeBinary fs c.drngFilePath ((List.range (2 ^ power)).map rdrand) true c.drngFilePath = some (words.flatMap (leBytes 64)) := by
      unfold writeBinary
      rcases hold with ⟨h, rfl⟩ | h
      · simp [h, hwords]
      · simp [h, hwords]
    have hsplit : words.flatMap (leBytes 64) = (words.flatMap (splitWord t.bits)).flatMap (leBytes t.bits) := by
      rw [List.flatMap_assoc]
      exact congrArg (fun f => words.flatMap f) (funext fun v => split_bytes t v)
    have hlen : (words.flatMap (leBytes 64)).length = (old.length + 2 ^ power) * 8 := by
      rw [bytes_length, hwords]; simp
    obtain ⟨data, d1, d2, d3⟩ := (C69_file_data (w := t.bits) (by cases t <;> rfl) (by cases t <;> decide) _ c.drngFilePath).2 _ hfile (by rw [hlen]; exact hsize)
    obtain ⟨data', e1, e2, e3⟩ := C69_read (w := t.bits) (by cases t <;> rfl) (by cases t <;> decide) _ c.drngFilePath _ hfile (by rw [hlen]; exact hsize)
      (BitVec.allOnes 64)
    obtain rfl : data' = data := by
      have : (Except.ok data : R _) = .ok data' := d2.symm.trans e1
      exact (Except.ok.inj this).symm
    have hsl : (words.flatMap (leBytes 64)).length = (words.flatMap (splitWord t.bits)).length * (t.bits / 8) := by rw [hsplit, bytes_length]
    have h8 : 0 < t.bits / 8 := by cases t <;> decide
    have hl : data'.length = (words.flatMap (splitWord t.bits)).length := by
      rw [d3, hsl, Nat.mul_div_cancel _ h8]
    rw [d1, flatMap_bytes_inj (by cases t <;> rfl) data' _ hl (by
      rw [e3, hl, ← hsplit, List.take_of_length_le (by rw [hsl])])]

/-- C121. `build_trng` writes the contents of the files it finds one after the other; no other file changes. -/
theorem C121_build (files : List String) (target : String) (fs : FileSystem) (contents : List (List Byte))
    (h : List.Forall₂ (fun path bytes => fs path = some bytes ∧ bytes.length < 2 ^ 63) files contents) :
    ∃ fs', buildTrng files target fs = .ok fs' ∧ fs' target = some contents.flatten ∧ ∀ p, p ≠ target → fs' p = fs p := by
  have hb : ∀ v : Byte, leBytes 8 v = [v] := by
    intro v
    show [v.extractLsb' 0 8] = [v]
    simp
  have hread : ∀ path bytes, fs path = some bytes → bytes.length < 2 ^ 63 → readBinary 8 fs path = .ok bytes := by
    intro path bytes h1 h2
    obtain ⟨data, e1, e2, e3⟩ := C69_read (w := 8) (by norm_num) (by norm_num) fs path bytes h1 h2 (BitVec.allOnes 64)
    have hl : data.length = bytes.length := by
      rw [e2, BitVec.toNat_allOnes]
      omega
    have hid : ∀ l : List Byte, l.flatMap (leBytes 8) = l := by
      intro l
      induction l with
      | nil => rfl
      | cons a l ih => rw [List.flatMap_cons, ih, hb]; rfl
    rw [hid, hl, Nat.mul_one, List.take_length] at e3
    rw [e1, e3]
  have gen : ∀ (files : List String) (contents : List (List Byte)),
      List.Forall₂ (fun path bytes => fs path = some bytes ∧ bytes.length < 2 ^ 63) files contents → ∀ acc : List Byte,
      files.foldlM (fun (data : List Byte) path => do .ok (data ++ (← readBinary 8 fs path))) acc = (.ok (acc ++ contents.flatten) : R _) := by
    intro files contents h
    induction h with
    | nil => intro acc; simp; rfl
    | cons h1 _ ih =>
      intro acc
      rw [List.foldlM_cons, hread _ _ h1.1 h1.2, hbind, hbind, ih, List.flatten_cons, List.append_assoc]
  refine ⟨writeBinary fs target contents.flatten false, ?_, ?_, fun p hp => by simp [writeBinary, hp]⟩
  · unfold buildTrng
    rw [gen files contents h, hbind]
    rfl
  · have hid : ∀ l : List Byte, l.flatMap (leBytes 8) = l := by
      intro l
      induction l with
      | nil => rfl
      | cons a l ih => rw [List.flatMap_cons, ih, hb]; rfl
    simp [writeBinary, hid]

/-- C121, non-vacuity: two values appended to a file with one word, read as 32-bit words; two files joined. -/
example : ∃ fs', exportRdrand ⟨"r/"⟩ 1 (fun i => if i = 0 then 0x100000002#64 else 3#64)
      (fun p => if p = "r/data/drng.bin" then some [7, 0, 0, 0, 0, 0, 0, 0] else none) = .ok fs' ∧
    getFileData 32 fs' "r/data/drng.bin" = .ok (some [7#32, 0#32, 2#32, 1#32, 3#32, 0#32]) := by
  obtain ⟨fs', h1, -, h2⟩ := C121_export ⟨"r/"⟩ 1 (by norm_num) (fun i => if i = 0 then 0x100000002#64 else 3#64)
    (fun p => if p = "r/data/drng.bin" then some [7, 0, 0, 0, 0, 0, 0, 0] else none) [7#64] (Or.inr (by decide)) (by decide)
  exact ⟨fs', h1, (h2 .u32).trans (by decide)⟩
example : ∃ fs', buildTrng ["a", "b"] "t" (fun p => if p = "a" then some [1, 2] else if p = "b" then some [3] else none) = .ok fs' ∧
    fs' "t" = some [1, 2, 3] := by
  obtain ⟨fs', h1, h2, -⟩ := C121_build ["a", "b"] "t" (fun p => if p = "a" then some [1, 2] else if p = "b" then some [3] else none) [[1, 2], [3]]
    (.cons ⟨by decide, by decide⟩ (.cons ⟨by decide, by decide⟩ .nil))
  exact ⟨fs', h1, h2⟩

/-! ### C122 -/

private theorem file_some (disk : FileSystem) (path : String) (h : ∀ bytes, disk path = some bytes → 8 ≤ bytes.length ∧ bytes.length < 2 ^ 63) (t : WT)
    (data : Option (List (BitVec t.bits))) (hd : getFileData t.bits disk path = .ok data) : data ≠ some [] ∧ (data = none ↔ disk path = none) := by
  obtain ⟨g1, g2⟩ := C69_file_data (w := t.bits) (by cases t <;> rfl) (by cases t <;> decide) disk path
  cases hp : disk path with
  | none =>
    rw [g1 hp] at hd
    obtain rfl := Except.ok.inj hd
    simp
  | some bytes =>
    obtain ⟨h8, h63⟩ := h bytes hp
    obtain ⟨l, e1, -, e3⟩ := g2 bytes hp h63
    rw [e1] at hd
    obtain rfl := Except.ok.inj hd
    refine ⟨fun h => ?_, by simp⟩
    have : l = [] := by simpa using h
    rw [this, List.length_nil] at e3
    have h8' : t.bits / 8 ≤ 8 := by cases t <;> decide
    have hpos : 0 < t.bits / 8 := by cases t <;> decide
    have := (Nat.le_div_iff_mul_le hpos).2 (show 1 * (t.bits / 8) ≤ bytes.length by omega)
    omega

/-- The name of the report for words of `bits` bits. -/
def Spec.reportName (root : String) (bits : Nat) : String := root ++ "result_" ++ toString bits ++ ".md"

/-- C122. `tfr-tool <root> -test`, with data files that are missing or hold at least eight bytes, for every outcome of the evaluations under every
schedule: exit code 0; exactly the files `result_8.md`, `result_16.md`, `result_32.md` and `result_64.md` are written; each consists of the
introduction and one line per subject, in the order of the catalogue, the data files that exist first.  Twelve subjects are reported as failed
with `2^10` values because of the runs test or the uniformity test, and four with at most `2^24` values. -/
theorem C122_test_run (prog root : String) (analyse : Battery ℝ → List ResultAnalysis) (ha : Analyses analyse) (hw : BitVec 32) (disk : FileSystem)
    (hfiles : ∀ path ∈ [root ++ "data/trng.bin", root ++ "data/drng.bin"], ∀ bytes, disk path = some bytes → 8 ≤ bytes.length ∧ bytes.length < 2 ^ 63)
    (trng drng : (t : WT) → Option (List (BitVec t.bits)))
    (htrng : ∀ t, getFileData t.bits disk (root ++ "data/trng.bin") = .ok (trng t))
    (hdrng : ∀ t, getFileData t.bits disk (root ++ "data/drng.bin") = .ok (drng t))
    (fuel : Nat) (hfuel : 2 ^ 64 ≤ fuel) (setups : (t : WT) → List (TestSetup t.bits))
    (hs : ∀ t, testCommandSetups t (defaultMaxThreads hw) (shipped t (trng t) (drng t)) fuel = some (.ok (setups t)))
    (runs : (t : WT) → List (EvalRun t.bits)) (hruns : ∀ t, (runs t).map Prod.fst = setups t)
    (hout : ∀ t, ∀ run ∈ runs t, ∀ k : Nat, 10 ≤ k → k ≤ 25 →
      EvaluateOutcome (suiteDef chi2DistributionCdf) (BitVec.ofNat 64 (2 ^ k)) run.1 (run.2 (BitVec.ofNat 64 (2 ^ k))))
    (fs : TextFiles) :
    ∃ (fs' : TextFiles) (rows : WT → List ReportRow), toolMain (testExec analyse runs) [prog, root, "-test"] (.ok fs) = (.ok fs', 0) ∧
      (∀ t, fs' (reportName root t.bits) = some (reportIntro t.bits ++ String.join ((rows t).map ReportRow.text))) ∧
      (∀ p, (∀ t : WT, p ≠ reportName root t.bits) → fs' p = fs p) ∧
      (∀ t, (rows t).map ReportRow.subject =
        (if disk (root ++ "data/trng.bin") = none then [] else [s!"file{t.bits}::trng"]) ++
        (if disk (root ++ "data/drng.bin") = none then [] else [s!"file{t.bits}::drng"]) ++
        (getMixers t).map Mixer.name ++ ((getPrngs t).map fun p => (p ⟨0, 0, 0, 0⟩).name) ++ (getCombiners t).map Combiner.name) ∧
      (∀ name ∈ ["mix32::mx1", "mix32::wang_1", "mix32::jenkins", "combine32::mx1", "mix64::mx1", "mix64::moremur", "mix64::murmur3", "mix64::xxh3",
          "mix64::fast_hash"], ∃ t, ∃ row ∈ rows t, row.subject = name ∧ row.passed = false ∧ row.power = 10 ∧ "runs" ∈ row.failures) ∧
      (∀ name ∈ ["mix8::xm3x", "rng32::minstd_rand", "combine32::boost"],
        ∃ t, ∃ row ∈ rows t, row.subject = name ∧ row.passed = false ∧ row.power = 10 ∧ "uniform" ∈ row.failures) ∧
      (∀ name ∈ ["mix16::xm3x", "rng32::xorshift", "rng32::xorshift_64", "rng64::xorshift"],
        ∃ t, ∃ row ∈ rows t, row.subject = name ∧ row.passed = false ∧ row.power ≤ 24 ∧ row.failures ≠ []) := by
  have hfu : ∀ t : WT, 2 ^ t.bits ≤ fuel := fun t => le_trans (Nat.pow_le_pow_right (by norm_num) (by cases t <;> decide)) hfuel
  have ht : ∀ t, trng t ≠ some [] ∧ (trng t = none ↔ disk (root ++ "data/trng.bin") = none) := fun t =>
    file_some disk _ (hfiles _ (by simp)) t _ (htrng t)
  have hd : ∀ t, drng t ≠ some [] ∧ (drng t = none ↔ disk (root ++ "data/drng.bin") = none) := fun t =>
    file_some disk _ (hfiles _ (by simp)) t _ (hdrng t)
  have hsub : ∀ t : WT, ((trng t).toList.map fun _ => s!"file{t.bits}::trng") ++ ((drng t).toList.map fun _ => s!"file{t.bits}::drng") =
      (if disk (root ++ "data/trng.bin") = none then [] else [s!"file{t.bits}::trng"]) ++
      (if disk (root ++ "data/drng.bin") = none then [] else [s!"file{t.bits}::drng"]) := by
    intro t
    have h1 := (ht t).2
    have h2 := (hd t).2
    congr 1
    · cases h : trng t with
      | none => rw [if_pos (h1.1 h)]; rfl
      | some l => rw [if_neg (fun h' => by rw [h1.2 h'] at h; simp at h)]; rfl
    · cases h : drng t with
      | none => rw [if_pos (h2.1 h)]; rfl
      | some l => rw [if_neg (fun h' => by rw [h2.2 h'] at h; simp at h)]; rfl
  have hpath : ∀ t : WT, Config.testResultFilePath ⟨root⟩ t = reportName root t.bits := fun t => rfl
  obtain ⟨f1, r1, a1, a2, a3, a4, a5⟩ := C118_report_8 analyse ha hw _ _ (ht .u8).1 (hd .u8).1 fuel (hfu .u8) _ (hs .u8) _ (hruns .u8) (hout .u8) ⟨root⟩ fs
  obtain ⟨f2, r2, b1, b2, b3, b4, b5⟩ := C118_report_16 analyse ha hw _ _ (ht .u16).1 (hd .u16).1 fuel (hfu .u16) _ (hs .u16) _ (hruns .u16) (hout .u16) ⟨root⟩ f1
  obtain ⟨f3, r3, c1, c2, c3, c4, c5, c6, c7, c8⟩ := C118_report_32 analyse ha hw _ _ (ht .u32).1 (hd .u32).1 fuel (hfu .u32) _ (hs .u32) _ (hruns .u32) (hout .u32) ⟨root⟩ f2
  obtain ⟨f4, r4, d1, d2, d3, d4, d5, d6⟩ := C118_report_64 analyse ha hw _ _ (ht .u64).1 (hd .u64).1 fuel (hfu .u64) _ (hs .u64) _ (hruns .u64) (hout .u64) ⟨root⟩ f3
  rw [hpath] at a2 b2 c2 d2
  simp only [hpath] at a3 b3 c3 d3
  have hne : ∀ a b : Nat, a ≠ b → reportName root a ≠ reportName root b := by
    intro a b hab h
    refine hab ?_
    unfold reportName at h
    have h' := congrArg String.toList h
    simp only [String.toList_append, List.append_assoc] at h'
    have h2 := List.append_cancel_right (List.append_cancel_left (List.append_cancel_left h'))
    exact Nat.repr_injective (String.toList_inj.1 h2)
  refine ⟨f4, fun t => match t with | .u8 => r1 | .u16 => r2 | .u32 => r3 | .u64 => r4, ?_, ?_, ?_, ?_, ?_, ?_, ?_⟩
  · have hcalls : commandCalls "-test" = some [.test .u8, .test .u16, .test .u32, .test .u64] := if_pos rfl
    have hmain : toolMain (testExec analyse runs) [prog, root, "-test"] (.ok fs) = (match commandCalls "-test" with
        | some calls => ((runCalls (testExec analyse runs) ⟨root⟩ calls (.ok fs)).1, 0)
        | none => (.ok fs, 1)) := rfl
    rw [hmain, hcalls]
    simp only [runCalls, testExec, hbind, a1, b1, c1, d1]
  · intro t
    cases t
    · show f4 (reportName root 8) = _
      rw [d3 _ (hne 8 64 (by norm_num)), c3 _ (hne 8 32 (by norm_num)), b3 _ (hne 8 16 (by norm_num))]
      exact a2
    · show f4 (reportName root 16) = _
      rw [d3 _ (hne 16 64 (by norm_num)), c3 _ (hne 16 32 (by norm_num))]
      exact b2
    · show f4 (reportName root 32) = _
      rw [d3 _ (hne 32 64 (by norm_num))]
      exact c2
    · exact d2
  · intro p hp
    rw [d3 p (hp .u64), c3 p (hp .u32), b3 p (hp .u16), a3 p (hp .u8)]
  · intro t
    rw [← hsub t]
    obtain ⟨n1, n2, n3, n4, n5, n6, n7, n8, n9, n10, n11, n12⟩ := C118_names ⟨0, 0, 0, 0⟩
    cases t
    · rw [n1, n5, n9]; refine Eq.trans a4 ?_; simp only [List.append_assoc, List.cons_append, List.nil_append, List.append_nil]; rfl
    · rw [n2, n6, n10]; refine Eq.trans b4 ?_; simp only [List.append_assoc, List.cons_append, List.nil_append, List.append_nil]; rfl
    · rw [n3, n7, n11]; refine Eq.trans c4 ?_; simp only [List.append_assoc, List.cons_append, List.nil_append, List.append_nil]; rfl
    · rw [n4, n8, n12]; refine Eq.trans d4 ?_; simp only [List.append_assoc, List.cons_append, List.nil_append, List.append_nil]; rfl
  · intro name hname
    simp only [List.mem_cons, List.not_mem_nil, or_false] at hname
    rcases hname with rfl | rfl | rfl | rfl | rfl | rfl | rfl | rfl | rfl
    iterate 4 exact ⟨.u32, c5 _ (by simp)⟩
    all_goals exact ⟨.u64, d5 _ (by simp)⟩
  · intro name hname
    simp only [List.mem_cons, List.not_mem_nil, or_false] at hname
    rcases hname with rfl | rfl | rfl
    · exact ⟨.u8, a5⟩
    all_goals exact ⟨.u32, c6 _ (by simp)⟩
  · intro name hname
    simp only [List.mem_cons, List.not_mem_nil, or_false] at hname
    rcases hname with rfl | rfl | rfl | rfl
    · obtain ⟨row, h1, h2, h3, h4, h5⟩ := b5; exact ⟨.u16, row, h1, h2, h3, by omega, h5⟩
    · obtain ⟨row, h1, h2, h3, h4, h5⟩ := c7; exact ⟨.u32, row, h1, h2, h3, by omega, h5⟩
    · obtain ⟨row, h1, h2, h3, h4, h5⟩ := c8; exact ⟨.u32, row, h1, h2, h3, by omega, h5⟩
    · obtain ⟨row, h1, h2, h3, h4, h5⟩ := d6; exact ⟨.u64, row, h1, h2, h3, by omega, h5⟩

/-- C122, non-vacuity: for every disk with suitable data files, every number of processors and every root there are setups and outcomes. -/
example (root : String) (disk : FileSystem)
    (hfiles : ∀ path ∈ [root ++ "data/trng.bin", root ++ "data/drng.bin"], ∀ bytes, disk path = some bytes → 8 ≤ bytes.length ∧ bytes.length < 2 ^ 63)
    (hw : BitVec 32) :
    ∃ (analyse : Battery ℝ → List ResultAnalysis) (trng drng : (t : WT) → Option (List (BitVec t.bits))) (setups : (t : WT) → List (TestSetup t.bits))
      (runs : (t : WT) → List (EvalRun t.bits)), Analyses analyse ∧
    (∀ t, getFileData t.bits disk (root ++ "data/trng.bin") = .ok (trng t)) ∧ (∀ t, getFileData t.bits disk (root ++ "data/drng.bin") = .ok (drng t)) ∧
    (∀ t, testCommandSetups t (defaultMaxThreads hw) (shipped t (trng t) (drng t)) (2 ^ 64) = some (.ok (setups t))) ∧
    (∀ t, (runs t).map Prod.fst = setups t) ∧
    ∀ t, ∀ run ∈ runs t, ∀ k : Nat, 10 ≤ k → k ≤ 25 →
      EvaluateOutcome (suiteDef chi2DistributionCdf) (BitVec.ofNat 64 (2 ^ k)) run.1 (run.2 (BitVec.ofNat 64 (2 ^ k))) := by
  classical
  have hex : ∀ path ∈ [root ++ "data/trng.bin", root ++ "data/drng.bin"], ∀ t : WT, ∃ data : Option (List (BitVec t.bits)), getFileData t.bits disk path = .ok data := by
    intro path hp t
    obtain ⟨g1, g2⟩ := C69_file_data (w := t.bits) (by cases t <;> rfl) (by cases t <;> decide) disk path
    cases h : disk path with
    | none => exact ⟨_, g1 h⟩
    | some bytes =>
      obtain ⟨data, h1, -⟩ := g2 bytes h (hfiles path hp bytes h).2
      exact ⟨_, h1⟩
  choose trng htrng using hex (root ++ "data/trng.bin") (by simp)
  choose drng hdrng using hex (root ++ "data/drng.bin") (by simp)
  have hset : ∀ t : WT, ∃ setups, testCommandSetups t (defaultMaxThreads hw) (shipped t (trng t) (drng t)) (2 ^ 64) = some (.ok setups) := by
    intro t
    obtain ⟨setups, e1, -, -⟩ := C96_subjects t hw (shipped t (trng t) (drng t)) (2 ^ 64) (Nat.pow_le_pow_right (by norm_num) (by cases t <;> decide))
      (file_some disk _ (hfiles _ (by simp)) t _ (htrng t)).1 (file_some disk _ (hfiles _ (by simp)) t _ (hdrng t)).1
    exact ⟨setups, e1⟩
  choose setups hs using hset
  choose f hf using fun (t : WT) (s : TestSetup t.bits) n => C35_terminates (suiteDef chi2DistributionCdf) n s
  obtain ⟨analyse, -, -, -, ha, -⟩ := report_instance .u8 (shipped .u8 none none) (by simp [shipped]) (by simp [shipped])
  refine ⟨analyse, trng, drng, setups, fun t => (setups t).map fun s => (s, f t s), ha, htrng, hdrng, hs, fun t => by simp [Function.comp_def], ?_⟩
  intro t run hr k _ _
  obtain ⟨s, _, rfl⟩ := List.mem_map.1 hr
  exact hf t s _

end TFR
