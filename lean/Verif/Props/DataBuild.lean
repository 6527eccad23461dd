import Verif.Model.DataBuild
import Verif.Model.ToolRun
import Verif.Props.Files
import Verif.Props.Extra
import Verif.Props.HardwarePrngs
import Mathlib.Data.List.TakeWhile
/-
C139: the functions that make the data files.
-/
namespace TFR
open Spec

private theorem hbindB {α β : Type} (x : α) (f : α → R β) : ((Except.ok x : R α) >>= f) = f x := rfl

private theorem leBytes8' (v : Byte) : leBytes 8 v = [v] := by
  apply List.ext_getElem?
  intro i
  rcases i with _ | i
  · simp [leBytes]
  · simp [leBytes]

private theorem flat8 (data : List Byte) : data.flatMap (leBytes 8) = data := by
  induction data with
  | nil => rfl
  | cons a l ih => rw [List.flatMap_cons, leBytes8', ih]; rfl

private theorem read8' (fs : FileSystem) (path : String) (bytes : List Byte) (h : fs path = some bytes) (hl : bytes.length < 2 ^ 63) :
    readBinary 8 fs path = .ok bytes := by
  obtain ⟨data, h1, h2, h3⟩ := C69_read (w := 8) (by norm_num) (by norm_num) fs path bytes h hl (BitVec.allOnes 64)
  rw [h1]
  have hlen : data.length = bytes.length := by
    rw [h2, BitVec.toNat_allOnes]; simp; omega
  rw [flat8, hlen] at h3
  rw [h3]
  congr 1
  apply List.take_of_length_le
  simp

/-! ### export_rdrand -/

private theorem exportLoop_eq (hw : Nat → Option (BitVec 64)) (start fuel k st : Nat) (hk : (rdrand64 hw start).stateAt k = st)
    (data : List (BitVec 64)) (text : List Char) :
    exportLoop hw fuel k st data text =
      (data ++ (List.range' k fuel).map (rdrand64 hw start).nth,
       text ++ (List.range' k fuel).flatMap fun i => if i % 10000000 = 0 then ['.'] else []) := by
  induction fuel generalizing k st data text with
  | zero => simp [exportLoop]
  | succ fuel ih =>
    rw [exportLoop]
    have hst : (rdrand64 hw start).stateAt (k + 1) = (rdrandLoop hw 10 st).2 := by
      rw [Stream.stateAt_succ, hk]; rfl
    have hv : (rdrandLoop hw 10 st).1 = (rdrand64 hw start).nth k := by
      rw [Stream.nth_eq, hk]; rfl
    rw [ih (k + 1) _ hst, hv, List.range'_succ, List.map_cons, List.flatMap_cons]
    by_cases h : k % 10000000 = 0 <;> simp [h]

private theorem dots_length (n : Nat) : ((List.range' 0 n).flatMap fun i => if i % 10000000 = 0 then ['.'] else []) =
    List.replicate ((n + 9999999) / 10000000) '.' := by
  induction n with
  | zero => rfl
  | succ n ih =>
    rw [List.range'_concat, List.flatMap_append, ih, Nat.one_mul, Nat.zero_add, List.flatMap_cons, List.flatMap_nil, List.append_nil]
    by_cases h : n % 10000000 = 0
    · rw [if_pos h, show (n + 1 + 9999999) / 10000000 = (n + 9999999) / 10000000 + 1 by omega, List.replicate_succ']
    · rw [if_neg h, List.append_nil, show (n + 1 + 9999999) / 10000000 = (n + 9999999) / 10000000 by omega]

/-- C139. `export_rdrand(p)` for p from 0 to 59: appends to the file of the configuration the bytes of exactly the next 2^p values of `rdrand_64`,
touches no other file, and prints one dot for every started ten million values. -/
theorem C139_export (hw : Nat → Option (BitVec 64)) (start : Nat) (cfg : Config) (p : Nat) (hp : p ≤ 59) (fs : FileSystem) :
    ∃ fs', exportRdrandText hw start cfg p fs = .ok (fs', List.replicate ((2 ^ p + 9999999) / 10000000) '.') ∧
      fs' cfg.drngFilePath = some ((fs cfg.drngFilePath).getD [] ++
        ((List.range (2 ^ p)).map (rdrand64 hw start).nth).flatMap (leBytes 64)) ∧
      ∀ q, q ≠ cfg.drngFilePath → fs' q = fs q := by
  unfold exportRdrandText
  rw [if_pos (by constructor <;> omega), Int.toNat_natCast]
  have hmax : vectorMaxSize 64 = 2 ^ 60 - 1 := by unfold vectorMaxSize; norm_num
  have h2 : 2 ^ p ≤ 2 ^ 59 := Nat.pow_le_pow_right (by norm_num) hp
  dsimp only
  rw [if_neg (by rw [hmax]; omega)]
  have h := exportLoop_eq hw start (2 ^ p) 0 start rfl [] []
  rw [h, List.nil_append, List.nil_append, dots_length, ← List.range_eq_range']
  exact ⟨_, rfl, by simp [writeBinary], fun q hq => by simp [writeBinary, hq]⟩

/-- C139. Exporting in parts is exporting at once: if the file holds 64-bit words (or does not exist), `get_drng_data<uint64_t>` afterwards sees
these words followed by the new ones. -/
theorem C139_export_read (hw : Nat → Option (BitVec 64)) (start : Nat) (cfg : Config) (p : Nat) (hp : p ≤ 58) (fs : FileSystem)
    (old : List (BitVec 64)) (hold : (fs cfg.drngFilePath).getD [] = old.flatMap (leBytes 64)) (hlen : old.length < 2 ^ 59) :
    ∃ fs' text, exportRdrandText hw start cfg p fs = .ok (fs', text) ∧
      getFileData 64 fs' cfg.drngFilePath = .ok (some (old ++ (List.range (2 ^ p)).map (rdrand64 hw start).nth)) := by
  obtain ⟨fs', h1, h2, h3⟩ := C139_export hw start cfg p (by omega) fs
  refine ⟨fs', _, h1, ?_⟩
  rw [hold, ← List.flatMap_append] at h2
  have hpow : 2 ^ p ≤ 2 ^ 58 := Nat.pow_le_pow_right (by norm_num) hp
  have hl : (old ++ (List.range (2 ^ p)).map (rdrand64 hw start).nth).length * (64 / 8) < 2 ^ 63 := by
    rw [List.length_append, List.length_map, List.length_range]; omega
  generalize old ++ (List.range (2 ^ p)).map (rdrand64 hw start).nth = ws at h2 hl
  have hread := C69_round_trip_old (w := 64) (by norm_num) (by norm_num) fs' cfg.drngFilePath ws h2 [] (by simpa [written] using hl)
  rw [writes, written] at hread
  have hbl : (ws.flatMap (leBytes 64)).length < 2 ^ 63 := by
    have : ∀ ws : List (BitVec 64), (ws.flatMap (leBytes 64)).length = ws.length * 8 := by
      intro ws
      induction ws with
      | nil => rfl
      | cons a l ih => rw [List.flatMap_cons, List.length_append, leBytes_length, ih, List.length_cons]; omega
    rw [this]; omega
  obtain ⟨data, e1, e2, _⟩ := (C69_file_data (w := 64) (by norm_num) (by norm_num) fs' cfg.drngFilePath).2 _ h2 hbl
  rw [e1]
  rw [hread] at e2
  injection e2 with e2
  rw [e2]

/-- C139. Outside this range nothing is written: a shift by a negative or too large number is undefined, and from 2^60 values on reserving the
memory throws. -/
theorem C139_export_bad (hw : Nat → Option (BitVec 64)) (start : Nat) (cfg : Config) (p : Int) (fs : FileSystem) :
    (p < 0 ∨ 64 ≤ p → exportRdrandText hw start cfg p fs = .error .shiftTooLarge) ∧
    (60 ≤ p → p < 64 → exportRdrandText hw start cfg p fs = .error .thrown) := by
  constructor
  · intro h
    unfold exportRdrandText
    rw [if_neg (by omega)]
  · intro h1 h2
    unfold exportRdrandText
    rw [if_pos (by omega)]
    dsimp only
    have hmax : vectorMaxSize 64 = 2 ^ 60 - 1 := by unfold vectorMaxSize; norm_num
    have : 2 ^ 60 ≤ 2 ^ p.toNat := Nat.pow_le_pow_right (by norm_num) (by omega)
    rw [if_pos (by rw [hmax]; omega)]

example : exportRdrandText (fun i => if i % 3 = 0 then none else some (BitVec.ofNat 64 i)) 0 ⟨"r/"⟩ 2 (fun _ => none) =
    .ok ((exportRdrandText (fun i => if i % 3 = 0 then none else some (BitVec.ofNat 64 i)) 0 ⟨"r/"⟩ 2 (fun _ => none)).toOption.get!.1, ['.']) ∧
    (List.range 4).map (rdrand64 (fun i => if i % 3 = 0 then none else some (BitVec.ofNat 64 i)) 0).nth = [1, 2, 4, 5] :=
  ⟨rfl, by decide +kernel⟩

/-- C139. The loop over the instruction refines the coarse model of C121. -/
theorem C139_export_refines (hw : Nat → Option (BitVec 64)) (start : Nat) (cfg : Config) (p : Int) (fs : FileSystem) :
    (exportRdrandText hw start cfg p fs).map Prod.fst = exportRdrand cfg p (rdrand64 hw start).nth fs := by
  unfold exportRdrandText exportRdrand
  by_cases h : 0 ≤ p ∧ p < 64
  · have h' : ¬ (p < 0 ∨ 64 ≤ p) := by omega
    rw [if_pos h, if_neg h']
    dsimp only
    by_cases h2 : vectorMaxSize 64 < 2 ^ p.toNat
    · rw [if_pos h2, if_pos h2]; rfl
    · rw [if_neg h2, if_neg h2, exportLoop_eq hw start (2 ^ p.toNat) 0 start rfl [] [], List.nil_append, List.range_eq_range']; rfl
  · rw [if_neg h, if_pos (by omega)]; rfl

/-! ### build_trng -/

/-- C139. `path::extension` of a path with a file name `stem.ext`, where `ext` has no dot: `.ext`, except that a file name that only starts with
a dot (and `..`) has no extension. -/
theorem C139_extension (dir stem ext : List Char) (h1 : '/' ∉ stem) (h2 : '/' ∉ ext) (h3 : '.' ∉ ext) :
    pathExtension (dir ++ '/' :: (stem ++ '.' :: ext)) = (if stem = [] ∨ (stem = ['.'] ∧ ext = []) then [] else '.' :: ext) ∧
    pathExtension (dir ++ '/' :: ext) = [] := by
  have hfn : ∀ f : List Char, '/' ∉ f → pathFilename (dir ++ '/' :: f) = f := by
    intro f hf
    unfold pathFilename
    rw [List.reverse_append, List.reverse_cons, List.append_assoc, List.takeWhile_append_of_pos]
    · simp
    · intro a ha
      rw [List.mem_reverse] at ha
      simpa using fun e : a = '/' => hf (e ▸ ha)
  have htake : ∀ s : List Char, (s ++ '.' :: ext).reverse.takeWhile (· ≠ '.') = ext.reverse := by
    intro s
    rw [List.reverse_append, List.reverse_cons, List.append_assoc, List.takeWhile_append_of_pos]
    · simp
    · intro a ha
      rw [List.mem_reverse] at ha
      simpa using fun e : a = '.' => h3 (e ▸ ha)
  constructor
  · unfold pathExtension
    rw [hfn _ (by simp [h1, h2])]
    dsimp only
    rw [htake]
    by_cases hdd : stem ++ '.' :: ext = ['.', '.']
    · rw [if_pos hdd]
      have : stem = ['.'] ∧ ext = [] := by
        rcases stem with _ | ⟨a, _ | ⟨b, s⟩⟩
        · simp at hdd; rw [hdd] at h3; simp at h3
        · simp at hdd; simp [hdd]
        · have := congrArg List.length hdd; simp at this
      rw [if_pos (Or.inr this)]
    · rw [if_neg hdd, List.reverse_reverse, if_neg (by simp; omega)]
      by_cases hs : stem = []
      · subst hs; simp
      · rw [if_neg, if_neg]
        · rintro (h | ⟨rfl, rfl⟩)
          · exact hs h
          · exact hdd rfl
        · have := List.length_pos_of_ne_nil hs
          simp
          omega
  · unfold pathExtension
    rw [hfn _ h2]
    dsimp only
    rw [if_neg (by rintro rfl; simp at h3)]
    have : ext.reverse.takeWhile (· ≠ '.') = ext.reverse := by
      rw [List.takeWhile_eq_self_iff]
      intro a ha
      rw [List.mem_reverse] at ha
      simpa using fun e : a = '.' => h3 (e ▸ ha)
    rw [this, List.reverse_reverse, if_pos rfl]

/-- C139. `build_trng`: the new file holds the contents of exactly the regular files with extension `.bin`, whole and in the order of the
enumeration, whatever was in it before; no other file is touched; the paths are printed one per line. -/
theorem C139_build (entries : List DirEntry) (fs : FileSystem) (contents : String → List Byte)
    (hfs : ∀ e ∈ entries, e.2 = true → fs e.1 = some (contents e.1) ∧ (contents e.1).length < 2 ^ 63) :
    ∃ fs', buildTrngText entries fs = .ok (fs', (entries.filter fun e => e.2 = true ∧ pathExtension e.1.toList = ".bin".toList).flatMap
        fun e => e.1.toList ++ ['\n']) ∧
      fs' "C:\\tmp\\random.org\\trng.bin" = some ((entries.filter fun e => e.2 = true ∧ pathExtension e.1.toList = ".bin".toList).flatMap
        fun e => contents e.1) ∧
      ∀ q, q ≠ "C:\\tmp\\random.org\\trng.bin" → fs' q = fs q := by
  have gen : ∀ (l : List DirEntry), (∀ e ∈ l, e ∈ entries) → ∀ st : List Byte × List Char,
      forEachFile l ".bin" (fun (st : List Byte × List Char) path => do
        let r ← readBinary 8 fs path
        .ok (st.1 ++ r, st.2 ++ path.toList ++ ['\n'])) st =
      (.ok (st.1 ++ (l.filter fun e => e.2 = true ∧ pathExtension e.1.toList = ".bin".toList).flatMap (fun e => contents e.1),
        st.2 ++ (l.filter fun e => e.2 = true ∧ pathExtension e.1.toList = ".bin".toList).flatMap fun e => e.1.toList ++ ['\n']) : R _) := by
    intro l
    unfold forEachFile
    induction l with
    | nil => intro _ st; simp; rfl
    | cons e l ih =>
      intro hl st
      rw [List.foldlM_cons]
      have hl' : ∀ x ∈ l, x ∈ entries := fun x hx => hl x (List.mem_cons_of_mem _ hx)
      by_cases h1 : e.2 = true
      · by_cases h2 : pathExtension e.1.toList = ".bin".toList
        · obtain ⟨f1, f2⟩ := hfs e (hl e List.mem_cons_self) h1
          rw [if_neg (by simp [h1]), if_neg (by simpa using h2)]
          beta_reduce
          rw [read8' fs e.1 _ f1 f2, hbindB, hbindB, ih hl']
          rw [List.filter_cons_of_pos (by simp only [decide_eq_true_eq]; exact ⟨h1, h2⟩), List.flatMap_cons, List.flatMap_cons]
          simp [List.append_assoc]
        · rw [if_neg (by simp [h1]), if_pos (by simpa using h2), hbindB, ih hl']
          rw [List.filter_cons_of_neg (by simp only [decide_eq_true_eq]; exact fun h => h2 h.2)]
      · rw [if_pos (by simpa using h1), hbindB, ih hl']
        rw [List.filter_cons_of_neg (by simp only [decide_eq_true_eq]; exact fun h => h1 h.1)]
  unfold buildTrngText
  rw [gen entries (fun _ h => h) ([], []), hbindB]
  refine ⟨_, rfl, ?_, fun q hq => by simp [writeBinary, hq]⟩
  simp only [writeBinary, List.nil_append]
  rw [if_pos trivial, if_neg (by simp), flat8]

-- Two data files in different directories, a text file, a hidden file and a directory whose name ends in .bin.
example : ((buildTrngText [("a/x.bin", true), ("a/y.txt", true), ("a/.bin", true), ("a/d.bin", false), ("a/d.bin/z.tar.bin", true)]
    (fun p => if p = "a/x.bin" then some [1#8, 2#8] else if p = "a/d.bin/z.tar.bin" then some [7#8] else some [])).map
      fun r => (r.1 "C:\\tmp\\random.org\\trng.bin", r.2)) =
    .ok (some [1#8, 2#8, 7#8], "a/x.bin\na/d.bin/z.tar.bin\n".toList) := by
  decide +kernel

end TFR
