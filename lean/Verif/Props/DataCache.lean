import Verif.Model.DataCache
import Verif.Props.Files
/-
C137: the random data files are read once; what the later calls see.
-/
namespace TFR
open Spec

private theorem hbindD {α β : Type} (x : α) (f : α → R β) : ((Except.ok x : R α) >>= f) = f x := rfl

/-- The words are the full words of the bytes, in order; an incomplete word at the end is left out. -/
def Spec.AreWords {w : Nat} (bytes : List Byte) (words : List (BitVec w)) : Prop :=
  words.length = bytes.length / (w / 8) ∧ words.flatMap (leBytes w) = bytes.take (words.length * (w / 8))

/-- Where the data files are: in the directory `data` below the configured root. -/
def Spec.dataPath (c : Config) : DataFile → String
  | .trng => c.rootPath ++ "data/trng.bin"
  | .drng => c.rootPath ++ "data/drng.bin"

/-- The files after a history. -/
def Spec.filesAfter (fs : FileSystem) : List DataEvent → FileSystem
  | [] => fs
  | .files fs' :: rest => Spec.filesAfter fs' rest
  | _ :: rest => Spec.filesAfter fs rest

/-- The configuration after a history. -/
def Spec.configAfter (c : Config) : List DataEvent → Config
  | [] => c
  | .setConfig c' :: rest => Spec.configAfter c' rest
  | _ :: rest => Spec.configAfter c rest

/-- The contents of the data file at the first request for it that found one, if there has been such a request. -/
def Spec.firstSeen (k : DataFile) (fs : FileSystem) (c : Config) : List DataEvent → Option (List Byte)
  | [] => none
  | .files fs' :: rest => Spec.firstSeen k fs' c rest
  | .setConfig c' :: rest => Spec.firstSeen k fs c' rest
  | .get _ k' :: rest =>
    if k' = k then
      match fs (Spec.dataPath c k) with
      | some bytes => some bytes
      | none => Spec.firstSeen k fs c rest
    else Spec.firstSeen k fs c rest

/-- No file of 2^63 bytes or more (which would not fit a `std::vector`) at any time. -/
def Spec.SmallFiles (fs : FileSystem) (events : List DataEvent) : Prop :=
  (∀ p b, fs p = some b → b.length < 2 ^ 63) ∧ ∀ fs', .files fs' ∈ events → ∀ p b, fs' p = some b → b.length < 2 ^ 63

private theorem leBytes8 (v : Byte) : leBytes 8 v = [v] := by
  apply List.ext_getElem?
  intro i
  rcases i with _ | i
  · simp [leBytes]
  · simp [leBytes]

private theorem read8 (fs : FileSystem) (path : String) (bytes : List Byte) (h : fs path = some bytes) (hl : bytes.length < 2 ^ 63) :
    readBinary 8 fs path = .ok bytes := by
  obtain ⟨data, h1, h2, h3⟩ := C69_read (w := 8) (by norm_num) (by norm_num) fs path bytes h hl (BitVec.allOnes 64)
  rw [h1]
  have e : data.flatMap (leBytes 8) = data := by
    clear h1 h2 h3
    induction data with
    | nil => rfl
    | cons a l ih => rw [List.flatMap_cons, leBytes8, ih]; rfl
  have hlen : data.length = bytes.length := by
    rw [h2, BitVec.toNat_allOnes]; simp; omega
  rw [e, hlen] at h3
  rw [h3]
  congr 1
  apply List.take_of_length_le
  simp

private theorem areWords {w : Nat} (hw : w % 8 = 0) (hpos : 0 < w) (bytes : List Byte) (hl : bytes.length < 2 ^ 63) :
    AreWords bytes (leWords w (bytes.length / (w / 8)) bytes) := by
  obtain ⟨data, h1, h2, h3⟩ := C69_read hw hpos (fun _ => some bytes) "" bytes rfl hl (BitVec.allOnes 64)
  obtain ⟨data', g1, g2, g3⟩ := (C69_file_data hw hpos (fun _ => some bytes) "").2 bytes rfl hl
  have e : data' = leWords w (bytes.length / (w / 8)) bytes := by
    unfold getFileData at g1
    dsimp only at g1
    rw [read8 _ _ bytes rfl hl, hbindD] at g1
    injection g1 with g1
    injection g1 with g1
    exact g1.symm
  rw [g2] at h1
  injection h1 with h1
  rw [← e]
  exact ⟨g3, by rw [h1]; exact h3⟩

private theorem path_eq (c : Config) (k : DataFile) : k.path c = dataPath c k := by
  cases k
  · show c.rootPath ++ "data/" ++ "trng.bin" = c.rootPath ++ "data/trng.bin"
    rw [String.append_assoc]; rfl
  · show c.rootPath ++ "data/" ++ "drng.bin" = c.rootPath ++ "data/drng.bin"
    rw [String.append_assoc]; rfl

/-- One request in a state with a configuration. -/
private theorem getData_eq (s : DataState) (c : Config) (hc : s.config = some c) (hs : ∀ p b, s.fs p = some b → b.length < 2 ^ 63) (w : Nat) (k : DataFile) :
    (s.fs (dataPath c k) = none → s.getData w k = .ok (none, s)) ∧
    ∀ now, s.fs (dataPath c k) = some now →
      (∀ seen, s.cache k = some seen → s.getData w k = .ok (some (leWords w (seen.length / (w / 8)) seen), s)) ∧
      (s.cache k = none → ∃ s', s.getData w k = .ok (some (leWords w (now.length / (w / 8)) now), s') ∧
        s'.fs = s.fs ∧ s'.config = some c ∧ s'.cache k = some now ∧ (∀ k', k' ≠ k → s'.cache k' = s.cache k') ∧
        s'.console = s.console ++ "Reading entire '" ++ dataPath c k ++ "' from disk..." ++ " done!\n") := by
  have hg : s.getConfig = .ok c := by unfold DataState.getConfig; rw [hc]
  simp only [← path_eq]
  refine ⟨fun h => ?_, fun now h => ⟨fun seen hk => ?_, fun hk => ?_⟩⟩
  · unfold DataState.getData; rw [hg, hbindD, h]
  · unfold DataState.getData
    rw [hg, hbindD, h]
    dsimp only
    unfold DataState.getOrRead
    rw [hk]; rfl
  · unfold DataState.getData
    rw [hg, hbindD, h]
    dsimp only
    unfold DataState.getOrRead
    rw [hk]
    dsimp only
    rw [hg, hbindD]
    unfold DataState.readBinaryData
    dsimp only
    rw [read8 s.fs _ now h (hs _ _ h), hbindD, hbindD]
    refine ⟨_, rfl, ?_⟩
    cases k <;> refine ⟨rfl, hc, rfl, ?_, rfl⟩ <;> intro k' hk' <;> cases k' <;> first | exact absurd rfl hk' | rfl

private theorem after_inv (events : List DataEvent) : ∀ (s : DataState) (c : Config), s.config = some c → SmallFiles s.fs events →
    ∃ s', s.after events = .ok s' ∧ s'.fs = filesAfter s.fs events ∧ s'.config = some (configAfter c events) ∧
      (∀ p b, s'.fs p = some b → b.length < 2 ^ 63) ∧
      (∀ k, s'.cache k = (s.cache k).or (firstSeen k s.fs c events)) := by
  induction events with
  | nil => intro s c hc hs; exact ⟨s, rfl, rfl, hc, hs.1, fun k => by simp [firstSeen]⟩
  | cons e events ih =>
    intro s c hc hs
    have hs2 : ∀ fs', .files fs' ∈ events → ∀ p b, fs' p = some b → b.length < 2 ^ 63 :=
      fun fs' h => hs.2 fs' (List.mem_cons_of_mem _ h)
    unfold DataState.after
    rw [List.foldlM_cons]
    cases e with
    | setConfig c' =>
      obtain ⟨s', h1, h2, h3, h4, h5⟩ := ih (s.setConfig c') c' rfl ⟨hs.1, hs2⟩
      refine ⟨s', ?_, h2, h3, h4, fun k => ?_⟩
      · rw [DataState.event, hbindD]; exact h1
      · rw [h5 k]; cases k <;> rfl
    | files fs' =>
      obtain ⟨s', h1, h2, h3, h4, h5⟩ := ih { s with fs := fs' } c hc ⟨hs.2 fs' List.mem_cons_self, hs2⟩
      refine ⟨s', ?_, h2, h3, h4, fun k => ?_⟩
      · rw [DataState.event, hbindD]; exact h1
      · rw [h5 k]; cases k <;> rfl
    | get t k =>
      obtain ⟨g1, g2⟩ := getData_eq s c hc hs.1 t.bits k
      rw [DataState.event]
      rcases hf : s.fs (dataPath c k) with _ | now
      · rw [g1 hf, hbindD, hbindD]
        obtain ⟨s', h1, h2, h3, h4, h5⟩ := ih s c hc ⟨hs.1, hs2⟩
        refine ⟨s', h1, h2, h3, h4, fun k' => ?_⟩
        rw [h5 k', firstSeen]
        by_cases hk : k = k'
        · subst hk; rw [if_pos rfl, hf]
        · rw [if_neg hk]
      · rcases hcache : s.cache k with _ | seen
        · obtain ⟨s1, e1, e2, e3, e4, e5, _⟩ := (g2 now hf).2 hcache
          rw [e1, hbindD, hbindD]
          obtain ⟨s', h1, h2, h3, h4, h5⟩ := ih s1 c e3 ⟨by rw [e2]; exact hs.1, hs2⟩
          refine ⟨s', h1, by rw [h2, e2]; rfl, h3, h4, fun k' => ?_⟩
          rw [h5 k', firstSeen, e2]
          by_cases hk : k = k'
          · subst hk; rw [if_pos rfl, hf, e4, hcache]; rfl
          · rw [if_neg hk, e5 k' (Ne.symm hk)]
        · rw [(g2 now hf).1 seen hcache, hbindD, hbindD]
          obtain ⟨s', h1, h2, h3, h4, h5⟩ := ih s c hc ⟨hs.1, hs2⟩
          refine ⟨s', h1, h2, h3, h4, fun k' => ?_⟩
          rw [h5 k', firstSeen]
          by_cases hk : k = k'
          · subst hk; rw [if_pos rfl, hf, hcache]; rfl
          · rw [if_neg hk]

/-- C137. A program sets a configuration and then makes any number of requests for data, while files and configuration change in any way.
Then a request finds no data exactly when the configured file does not exist at that moment; otherwise it returns the full words of the
bytes that the first successful request for that file saw - not of what the file contains now - and of the file itself if there was none.
The message about reading is printed by the first successful request only. -/
theorem C137_history (fs : FileSystem) (c : Config) (events : List DataEvent) (hs : SmallFiles fs events) (t : WT) (k : DataFile) :
    ∃ s, (DataState.initial fs).after (.setConfig c :: events) = .ok s ∧
      (filesAfter fs events (dataPath (configAfter c events) k) = none → s.getData t.bits k = .ok (none, s)) ∧
      ∀ now, filesAfter fs events (dataPath (configAfter c events) k) = some now →
        ∃ words s', s.getData t.bits k = .ok (some words, s') ∧
          AreWords ((firstSeen k fs c events).getD now) words ∧
          s'.console = s.console ++ (if (firstSeen k fs c events).isSome then "" else
            "Reading entire '" ++ dataPath (configAfter c events) k ++ "' from disk... done!\n") := by
  obtain ⟨s, h1, h2, h3, h4, h5⟩ := after_inv events ((DataState.initial fs).setConfig c) c rfl hs
  have hsmall : ∀ b, firstSeen k fs c events = some b → b.length < 2 ^ 63 := by
    clear h1 h2 h3 h4 h5
    revert fs c
    induction events with
    | nil => intro fs c _ b h; cases h
    | cons e events ih =>
      intro fs c hs b h
      have hs2 : ∀ fs', .files fs' ∈ events → ∀ p b, fs' p = some b → b.length < 2 ^ 63 :=
        fun fs' h => hs.2 fs' (List.mem_cons_of_mem _ h)
      cases e with
      | setConfig c' => exact ih fs c' ⟨hs.1, hs2⟩ b h
      | files fs' => exact ih fs' c ⟨hs.2 fs' List.mem_cons_self, hs2⟩ b h
      | get t' k' =>
        rw [firstSeen] at h
        by_cases hk : k' = k
        · rw [if_pos hk] at h
          rcases hf : fs (dataPath c k) with _ | b'
          · rw [hf] at h; exact ih fs c ⟨hs.1, hs2⟩ b h
          · rw [hf] at h
            injection h with h
            subst h
            exact hs.1 _ _ hf
        · rw [if_neg hk] at h; exact ih fs c ⟨hs.1, hs2⟩ b h
  have hbits : t.bits % 8 = 0 ∧ 0 < t.bits := by cases t <;> decide
  refine ⟨s, h1, ?_⟩
  have e2 : s.fs = filesAfter fs events := h2
  obtain ⟨g1, g2⟩ := getData_eq s _ h3 h4 t.bits k
  rw [e2] at g1 g2
  refine ⟨g1, fun now hnow => ?_⟩
  have e5 : s.cache k = firstSeen k fs c events := by
    rw [h5 k]; cases k <;> rfl
  rcases hseen : firstSeen k fs c events with _ | seen
  · obtain ⟨s', e1, _, _, _, _, e6⟩ := (g2 now hnow).2 (by rw [e5, hseen])
    refine ⟨_, s', e1, areWords hbits.1 hbits.2 now (h4 _ _ (by rw [e2]; exact hnow)), ?_⟩
    rw [e6]
    simp only [Option.isSome_none, Bool.false_eq_true, if_false]
    apply String.toList_inj.1
    simp [String.toList_append]
  · refine ⟨_, s, (g2 now hnow).1 seen (by rw [e5, hseen]), areWords hbits.1 hbits.2 seen (hsmall _ hseen), ?_⟩
    simp

private theorem firstSeen_append (k : DataFile) (a b : List DataEvent) : ∀ (fs : FileSystem) (c : Config),
    firstSeen k fs c (a ++ b) = (firstSeen k fs c a).or (firstSeen k (filesAfter fs a) (configAfter c a) b) := by
  induction a with
  | nil => intro fs c; rfl
  | cons e a ih =>
    intro fs c
    cases e with
    | setConfig c' => exact ih fs c'
    | files fs' => exact ih fs' c
    | get t k' =>
      rw [List.cons_append, firstSeen, firstSeen]
      by_cases hk : k' = k
      · rw [if_pos hk, if_pos hk]
        rcases fs (dataPath c k) with _ | b'
        · exact ih fs c
        · rfl
      · rw [if_neg hk, if_neg hk]; exact ih fs c

/-- C137. The requests of one run are consistent: if one request for a data file returned words, then every later request for the same
file, with the same or another word type and whatever happened in between, that returns anything returns words of the same bytes. -/
theorem C137_consistent (fs : FileSystem) (c : Config) (before between : List DataEvent) (t t' : WT) (k : DataFile)
    (hs : SmallFiles fs (before ++ .get t k :: between)) (s s1 s' : DataState)
    (words : List (BitVec t.bits)) (h1 : (DataState.initial fs).after (.setConfig c :: before) = .ok s)
    (h2 : s.getData t.bits k = .ok (some words, s1))
    (h3 : (DataState.initial fs).after (.setConfig c :: (before ++ .get t k :: between)) = .ok s')
    (words' : List (BitVec t'.bits)) (s2 : DataState) (h4 : s'.getData t'.bits k = .ok (some words', s2)) :
    ∃ bytes, AreWords bytes words ∧ AreWords bytes words' := by
  have hsb : SmallFiles fs before := ⟨hs.1, fun fs' h => hs.2 fs' (List.mem_append_left _ h)⟩
  obtain ⟨a, a1, a2, a3⟩ := C137_history fs c before hsb t k
  rw [h1] at a1
  injection a1 with a1
  subst a1
  obtain ⟨b, b1, b2, b3⟩ := C137_history fs c _ hs t' k
  rw [h3] at b1
  injection b1 with b1
  subst b1
  rcases hf : filesAfter fs before (dataPath (configAfter c before) k) with _ | now
  · rw [a2 hf] at h2; injection h2 with h2; simp at h2
  · obtain ⟨w1, x1, p1, p2, _⟩ := a3 now hf
    rw [h2] at p1
    injection p1 with p1
    injection p1 with p1 _
    injection p1 with p1
    subst p1
    refine ⟨_, p2, ?_⟩
    have hseen : firstSeen k fs c (before ++ .get t k :: between) = some ((firstSeen k fs c before).getD now) := by
      rw [firstSeen_append]
      rcases firstSeen k fs c before with _ | b
      · rw [firstSeen, if_pos rfl, hf]; rfl
      · rfl
    rcases hf' : filesAfter fs (before ++ .get t k :: between) (dataPath (configAfter c (before ++ .get t k :: between)) k) with _ | now'
    · rw [b2 hf'] at h4; injection h4 with h4; simp at h4
    · obtain ⟨w2, x2, q1, q2, _⟩ := b3 now' hf'
      rw [h4] at q1
      injection q1 with q1
      injection q1 with q1 _
      injection q1 with q1
      subst q1
      rw [hseen] at q2
      exact q2

/-- C137. Without a configuration every request is undefined behaviour, whatever the files. -/
theorem C137_no_config (fs fs' : FileSystem) (t : WT) (k : DataFile) :
    (DataState.initial fs).getData t.bits k = .error .emptyDeref ∧
    (DataState.initial fs).after [.files fs', .get t k] = .error .emptyDeref := ⟨rfl, rfl⟩

-- The file is replaced after the first request and then deleted: the second request (16-bit words) sees the old bytes, the third nothing.
example :
    let fs : FileSystem := fun p => if p = "r/data/trng.bin" then some [1#8, 2#8, 3#8] else none
    let fs' : FileSystem := fun p => if p = "r/data/trng.bin" then some [9#8, 9#8] else none
    (do let s ← (DataState.initial fs).after [.setConfig ⟨"r/"⟩, .get .u8 .trng, .files fs']
        let r ← s.getData 16 .trng
        let s' ← r.2.after [.files fun _ => none]
        let r' ← s'.getData 8 .trng
        .ok (r.1, r'.1, r'.2.console) : R _) =
      .ok (some [0x0201#16], none, "Reading entire 'r/data/trng.bin' from disk... done!\n") := by
  decide +kernel
example (bytes : List Byte) (h : bytes.length < 2 ^ 63) : SmallFiles (fun _ => some bytes) [.get .u8 .trng, .files fun _ => none, .get .u16 .drng] := by
  refine ⟨fun p b hb => ?_, fun fs' hf p b hb => ?_⟩
  · injection hb with hb; subst hb; exact h
  · simp at hf; subst hf; simp at hb

end TFR
