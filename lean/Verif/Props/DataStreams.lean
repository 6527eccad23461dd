import Verif.Model.DataStreams
import Verif.Props.DataCache
import Verif.Props.Streams
/-
C142: streams over the random data files.
-/
namespace TFR
open Spec

/-- What a stream over the file of this kind is called. -/
def Spec.dataStreamName : DataFile → String
  | .trng => "trng"
  | .drng => "drng"

/-- The stream replays the words in a circle from `start` on (as long as the 64-bit index does not wrap); over no words, every call
divides by zero. -/
def Spec.Replays {w : Nat} (s : Stream (R (BitVec w))) (words : List (BitVec w)) (start : Nat) : Prop :=
  (words ≠ [] → ∀ i, start + i < 2 ^ 64 → ∃ v, s.nth i = .ok v ∧ words[(start + i) % words.length]? = some v) ∧
  (words = [] → ∀ i, s.nth i = .error .divByZero)

private theorem stream_of_words (s : DataState) (w : Nat) (k : DataFile) (start : BitVec 64) (words : List (BitVec w)) (s' : DataState)
    (h : s.getData w k = .ok (some words, s')) :
    s.createDataStream w k start = .ok (some (dataStream (dataStreamName k) words start), s') := by
  unfold DataState.createDataStream
  rw [h]
  cases k <;> rfl

private theorem stream_of_none (s : DataState) (w : Nat) (k : DataFile) (start : BitVec 64) (s' : DataState)
    (h : s.getData w k = .ok (none, s')) : s.createDataStream w k start = .ok (none, s') := by
  unfold DataState.createDataStream
  rw [h]

private theorem replays {w : Nat} (name : String) (words : List (BitVec w)) (start : BitVec 64) :
    Replays (dataStream name words start) words start.toNat := by
  refine ⟨fun hne i hi => C27_dataStream name words start i hne hi, fun he i => ?_⟩
  subst he
  exact C27_empty_faults name start i

/-- C142. After `set_config` and any history of requests, changed files and changed configurations: a stream over a data file is refused
exactly when the configured file does not exist at that moment; otherwise it has the name of the file and replays, from the start index
on, the words of the bytes that the first successful request for this file saw (of the file itself if there was none).  A file with less
than one word makes a stream whose every call divides by zero. -/
theorem C142_stream (fs : FileSystem) (c : Config) (events : List DataEvent) (hs : SmallFiles fs events) (t : WT) (k : DataFile)
    (start : BitVec 64) :
    ∃ s, (DataState.initial fs).after (.setConfig c :: events) = .ok s ∧
      (filesAfter fs events (dataPath (configAfter c events) k) = none → s.createDataStream t.bits k start = .ok (none, s)) ∧
      ∀ now, filesAfter fs events (dataPath (configAfter c events) k) = some now →
        ∃ words st s', s.createDataStream t.bits k start = .ok (some st, s') ∧
          AreWords ((firstSeen k fs c events).getD now) words ∧ st.name = dataStreamName k ∧ Replays st words start.toNat := by
  obtain ⟨s, h1, h2, h3⟩ := C137_history fs c events hs t k
  refine ⟨s, h1, fun h => stream_of_none s _ k start s (h2 h), fun now hnow => ?_⟩
  obtain ⟨words, s', e1, e2, _⟩ := h3 now hnow
  exact ⟨words, _, s', stream_of_words s _ k start words s' e1, e2, rfl, replays _ _ _⟩

/-- C142. Starting later is the same as skipping: the stream from `a + b` on is the stream from `a` on without its first `b` values
(for any words, also when the index wraps). -/
theorem C142_start (s s₁ s₂ : DataState) (w : Nat) (k : DataFile) (a b : BitVec 64) (st st' : Stream (R (BitVec w)))
    (h : s.createDataStream w k a = .ok (some st, s₁)) (h' : s.createDataStream w k (a + b) = .ok (some st', s₂)) (i : Nat) :
    st'.nth i = st.nth (b.toNat + i) := by
  rcases hg : s.getData w k with e | ⟨r, s'⟩
  · unfold DataState.createDataStream at h
    rw [hg] at h; cases h
  · rcases r with _ | words
    · rw [stream_of_none s w k a s' hg] at h
      injection h with h; simp at h
    · rw [stream_of_words s w k a words s' hg] at h
      rw [stream_of_words s w k _ words s' hg] at h'
      injection h with h
      injection h' with h'
      injection h with h _
      injection h' with h' _
      injection h with h
      injection h' with h'
      subst h h'
      have key : ∀ (n : Nat) (x : BitVec 64), ((dataStream (dataStreamName k) words x).drop n) =
          dataStream (dataStreamName k) words (x + BitVec.ofNat 64 n) := by
        intro n
        induction n with
        | zero => intro x; simp [Stream.drop]
        | succ n ih =>
          intro x
          have e : (dataStream (dataStreamName k) words x).next.2 = dataStream (dataStreamName k) words (x + 1) := rfl
          rw [Stream.drop, e, ih]
          congr 1
          rw [BitVec.add_assoc]
          congr 1
          apply BitVec.eq_of_toNat_eq
          simp
          omega
      unfold Stream.nth
      rw [key, key]
      have e : a + b + BitVec.ofNat 64 i = a + BitVec.ofNat 64 (b.toNat + i) := by
        rw [BitVec.add_assoc]
        congr 1
        apply BitVec.eq_of_toNat_eq
        simp
      rw [e]

private theorem leBytes_inj {w : Nat} (hw : w % 8 = 0) (x y : BitVec w) (h : leBytes w x = leBytes w y) : x = y := by
  apply BitVec.eq_of_getLsbD_eq
  intro i hi
  have hlt : i / 8 < w / 8 := by omega
  have := congrArg (fun l => (l[i / 8]?).map (fun b : Byte => b.getLsbD (i % 8))) h
  simp only [leBytes, List.getElem?_map, List.getElem?_range hlt] at this
  simpa [BitVec.getLsbD_extractLsb', Nat.div_add_mod, Nat.mod_lt] using this

private theorem areWords_unique {w : Nat} (hw : w % 8 = 0) (bytes : List Byte) (a b : List (BitVec w))
    (ha : AreWords bytes a) (hb : AreWords bytes b) : a = b := by
  have hl : a.length = b.length := by rw [ha.1, hb.1]
  have h2 : a.flatMap (leBytes w) = b.flatMap (leBytes w) := by rw [ha.2, hb.2, hl]
  clear ha hb
  induction a generalizing b with
  | nil => cases b with
    | nil => rfl
    | cons y b => simp at hl
  | cons x a ih => cases b with
    | nil => simp at hl
    | cons y b =>
      rw [List.flatMap_cons, List.flatMap_cons] at h2
      obtain ⟨e1, e2⟩ := List.append_inj h2 (by simp [leBytes])
      rw [leBytes_inj hw x y e1, ih b (by simpa using hl) e2]

/-- C142. All streams over one data file that a run creates with the same word type and start index deliver the same values, whatever
happened to the file and the configuration between their creation. -/
theorem C142_reproducible (fs : FileSystem) (c : Config) (before between : List DataEvent) (t : WT) (k : DataFile)
    (hs : SmallFiles fs (before ++ .get t k :: between)) (s s1 s' s2 : DataState) (start : BitVec 64)
    (st st' : Stream (R (BitVec t.bits)))
    (h1 : (DataState.initial fs).after (.setConfig c :: before) = .ok s)
    (h2 : s.createDataStream t.bits k start = .ok (some st, s1))
    (h3 : (DataState.initial fs).after (.setConfig c :: (before ++ .get t k :: between)) = .ok s')
    (h4 : s'.createDataStream t.bits k start = .ok (some st', s2)) (i : Nat) : st'.nth i = st.nth i := by
  have hb : t.bits % 8 = 0 := by cases t <;> decide
  have words : ∀ (x y : DataState) (z : Stream (R (BitVec t.bits))), x.createDataStream t.bits k start = .ok (some z, y) →
      ∃ ws, x.getData t.bits k = .ok (some ws, y) ∧ z = dataStream (dataStreamName k) ws start := by
    intro x y z h
    rcases hg : x.getData t.bits k with e | ⟨r, y'⟩
    · unfold DataState.createDataStream at h
      rw [hg] at h; cases h
    · rcases r with _ | ws
      · rw [stream_of_none x _ k start y' hg] at h
        injection h with h; simp at h
      · rw [stream_of_words x _ k start ws y' hg] at h
        injection h with h
        injection h with h h'
        injection h with h
        subst h'
        exact ⟨ws, rfl, h.symm⟩
  obtain ⟨a, a1, a2⟩ := words _ _ _ h2
  obtain ⟨b, b1, b2⟩ := words _ _ _ h4
  obtain ⟨bytes, w1, w2⟩ := C137_consistent fs c before between t t k hs s s1 s' a h1 a1 h3 b s2 b1
  rw [a2, b2, areWords_unique hb bytes a b w1 w2]

-- Two words, read in a circle from the second on.
example :
    let fs : FileSystem := fun p => if p = "r/data/drng.bin" then some [1#8, 2#8, 3#8] else none
    (match (DataState.initial fs).after [.setConfig ⟨"r/"⟩, .get .u8 .drng, .files fs] with
      | .ok s => match s.createDataStream 8 .drng 1#64, s.createDataStream 8 .trng 1#64 with
        | .ok (some st, _), .ok (none, _) => some (st.name, st.take 3)
        | _, _ => none
      | .error _ => none) = some ("drng", [.ok 2#8, .ok 3#8, .ok 1#8]) := by
  decide +kernel

end TFR
