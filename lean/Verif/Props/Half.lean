import Verif.Props.Cli
import Verif.Model.Examples

/-!
# C135: half a sample at the end of a WAV file
-/

namespace Adhoc
open Spec

/-- the codec with one byte more -/
def withByte (w : WavCodec) (x : Byte) : WavCodec := { w with pcm := w.pcm ++ [x] }

theorem sampleAt_half {pcm : List Byte} (he : pcm.length % 2 = 0) (x : Byte) (i : Nat) :
    WavCodec.sampleAt (pcm ++ [x]) i = WavCodec.sampleAt pcm i := by
  unfold WavCodec.sampleAt
  have e : (pcm ++ [x]).length / 2 = pcm.length / 2 := by rw [List.length_append, List.length_singleton]; omega
  rw [e]
  by_cases h : i < pcm.length / 2
  · rw [if_pos h, if_pos h]
    unfold WavCodec.i16At
    rw [List.drop_append_of_le_length (by omega), List.take_append_of_le_length (by rw [List.length_drop]; omega)]
  · rw [if_neg h, if_neg h]

theorem decodeLoop_half {pcm : List Byte} (he : pcm.length % 2 = 0) (x : Byte) (s v : Nat) : ∀ (fuel cursor : Nat) (out : List F32) (n : Nat),
    WavCodec.decodeLoop (pcm ++ [x]) s v fuel cursor out n = WavCodec.decodeLoop pcm s v fuel cursor out n
  | 0, _, _, _ => rfl
  | fuel + 1, cursor, out, n => by
    unfold WavCodec.decodeLoop
    rw [sampleAt_half he]
    split
    · congr 1
      funext k
      congr 1
      funext out
      exact decodeLoop_half he x s v fuel _ _ _
    · rfl

theorem numSamples_half {w : WavCodec} (he : w.pcm.length % 2 = 0) (x : Byte) : (withByte w x).numSamples = w.numSamples := by
  unfold WavCodec.numSamples withByte
  rw [List.length_append, List.length_singleton]
  omega

/-- C135 for the codec: with half a sample behind the last one `decode` and `seek` do what they do without it, and keep it. -/
theorem C135_codec (w : WavCodec) (he : w.pcm.length % 2 = 0) (x : Byte) :
    (∀ buf, (withByte w x).decode buf = (w.decode buf).map fun r => (withByte r.1 x, r.2)) ∧
    (∀ b dt, (withByte w x).seek b dt = (w.seek b dt).map fun r => withByte r x) := by
  constructor
  · intro buf
    unfold WavCodec.decode
    rw [numSamples_half he]
    show (udiv buf.length w.info.channels >>= _) = _
    match udiv buf.length w.info.channels with
    | .error e => rfl
    | .ok q =>
      rw [bind_ok, bind_ok]
      dsimp only
      show (WavCodec.decodeLoop (w.pcm ++ [x]) w.numSamples _ _ w.shortCursor _ _ >>= _) = _
      rw [decodeLoop_half he]
      match WavCodec.decodeLoop w.pcm w.numSamples (q * w.info.channels) (q * w.info.channels + 1) w.shortCursor buf 0 with
      | .error e => rfl
      | .ok r => rfl
  · intro b dt
    unfold WavCodec.seek
    rw [numSamples_half he]
    generalize w.numSamples = ns
    cases dt with
    | current dt =>
      dsimp only
      show (udiv w.shortCursor w.info.channels >>= _) = _
      match udiv w.shortCursor w.info.channels with
      | .error e => rfl
      | .ok q =>
        rw [bind_ok, bind_ok]
        show (chkI b 64 (WavCodec.seekOffset w.info dt * (w.info.channels : Int)) >>= _) = _
        match chkI b 64 (WavCodec.seekOffset w.info dt * (w.info.channels : Int)) with
        | .error e => rfl
        | .ok p =>
          rw [bind_ok, bind_ok]
          show (chkI b 64 ((q : Int) * (w.info.channels : Int) + p) >>= _) = _
          match chkI b 64 ((q : Int) * (w.info.channels : Int) + p) with
          | .error e => rfl
          | .ok s =>
            rw [bind_ok, bind_ok]
            match clampI s 0 ((ns : Int) - 1) with
            | .error e => rfl
            | .ok c => rfl
    | start dt =>
      dsimp only
      show (chkI b 64 (WavCodec.seekOffset w.info dt * (w.info.channels : Int)) >>= _) = _
      match chkI b 64 (WavCodec.seekOffset w.info dt * (w.info.channels : Int)) with
      | .error e => rfl
      | .ok p =>
        rw [bind_ok, bind_ok]
        match clampI p 0 ((ns : Int) - 1) with
        | .error e => rfl
        | .ok c => rfl
    | «end» dt =>
      dsimp only
      show (chkI b 64 (WavCodec.seekOffset w.info dt * (w.info.channels : Int)) >>= _) = _
      match chkI b 64 (WavCodec.seekOffset w.info dt * (w.info.channels : Int)) with
      | .error e => rfl
      | .ok p =>
        rw [bind_ok, bind_ok]
        match chkI b 64 ((ns : Int) - ns + p) with
        | .error e => rfl
        | .ok s =>
          rw [bind_ok, bind_ok]
          match clampI s 0 ((ns : Int) - 1) with
          | .error e => rfl
          | .ok c => rfl

theorem compressLoop_half {b : Build} (x : Byte) : ∀ (fuel : Nat) (w : WavCodec) (c : AdhocCodec) (buf : List F32), w.pcm.length % 2 = 0 →
    Cli.compressLoop b fuel (withByte w x) c buf = Cli.compressLoop b fuel w c buf
  | 0, _, _, _, _ => rfl
  | fuel + 1, w, c, buf, he => by
    unfold Cli.compressLoop
    rw [(C135_codec w he x).1 buf]
    match hd : w.decode buf with
    | .error e => rfl
    | .ok (w', buf', n?) =>
      have hp : w'.pcm = w.pcm := by
        unfold WavCodec.decode at hd
        simp only [bind_eq_ok, pure_eq_ok, Except.ok.injEq, Prod.mk.injEq] at hd
        obtain ⟨q, -, r, -, rfl, -⟩ := hd
        rfl
      show (match n? with
        | none => _
        | some n => _) = (match n? with
        | none => _
        | some n => _)
      cases n? with
      | none => rfl
      | some n =>
        dsimp only
        congr 1
        funext r
        exact compressLoop_half x fuel w' r.1 buf' (by rw [hp]; exact he)

/-- a file with one byte more loads as the codec with one byte more -/
theorem load_half {bytes : List Byte} {w : WavCodec} (h : WavCodec.load bytes = .ok (.ok w)) (hb : WavCodec.i16At bytes 34 = 16) (x : Byte) :
    WavCodec.load (bytes ++ [x]) = .ok (.ok (withByte w x)) := by
  have hl : 256 ≤ bytes.length := by
    by_contra hl
    unfold WavCodec.load WavCodec.loadAt at h
    rw [List.drop_zero] at h
    dsimp only at h
    rw [if_pos (by rw [List.length_take]; omega)] at h
    cases Except.ok.inj h
  have ht : (bytes ++ [x]).take 256 = bytes.take 256 := List.take_append_of_le_length hl
  have h34 : WavCodec.i16At (bytes.take 256) 34 = 16 := by
    rw [← hb]
    unfold WavCodec.i16At
    rw [List.drop_take, List.take_take]
    rfl
  match hf : WavCodec.findData (bytes.take 256) with
  | none =>
    unfold WavCodec.load WavCodec.loadAt at h
    rw [List.drop_zero] at h
    dsimp only at h
    rw [if_neg (by rw [List.length_take]; omega), hf] at h
    cases Except.ok.inj h
  | some i =>
    by_cases hi : i ≤ 248
    · rw [loadAt_of_find hl hf hi, h34, if_neg (by omega)] at h
      rw [loadAt_of_find (by rw [List.length_append]; omega) (by rw [ht]; exact hf) hi, ht, h34, if_neg (by omega)]
      by_cases hp : WavCodec.i16At (bytes.take 256) 20 = 1
      · rw [if_neg (by rw [hp]; simp), if_neg (by omega), bind_ok] at h
        rw [if_neg (by rw [hp]; simp), if_neg (by omega), bind_ok, List.drop_append_of_le_length (by omega)]
        rw [← Except.ok.inj (Except.ok.inj h)]
        rfl
      · rw [if_pos hp] at h
        cases Except.ok.inj h
    · rw [loadAt_panic hl hf (by omega)] at h
      cases h

/-- C135 for the command line tool and for examples/compress.rs: half a sample behind the last one of a 16-bit WAV file changes nothing
in the compressed file, in the result, or in whether and how the program panics. -/
theorem C135_programs (b : Build) (bytes : List Byte) (w : WavCodec) (h : WavCodec.load bytes = .ok (.ok w)) (hb : WavCodec.i16At bytes 34 = 16)
    (he : w.pcm.length % 2 = 0) (x : Byte) :
    (∀ level dst, Cli.convertWavToAdhoc b (bytes ++ [x]) level dst = Cli.convertWavToAdhoc b bytes level dst) ∧
    (∀ dst, Examples.compress b (some (bytes ++ [x])) dst = Examples.compress b (some bytes) dst) := by
  constructor
  · intro level dst
    unfold Cli.convertWavToAdhoc
    rw [h, load_half h hb x, bind_ok, bind_ok]
    dsimp only
    rw [numSamples_half he, compressLoop_half x _ w _ _ he]
    rfl
  · intro dst
    unfold Examples.compress
    simp only [expect, bind_ok]
    rw [h, load_half h hb x, bind_ok, bind_ok]
    simp only [Examples.unwrap, bind_ok]
    rw [numSamples_half he, compressLoop_half x _ w _ _ he]
    rfl

/-- the hypotheses hold for a WAV file of five samples -/
example : (∃ w, WavCodec.load shortWav = .ok (.ok w) ∧ w.pcm.length % 2 = 0) ∧ WavCodec.i16At shortWav 34 = 16 :=
  ⟨⟨{ info := { sampleRate := 8000, channels := 1 }, pcm := [1000, -513, 517, 2000, -3276].flatMap le16, shortCursor := 0 },
    by decide +kernel, by decide⟩, by decide +kernel⟩

/-- What is written behind the half sample is another matter: the bytes are appended after it, so that it becomes the lower half of the first
new sample. -/
example : ((withByte { info := { sampleRate := 8000, channels := 1 }, pcm := [1, 0], shortCursor := 1 } 7).encode [F32.ofInt 0, F32.ofInt 0]).map (·.1.pcm)
    = .ok [1, 0, 7, 0, 0, 0, 0] := by decide +kernel

end Adhoc
