import Verif.Props.Cli
import Verif.Props.Protocol
import Verif.Proofs.Ends

/-! # C111: which accepted WAV files the command line tool compresses, and what it does with the others -/

namespace Adhoc
open Spec

/-- a last odd byte is not seen -/
theorem sampleAt_trim (pcm : List Byte) (i : Nat) : WavCodec.sampleAt (pcm.take (2 * (pcm.length / 2))) i = WavCodec.sampleAt pcm i := by
  unfold WavCodec.sampleAt
  rw [List.length_take, show min (2 * (pcm.length / 2)) pcm.length / 2 = pcm.length / 2 by omega]
  split
  · unfold WavCodec.i16At
    rw [List.drop_take, List.take_take, Nat.min_eq_left (by omega)]
  · rfl

theorem decodeLoop_trim {p p' : List Byte} (h : ∀ i, WavCodec.sampleAt p i = WavCodec.sampleAt p' i) (sl vl : Nat) :
    ∀ (fuel cursor : Nat) (out : List F32) (k : Nat), WavCodec.decodeLoop p sl vl fuel cursor out k = WavCodec.decodeLoop p' sl vl fuel cursor out k
  | 0, _, _, _ => rfl
  | fuel + 1, cursor, out, k => by
    unfold WavCodec.decodeLoop
    rw [h]
    simp only [decodeLoop_trim h sl vl fuel]

/-- the codec without a last odd byte -/
def WavCodec.trim (w : WavCodec) : WavCodec := { w with pcm := w.pcm.take (2 * (w.pcm.length / 2)) }

theorem numSamples_trim (w : WavCodec) : w.trim.numSamples = w.numSamples := by
  unfold WavCodec.numSamples WavCodec.trim
  dsimp only
  rw [List.length_take]
  omega

theorem decode_trim (w : WavCodec) (out : List F32) : w.trim.decode out = (w.decode out).map fun r => (r.1.trim, r.2) := by
  unfold WavCodec.decode
  rw [numSamples_trim]
  show (udiv out.length w.info.channels >>= _) = _
  rcases udiv out.length w.info.channels with e | q
  · rfl
  rw [bind_ok, bind_ok]
  dsimp only
  rw [show w.trim.shortCursor = w.shortCursor from rfl, show w.trim.info = w.info from rfl,
    decodeLoop_trim (p := w.trim.pcm) (p' := w.pcm) (sampleAt_trim w.pcm)]
  rcases WavCodec.decodeLoop w.pcm w.numSamples (q * w.info.channels) (q * w.info.channels + 1) w.shortCursor out 0 with e | ⟨c, o, n⟩ <;> rfl

theorem compressLoop_trim {b : Build} : ∀ (fuel : Nat) (w : WavCodec) (c : AdhocCodec) (buf : List F32),
    Cli.compressLoop b fuel w.trim c buf = Cli.compressLoop b fuel w c buf
  | 0, _, _, _ => rfl
  | fuel + 1, w, c, buf => by
    unfold Cli.compressLoop
    rw [decode_trim]
    rcases w.decode buf with e | ⟨w', buf', n⟩
    · rfl
    show (match n with | none => _ | some n => _) = _
    rcases n with _ | n
    · rfl
    show (c.encode b (buf'.take n) >>= _) = (c.encode b (buf'.take n) >>= _)
    congr 1
    funext r
    exact compressLoop_trim fuel w' r.1 buf'

/-- the loop of the tool on an accepted file, when the buffer holds at least one block -/
theorem convert_accepted {b : Build} {bytes : List Byte} {w : WavCodec} (hl : WavCodec.load bytes = .ok (.ok w)) (hn : 0 < w.info.channels)
    (hn' : w.info.channels ≤ 1024) : ∃ cells : List ℤ, cells.length = w.numSamples ∧ ∀ (level : Nat) (dst : Writer),
      Cli.convertWavToAdhoc b bytes level (some dst) =
        (encodeAll b (fresh w.info level) (cliCalls w.info.channels cells)).map fun c => (some (c.saveTo dst).1, some ()) := by
  have h0 : w.shortCursor = 0 := (halts_wavLoad bytes).2 _ hl w rfl
  obtain ⟨cells, h1, h2, h3⟩ := cells_of_bytes (w.pcm.length / 2) w.trim.pcm (by
    show (w.pcm.take (2 * (w.pcm.length / 2))).length = _
    rw [List.length_take]; omega)
  refine ⟨cells, h3, fun level dst => ?_⟩
  unfold Cli.convertWavToAdhoc
  rw [hl, bind_ok]
  dsimp only
  rw [← compressLoop_trim, compressLoop_ok hn hn' cells _ (w := w.trim) (pos := 0) ⟨h1, h2, h0, Nat.zero_le _⟩ rfl Cli.buffer (List.length_replicate ..) _ (by
    show cells.length - 0 < w.pcm.length / 2 + 1
    omega)]
  rw [List.drop_zero]
  show (encodeAll b (fresh w.info level) (cliCalls w.info.channels cells) >>= _) = _
  rcases encodeAll b (fresh w.info level) (cliCalls w.info.channels cells) with p | c <;> rfl

/-- C111, exactly, for every accepted file with `n` channels and `N` samples, at any level and for any output device:
without channels the tool panics; with more channels than its buffer holds, or without samples, it writes a recording without sound;
with fewer than three samples for each channel, or with so many channels that the buffer holds fewer than three for each, it panics; else it
compresses the file, where in a debug build an integer operation may overflow. -/
theorem C111_exactly_partial (b : Build) (bytes : List Byte) (w : WavCodec) (hl : WavCodec.load bytes = .ok (.ok w)) (level : Nat) (dst : Writer) :
    (w.info.channels = 0 → Cli.convertWavToAdhoc b bytes level (some dst) = .error .divZero) ∧
    (1024 < w.info.channels ∨ 0 < w.info.channels ∧ w.pcm.length < 2 →
      Cli.convertWavToAdhoc b bytes level (some dst) = .ok (some ((fresh w.info level).saveTo dst).1, some ())) ∧
    (0 < w.info.channels → w.info.channels ≤ 1024 → 2 ≤ w.pcm.length → 341 < w.info.channels ∨ w.pcm.length / 2 < 3 * w.info.channels →
      Cli.convertWavToAdhoc b bytes level (some dst) = .error .index) ∧
    (0 < w.info.channels → w.info.channels ≤ 341 → 3 * w.info.channels ≤ w.pcm.length / 2 →
      (b = .release → ∃ out, Cli.convertWavToAdhoc b bytes level (some dst) = .ok (some out, some ())) ∧
      ∀ e, Cli.convertWavToAdhoc b bytes level (some dst) = .error e → e = .overflow) := by
  refine ⟨?_, ?_, ?_, ?_⟩
  · intro h
    have hd : w.decode Cli.buffer = .error .divZero := by
      unfold WavCodec.decode
      rw [h]
      rfl
    unfold Cli.convertWavToAdhoc
    rw [hl, bind_ok]
    dsimp only
    unfold Cli.compressLoop
    rw [hd]
    rfl
  · intro h
    have hd : ∃ w' out, w.decode Cli.buffer = .ok (w', out, none) := by
      have hch : 0 < w.info.channels := by omega
      unfold WavCodec.decode
      rw [show udiv Cli.buffer.length w.info.channels = .ok (1024 / w.info.channels) by
        rw [show Cli.buffer.length = 1024 from List.length_replicate ..]; simp [udiv]; omega, bind_ok]
      dsimp only
      have : WavCodec.decodeLoop w.pcm w.numSamples (1024 / w.info.channels * w.info.channels) (1024 / w.info.channels * w.info.channels + 1) w.shortCursor Cli.buffer 0 =
          .ok (w.shortCursor, Cli.buffer, 0) := by
        unfold WavCodec.decodeLoop
        rw [if_neg]
        · rfl
        rintro ⟨h1, h2⟩
        rcases h with h | ⟨-, h⟩
        · rw [Nat.div_eq_of_lt h, Nat.zero_mul] at h2
          omega
        · unfold WavCodec.numSamples at h1
          omega
      rw [this]
      exact ⟨_, _, rfl⟩
    obtain ⟨w', out, hd⟩ := hd
    unfold Cli.convertWavToAdhoc
    rw [hl, bind_ok]
    dsimp only
    unfold Cli.compressLoop
    rw [hd]
    rfl
  · intro h0 h1 h2 h3
    obtain ⟨cells, hc, e⟩ := convert_accepted (b := b) hl h0 h1
    unfold WavCodec.numSamples at hc
    have hm : 0 < 1024 / w.info.channels * w.info.channels := Nat.mul_pos (Nat.div_pos h1 h0) h0
    have hne : cells ≠ [] := by rintro rfl; simp at hc; omega
    have hcalls : ∃ first rest, cliCalls w.info.channels cells = first :: rest ∧ first.length / w.info.channels < 3 := by
      unfold cliCalls
      have hm' : 0 < whole w.info.channels 1024 := hm
      rw [pieces_cons hm' hne, List.map_cons]
      refine ⟨_, _, rfl, ?_⟩
      rw [List.length_map, List.length_take, Nat.div_lt_iff_lt_mul h0]
      rcases h3 with h3 | h3
      · have : 1024 / w.info.channels < 3 := (Nat.div_lt_iff_lt_mul h0).2 (by omega)
        have h4 : whole w.info.channels 1024 ≤ 2 * w.info.channels := Nat.mul_le_mul_right _ (by omega)
        omega
      · omega
    obtain ⟨first, rest, hcalls, hlt⟩ := hcalls
    rw [e, hcalls, ← encodeAll_uses, List.map_cons, (C25_no_panic w.info h0 level).2 b first _ hlt]
    rfl
  · intro h0 h1 h2
    obtain ⟨cells, hc, e⟩ := convert_accepted (b := b) hl h0 (by omega)
    unfold WavCodec.numSamples at hc
    have hp := cliCalls_proper h0 (show w.info.channels < 342 by omega) (cells := cells) (by omega)
    obtain ⟨c, -, er, -⟩ := encodeAll_calls (b := .release) h0 level _ hp.first (.inl rfl)
    rw [e]
    constructor
    · rintro rfl
      exact ⟨_, by rw [er]; rfl⟩
    · intro p hp'
      cases b with
      | release => rw [er] at hp'; cases hp'
      | debug =>
        obtain ⟨k1, -, k3⟩ := C25_panics_exactly w.info h0 level ((cliCalls w.info.channels cells).map Use.encode)
        rw [encodeAll_uses, er] at k1
        refine k3 ?_ p ?_
        · cases hr : (⟨.idle, 0, 0⟩ : Proto).run w.info.channels ((cliCalls w.info.channels cells).map Use.encode) with
          | none => rw [hr] at k1; cases k1
          | some _ => rfl
        · rw [encodeAll_uses]
          rcases he : encodeAll .debug (fresh w.info level) (cliCalls w.info.channels cells) with p' | c'
          · rw [he] at hp'
            exact congrArg _ (Except.error.inj hp')
          · rw [he] at hp'; cases hp'

/-- C111: in a release build the tool survives exactly these files. -/
theorem C111_survives_partial (bytes : List Byte) (w : WavCodec) (hl : WavCodec.load bytes = .ok (.ok w)) (level : Nat) (dst : Writer) :
    (∃ out, Cli.convertWavToAdhoc .release bytes level (some dst) = .ok (some out, some ())) ↔
      1024 < w.info.channels ∨ 0 < w.info.channels ∧ w.pcm.length < 2 ∨
        0 < w.info.channels ∧ w.info.channels ≤ 341 ∧ 3 * w.info.channels ≤ w.pcm.length / 2 := by
  obtain ⟨h1, h2, h3, h4⟩ := C111_exactly_partial .release bytes w hl level dst
  constructor
  · rintro ⟨out, e⟩
    by_contra hc
    by_cases h0 : w.info.channels = 0
    · rw [h1 h0] at e; cases e
    · rw [h3 (by omega) (by omega) (by omega) (by omega)] at e; cases e
  · rintro (h | h | ⟨h, h', h''⟩)
    · exact ⟨_, h2 (.inl h)⟩
    · exact ⟨_, h2 (.inr h)⟩
    · exact (h4 h h' h'').1 rfl

/-- a WAV file with 256 bytes and this many channels -/
def wavWith (n : Byte) (m : Byte) : List Byte := emptyWav.take 22 ++ [n, m] ++ emptyWav.drop 24

/-- C111 is false in three ways: files without channels or with one sample for two channels stop the tool, and of a file with 1280 channels nothing is kept. -/
theorem C111_false :
    (∃ w, WavCodec.load (wavWith 0 0) = .ok (.ok w) ∧ Cli.convertWavToAdhoc .release (wavWith 0 0) 5 (some Writer.perfect) = .error .divZero) ∧
    (∃ w, WavCodec.load (wavWith 2 0 ++ [1, 1]) = .ok (.ok w) ∧ Cli.convertWavToAdhoc .release (wavWith 2 0 ++ [1, 1]) 5 (some Writer.perfect) = .error .index) ∧
    ∃ w, WavCodec.load (wavWith 0 5 ++ List.replicate 2560 1) = .ok (.ok w) ∧ w.info.channels = 1280 ∧ w.numSamples = 1280 ∧
      Cli.convertWavToAdhoc .release (wavWith 0 5 ++ List.replicate 2560 1) 5 (some Writer.perfect) =
        .ok (some ((fresh w.info 5).saveTo Writer.perfect).1, some ()) := by
  refine ⟨?_, ?_, ?_⟩
  · obtain ⟨w, e, h⟩ : ∃ w, WavCodec.load (wavWith 0 0) = .ok (.ok w) ∧ w.info.channels = 0 :=
      ⟨{ info := { sampleRate := 8000, channels := 0 }, pcm := [], shortCursor := 0 }, by decide +kernel, rfl⟩
    exact ⟨w, e, (C111_exactly_partial .release _ w e 5 Writer.perfect).1 h⟩
  · obtain ⟨w, e, h, h'⟩ : ∃ w, WavCodec.load (wavWith 2 0 ++ [1, 1]) = .ok (.ok w) ∧ w.info.channels = 2 ∧ w.pcm.length = 2 :=
      ⟨{ info := { sampleRate := 8000, channels := 2 }, pcm := [1, 1], shortCursor := 0 }, by decide +kernel, rfl, rfl⟩
    exact ⟨w, e, (C111_exactly_partial .release _ w e 5 Writer.perfect).2.2.1 (by omega) (by omega) (by omega) (by omega)⟩
  · obtain ⟨w, e, h, h'⟩ : ∃ w, WavCodec.load (wavWith 0 5 ++ List.replicate 2560 1) = .ok (.ok w) ∧ w.info.channels = 1280 ∧ w.pcm.length = 2560 :=
      ⟨{ info := { sampleRate := 8000, channels := 1280 }, pcm := List.replicate 2560 1, shortCursor := 0 }, by decide +kernel, rfl, List.length_replicate ..⟩
    refine ⟨w, e, h, ?_, (C111_exactly_partial .release _ w e 5 Writer.perfect).2.1 (.inl (by omega))⟩
    unfold WavCodec.numSamples
    omega

-- an accepted mono file with three samples and an odd byte is compressed
example : ∃ out, Cli.convertWavToAdhoc .release (wavWith 1 0 ++ [1, 2, 3, 4, 5, 6, 7]) 5 (some Writer.perfect) = .ok (some out, some ()) := by
  refine (C111_survives_partial _ { info := { sampleRate := 8000, channels := 1 }, pcm := [1, 2, 3, 4, 5, 6, 7], shortCursor := 0 } (by decide +kernel) 5 _).2 ?_
  right; right
  decide

end Adhoc
