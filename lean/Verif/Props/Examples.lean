import Verif.Model.Examples
import Verif.Props.CliLevels

/-! # C105: the example programs -/

namespace Adhoc
open Spec F32

/-- C105, the true part: `compress` runs to its end exactly if the input can be opened, the output file can be made, the command-line program
would convert the file at level 7, and the device takes all of the .adhoc file. -/
theorem C105_compress_partial (b : Build) (input : Option (List Byte)) (dst : Option Writer) (w : Writer) :
    Examples.compress b input dst = .ok w ↔ ∃ bytes w0 full, input = some bytes ∧ dst = some w0 ∧
      Cli.convertWavToAdhoc b bytes 7 (some Writer.perfect) = .ok (some full, some ()) ∧
      Cli.convertWavToAdhoc b bytes 7 (some w0) = .ok (some w, some ()) ∧ w.out = w0.out ++ full.out := by
  unfold Examples.compress Cli.convertWavToAdhoc
  generalize Cli.buffer = buf
  generalize AdhocCodec.new.withCompressionLevel 7 = c7
  generalize WavCodec.load = load
  generalize Cli.compressLoop = loop
  rcases input with _ | bytes
  · exact ⟨fun h => (by cases h), (by rintro ⟨_, _, _, h, _⟩; cases h)⟩
  rcases hl : load bytes with e | e | wav
  · exact ⟨fun h => (by simp only [expect, bind_ok, hl] at h; cases h), (by rintro ⟨_, _, _, h, _, h2, _⟩; cases h; rw [hl] at h2; cases h2)⟩
  · exact ⟨fun h => (by simp only [expect, bind_ok, hl] at h; cases h), (by rintro ⟨_, _, _, h, _, h2, _⟩; cases h; rw [hl] at h2; cases h2)⟩
  rcases hc : loop b (wav.numSamples + 1) wav (c7.setInfo wav.info) buf with e | c
  · constructor
    · intro h
      simp only [expect, bind_ok, hl, Examples.unwrap, hc] at h
      cases h
    · rintro ⟨_, _, _, h, _, h2, _⟩
      cases h
      simp only [bind_ok, hl, hc] at h2
      cases h2
  rcases dst with _ | w0
  · constructor
    · intro h
      simp only [expect, bind_ok, hl, Examples.unwrap, hc] at h
      cases h
    · rintro ⟨_, _, _, _, h, _⟩
      cases h
  have hper : (c.saveTo Writer.perfect).1 = ⟨file c, []⟩ := by
    unfold file AdhocCodec.saveTo Writer.perfect
    rw [Writer.writePieces_perfect]
  obtain ⟨p, q, h1, h2, h3, h4⟩ := C11_save_reports c w0
  generalize file c = f at h1 hper
  simp only [expect, bind_ok, hl, Examples.unwrap, hc]
  rcases hs : c.saveTo w0 with ⟨w', _ | ok⟩
  · rw [hs] at h2 h4
    dsimp only at h2 h4
    constructor
    · intro h
      cases h
    · rintro ⟨bytes', w1, full, e1, e2, e3, e4, e5⟩
      cases e1; cases e2
      simp only [hl, bind_ok, hc, hs, hper] at e3 e4
      obtain rfl := Option.some.inj (Prod.mk.inj (Except.ok.inj e3)).1
      obtain rfl := Option.some.inj (Prod.mk.inj (Except.ok.inj e4)).1
      rw [h2, h1] at e5
      have := h4.1 rfl
      simp at e5
      exact absurd e5 this
  · rw [hs] at h2 h3
    dsimp only at h2 h3
    have hq := h3.1 rfl
    subst hq
    rw [List.append_nil] at h1
    constructor
    · intro h
      cases h
      refine ⟨bytes, w0, ⟨f, []⟩, rfl, rfl, ?_, ?_, ?_⟩
      · simp only [hl, bind_ok, hc, hper]
        rfl
      · simp only [hl, bind_ok, hc, hs]
        rfl
      · rw [h2, h1]
    · rintro ⟨bytes', w1, full, e1, e2, e3, e4, e5⟩
      cases e1; cases e2
      simp only [hl, bind_ok, hc, hs] at e4
      cases e4
      rfl

/-- both programs after the decoding loop -/
theorem decompress_tail (b : Build) (fuel : Nat) (bytes : List Byte) (dst : Option Writer) (c : AdhocCodec) (info : StreamInfo) (wav : WavCodec)
    (hl : AdhocCodec.load b bytes = .ok (some c)) (hi : c.info = .ok info)
    (hc : Cli.decompressLoop b fuel c (WavCodec.new info) Cli.buffer = .ok wav) :
    (Examples.decompress b fuel (some bytes) dst = do
      let w ← expect dst
      let (w, ok) ← wav.saveTo b w
      let _ ← expect (if ok then some () else none)
      pure w) ∧
    (Cli.convertAdhocToWav b fuel bytes dst = match dst with
      | none => pure (none, none)
      | some w => do
        let (w, ok) ← wav.saveTo b w
        pure (some w, if ok then some () else none)) := by
  unfold Examples.decompress Cli.convertAdhocToWav
  constructor
  · simp only [expect]
    rw [bind_ok, hl, bind_ok]
    dsimp only
    rw [bind_ok, hi, bind_ok, hc, bind_ok]
  · rw [hl, bind_ok]
    dsimp only
    rw [hi, bind_ok, hc, bind_ok]
    rfl

/-- C105, the true part: `decompress` runs to its end exactly if the input can be opened and the output file can be made, and the command-line
program converts the file and reports success. -/
theorem C105_decompress_partial (b : Build) (fuel : Nat) (input : Option (List Byte)) (dst : Option Writer) (w : Writer) :
    Examples.decompress b fuel input dst = .ok w ↔ ∃ bytes w0, input = some bytes ∧ dst = some w0 ∧
      Cli.convertAdhocToWav b fuel bytes (some w0) = .ok (some w, some ()) := by
  rcases input with _ | bytes
  · exact ⟨fun h => (by cases h), (by rintro ⟨_, _, h, _⟩; cases h)⟩
  rcases hl : AdhocCodec.load b bytes with e | _ | c
  · unfold Examples.decompress Cli.convertAdhocToWav
    exact ⟨fun h => (by simp only [expect, bind_ok, hl] at h; cases h), (by rintro ⟨_, _, h, _, h2⟩; cases h; rw [hl] at h2; cases h2)⟩
  · unfold Examples.decompress Cli.convertAdhocToWav
    exact ⟨fun h => (by simp only [expect, bind_ok, hl] at h; cases h), (by rintro ⟨_, _, h, _, h2⟩; cases h; rw [hl] at h2; cases h2)⟩
  rcases hi : c.info with e | info
  · unfold Examples.decompress Cli.convertAdhocToWav
    exact ⟨fun h => (by simp only [expect, bind_ok, hl, hi] at h; cases h),
      (by rintro ⟨_, _, h, _, h2⟩; cases h; simp only [bind_ok, hl, hi] at h2; cases h2)⟩
  rcases hc : Cli.decompressLoop b fuel c (WavCodec.new info) Cli.buffer with e | wav
  · unfold Examples.decompress Cli.convertAdhocToWav
    exact ⟨fun h => (by simp only [expect, bind_ok, hl, hi, hc] at h; cases h),
      (by rintro ⟨_, _, h, _, h2⟩; cases h; simp only [bind_ok, hl, hi, hc] at h2; cases h2)⟩
  rw [(decompress_tail b fuel bytes dst c info wav hl hi hc).1]
  have key := fun w0 => (decompress_tail b fuel bytes (some w0) c info wav hl hi hc).2
  clear hl hi hc
  have step : ∀ w0, (∃ bytes' w0', some bytes = some bytes' ∧ some w0 = some w0' ∧
      Cli.convertAdhocToWav b fuel bytes' (some w0') = .ok (some w, some ())) ↔ wav.saveTo b w0 = .ok (w, true) := by
    intro w0
    have k := key w0
    dsimp only at k
    generalize wav.saveTo b w0 = s at k ⊢
    constructor
    · rintro ⟨bytes', w1, e1, e2, h⟩
      obtain rfl := Option.some.inj e1
      obtain rfl := Option.some.inj e2
      rw [k] at h
      rcases s with e | ⟨w', _ | _⟩
      · cases h
      · cases (Prod.mk.inj (Except.ok.inj h)).2
      · obtain rfl := Option.some.inj (Prod.mk.inj (Except.ok.inj h)).1
        rfl
    · rintro rfl
      exact ⟨bytes, w0, rfl, rfl, k⟩
  rcases dst with _ | w0
  · exact ⟨fun h => (by cases h), (by rintro ⟨_, _, _, h, _⟩; cases h)⟩
  rw [step, show expect (some w0) = .ok w0 from rfl, bind_ok]
  generalize wav.saveTo b w0 = s
  rcases s with e | ⟨w', _ | _⟩
  · exact ⟨fun h => (by cases h), fun h => (by cases h)⟩
  · exact ⟨fun h => (by cases h), fun h => (by cases h)⟩
  · exact ⟨fun h => (by obtain rfl := Except.ok.inj h; rfl), fun h => (by obtain rfl := (Prod.mk.inj (Except.ok.inj h)).1; rfl)⟩

/-- C105, the true part: `compress` and then `decompress`, with files that can be written, take a 16-bit WAV file to one of the same shape whose
samples differ by at most 165 (of 32768). -/
theorem C105_round_trip_partial (b : Build) (bytes : List Byte) (info : StreamInfo) (cells : List ℤ) (hr : ∀ x ∈ cells, -32768 ≤ x ∧ x ≤ 32767)
    (hl : WavCodec.load bytes = .ok (.ok { info := info, pcm := cells.flatMap le16, shortCursor := 0 }))
    (H : Fits { info := info, pcm := cells.flatMap le16, shortCursor := 0 }) (hn : info.channels < 342) (h3 : 3 * info.channels ≤ cells.length)
    (fuel : Nat) (hfuel : cells.length < fuel) :
    ∃ (adhoc wav : Writer) (out : List ℤ), Examples.compress b (some bytes) (some Writer.perfect) = .ok adhoc ∧
      Examples.decompress b fuel (some adhoc.out) (some Writer.perfect) = .ok wav ∧
      WavCodec.saveTo b { info := info, pcm := out.flatMap le16, shortCursor := 0 } Writer.perfect = .ok (wav, true) ∧
      List.Forall₂ (fun x y : ℤ => |y - x| ≤ 165) (cells.take (whole info.channels cells.length)) out := by
  obtain ⟨adhoc, wav, out, e1, e2, e3, e4⟩ := C73_cli_error b bytes info cells hr hl H hn h3 7 (by norm_num) (by norm_num) (by omega) fuel hfuel
  refine ⟨adhoc, wav, out, (C105_compress_partial ..).2 ⟨bytes, Writer.perfect, adhoc, rfl, rfl, e1, e1, rfl⟩,
    (C105_decompress_partial ..).2 ⟨_, _, rfl, rfl, e2⟩, e3, e4.imp ?_⟩
  intro x y h
  have h : |(y : ℚ) - x| < 166 := h.trans_lt (by norm_num)
  have : |y - x| < 166 := by exact_mod_cast h
  omega

/-- five samples through both programs; the hypotheses hold for them (see C58) -/
example : ((Examples.compress .debug (some shortWav) (some Writer.perfect)) >>= fun adhoc => do
    let wav ← Examples.decompress .debug 6 (some adhoc.out) (some Writer.perfect)
    pure (wav.out.drop 44)) = .ok ([896, -384, 384, 1920, -3200].flatMap le16) := by decide +kernel

/-- an .adhoc file without sound -/
def emptyAdhoc : List Byte := file (fresh { sampleRate := 44100, channels := 2 } 7)

/-- C105 is false: a device that takes only ten bytes at first gets a damaged WAV file from `decompress`, which runs to its end. -/
theorem C105_false : ∃ w full, Examples.decompress .debug 2 (some emptyAdhoc) (some ⟨[], [.accept 10]⟩) = .ok w ∧
    Examples.decompress .debug 2 (some emptyAdhoc) (some Writer.perfect) = .ok full ∧ w.out.length = 10 ∧ full.out.length = 44 := by
  have h1 : (match Examples.decompress .debug 2 (some emptyAdhoc) (some ⟨[], [.accept 10]⟩) with | .ok w => decide (w.out.length = 10) | .error _ => false) = true := by
    decide +kernel
  have h2 : (match Examples.decompress .debug 2 (some emptyAdhoc) (some Writer.perfect) with | .ok w => decide (w.out.length = 44) | .error _ => false) = true := by
    decide +kernel
  split at h1
  · rename_i w hw
    split at h2
    · rename_i full hf
      exact ⟨w, full, hw, hf, by simpa using h1, by simpa using h2⟩
    · cases h2
  · cases h1

/-- missing files, a failing device and one that takes a byte at a time -/
example : Examples.compress .debug none (some Writer.perfect) = .error .expect ∧
    Examples.compress .debug (some emptyWav) none = .error .expect ∧
    Examples.compress .debug (some emptyWav) (some ⟨[], [.accept 1, .fail]⟩) = .error .expect ∧
    (Examples.compress .debug (some emptyWav) (some ⟨[], [.accept 1, .accept 1, .interrupted]⟩)).map (·.out.length) = .ok 117 ∧
    Examples.decompress .debug 2 (some [1, 2, 3]) (some Writer.perfect) = .error .expect := by decide +kernel

end Adhoc
