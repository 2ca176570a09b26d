import Verif.Props.Cli
import Verif.Props.Playback

/-! # C121: the command line tool decompresses recordings completely -/

namespace Adhoc
open Spec F32

/-- what is needed for the counters of both files to hold the recording -/
structure Storable (info : StreamInfo) (calls : List (List F32)) (c : AdhocCodec) : Prop where
  pos : 0 < info.channels
  chans : info.channels < 2048
  rate : info.sampleRate * info.channels * 16 < 2 ^ 31
  frames : calls.length * info.channels < 2 ^ 32
  bits : c.stream.stream.bitCursor < 2 ^ 64
  size : 2 * ((signal info.channels calls).length * info.channels) + 36 < 2 ^ 32

/-- `wav` is a WAV file with this stream info and the 16-bit versions of these samples -/
def Spec.IsWavOf (b : Build) (info : StreamInfo) (sound : List F32) (wav : List Byte) : Prop :=
  ∃ out, WavCodec.saveTo b { info := info, pcm := (sound.map truncateSample).flatMap le16, shortCursor := 0 } Writer.perfect = .ok (out, true) ∧ wav = out.out

/-- `sound` is what one hears: one sample for every recorded sample, and whatever buffers are used, decode calls deliver it from its start -/
def Spec.Heard (b : Build) (info : StreamInfo) (calls : List (List F32)) (c : AdhocCodec) (sound : List F32) : Prop :=
  sound.length = (signal info.channels calls).length * info.channels ∧
  ∀ bufs, ∃ c' outs, decodeAll b c.init bufs = .ok (c', outs) ∧ delivered outs = sound.take ((bufs.map (·.length / info.channels)).sum * info.channels)

/-- **C121**: whatever was recorded with the library and saved, the tool converts to a WAV file with everything one hears when playing it -/
def C121_statement : Prop :=
  ∀ (b : Build) (info : StreamInfo) (level : Nat) (calls : List (List F32)) (c : AdhocCodec), encodeAll b (fresh info level) calls = .ok c →
    Proper info.channels calls → Storable info calls c → ∀ fuel, (signal info.channels calls).length < fuel →
    ∃ sound wav, Heard b info calls c sound ∧ Cli.convertAdhocToWav b fuel (file c) (some Writer.perfect) = .ok (some wav, some ()) ∧ IsWavOf b info sound wav.out

/-- C121 for up to 1024 channels, the size of the buffer of the tool: any level, any way the recording was cut into calls -/
theorem C121_decompress_partial (b : Build) (info : StreamInfo) (level : Nat) (calls : List (List F32)) (c : AdhocCodec)
    (e : encodeAll b (fresh info level) calls = .ok c) (hp : Proper info.channels calls) (H : Storable info calls c) (hn' : info.channels ≤ 1024)
    (fuel : Nat) (hfuel : (signal info.channels calls).length < fuel) :
    ∃ sound wav, Heard b info calls c sound ∧ Cli.convertAdhocToWav b fuel (file c) (some Writer.perfect) = .ok (some wav, some ()) ∧ IsWavOf b info sound wav.out := by
  have hpos := H.pos
  obtain ⟨Q, -, -, hd⟩ := playback hpos e hp.short hp.gap
  obtain ⟨sig, hsig⟩ : ∃ sig, sig = played info.channels (signal info.channels calls).length Q := ⟨_, rfl⟩
  obtain ⟨sc, hsc⟩ : ∃ sc, sc = (fresh info level).scale := ⟨_, rfl⟩
  rw [← hsc, ← hsig] at hd
  have hw : ∀ blk ∈ sig, blk.length = info.channels := by
    intro blk hblk
    rw [hsig] at hblk
    obtain ⟨k, -, rfl⟩ := List.mem_map.1 hblk
    simp
  have hsl : sig.length = (signal info.channels calls).length := by rw [hsig]; simp [played]
  have hlen : sig.flatten.length = (signal info.channels calls).length * info.channels := by rw [length_flatten_width hw, hsl]
  have hmap : (sig.flatten.map (· * sc)).map truncateSample = sig.flatten.map (restore sc) := by
    rw [List.map_map]
    rfl
  have hfit : Fits { info := info, pcm := (sig.flatten.map (restore sc)).flatMap le16, shortCursor := 0 } := by
    refine ⟨hpos, H.chans, H.rate, ?_⟩
    have := H.size
    dsimp only
    rw [length_le16, List.length_map, hlen]
    omega
  obtain ⟨h, eh, hh⟩ := header_ok (b := b) hfit
  have key := adhoc_to_wav hpos hn' (lt_trans hfit.rate_lt (by norm_num)) e H.frames H.bits (s := sc) hw (by
      intro bufs
      obtain ⟨c', e', -⟩ := hd b bufs
      rw [e']; rfl)
    (fuel := fuel) (by rw [hsl]; exact hfuel) Writer.perfect
  rw [saveTo_perfect eh] at key
  refine ⟨sig.flatten.map (· * sc), _, ⟨by rw [List.length_map, hlen], ?_⟩, key, _, by rw [hmap]; exact saveTo_perfect eh, rfl⟩
  intro bufs
  obtain ⟨c', e', -⟩ := hd b bufs
  refine ⟨c', _, e', ?_⟩
  obtain ⟨d, hd1, hd2⟩ := readBlocks_delivered info.channels bufs sig hw
  have e1 : delivered ((readBlocks info.channels sig bufs).map fun r => (r.1.map (· * sc), r.2)) = (delivered (readBlocks info.channels sig bufs)).map (· * sc) := by
    simp only [delivered, List.flatMap_map, List.map_flatMap, List.map_take]
  rw [e1, hd1, ← List.map_take]
  apply congrArg (List.map (· * sc))
  have e2 : ∀ m, (sig.take m).flatten = sig.flatten.take (m * info.channels) := by
    intro m
    rcases Nat.le_total m sig.length with hm | hm
    · conv_rhs => rw [← List.take_append_drop m sig, List.flatten_append]
      rw [List.take_left']
      rw [length_flatten_width (fun blk hb => hw blk (List.mem_of_mem_take hb)), List.length_take, Nat.min_eq_left hm]
    · rw [List.take_of_length_le hm, List.take_of_length_le]
      rw [length_flatten_width hw]
      exact Nat.mul_le_mul_right _ hm
  rw [hd2, e2]
  rcases Nat.le_total (bufs.map (·.length / info.channels)).sum sig.length with hm | hm
  · rw [Nat.min_eq_left hm]
  · rw [Nat.min_eq_right hm, List.take_of_length_le (by rw [length_flatten_width hw]), List.take_of_length_le (by rw [length_flatten_width hw]; exact Nat.mul_le_mul_right _ hm)]

/-- a buffer that is too small for one block: nothing is decoded -/
theorem decode_none {b : Build} {c : AdhocCodec} {info : StreamInfo} (hi : c.stream.info = some info) (buf : List F32) (hlt : buf.length < info.channels) :
    c.decode b buf = .ok (c, buf.map (· * c.scale), none) := by
  unfold AdhocCodec.decode AdhocCodec.decodeRaw
  rw [hi]
  have hd : udiv buf.length info.channels = .ok 0 := by
    unfold udiv
    rw [if_neg (by omega), Nat.div_eq_of_lt hlt]
  simp only [expect, bind_ok, hd]
  rw [Nat.zero_mul]
  unfold AdhocCodec.decodeLoop
  rw [if_neg (by omega)]
  rfl

theorem decompress_none {b : Build} {c : AdhocCodec} {info : StreamInfo} (hi : c.stream.info = some info) (buf : List F32) (hlt : buf.length < info.channels)
    {k : Nat} {wav : WavCodec} : Cli.decompressLoop b (k + 1) c wav buf = .ok wav := by
  unfold Cli.decompressLoop
  rw [decode_none hi buf hlt]
  rfl

/-- with more channels than the buffer holds the tool writes a WAV file without sound, whatever was recorded, and reports success -/
theorem C121_wide (b : Build) (info : StreamInfo) (level : Nat) (calls : List (List F32)) (c : AdhocCodec)
    (e : encodeAll b (fresh info level) calls = .ok c) (H : Storable info calls c) (hn : 1024 < info.channels) (fuel : Nat) (hfuel : 0 < fuel) :
    ∃ wav, Cli.convertAdhocToWav b fuel (file c) (some Writer.perfect) = .ok (some wav, some ()) ∧ IsWavOf b info [] wav.out := by
  have hfit : Fits { info := info, pcm := [], shortCursor := 0 } := ⟨H.pos, H.chans, H.rate, by simp⟩
  obtain ⟨h, eh, hh⟩ := header_ok (b := b) hfit
  obtain ⟨c', hl, hi, -, -⟩ := C09_recordings b info level calls c e H.pos (lt_trans hfit.rate_lt (by norm_num)) (lt_trans H.chans (by norm_num)) H.frames H.bits []
  rw [List.append_nil] at hl
  have hinfo : c'.info = .ok info := by unfold AdhocCodec.info; rw [hi]; rfl
  obtain ⟨k, rfl⟩ : ∃ k, fuel = k + 1 := ⟨fuel - 1, by omega⟩
  refine ⟨{ out := h.asBytes ++ [], script := [] }, ?_, _, saveTo_perfect eh, rfl⟩
  unfold Cli.convertAdhocToWav
  rw [hl, bind_ok]
  dsimp only
  rw [hinfo, bind_ok]
  rw [decompress_none hi Cli.buffer (by rw [show Cli.buffer.length = 1024 from List.length_replicate ..]; exact hn), bind_ok]
  show (WavCodec.saveTo b { info := info, pcm := [], shortCursor := 0 } Writer.perfect >>= _) = _
  rw [saveTo_perfect eh]
  rfl

/-- C121 is false: three samples for each of 1025 channels are recorded and can be played, and the WAV file has none of them -/
theorem C121_false : ¬ C121_statement := by
  intro hall
  obtain ⟨info, hinfo⟩ : ∃ info : StreamInfo, info = { sampleRate := 1000, channels := 1025 } := ⟨_, rfl⟩
  have hc : info.channels = 1025 := by rw [hinfo]
  have hr : info.sampleRate = 1000 := by rw [hinfo]
  obtain ⟨pcm, hpcm⟩ : ∃ pcm : List F32, pcm.length = 3075 := ⟨List.replicate 3075 (F32.ofInt 0), List.length_replicate ..⟩
  have hpr : Proper info.channels [pcm] := by
    refine ⟨?_, ?_, ?_⟩
    · intro x hx
      obtain rfl : pcm = x := by simpa using hx
      rw [hc, hpcm]
    · intro x hx
      obtain rfl : x = pcm := by simpa using hx
      rw [hc, hpcm]
      norm_num
    · intro j
      rcases j with _ | j
      · refine .inl ⟨0, by norm_num, ?_⟩
        simp [hc, hpcm]
      · exact .inr fun t => by simp [show j + 1 + t = (j + t) + 1 by omega]
  obtain ⟨c, -, e, -⟩ := encodeAll_calls (b := .release) (info := info) (by omega) 0 [pcm] hpr.first (.inl rfl)
  have hsig : (signal info.channels [pcm]).length = 3 := by
    unfold signal
    simp [blocksOf, hc, hpcm]
  have hbits := (C19_expansion_partial .release info 0 (by omega) [pcm] c e (by
    intro x hx
    obtain rfl : x = pcm := by simpa using hx
    rw [hc, hpcm]
    norm_num)).1
  have H : Storable info [pcm] c := by
    refine ⟨by omega, by omega, by rw [hc, hr]; norm_num, by rw [hc]; norm_num, ?_, by rw [hsig, hc]; norm_num⟩
    have h1 : c.stream.stream.len = c.stream.stream.bitCursor := rfl
    rw [← h1]
    rw [hsig, hc] at hbits
    norm_num at hbits ⊢
    omega
  obtain ⟨sound, wav, ⟨hlen, -⟩, h1, out, h2, h3⟩ := hall .release info 0 [pcm] c e hpr H 4 (by rw [hsig]; norm_num)
  obtain ⟨wav', h1', out', h2', h3'⟩ := C121_wide .release info 0 [pcm] c e H (by omega) 4 (by norm_num)
  rw [h1] at h1'
  have hww : wav = wav' := by
    have := (Prod.mk.inj (Except.ok.inj h1')).1
    exact Option.some.inj this
  subst hww
  have size : ∀ (s : List F32) (o : Writer), WavCodec.saveTo .release { info := info, pcm := (s.map truncateSample).flatMap le16, shortCursor := 0 } Writer.perfect = .ok (o, true) →
      s.length ≤ 3075 → o.out.length = 44 + 2 * s.length := by
    intro s o ho hs
    obtain ⟨h, eh, -⟩ := header_ok (b := .release) (w := { info := info, pcm := (s.map truncateSample).flatMap le16, shortCursor := 0 }) ⟨by dsimp only; omega, by dsimp only; omega,
      by dsimp only; rw [hc, hr]; norm_num, by dsimp only; rw [length_le16, List.length_map]; omega⟩
    rw [saveTo_perfect eh] at ho
    have := (Prod.mk.inj (Except.ok.inj ho)).1
    rw [← this]
    dsimp only
    rw [List.length_append, length_asBytes, length_le16, List.length_map]
  have s1 := size sound out h2 (by rw [hlen, hsig, hc])
  have s2 := size [] out' h2' (by simp)
  rw [← h3] at s1
  rw [← h3'] at s2
  rw [hsig, hc] at hlen
  rw [s1, hlen] at s2
  simp at s2

-- non-vacuity: `demo`, a stereo recording in two calls, is proper and storable
example : Proper 2 demo ∧ ∃ c, encodeAll .debug (fresh { sampleRate := 44100, channels := 2 } 0) demo = .ok c ∧ Storable { sampleRate := 44100, channels := 2 } demo c := by
  refine ⟨demo_proper, ?_⟩
  obtain ⟨c, h, -⟩ := C01_round_trip .debug .debug { sampleRate := 44100, channels := 2 } (by simp) demo demo_proper demo_inSync
  refine ⟨c, h, by norm_num, by norm_num, by norm_num, by decide, ?_, by decide +kernel⟩
  have : (encodeAll .debug (fresh { sampleRate := 44100, channels := 2 } 0) demo).map (fun c => (c.stream.stream.bitCursor, (file c).length)) = .ok (184, 239) := by decide +kernel
  rw [h] at this
  have := (Prod.mk.inj (Except.ok.inj this)).1
  omega

end Adhoc
