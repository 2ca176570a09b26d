import Verif.Model.Adhoc
import Verif.Model.Wav
import Verif.Model.Signal

/-!
# `f32` with the sign of zero

`Model/F32.lean` takes `+0.0` and `-0.0` for one value. Here they are two, and the functions through which samples pass are written again with them: the conversions
of `src/codec.rs`, the parabola, the noise, encoding and decoding with both codecs. What is no sample is as in the model.
-/

namespace Adhoc

theorem Rep.neg {q : ℚ} (h : Rep q) : Rep (-q) := by
  obtain ⟨n, e, h1, h2, h3, h4⟩ := h
  exact ⟨-n, e, by rwa [abs_neg], h2, by rw [h3]; push_cast; ring, by rwa [abs_neg]⟩

theorem rep_zero : Rep 0 := ⟨0, 0, by norm_num, by norm_num, by norm_num, by norm_num⟩

/-- A binary32 value, with two zeros. -/
inductive Z32
  | nan
  | inf (neg : Bool)
  | zero (neg : Bool)
  | fin (q : ℚ) (h : Rep q) (h0 : q ≠ 0)
  deriving DecidableEq

namespace Z32

/-- round an exact result; `s` is the sign if the exact result is zero. A result that is rounded to zero keeps its sign. -/
def round (q : ℚ) (s : Bool) : Z32 :=
  if q = 0 then zero s
  else if hz : roundQ q = 0 then zero (decide (q < 0))
  else if h : |roundQ q| < 2 ^ 128 then fin (roundQ q) (rep_roundQ h) hz
  else inf (decide (q < 0))

/-- `i as f32`: an integer zero is `+0.0` -/
def ofInt (n : ℤ) : Z32 := round n false

/-- a literal without a sign -/
def ofRat (q : ℚ) : Z32 := round q false

/-- `-x` -/
def neg : Z32 → Z32
  | nan => nan
  | inf s => inf (!s)
  | zero s => zero (!s)
  | fin q h h0 => fin (-q) h.neg (neg_ne_zero.2 h0)

/-- `a + b`: `-0.0` only if both are `-0.0` -/
def add : Z32 → Z32 → Z32
  | nan, _ => nan
  | _, nan => nan
  | inf s, inf t => if s = t then inf s else nan
  | inf s, _ => inf s
  | _, inf t => inf t
  | zero s, zero t => zero (s && t)
  | zero _, fin b h h0 => fin b h h0
  | fin a h h0, zero _ => fin a h h0
  | fin a _ _, fin b _ _ => round (a + b) false

/-- `a - b` -/
def sub (a b : Z32) : Z32 := add a (neg b)

/-- `a * b`: the sign is that of one factor times that of the other -/
def mul : Z32 → Z32 → Z32
  | nan, _ => nan
  | _, nan => nan
  | inf s, inf t => inf (s != t)
  | inf _, zero _ => nan
  | zero _, inf _ => nan
  | inf s, fin q _ _ => inf (s != decide (q < 0))
  | fin q _ _, inf s => inf (s != decide (q < 0))
  | zero s, zero t => zero (s != t)
  | zero s, fin q _ _ => zero (s != decide (q < 0))
  | fin q _ _, zero s => zero (s != decide (q < 0))
  | fin a _ _, fin b _ _ => round (a * b) false

/-- `a / b` -/
def div : Z32 → Z32 → Z32
  | nan, _ => nan
  | _, nan => nan
  | inf _, inf _ => nan
  | inf s, zero t => inf (s != t)
  | inf s, fin q _ _ => inf (s != decide (q < 0))
  | zero s, inf t => zero (s != t)
  | fin q _ _, inf t => zero (t != decide (q < 0))
  | zero _, zero _ => nan
  | zero s, fin q _ _ => zero (s != decide (q < 0))
  | fin q _ _, zero t => inf (t != decide (q < 0))
  | fin a _ _, fin b _ _ => round (a / b) false

instance : Add Z32 := ⟨add⟩
instance : Sub Z32 := ⟨sub⟩
instance : Mul Z32 := ⟨mul⟩
instance : Div Z32 := ⟨div⟩
instance : Neg Z32 := ⟨neg⟩

/-- `a < b`: the zeros are equal -/
def lt : Z32 → Z32 → Bool
  | nan, _ => false
  | _, nan => false
  | inf s, inf t => s && !t
  | inf s, _ => s
  | _, inf t => !t
  | zero _, zero _ => false
  | zero _, fin b _ _ => decide (0 < b)
  | fin a _ _, zero _ => decide (a < 0)
  | fin a _ _, fin b _ _ => decide (a < b)

/-- `f32::clamp` -/
def clamp (x lo hi : Z32) : Z32 :=
  let x := if lt x lo then lo else x
  if lt hi x then hi else x

/-- `x as iN` -/
def toIntSat (lo hi : ℤ) : Z32 → ℤ
  | nan => 0
  | inf s => if s then lo else hi
  | zero _ => max lo (min hi 0)
  | fin q _ _ => max lo (min hi (F32.truncQ q))

/-- the value without the sign of zero -/
def erase : Z32 → F32
  | nan => .nan
  | inf s => .inf s
  | zero _ => .fin 0 rep_zero
  | fin q h _ => .fin q h

/-- the value with `+0.0` for zero -/
def plain : F32 → Z32
  | .nan => nan
  | .inf s => inf s
  | .fin q h => if h0 : q = 0 then zero false else fin q h h0

end Z32

/-! ## codec.rs, parabola.rs, noise.rs -/

/-- codec.rs 15: `NORMALIZE_FACTOR` -/
def NORMALIZE_FACTOR_Z : Z32 := Z32.ofInt 1 / Z32.ofInt 32767

/-- codec.rs 17-23: `normalize_sample` -/
def normalizeSampleZ (samp : Int) : Z32 := Z32.ofInt samp * NORMALIZE_FACTOR_Z

/-- codec.rs 25-27: `truncate_sample` -/
def truncateSampleZ (samp : Z32) : Int :=
  (samp.clamp (Z32.ofInt (-1)) (Z32.ofInt 1) * Z32.ofInt 32767).toIntSat (-32768) 32767

/-- parabola.rs 19-39 and frame.rs 235-241: the coefficients of the parabola through three samples, its value at 3, and the predicted sample -/
def predictZ (h3 h2 h1 : Int) : Int :=
  let f0 := normalizeSampleZ h3
  let d := normalizeSampleZ h2 - f0
  let e := normalizeSampleZ h1 - f0
  let half := Z32.ofRat (1 / 2)
  let c1 := (Z32.ofInt 4 * d - e) * half
  let c2 := (e - Z32.ofInt 2 * d) * half
  let x := Z32.ofInt 3
  truncateSampleZ (f0 + (c1 + c2 * x) * x)

/-- noise.rs 19-28: one item of `triangle` -/
def PseudoRandom.triangleZ (b : Build) (s : PseudoRandom) : R (PseudoRandom × Z32) := do
  let (s, r1) ← s.rand b
  let a := (Z32.ofInt (r1 &&& 16383 : Nat) / Z32.ofInt 16384) * Z32.ofInt (-1)
  let (s, r2) ← s.rand b
  let c := (Z32.ofInt (r2 &&& 16383 : Nat) / Z32.ofInt 16384) * Z32.ofInt 1
  pure (s, a + c)

/-! ## frame.rs -/

namespace FrameCodec

/-- frame.rs 235-241 -/
def predictFromZ (h : CircularStack Int) : Int := predictZ (h.prev 3) (h.prev 2) (h.prev 1)

/-- frame.rs 380-396: the loop over the samples -/
def costTableZ (b : Build) : CircularStack Int → List Z32 → List Nat → R (List Nat)
  | _, [], t => pure t
  | h, sample :: rest, t => do
    let current := truncateSampleZ sample
    let predicted := predictFromZ h
    let entropy := (current - predicted).natAbs
    let t ← addCosts b entropy 15 t
    costTableZ b (h.push current) rest t

/-- frame.rs 373-406: `compute_optimal_divisor_exponent` -/
def computeOptimalDivisorExponentZ (b : Build) (h : CircularStack Int) (samples : List Z32) : R Nat := do
  let t ← costTableZ b h samples (List.replicate 16 0)
  pure ((argminPos t).getD 1)

/-- frame.rs 232-250, 269-287: entropy-encode samples -/
def encodeSamplesZ (b : Build) (exponent : Nat) :
    BitStream → CircularStack Int → List Z32 → R (BitStream × CircularStack Int)
  | s, h, [] => pure (s, h)
  | s, h, sample :: rest => do
    let current := truncateSampleZ sample
    let predicted := predictFromZ h
    let entropy ← clampI (current - predicted) (-32768 + 1) (32767 - 1)
    let s ← s.writeCompressed b exponent (BitVec.ofInt 16 entropy)
    encodeSamplesZ b exponent s (h.push current) rest

/-- frame.rs 193-291: `encode_frame` -/
def encodeFrameZ (b : Build) (c : FrameCodec) (stream : AudioStream) (headers : FrameHeaders) (pcm : List Z32) :
    R (FrameCodec × AudioStream × FrameHeaders) :=
  match c.state with
  | .init => do
    let bitCursor := stream.stream.bitCursor
    let p0 ← idx pcm 0
    let s ← stream.stream.writeU16 (BitVec.ofInt 16 (truncateSampleZ p0))
    let h := c.history.push (truncateSampleZ p0)
    let p1 ← idx pcm 1
    let s ← s.writeU16 (BitVec.ofInt 16 (truncateSampleZ p1))
    let h := h.push (truncateSampleZ p1)
    let p2 ← idx pcm 2
    let s ← s.writeU16 (BitVec.ofInt 16 (truncateSampleZ p2))
    let h := h.push (truncateSampleZ p2)
    let exponent ← computeOptimalDivisorExponentZ b h (pcm.drop 3)
    let headers ← headers.push
      { exponent := exponent, size := pcm.length % 2 ^ 16, bitCursor := bitCursor, isInit := true
        history := historyOf h }
    let (s, h) ← encodeSamplesZ b exponent s h (pcm.drop 3)
    pure ({ c with state := .encoding, history := h }, { stream with stream := s }, headers)
  | .encoding => do
    let exponent ← computeOptimalDivisorExponentZ b c.history pcm
    let headers ← headers.push
      { exponent := exponent, size := pcm.length % 2 ^ 16, bitCursor := stream.stream.bitCursor, isInit := false
        history := historyOf c.history }
    let (s, h) ← encodeSamplesZ b exponent stream.stream c.history pcm
    pure ({ c with history := h }, { stream with stream := s }, headers)
  | .decoding => .error .explicit

/-- frame.rs 312-316: what is put into the buffer for a raw sample -/
def rawZ (current : Int) : Z32 := normalizeSampleZ current

/-- frame.rs 334, 361: what is put into the buffer for a decoded sample -/
def decodedZ (current : Int) : Z32 := (normalizeSampleZ current).clamp (Z32.ofInt (-1)) (Z32.ofInt 1)

end FrameCodec

/-! ## adhoc.rs -/

namespace AdhocCodec

/-- adhoc.rs 222: `DITHER_AMPLITUDE` -/
def DITHER_AMPLITUDE_Z : Z32 := Z32.ofRat (1 / 1000)

/-- adhoc.rs 241-249: dither and scale the samples of one channel -/
def ditherZ (b : Build) (invScale : Z32) : PseudoRandom → List Z32 → R (PseudoRandom × List Z32)
  | seq, [] => pure (seq, [])
  | seq, x :: xs => do
    let (seq, noise) ← seq.triangleZ b
    let y := (x + noise * DITHER_AMPLITUDE_Z * (Z32.ofInt 1 - invScale)) * invScale
    let (seq, ys) ← ditherZ b invScale seq xs
    pure (seq, y :: ys)

/-- adhoc.rs 236-239: the samples of channel `ch` -/
def deinterleaveZ (pcm : List Z32) (numChannels numChunks ch : Nat) : R (List Z32) :=
  (List.range numChunks).mapM fun k => idx pcm (k * numChannels + ch)

/-- adhoc.rs 235-252: the body of the channel loop. The scale of a codec and its inverse are no zeros. -/
def encodeChannelZ (b : Build) (c : AdhocCodec) (pcm : List Z32) (numChannels numChunks ch : Nat) : R AdhocCodec := do
  let xs ← deinterleaveZ pcm numChannels numChunks ch
  let (seq, ys) ← ditherZ b (Z32.plain c.invScale) c.seq xs
  let fc ← idx c.channelStateList ch
  let (fc, stream, headers) ← fc.encodeFrameZ b c.stream c.frameHeaderList ys
  let chs ← setIdx c.channelStateList ch fc
  pure { c with seq := seq, channelStateList := chs, stream := stream, frameHeaderList := headers }

/-- adhoc.rs 216-254: the private `encode` -/
def encodeRawZ (b : Build) (c : AdhocCodec) (pcm : List Z32) : R AdhocCodec := do
  let info ← expect c.stream.info
  let numChannels := info.channels
  let numChunks ← udiv pcm.length numChannels
  (List.range numChannels).foldlM (fun c ch => c.encodeChannelZ b pcm numChannels numChunks ch) c

/-- adhoc.rs 321-325: `Streamable::encode` -/
def encodeZ (b : Build) (c : AdhocCodec) (pcm : List Z32) : R (AdhocCodec × Option Nat) := do
  let c ← c.encodeRawZ b pcm
  pure (c, some pcm.length)

/-- adhoc.rs 290-299: pop one sample per channel. The buffers of the codec hold no `-0.0`: what is put there is `FrameCodec.rawZ` or `FrameCodec.decodedZ` of a sample,
see `C145_buffered`. -/
def popBlockZ (legal : Nat) : (n ch : Nat) → AdhocCodec → List Z32 → (cursor : Nat) → R (AdhocCodec × List Z32 × Nat)
  | 0, _, c, pcm, cursor => pure (c, pcm, cursor)
  | n + 1, ch, c, pcm, cursor =>
    if cursor < legal then do
      let fc ← idx c.channelStateList ch
      let sample := ((fc.buffered.head?).map Z32.plain).getD (Z32.ofInt 0)
      let chs ← setIdx c.channelStateList ch { fc with buffered := fc.buffered.tail }
      let pcm ← setIdx pcm cursor sample
      popBlockZ legal n (ch + 1) { c with channelStateList := chs } pcm (cursor + 1)
    else pure (c, pcm, cursor)

/-- adhoc.rs 285-300: the output loop -/
def decodeLoopZ (b : Build) (numChannels legal : Nat) :
    (fuel : Nat) → AdhocCodec → List Z32 → (cursor : Nat) → R (AdhocCodec × List Z32 × Nat)
  | 0, _, _, _ => .error .fuel
  | fuel + 1, c, pcm, cursor =>
    if cursor < legal then do
      let (c, left) ← bufferAudio b numChannels MAX_DECODE_ATTEMPTS c
      if left = 0 then pure (c, pcm, cursor)
      else do
        let (c, pcm, cursor) ← popBlockZ legal numChannels 0 c pcm cursor
        decodeLoopZ b numChannels legal fuel c pcm cursor
    else pure (c, pcm, cursor)

/-- adhoc.rs 256-308: the private `decode` -/
def decodeRawZ (b : Build) (c : AdhocCodec) (pcmOut : List Z32) : R (AdhocCodec × List Z32 × Nat) := do
  let info ← expect c.stream.info
  let numChannels := info.channels
  let q ← udiv pcmOut.length numChannels
  let legal := q * numChannels
  let (c, pcm, cursor) ← decodeLoopZ b numChannels legal (legal + 1) c pcmOut 0
  pure (c, pcm.map (· * Z32.plain c.scale), cursor)

/-- adhoc.rs 333-335, 353: the offset of a seek -/
def seekOffsetZ (info : StreamInfo) (dt : Nat) : Nat :=
  ((Z32.ofInt info.sampleRate / Z32.ofInt 1000 * Z32.ofInt dt).toIntSat 0 (2 ^ 64 - 1)).toNat

/-- adhoc.rs 327-330: `Streamable::decode` -/
def decodeZ (b : Build) (c : AdhocCodec) (pcmOut : List Z32) : R (AdhocCodec × List Z32 × Option Nat) := do
  let (c, pcm, n) ← c.decodeRawZ b pcmOut
  pure (c, pcm, if n > 0 then some n else none)

end AdhocCodec

/-! ## wav.rs -/

namespace WavCodec

/-- wav.rs 204-206: one 8-bit sample as an i16 -/
def convert8Z (sample : Byte) : Int :=
  let x := Z32.ofInt sample.toNat / Z32.ofInt 255 * Z32.ofInt 2 - Z32.ofInt 1
  (x.clamp (Z32.ofInt (-1)) (Z32.ofInt 1) * Z32.ofInt 32766).toIntSat (-32768) 32767

/-- wav.rs 299-303, 307/313/317: the offset of a seek -/
def seekOffsetZ (info : StreamInfo) (dt : Int) : Int :=
  (Z32.ofInt info.sampleRate / Z32.ofInt 1000 * Z32.ofInt dt).toIntSat (-2 ^ 63) (2 ^ 63 - 1)

/-- wav.rs 267-275: `encode` -/
def encodeZ (w : WavCodec) (samples : List Z32) : R (WavCodec × Option Nat) := do
  let q ← udiv samples.length w.info.channels
  let validLen := q * w.info.channels
  let w ← (samples.take validLen).foldlM (fun w x => w.writeSample (truncateSampleZ x)) w
  pure (w, some validLen)

/-- wav.rs 287-293: the output loop -/
def decodeLoopZ (pcm : List Byte) (streamLength validLength : Nat) :
    (fuel : Nat) → (cursor : Nat) → (out : List Z32) → (outCursor : Nat) → R (Nat × List Z32 × Nat)
  | 0, _, _, _ => .error .fuel
  | fuel + 1, cursor, out, outCursor =>
    if cursor < streamLength ∧ outCursor < validLength then do
      let s ← sampleAt pcm cursor
      let out ← setIdx out outCursor (normalizeSampleZ s)
      decodeLoopZ pcm streamLength validLength fuel (cursor + 1) out (outCursor + 1)
    else pure (cursor, out, outCursor)

/-- wav.rs 276-296: `decode` -/
def decodeZ (w : WavCodec) (out : List Z32) : R (WavCodec × List Z32 × Option Nat) := do
  let streamLength := w.numSamples
  let q ← udiv out.length w.info.channels
  let validLength := q * w.info.channels
  let (cursor, out, n) ← decodeLoopZ w.pcm streamLength validLength (validLength + 1) w.shortCursor out 0
  pure ({ w with shortCursor := cursor }, out, if n > 0 then some n else none)

end WavCodec

/-! ## signal.rs -/

namespace Signal

/-- signal.rs 20-24: the inner loop of `convolve_1d` -/
def convInnerZ (samples kernel : List Z32) (i : Nat) : (js : List Nat) → (sum : Z32) → R Z32
  | [], sum => pure sum
  | j :: js, sum => do
    let ix : Int := (j : Int) + i - ((kernel.length / 2 : Nat) : Int)
    let s ← if ix < 0 ∨ ix ≥ samples.length then pure (Z32.ofInt 0) else idx samples ix.toNat
    let k ← idx kernel j
    convInnerZ samples kernel i js (sum + s * k)

/-- signal.rs 15-27: `convolve_1d` -/
def convolve1dZ (samples kernel result : List Z32) : R (List Z32) :=
  (List.range samples.length).foldlM (fun result i => do
    let sum ← convInnerZ samples kernel i (List.range kernel.length) (Z32.ofInt 0)
    setIdx result i sum) result

end Signal
end Adhoc
