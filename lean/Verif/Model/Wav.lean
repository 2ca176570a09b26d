import Verif.Model.Sample
import Verif.Model.Bincode
import Verif.Model.Io
import Verif.Model.Adhoc

/-!
# src/codec/wav.rs

`pcm : Vec<u8>` is the byte list of the recording. The `unsafe` views of it as `[i16]` (228-235) and of the header as bytes
(70-81) are read as little-endian, as on every platform the crate targets.
-/

namespace Adhoc

/-- wav.rs 12-26: `struct RawWavHeader`: the fields that `save_to` sets; the others are constants -/
structure RawWavHeader where
  fileSize : Nat
  cksize : Nat
  audioFormat : Int
  numChannels : Int
  frequency : Int
  bytesPerSec : Int
  blockAlign : Int
  bitsPerSample : Int
  fileSizeData : Nat
  deriving DecidableEq, Repr

/-- ASCII bytes -/
def ascii (s : List Char) : List Byte := s.map fun c => BitVec.ofNat 8 c.toNat

namespace RawWavHeader

/-- wav.rs 12-26, 70-75: `as_bytes` (44 bytes, no padding) -/
def asBytes (h : RawWavHeader) : List Byte :=
  ascii ['R', 'I', 'F', 'F'] ++ Bincode.leBytes 4 h.fileSize ++ ascii ['W', 'A', 'V', 'E'] ++ ascii ['f', 'm', 't', ' ']
    ++ Bincode.leBytes 4 h.cksize ++ Bincode.leBytes 2 (asU 16 h.audioFormat) ++ Bincode.leBytes 2 (asU 16 h.numChannels)
    ++ Bincode.leBytes 4 (asU 32 h.frequency) ++ Bincode.leBytes 4 (asU 32 h.bytesPerSec)
    ++ Bincode.leBytes 2 (asU 16 h.blockAlign) ++ Bincode.leBytes 2 (asU 16 h.bitsPerSample)
    ++ ascii ['d', 'a', 't', 'a'] ++ Bincode.leBytes 4 h.fileSizeData

end RawWavHeader

/-- wav.rs 86-92: `struct WavCodec` -/
structure WavCodec where
  info : StreamInfo
  pcm : List Byte
  shortCursor : Nat
  deriving DecidableEq, Repr

/-- why `WavCodec::load` returned `Err` -/
inductive WavErr
  | readHeader
  | noData
  | badBits
  | badFormat
  deriving DecidableEq, Repr

namespace WavCodec

/-- wav.rs 95-101: `new` -/
def new (info : StreamInfo) : WavCodec := { info := info, pcm := [], shortCursor := 0 }

/-- wav.rs 224-226: `num_samples` -/
def numSamples (w : WavCodec) : Nat := w.pcm.length / 2

/-- wav.rs 116-125: the header `save_to` writes -/
def header (b : Build) (w : WavCodec) : R RawWavHeader := do
  -- 117: `size_of::<RawWavHeader>() as u32 - 8 + pcm.len() as u32`
  let fileSize ← chkU b 32 ((44 - 8 + w.pcm.length % 2 ^ 32 : Nat) : Int)
  let frequency := asI 32 w.info.sampleRate
  let numChannels := asI 16 w.info.channels
  -- 122: i32 arithmetic
  let t ← chkI b 32 (frequency * numChannels)
  let t ← chkI b 32 (t * 16)
  let bytesPerSec := t.tdiv 8
  -- 123: i16 arithmetic
  let u ← chkI b 16 (numChannels * 16)
  let blockAlign := u.tdiv 8
  pure
    { fileSize := fileSize, cksize := 16, audioFormat := 1, numChannels := numChannels, frequency := frequency
      bytesPerSec := bytesPerSec, blockAlign := blockAlign, bitsPerSample := 16, fileSizeData := w.pcm.length % 2 ^ 32 }

/-- wav.rs 112-131: `save_to`; `true` is `Ok(())`. The header goes through a single `write` call. -/
def saveTo (b : Build) (w : WavCodec) (dst : Writer) : R (Writer × Bool) := do
  let h ← w.header b
  match dst.write h.asBytes with
  | (dst, none) => pure (dst, false)
  | (dst, some _) => pure (dst.writeAll w.pcm)

/-- wav.rs 149-156: first index of `data` among the 4-byte windows -/
def findData : List Byte → Option Nat
  | a :: b :: c :: d :: rest =>
    if [a, b, c, d] = ascii ['d', 'a', 't', 'a'] then some 0
    else (findData (b :: c :: d :: rest)).map (· + 1)
  | _ => none

/-- `i16::from_le_bytes` of the two bytes at offset `o` -/
def i16At (l : List Byte) (o : Nat) : Int := asI 16 (Bincode.leNat ((l.drop o).take 2))

/-- wav.rs 204-206: one 8-bit sample as an i16 -/
def convert8 (sample : Byte) : Int :=
  let x := F32.ofInt sample.toNat / F32.ofInt 255 * F32.ofInt 2 - F32.ofInt 1
  (x.clamp (F32.ofInt (-1)) (F32.ofInt 1) * F32.ofInt 32766).toIntSat (-32768) 32767

/-- low and high byte of an i16 (207-208, 239-240) -/
def i16Bytes (x : Int) : List Byte := Bincode.leBytes 2 (asU 16 x)

/-- wav.rs 202-209: the in-place widening loop, `k` from `len - 1` down to 0 -/
def widen : (k : Nat) → List Byte → R (List Byte)
  | 0, pcm => pure pcm
  | k + 1, pcm => do
    let sample ← idx pcm k
    let s := convert8 sample
    let pcm ← setIdx pcm (2 * k) (BitVec.ofNat 8 (asU 16 s))
    let pcm ← setIdx pcm (2 * k + 1) (BitVec.ofNat 8 (asU 16 s / 256))
    widen k pcm

/-- wav.rs 134-222: `load`, from a resource with content `bytes` positioned at `pos` -/
def loadAt (bytes : List Byte) (pos : Nat) : R (Except WavErr WavCodec) :=
  -- 140-142: `read_exact` of 256 bytes
  let hdr := (bytes.drop pos).take 256
  if hdr.length < 256 then pure (.error .readHeader)
  else match findData hdr with
  | none => pure (.error .noData)
  | some dataStart => do
    -- 171-177: the declared length is read (and only printed in comments)
    let rest := hdr.drop (dataStart + 4)
    let _ ← idx rest 0
    let _ ← idx rest 1
    let _ ← idx rest 2
    let _ ← idx rest 3
    -- 158-161: fields at fixed offsets
    let audioFormat := i16At hdr 20
    let numChannels := i16At hdr 22
    let frequency := Bincode.leNat ((hdr.drop 24).take 4)
    let bits := i16At hdr 34
    if bits ≠ 16 ∧ bits ≠ 8 then pure (.error .badBits)
    else if audioFormat ≠ 1 then pure (.error .badFormat)
    else do
      -- 189-196: absolute seek, then everything up to the end
      let pcm := bytes.drop (dataStart + 8)
      let pcm ← if bits = 8 then widen pcm.length (pcm ++ List.replicate pcm.length 0#8) else pure pcm
      pure (.ok
        { info := { sampleRate := frequency, channels := asU 32 numChannels }
          pcm := pcm, shortCursor := 0 })

/-- wav.rs 134-222: `load` of a freshly opened resource -/
def load (bytes : List Byte) : R (Except WavErr WavCodec) := loadAt bytes 0

/-- wav.rs 238-250: `write_sample` -/
def writeSample (w : WavCodec) (x : Int) : R WavCodec := do
  let upper := BitVec.ofNat 8 (asU 16 x / 256)
  let lower := BitVec.ofNat 8 (asU 16 x)
  if w.shortCursor < w.numSamples then do
    let pcm ← setIdx w.pcm (2 * w.shortCursor) lower
    let pcm ← setIdx pcm (2 * w.shortCursor + 1) upper
    pure { w with pcm := pcm, shortCursor := w.shortCursor + 1 }
  else
    pure { w with pcm := w.pcm ++ [lower] ++ [upper], shortCursor := w.shortCursor + 1 }

/-- wav.rs 261-265: `filesize_upperbound` -/
def filesizeUpperbound (w : WavCodec) : Nat := 44 * 8 + w.pcm.length * 8

/-- wav.rs 267-275: `encode` -/
def encode (w : WavCodec) (samples : List F32) : R (WavCodec × Option Nat) := do
  let q ← udiv samples.length w.info.channels
  let validLen := q * w.info.channels
  let w ← (samples.take validLen).foldlM (fun w x => w.writeSample (truncateSample x)) w
  pure (w, some validLen)

/-- wav.rs 228-230, 288: sample `i` of the i16 view of the bytes -/
def sampleAt (pcm : List Byte) (i : Nat) : R Int :=
  if i < pcm.length / 2 then pure (i16At pcm (2 * i)) else .error .index

/-- wav.rs 287-293: the output loop -/
def decodeLoop (pcm : List Byte) (streamLength validLength : Nat) :
    (fuel : Nat) → (cursor : Nat) → (out : List F32) → (outCursor : Nat) → R (Nat × List F32 × Nat)
  | 0, _, _, _ => .error .fuel
  | fuel + 1, cursor, out, outCursor =>
    if cursor < streamLength ∧ outCursor < validLength then do
      let s ← sampleAt pcm cursor
      let out ← setIdx out outCursor (normalizeSample s)
      decodeLoop pcm streamLength validLength fuel (cursor + 1) out (outCursor + 1)
    else pure (cursor, out, outCursor)

/-- wav.rs 276-296: `decode`; codec, buffer and count after the call -/
def decode (w : WavCodec) (out : List F32) : R (WavCodec × List F32 × Option Nat) := do
  let streamLength := w.numSamples
  let q ← udiv out.length w.info.channels
  let validLength := q * w.info.channels
  let (cursor, out, n) ← decodeLoop w.pcm streamLength validLength (validLength + 1) w.shortCursor out 0
  pure ({ w with shortCursor := cursor }, out, if n > 0 then some n else none)

/-- wav.rs 299-303, 307/313/317: `(sample_rate / 1000.0 * dt as f32) as i64` -/
def seekOffset (info : StreamInfo) (dt : Int) : Int :=
  (F32.ofInt info.sampleRate / F32.ofInt 1000 * F32.ofInt dt).toIntSat (-2 ^ 63) (2 ^ 63 - 1)

/-- wav.rs 298-323: `seek` -/
def seek (b : Build) (w : WavCodec) (dt : SeekFrom) : R WavCodec := do
  let numChannels : Int := w.info.channels
  let numSamples : Int := w.numSamples
  match dt with
  | .current dt => do
    let off := seekOffset w.info dt
    let q ← udiv w.shortCursor w.info.channels
    let blockIndex := (q : Int) * numChannels
    let p ← chkI b 64 (off * numChannels)
    let s ← chkI b 64 (blockIndex + p)
    let c ← clampI s 0 (numSamples - 1)
    pure { w with shortCursor := c.toNat }
  | .start dt => do
    let off := seekOffset w.info dt
    let p ← chkI b 64 (off * numChannels)
    let c ← clampI p 0 (numSamples - 1)
    pure { w with shortCursor := c.toNat }
  | .end dt => do
    let off := seekOffset w.info dt
    let blockIndex := numSamples - numSamples
    let p ← chkI b 64 (off * numChannels)
    let s ← chkI b 64 (blockIndex + p)
    let c ← clampI s 0 (numSamples - 1)
    pure { w with shortCursor := c.toNat }

end WavCodec
end Adhoc
