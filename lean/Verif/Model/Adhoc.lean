import Verif.Model.Frame
import Verif.Model.Bincode
import Verif.Model.Io

/-!
# src/codec/adhoc.rs
-/

namespace Adhoc

/-- `std::io::SeekFrom` -/
inductive SeekFrom
  | start (dt : Nat)
  | current (dt : Int)
  | «end» (dt : Int)
  deriving DecidableEq, Repr

/-- adhoc.rs 19: `MAX_DECODE_ATTEMPTS` -/
def MAX_DECODE_ATTEMPTS : Nat := 10

/-- adhoc.rs 30-57: `struct AdhocCodec`; the scratch buffer `deinterleaved_channel` is overwritten before every use and is
left out -/
structure AdhocCodec where
  frameHeaderList : FrameHeaders
  channelStateList : List FrameCodec
  stream : AudioStream
  compressionLevel : Nat
  scale : F32
  invScale : F32
  seq : PseudoRandom

namespace AdhocCodec

/-- adhoc.rs 60-71: `new`, audio_stream.rs 12-17 -/
def new : AdhocCodec :=
  { frameHeaderList := .new, channelStateList := [], stream := { info := none, stream := .new }
    compressionLevel := 0, scale := F32.ofInt 1, invScale := F32.ofInt 1, seq := .new 314 }

/-- `Vec::resize` -/
def resize {α} (l : List α) (n : Nat) (a : α) : List α := l.take n ++ List.replicate (n - l.length) a

/-- adhoc.rs 83-88: `set_info`; 73-79, `with_info`, does the same -/
def setInfo (c : AdhocCodec) (info : StreamInfo) : AdhocCodec :=
  { c with
    channelStateList := resize c.channelStateList info.channels FrameCodec.new
    stream := { c.stream with info := some info } }

/-- adhoc.rs 90-94: `info` -/
def info (c : AdhocCodec) : R StreamInfo := expect c.stream.info

/-- adhoc.rs 127-134: `with_compression_level` -/
def withCompressionLevel (c : AdhocCodec) (level : Nat) : AdhocCodec :=
  let level := min level 10
  let scale := F32.ofInt (2 ^ level)
  { c with compressionLevel := level, scale := scale, invScale := F32.ofInt 1 / scale }

/-- adhoc.rs 138-142: `init` -/
def init (c : AdhocCodec) : AdhocCodec :=
  { c with
    stream := { c.stream with stream := c.stream.stream.seekStart }
    frameHeaderList := c.frameHeaderList.reset
    channelStateList := c.channelStateList.map FrameCodec.init }

/-- adhoc.rs 149-160: `calculate_sample_count_per_channel` -/
def calculateSampleCountPerChannel (c : AdhocCodec) : R Nat := do
  let info ← c.info
  let frames ← (List.range c.frameHeaderList.len).mapM fun i => c.frameHeaderList.get i
  let total := ((frames.filterMap id).map FrameHeader.size).sum
  udiv total info.channels

/-- adhoc.rs 99-123: `filesize_upperbound`; `nibCap` is `Vec::capacity` of the header nibble bytes,
`size_of::<StreamInfo>()` is 8 -/
def filesizeUpperbound (c : AdhocCodec) (nibCap : Nat) : Nat :=
  let audioStreamHeader := 8 * 8
  let bitstream := c.stream.stream.capacityUpperbound + 128 * 2
  let audioStreamBits := audioStreamHeader + bitstream
  let compressionLevelBits := 32
  audioStreamBits + compressionLevelBits + c.frameHeaderList.calculateWeightUpperbound nibCap

/-! ## saving and loading -/

/-- adhoc.rs 163-181 and the field order of frame.rs 19-27, nibble_list.rs 4-7, bitvec.rs 6-9, audio_stream.rs 6-9,
codec.rs 33-38, bitstream.rs 53-57: what `save_to` serializes -/
def encPieces (c : AdhocCodec) : List (List Byte) :=
  let h := c.frameHeaderList
  let s := c.stream
  Bincode.encU 4 c.compressionLevel
    ++ Bincode.encVec (fun b => Bincode.encU 1 b.toNat) h.divisorExpList.data
    ++ Bincode.encU 4 h.divisorExpList.nibbleCount
    ++ Bincode.encVec (fun b => Bincode.encU 8 b.toNat) h.isInitFrameList.binary
    ++ Bincode.encU 16 h.isInitFrameList.bitCursor
    ++ Bincode.encVec (Bincode.encU 2) h.frameSizeList
    ++ Bincode.encVec (Bincode.encU 8) h.bitCursorList
    ++ Bincode.encVec (fun t => Bincode.encI16 t.1 ++ Bincode.encI16 t.2.1 ++ Bincode.encI16 t.2.2) h.stackHistoryList
    ++ Bincode.encU 4 h.headerCursor
    ++ Bincode.encOpt (fun i => Bincode.encU 4 i.sampleRate ++ Bincode.encU 4 i.channels) s.info
    ++ Bincode.encVec (fun b => Bincode.encU 16 b.toNat) s.stream.binary
    ++ Bincode.encU 16 s.stream.bitCursor
    ++ Bincode.encU 16 s.stream.capacity

/-- adhoc.rs 163-181: `save_to` -/
def saveTo (c : AdhocCodec) (w : Writer) : Writer × Option Unit :=
  match w.writePieces c.encPieces with
  | (w, true) => (w, some ())
  | (w, false) => (w, none)

/-- adhoc.rs 187-192: `struct SlimAdhocCodec` -/
structure Slim where
  compressionLevel : Nat
  frameHeaderList : FrameHeaders
  stream : AudioStream
  deriving DecidableEq, Repr

/-- adhoc.rs 194: the derived deserializer of `SlimAdhocCodec` -/
def decSlim : Bincode.Dec Slim := fun bs => do
  let (level, bs) ← Bincode.decU 4 bs
  let (data, bs) ← Bincode.decVec (fun bs => (Bincode.decU 1 bs).map fun (n, bs) => (BitVec.ofNat 8 n, bs)) bs
  let (nibbleCount, bs) ← Bincode.decU 4 bs
  let (bits, bs) ← Bincode.decVec (fun bs => (Bincode.decU 8 bs).map fun (n, bs) => (BitVec.ofNat 64 n, bs)) bs
  let (bitsCursor, bs) ← Bincode.decU 16 bs
  let (sizes, bs) ← Bincode.decVec (Bincode.decU 2) bs
  let (cursors, bs) ← Bincode.decVec (Bincode.decU 8) bs
  let (hist, bs) ← Bincode.decVec (fun bs => do
    let (a, bs) ← Bincode.decI16 bs
    let (b, bs) ← Bincode.decI16 bs
    let (c, bs) ← Bincode.decI16 bs
    pure ((a, b, c), bs)) bs
  let (headerCursor, bs) ← Bincode.decU 4 bs
  let (info, bs) ← Bincode.decOpt (fun bs => do
    let (r, bs) ← Bincode.decU 4 bs
    let (c, bs) ← Bincode.decU 4 bs
    pure (({ sampleRate := r, channels := c } : StreamInfo), bs)) bs
  let (binary, bs) ← Bincode.decVec (fun bs => (Bincode.decU 16 bs).map fun (n, bs) => (BitVec.ofNat 128 n, bs)) bs
  let (bitCursor, bs) ← Bincode.decU 16 bs
  let (capacity, bs) ← Bincode.decU 16 bs
  pure
    ({ compressionLevel := level
       frameHeaderList :=
         { divisorExpList := { data := data, nibbleCount := nibbleCount }
           isInitFrameList := { binary := bits, bitCursor := bitsCursor }
           frameSizeList := sizes, bitCursorList := cursors, stackHistoryList := hist, headerCursor := headerCursor }
       stream := { info := info, stream := { binary := binary, bitCursor := bitCursor, capacity := capacity } } }, bs)

/-- adhoc.rs 197: `1 << level` as an i32; the shift amount is checked in debug builds and masked in release builds -/
def shl1 (b : Build) (level : Nat) : R Int :=
  if level < 32 then pure (asI 32 (2 ^ level))
  else match b with
    | .debug => .error .overflow
    | .release => pure (asI 32 (2 ^ (level % 32)))

/-- adhoc.rs 183-214: `load`, from the whole content of the resource -/
def load (b : Build) (bytes : List Byte) : R (Option AdhocCodec) :=
  match decSlim bytes with
  | none => pure none
  | some (slim, _) => do
    let s ← shl1 b slim.compressionLevel
    let scale := F32.ofInt s
    match slim.stream.info with
    | none => pure none
    | some info =>
      let c : AdhocCodec :=
        { compressionLevel := slim.compressionLevel
          channelStateList := List.replicate info.channels FrameCodec.new
          stream := slim.stream, frameHeaderList := slim.frameHeaderList
          scale := scale, invScale := F32.ofInt 1 / scale, seq := .new 314 }
      pure (some c.init)

/-! ## encoding -/

/-- adhoc.rs 222: `DITHER_AMPLITUDE` -/
def DITHER_AMPLITUDE : F32 := F32.ofRat (1 / 1000)

/-- adhoc.rs 241-249: dither and scale the samples of one channel -/
def dither (b : Build) (invScale : F32) : PseudoRandom → List F32 → R (PseudoRandom × List F32)
  | seq, [] => pure (seq, [])
  | seq, x :: xs => do
    let (seq, noise) ← seq.triangle b
    let y := (x + noise * DITHER_AMPLITUDE * (F32.ofInt 1 - invScale)) * invScale
    let (seq, ys) ← dither b invScale seq xs
    pure (seq, y :: ys)

/-- adhoc.rs 236-239: the samples of channel `ch` -/
def deinterleave (pcm : List F32) (numChannels numChunks ch : Nat) : R (List F32) :=
  (List.range numChunks).mapM fun k => idx pcm (k * numChannels + ch)

/-- adhoc.rs 235-252: the body of the channel loop -/
def encodeChannel (b : Build) (c : AdhocCodec) (pcm : List F32) (numChannels numChunks ch : Nat) : R AdhocCodec := do
  let xs ← deinterleave pcm numChannels numChunks ch
  let (seq, ys) ← dither b c.invScale c.seq xs
  let fc ← idx c.channelStateList ch
  let (fc, stream, headers) ← fc.encodeFrame b c.stream c.frameHeaderList ys
  let chs ← setIdx c.channelStateList ch fc
  pure { c with seq := seq, channelStateList := chs, stream := stream, frameHeaderList := headers }

/-- adhoc.rs 216-254: the private `encode` -/
def encodeRaw (b : Build) (c : AdhocCodec) (pcm : List F32) : R AdhocCodec := do
  let info ← expect c.stream.info
  let numChannels := info.channels
  let numChunks ← udiv pcm.length numChannels
  (List.range numChannels).foldlM (fun c ch => c.encodeChannel b pcm numChannels numChunks ch) c

/-- adhoc.rs 321-325: `Streamable::encode` -/
def encode (b : Build) (c : AdhocCodec) (pcm : List F32) : R (AdhocCodec × Option Nat) := do
  let c ← c.encodeRaw b pcm
  pure (c, some pcm.length)

/-! ## decoding -/

/-- adhoc.rs 262-266: `is_buffers_empty` -/
def isBuffersEmpty (c : AdhocCodec) : Bool := c.channelStateList.all fun cs => cs.buffered.isEmpty

/-- adhoc.rs 274: decode the next frame into channel `ch` -/
def decodeChannel (b : Build) (c : AdhocCodec) (ch : Nat) : R AdhocCodec := do
  let fc ← idx c.channelStateList ch
  let (fc, stream, headers, _) ← fc.decodeFrame b c.stream c.frameHeaderList
  let chs ← setIdx c.channelStateList ch fc
  pure { c with channelStateList := chs, stream := stream, frameHeaderList := headers }

/-- adhoc.rs 273-275: decode one frame per channel -/
def decodeBlock (b : Build) (c : AdhocCodec) (numChannels : Nat) : R AdhocCodec :=
  (List.range numChannels).foldlM (fun c ch => c.decodeChannel b ch) c

/-- adhoc.rs 268-279: `buffer_audio`; `left` counts down from `MAX_DECODE_ATTEMPTS`, returns how many attempts are left -/
def bufferAudio (b : Build) (numChannels : Nat) : (left : Nat) → AdhocCodec → R (AdhocCodec × Nat)
  | 0, c => pure (c, 0)
  | left + 1, c =>
    if c.isBuffersEmpty then do
      let c ← c.decodeBlock b numChannels
      bufferAudio b numChannels left c
    else pure (c, left + 1)

/-- adhoc.rs 290-299: pop one sample per channel, channels `ch, ch+1, ..` (`n` of them left) -/
def popBlock (legal : Nat) : (n ch : Nat) → AdhocCodec → List F32 → (cursor : Nat) → R (AdhocCodec × List F32 × Nat)
  | 0, _, c, pcm, cursor => pure (c, pcm, cursor)
  | n + 1, ch, c, pcm, cursor =>
    if cursor < legal then do
      let fc ← idx c.channelStateList ch
      let sample := fc.buffered.headD (F32.ofInt 0)
      let chs ← setIdx c.channelStateList ch { fc with buffered := fc.buffered.tail }
      let pcm ← setIdx pcm cursor sample
      popBlock legal n (ch + 1) { c with channelStateList := chs } pcm (cursor + 1)
    else pure (c, pcm, cursor)

/-- adhoc.rs 285-300: the output loop -/
def decodeLoop (b : Build) (numChannels legal : Nat) :
    (fuel : Nat) → AdhocCodec → List F32 → (cursor : Nat) → R (AdhocCodec × List F32 × Nat)
  | 0, _, _, _ => .error .fuel
  | fuel + 1, c, pcm, cursor =>
    if cursor < legal then do
      let (c, left) ← bufferAudio b numChannels MAX_DECODE_ATTEMPTS c
      if left = 0 then pure (c, pcm, cursor)
      else do
        let (c, pcm, cursor) ← popBlock legal numChannels 0 c pcm cursor
        decodeLoop b numChannels legal fuel c pcm cursor
    else pure (c, pcm, cursor)

/-- adhoc.rs 256-308: the private `decode`; the result is the codec, the buffer after the call and the count -/
def decodeRaw (b : Build) (c : AdhocCodec) (pcmOut : List F32) : R (AdhocCodec × List F32 × Nat) := do
  let info ← expect c.stream.info
  let numChannels := info.channels
  let q ← udiv pcmOut.length numChannels
  let legal := q * numChannels
  let (c, pcm, cursor) ← decodeLoop b numChannels legal (legal + 1) c pcmOut 0
  pure (c, pcm.map (· * c.scale), cursor)

/-- adhoc.rs 327-330: `Streamable::decode` -/
def decode (b : Build) (c : AdhocCodec) (pcmOut : List F32) : R (AdhocCodec × List F32 × Option Nat) := do
  let (c, pcm, n) ← c.decodeRaw b pcmOut
  pure (c, pcm, if n > 0 then some n else none)

/-! ## seeking -/

/-- adhoc.rs 363-376: find the block of frames to start in -/
def findBlock (b : Build) (h : FrameHeaders) (channels target blockLen : Nat) :
    (fuel : Nat) → (skipped block : Nat) → R (Nat × Nat)
  | 0, _, _ => .error .fuel
  | fuel + 1, skipped, block =>
    if block < blockLen ∧ skipped < target then do
      let hdr? ← h.get (block * channels)
      let hdr ← expect hdr?
      let headerSize ← chkU b 64 ((hdr.size * channels : Nat) : Int)
      let sum ← chkU b 64 ((skipped + headerSize : Nat) : Int)
      if sum ≥ target then pure (skipped, block)
      else findBlock b h channels target blockLen fuel sum (block + 1)
    else pure (skipped, block)

/-- adhoc.rs 392-416: restore channel `off` from its header and decode its frame -/
def seekChannel (b : Build) (c : AdhocCodec) (startIdx off : Nat) : R AdhocCodec := do
  let hdr? ← c.frameHeaderList.get (startIdx + off)
  let hdr ← expect hdr?
  let fc ← idx c.channelStateList off
  let h := ((fc.history.push hdr.history.1).push hdr.history.2.1).push hdr.history.2.2
  let fc : FrameCodec := { state := if hdr.isInit then .init else .decoding, history := h, buffered := [] }
  let (fc, stream, headers, _) ← fc.decodeFrame b c.stream c.frameHeaderList
  let chs ← setIdx c.channelStateList off fc
  pure { c with channelStateList := chs, stream := stream, frameHeaderList := headers }

/-- adhoc.rs 421-426: drop one sample from each of the first `channels` channels -/
def dropOne (c : AdhocCodec) (channels : Nat) : R AdhocCodec :=
  (List.range channels).foldlM (fun c off => do
    let fc ← idx c.channelStateList off
    let chs ← setIdx c.channelStateList off { fc with buffered := fc.buffered.tail }
    pure { c with channelStateList := chs }) c

/-- adhoc.rs 420-427: prune samples until the target is reached -/
def prune (b : Build) (channels target : Nat) : (fuel : Nat) → (skipped : Nat) → AdhocCodec → R AdhocCodec
  | 0, _, _ => .error .fuel
  | fuel + 1, skipped, c =>
    if skipped < target then do
      let c ← c.dropOne channels
      let skipped ← chkU b 64 ((skipped + channels : Nat) : Int)
      prune b channels target fuel skipped c
    else pure c

/-- adhoc.rs 333-335, 353: sample offset per channel of a seek to `dt` milliseconds -/
def seekOffset (info : StreamInfo) (dt : Nat) : Nat :=
  let frequencyInMillis := F32.ofInt info.sampleRate / F32.ofInt 1000
  ((frequencyInMillis * F32.ofInt dt).toIntSat 0 (2 ^ 64 - 1)).toNat

/-- adhoc.rs 351-428: seek a rewound codec to `dt` milliseconds -/
def seekTo (b : Build) (info : StreamInfo) (c : AdhocCodec) (dt : Nat) : R AdhocCodec := do
  let channels := info.channels
  let offset := seekOffset info dt
  let target ← chkU b 64 ((offset * channels : Nat) : Int)
  let blockLen ← udiv c.frameHeaderList.len channels
  let (skipped, block) ← findBlock b c.frameHeaderList channels target blockLen (blockLen + 1) 0 0
  let startIdx := block * channels
  let hdr? ← c.frameHeaderList.get startIdx
  let hdr ← expect hdr?
  let c : AdhocCodec :=
    { c with
      stream := { c.stream with stream := c.stream.stream.setBitCursor hdr.bitCursor }
      frameHeaderList := c.frameHeaderList.setCursor startIdx }
  let c ← (List.range channels).foldlM (fun c off => c.seekChannel b startIdx off) c
  prune b channels target (target + 1) skipped c

/-- adhoc.rs 332-433: `seek` -/
def seek (b : Build) (c : AdhocCodec) (dt : SeekFrom) : R AdhocCodec := do
  let info ← expect c.stream.info
  let c := c.init
  match dt with
  | .start dt => if dt = 0 then pure c else seekTo b info c dt
  | _ => .error .unimplemented

end AdhocCodec
end Adhoc
