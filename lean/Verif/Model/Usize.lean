import Verif.Model.Adhoc

/-!
# The width of `usize`

The other files model a 64-bit target. README.md 3-10 says what the crate is used for: recordings are
made in the browser (wasm32, where `usize` has 32 bits) and sent to a server. Here are the functions whose code mentions `usize` in a way that can matter, for a
target with `w` bits: conversions to `usize` keep `w` bits, and sums and products of `usize` are checked (debug) or wrap
(release). The functions above them are repeated so that they call these.

Simplifications: lengths of slices and vectors in memory fit in `usize` on every target. The flags of the frame headers
(bitvec.rs) are taken as on 64 bits: there are fewer than 2^32 frames.
-/

namespace Adhoc

namespace BitStream

/-- bitstream.rs 69-76: `with_capacity_in_megabytes`, the number of chunks asked for -/
def reservedW (b : Build) (w : Nat) (megaBytes : Nat) : R Nat := do
  let bits ← chkU b w ((megaBytes * (8 * 1000000) : Nat) : Int)
  pure (bits / 128)

/-- bitstream.rs 83-85: `len` -/
def lenW (w : Nat) (s : BitStream) : Nat := s.bitCursor % 2 ^ w

/-- bitstream.rs 91-93: `capacity` -/
def capacityW (w : Nat) (s : BitStream) : Nat := s.capacity % 2 ^ w

/-- bitstream.rs 97-102: `capacity_upperbound` -/
def capacityUpperboundW (b : Build) (w : Nat) (s : BitStream) : R Nat := chkU b w ((s.binary.length * 128 : Nat) : Int)

/-- bitstream.rs 356-358: `chunk_index` -/
def chunkIndexW (w : Nat) (s : BitStream) : Nat := s.bitCursor / 128 % 2 ^ w

/-- bitstream.rs 112-139: `write_bits` -/
def writeBitsW (b : Build) (w : Nat) (s : BitStream) (val : BitVec 128) (numBits : Nat) : R BitStream := do
  let cur := s.chunkIndexW w
  let nxt ← chkU b w ((cur + 1 : Nat) : Int)
  let bitIdx := s.chunkBitIndex
  let s := s.allocateIfNeeded cur
  let s := s.allocateIfNeeded nxt
  let c ← idx s.binary cur
  let c := c &&& ((1#128 <<< bitIdx) - 1#128)
  let c := c ||| (val <<< bitIdx)
  let bin ← setIdx s.binary cur c
  let s := { s with binary := bin }
  let remaining := CHUNK_SIZE_IN_BITS - bitIdx
  let s ← if remaining < numBits then do
      let d ← idx s.binary nxt
      let d := d &&& ((1#128 <<< (numBits - remaining)) - 1#128)
      let d := d ||| (val >>> remaining)
      let bin ← setIdx s.binary nxt d
      pure { s with binary := bin }
    else pure s
  pure (s.offsetBitCursor numBits)

/-- bitstream.rs 141-169: `peek_bits` -/
def peekBitsW (b : Build) (w : Nat) (s : BitStream) (numBits : Nat) : R (BitStream × BitVec 128) := do
  let mask : BitVec 128 := if numBits < 128 then (1#128 <<< numBits) - 1#128 else BitVec.allOnes 128
  let cur := s.chunkIndexW w
  let nxt ← chkU b w ((cur + 1 : Nat) : Int)
  let bitIdx := s.chunkBitIndex
  let s := s.allocateIfNeeded cur
  let s := s.allocateIfNeeded nxt
  if cur ≥ s.binary.length then pure (s, 0#128) else
  let c ← idx s.binary cur
  let bits := c >>> bitIdx
  let remaining := 128 - bitIdx
  let bits ← if remaining < numBits then do
      let d ← idx s.binary nxt
      pure (bits ||| (d <<< remaining))
    else pure bits
  pure (s, bits &&& mask)

/-- bitstream.rs 175-183: `write_bit` -/
def writeBitW (w : Nat) (s : BitStream) (val : BitVec 8) : R BitStream := do
  let bit : BitVec 128 := val.setWidth 128 &&& 1#128
  let cur := s.chunkIndexW w
  let bitIdx := s.chunkBitIndex
  let s := s.allocateIfNeeded cur
  let c ← idx s.binary cur
  let c := c &&& ((1#128 <<< bitIdx) - 1#128)
  let c := c ||| (bit <<< bitIdx)
  let bin ← setIdx s.binary cur c
  pure ({ s with binary := bin }.offsetBitCursor 1)

/-- bitstream.rs 189-198: `read_bit` -/
def readBitW (w : Nat) (s : BitStream) : R (BitStream × BitVec 128) := do
  let cur := s.chunkIndexW w
  let bitIdx := s.chunkBitIndex
  if cur ≥ s.binary.length then pure (s, 0#128) else
  let s := s.offsetBitCursor 1
  let c ← idx s.binary cur
  pure (s, (c >>> bitIdx) &&& 1#128)

/-- bitstream.rs 202-206: `read_bits` -/
def readBitsW (b : Build) (w : Nat) (s : BitStream) (n : Nat) : R (BitStream × BitVec 128) := do
  let (s, v) ← s.peekBitsW b w n
  pure (s.offsetBitCursor n, v)

/-- bitstream.rs 215-221: `write::<u16>` -/
def writeU16W (b : Build) (w : Nat) (s : BitStream) (v : BitVec 16) : R BitStream := s.writeBitsW b w (v.setWidth 128) 16

/-- bitstream.rs 302-310: the loop writing the unary quotient -/
def writeUnaryW (b : Build) (w : Nat) : (fuel : Nat) → BitStream → (quotient : Int) → R BitStream
  | 0, _, _ => .error .fuel
  | fuel + 1, s, quotient =>
    if quotient > 0 then
      if quotient > 128 then do
        let s ← s.writeBitsW b w (BitVec.allOnes 128) 128
        writeUnaryW b w fuel s (quotient - 128)
      else
        s.writeBitsW b w (BitVec.allOnes 128) quotient.toNat
    else pure s

/-- bitstream.rs 283-318: `write_compressed` -/
def writeCompressedW (b : Build) (w : Nat) (s : BitStream) (exponent : Nat) (entropy : BitVec 16) : R BitStream := do
  let signBit : BitVec 16 := (entropy.sshiftRight 15) &&& 1#16
  let absE ← i16op b (entropy.toInt.natAbs : Int)
  let quotient : BitVec 16 := absE.sshiftRight exponent
  let mask ← i16op b ((1#16 <<< exponent).toInt - 1)
  let remainder : BitVec 16 := absE &&& mask
  let s ← s.writeBitW w (signBit.setWidth 8)
  let s ← writeUnaryW b w (quotient.toInt.toNat + 1) s quotient.toInt
  let s ← s.writeBitW w 0#8
  s.writeBitsW b w ((remainder.signExtend 32).setWidth 128) exponent

/-- bitstream.rs 332-338: skip full chunks of ones -/
def readOnesW (b : Build) (w : Nat) : (fuel : Nat) → BitStream → (quotient : BitVec 16) → R (BitStream × BitVec 128 × BitVec 16)
  | 0, _, _ => .error .fuel
  | fuel + 1, s, quotient => do
    let (s, chunk) ← s.peekBitsW b w 128
    if chunk = BitVec.allOnes 128 then
      let s := s.offsetBitCursor 128
      let quotient ← i16op b (quotient.toInt + 128)
      readOnesW b w fuel s quotient
    else pure (s, chunk, quotient)

/-- bitstream.rs 320-354: `read_compressed` -/
def readCompressedW (b : Build) (w : Nat) (s : BitStream) (exponent : Nat) : R (BitStream × BitVec 16) := do
  let (s, bit) ← s.readBitW w
  let signBit : BitVec 16 := bit.setWidth 16
  let divisor : BitVec 16 := 1#16 <<< exponent
  let (s, chunk, quotient) ← readOnesW b w (s.binary.length + 3) s 0#16
  let zeroPos := firstZero 128 chunk
  let s := s.offsetBitCursor (zeroPos + 1)
  let quotient ← i16op b (quotient.toInt + zeroPos)
  let (s, rem) ← s.readBitsW b w exponent
  let remainder : BitVec 16 := rem.setWidth 16
  let dq ← i16op b (divisor.toInt * quotient.toInt)
  let unsignedVal ← i16op b (dq.toInt + remainder.toInt)
  let x ← i16op b (unsignedVal.toInt * -signBit.toInt)
  let y ← i16op b (unsignedVal.toInt * (1 - signBit.toInt))
  let v ← i16op b (x.toInt + y.toInt)
  pure (s, v)

end BitStream

namespace FrameCodec

/-- frame.rs 232-250, 269-287: entropy-encode samples -/
def encodeSamplesW (b : Build) (w : Nat) (exponent : Nat) :
    BitStream → CircularStack Int → List F32 → R (BitStream × CircularStack Int)
  | s, h, [] => pure (s, h)
  | s, h, sample :: rest => do
    let current := truncateSample sample
    let predicted := predictFrom h
    let entropy ← clampI (current - predicted) (-32768 + 1) (32767 - 1)
    let s ← s.writeCompressedW b w exponent (BitVec.ofInt 16 entropy)
    encodeSamplesW b w exponent s (h.push current) rest

/-- frame.rs 193-291: `encode_frame` -/
def encodeFrameW (b : Build) (w : Nat) (c : FrameCodec) (stream : AudioStream) (headers : FrameHeaders) (pcm : List F32) :
    R (FrameCodec × AudioStream × FrameHeaders) :=
  match c.state with
  | .init => do
    let bitCursor := stream.stream.bitCursor
    let p0 ← idx pcm 0
    let s ← stream.stream.writeU16W b w (BitVec.ofInt 16 (truncateSample p0))
    let h := c.history.push (truncateSample p0)
    let p1 ← idx pcm 1
    let s ← s.writeU16W b w (BitVec.ofInt 16 (truncateSample p1))
    let h := h.push (truncateSample p1)
    let p2 ← idx pcm 2
    let s ← s.writeU16W b w (BitVec.ofInt 16 (truncateSample p2))
    let h := h.push (truncateSample p2)
    let exponent ← computeOptimalDivisorExponent b h (pcm.drop 3)
    let headers ← headers.push
      { exponent := exponent, size := pcm.length % 2 ^ 16, bitCursor := bitCursor, isInit := true
        history := historyOf h }
    let (s, h) ← encodeSamplesW b w exponent s h (pcm.drop 3)
    pure ({ c with state := .encoding, history := h }, { stream with stream := s }, headers)
  | .encoding => do
    let exponent ← computeOptimalDivisorExponent b c.history pcm
    let headers ← headers.push
      { exponent := exponent, size := pcm.length % 2 ^ 16, bitCursor := stream.stream.bitCursor, isInit := false
        history := historyOf c.history }
    let (s, h) ← encodeSamplesW b w exponent stream.stream c.history pcm
    pure ({ c with history := h }, { stream with stream := s }, headers)
  | .decoding => .error .explicit

/-- frame.rs 319-338, 346-365: entropy-decode `n` samples -/
def decodeSamplesW (b : Build) (w : Nat) (exponent : Nat) :
    (n : Nat) → BitStream → CircularStack Int → List F32 → R (BitStream × CircularStack Int × List F32)
  | 0, s, h, buf => pure (s, h, buf)
  | n + 1, s, h, buf => do
    let (s, entropy) ← s.readCompressedW b w exponent
    let predicted := predictFrom h
    let current ← clampI (entropy.toInt + predicted) (-32768) 32767
    let decoded := (normalizeSample current).clamp (F32.ofInt (-1)) (F32.ofInt 1)
    decodeSamplesW b w exponent n s (h.push current) (buf ++ [decoded])

/-- frame.rs 308-311: read one raw 16-bit sample -/
def readRawW (b : Build) (w : Nat) (s : BitStream) : R (BitStream × Int) := do
  let (s, v) ← s.readBitsW b w 16
  pure (s, (v.setWidth 16).toInt)

/-- frame.rs 294-371: `decode_frame` -/
def decodeFrameW (b : Build) (w : Nat) (c : FrameCodec) (stream : AudioStream) (headers : FrameHeaders) :
    R (FrameCodec × AudioStream × FrameHeaders × Option Nat) := do
  let (headers, hdr?) ← headers.next
  match hdr? with
  | none => pure (c, stream, headers, none)
  | some hdr =>
    match c.state with
    | .init => do
      let (s, x0) ← readRawW b w stream.stream
      let h := c.history.push x0
      let (s, x1) ← readRawW b w s
      let h := h.push x1
      let (s, x2) ← readRawW b w s
      let h := h.push x2
      let buf := c.buffered ++ [normalizeSample (h.prev 3), normalizeSample (h.prev 2), normalizeSample (h.prev 1)]
      let (s, h, buf) ← decodeSamplesW b w hdr.exponent (hdr.size - 3) s h buf
      pure ({ state := .decoding, history := h, buffered := buf }, { stream with stream := s }, headers,
        some (3 + (hdr.size - 3)))
    | .decoding => do
      let (s, h, buf) ← decodeSamplesW b w hdr.exponent hdr.size stream.stream c.history c.buffered
      pure ({ c with history := h, buffered := buf }, { stream with stream := s }, headers, some hdr.size)
    | .encoding => .error .explicit

end FrameCodec

namespace AdhocCodec

/-- adhoc.rs 99-123: `filesize_upperbound`; the part of the bit stream is computed in `usize` -/
def filesizeUpperboundW (b : Build) (w : Nat) (c : AdhocCodec) (nibCap : Nat) : R Nat := do
  let audioStreamHeader := 8 * 8
  let bits ← c.stream.stream.capacityUpperboundW b w
  let bitstream := bits + 128 * 2
  let audioStreamBits := audioStreamHeader + bitstream
  let compressionLevelBits := 32
  pure (audioStreamBits + compressionLevelBits + c.frameHeaderList.calculateWeightUpperbound nibCap)

/-- adhoc.rs 235-252: the body of the channel loop -/
def encodeChannelW (b : Build) (w : Nat) (c : AdhocCodec) (pcm : List F32) (numChannels numChunks ch : Nat) : R AdhocCodec := do
  let xs ← deinterleave pcm numChannels numChunks ch
  let (seq, ys) ← dither b c.invScale c.seq xs
  let fc ← idx c.channelStateList ch
  let (fc, stream, headers) ← fc.encodeFrameW b w c.stream c.frameHeaderList ys
  let chs ← setIdx c.channelStateList ch fc
  pure { c with seq := seq, channelStateList := chs, stream := stream, frameHeaderList := headers }

/-- adhoc.rs 216-254: the private `encode` -/
def encodeRawW (b : Build) (w : Nat) (c : AdhocCodec) (pcm : List F32) : R AdhocCodec := do
  let info ← expect c.stream.info
  let numChannels := info.channels
  let numChunks ← udiv pcm.length numChannels
  (List.range numChannels).foldlM (fun c ch => c.encodeChannelW b w pcm numChannels numChunks ch) c

/-- adhoc.rs 321-325: `Streamable::encode` -/
def encodeW (b : Build) (w : Nat) (c : AdhocCodec) (pcm : List F32) : R (AdhocCodec × Option Nat) := do
  let c ← c.encodeRawW b w pcm
  pure (c, some pcm.length)

/-- adhoc.rs 274: decode the next frame into channel `ch` -/
def decodeChannelW (b : Build) (w : Nat) (c : AdhocCodec) (ch : Nat) : R AdhocCodec := do
  let fc ← idx c.channelStateList ch
  let (fc, stream, headers, _) ← fc.decodeFrameW b w c.stream c.frameHeaderList
  let chs ← setIdx c.channelStateList ch fc
  pure { c with channelStateList := chs, stream := stream, frameHeaderList := headers }

/-- adhoc.rs 273-275: decode one frame per channel -/
def decodeBlockW (b : Build) (w : Nat) (c : AdhocCodec) (numChannels : Nat) : R AdhocCodec :=
  (List.range numChannels).foldlM (fun c ch => c.decodeChannelW b w ch) c

/-- adhoc.rs 268-279: `buffer_audio` -/
def bufferAudioW (b : Build) (w : Nat) (numChannels : Nat) : (left : Nat) → AdhocCodec → R (AdhocCodec × Nat)
  | 0, c => pure (c, 0)
  | left + 1, c =>
    if c.isBuffersEmpty then do
      let c ← c.decodeBlockW b w numChannels
      bufferAudioW b w numChannels left c
    else pure (c, left + 1)

/-- adhoc.rs 285-300: the output loop -/
def decodeLoopW (b : Build) (w : Nat) (numChannels legal : Nat) :
    (fuel : Nat) → AdhocCodec → List F32 → (cursor : Nat) → R (AdhocCodec × List F32 × Nat)
  | 0, _, _, _ => .error .fuel
  | fuel + 1, c, pcm, cursor =>
    if cursor < legal then do
      let (c, left) ← bufferAudioW b w numChannels MAX_DECODE_ATTEMPTS c
      if left = 0 then pure (c, pcm, cursor)
      else do
        let (c, pcm, cursor) ← popBlock legal numChannels 0 c pcm cursor
        decodeLoopW b w numChannels legal fuel c pcm cursor
    else pure (c, pcm, cursor)

/-- adhoc.rs 256-308: the private `decode` -/
def decodeRawW (b : Build) (w : Nat) (c : AdhocCodec) (pcmOut : List F32) : R (AdhocCodec × List F32 × Nat) := do
  let info ← expect c.stream.info
  let numChannels := info.channels
  let q ← udiv pcmOut.length numChannels
  let legal := q * numChannels
  let (c, pcm, cursor) ← decodeLoopW b w numChannels legal (legal + 1) c pcmOut 0
  pure (c, pcm.map (· * c.scale), cursor)

/-- adhoc.rs 327-330: `Streamable::decode` -/
def decodeW (b : Build) (w : Nat) (c : AdhocCodec) (pcmOut : List F32) : R (AdhocCodec × List F32 × Option Nat) := do
  let (c, pcm, n) ← c.decodeRawW b w pcmOut
  pure (c, pcm, if n > 0 then some n else none)

/-- adhoc.rs 392-416: restore channel `off` from its header and decode its frame -/
def seekChannelW (b : Build) (w : Nat) (c : AdhocCodec) (startIdx off : Nat) : R AdhocCodec := do
  let hdr? ← c.frameHeaderList.get (startIdx + off)
  let hdr ← expect hdr?
  let fc ← idx c.channelStateList off
  let h := ((fc.history.push hdr.history.1).push hdr.history.2.1).push hdr.history.2.2
  let fc : FrameCodec := { state := if hdr.isInit then .init else .decoding, history := h, buffered := [] }
  let (fc, stream, headers, _) ← fc.decodeFrameW b w c.stream c.frameHeaderList
  let chs ← setIdx c.channelStateList off fc
  pure { c with channelStateList := chs, stream := stream, frameHeaderList := headers }

/-- adhoc.rs 351-428: seek a rewound codec to `dt` milliseconds -/
def seekToW (b : Build) (w : Nat) (info : StreamInfo) (c : AdhocCodec) (dt : Nat) : R AdhocCodec := do
  let channels := info.channels
  let offset := seekOffset info dt
  let target ← chkU b 64 ((offset * channels : Nat) : Int)
  let blockLen ← udiv c.frameHeaderList.len channels
  let (skipped, block) ← findBlock b c.frameHeaderList channels target blockLen (blockLen + 1) 0 0
  let startIdx := block * channels
  let hdr? ← c.frameHeaderList.get startIdx
  let hdr ← expect hdr?
  let c : AdhocCodec :=
    { c with
      stream := { c.stream with stream := c.stream.stream.setBitCursor hdr.bitCursor }
      frameHeaderList := c.frameHeaderList.setCursor startIdx }
  let c ← (List.range channels).foldlM (fun c off => c.seekChannelW b w startIdx off) c
  prune b channels target (target + 1) skipped c

/-- adhoc.rs 332-433: `seek` -/
def seekW (b : Build) (w : Nat) (c : AdhocCodec) (dt : SeekFrom) : R AdhocCodec := do
  let info ← expect c.stream.info
  let c := c.init
  match dt with
  | .start dt => if dt = 0 then pure c else seekToW b w info c dt
  | _ => .error .unimplemented

end AdhocCodec

namespace Bincode

/-- read a `Vec`: `cast_u64_to_usize` of bincode refuses lengths that are no `usize` -/
def decVecW {α} (w : Nat) (d : Dec α) : Dec (List α) := fun bs => do
  let (n, bs) ← decU 8 bs
  if n < 2 ^ w then decN d n bs else none

end Bincode

namespace AdhocCodec

/-- adhoc.rs 194: the derived deserializer of `SlimAdhocCodec` -/
def decSlimW (w : Nat) : Bincode.Dec Slim := fun bs => do
  let (level, bs) ← Bincode.decU 4 bs
  let (data, bs) ← Bincode.decVecW w (fun bs => (Bincode.decU 1 bs).map fun (n, bs) => (BitVec.ofNat 8 n, bs)) bs
  let (nibbleCount, bs) ← Bincode.decU 4 bs
  let (bits, bs) ← Bincode.decVecW w (fun bs => (Bincode.decU 8 bs).map fun (n, bs) => (BitVec.ofNat 64 n, bs)) bs
  let (bitsCursor, bs) ← Bincode.decU 16 bs
  let (sizes, bs) ← Bincode.decVecW w (Bincode.decU 2) bs
  let (cursors, bs) ← Bincode.decVecW w (Bincode.decU 8) bs
  let (hist, bs) ← Bincode.decVecW w (fun bs => do
    let (a, bs) ← Bincode.decI16 bs
    let (b, bs) ← Bincode.decI16 bs
    let (c, bs) ← Bincode.decI16 bs
    pure ((a, b, c), bs)) bs
  let (headerCursor, bs) ← Bincode.decU 4 bs
  let (info, bs) ← Bincode.decOpt (fun bs => do
    let (r, bs) ← Bincode.decU 4 bs
    let (c, bs) ← Bincode.decU 4 bs
    pure (({ sampleRate := r, channels := c } : StreamInfo), bs)) bs
  let (binary, bs) ← Bincode.decVecW w (fun bs => (Bincode.decU 16 bs).map fun (n, bs) => (BitVec.ofNat 128 n, bs)) bs
  let (bitCursor, bs) ← Bincode.decU 16 bs
  let (capacity, bs) ← Bincode.decU 16 bs
  pure
    ({ compressionLevel := level
       frameHeaderList :=
         { divisorExpList := { data := data, nibbleCount := nibbleCount }
           isInitFrameList := { binary := bits, bitCursor := bitsCursor }
           frameSizeList := sizes, bitCursorList := cursors, stackHistoryList := hist, headerCursor := headerCursor }
       stream := { info := info, stream := { binary := binary, bitCursor := bitCursor, capacity := capacity } } }, bs)

/-- adhoc.rs 183-214: `load`, from the whole content of the resource -/
def loadW (b : Build) (w : Nat) (bytes : List Byte) : R (Option AdhocCodec) :=
  match decSlimW w bytes with
  | none => pure none
  | some (slim, _) => do
    let s ← shl1 b slim.compressionLevel
    let scale := F32.ofInt s
    match slim.stream.info with
    | none => pure none
    | some info =>
      let c : AdhocCodec :=
        { compressionLevel := slim.compressionLevel
          channelStateList := List.replicate info.channels FrameCodec.new
          stream := slim.stream, frameHeaderList := slim.frameHeaderList
          scale := scale, invScale := F32.ofInt 1 / scale, seq := .new 314 }
      pure (some c.init)

end AdhocCodec
end Adhoc
