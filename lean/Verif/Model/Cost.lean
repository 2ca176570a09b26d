import Verif.Model.Adhoc

/-!
# The running time of encode, decode and seek

The functions of bitstream.rs, frame.rs and adhoc.rs again, with a clock that ticks once for every round of every loop, explicit or in an iterator.
Between two ticks there is a constant number of machine operations on integers and floats of fixed size, of accesses to vectors at an index, of pushes to vectors and
queues and of pops from queues. A push that finds no room copies the vector; Model/Alloc.lean counts these copies.
Props/Linear.lean shows that the functions here compute what those of the other files compute.
-/

namespace Adhoc

/-- a computation with a clock, counting upwards -/
abbrev Clocked (α : Type) := StateT Nat R α

/-- `n` ticks of the clock -/
def ticks (n : Nat) : Clocked Unit := fun t => .ok ((), t + n)

namespace BitStream

/-- bitstream.rs 302-310: a tick for every round -/
def writeUnaryT : (fuel : Nat) → BitStream → (quotient : Int) → Clocked BitStream
  | 0, _, _ => fun _ => .error .fuel
  | fuel + 1, s, quotient =>
    if quotient > 0 then do
      ticks 1
      if quotient > 128 then do
        let s ← s.writeBits (BitVec.allOnes 128) 128
        writeUnaryT fuel s (quotient - 128)
      else
        s.writeBits (BitVec.allOnes 128) quotient.toNat
    else pure s

/-- bitstream.rs 283-318: `write_compressed` -/
def writeCompressedT (b : Build) (s : BitStream) (exponent : Nat) (entropy : BitVec 16) : Clocked BitStream := do
  let signBit : BitVec 16 := (entropy.sshiftRight 15) &&& 1#16
  let absE ← i16op b (entropy.toInt.natAbs : Int)
  let quotient : BitVec 16 := absE.sshiftRight exponent
  let mask ← i16op b ((1#16 <<< exponent).toInt - 1)
  let remainder : BitVec 16 := absE &&& mask
  let s ← s.writeBit (signBit.setWidth 8)
  let s ← writeUnaryT (quotient.toInt.toNat + 1) s quotient.toInt
  let s ← s.writeBit 0#8
  s.writeBits ((remainder.signExtend 32).setWidth 128) exponent

/-- bitstream.rs 332-338: a tick for every peek -/
def readOnesT (b : Build) : (fuel : Nat) → BitStream → (quotient : BitVec 16) → Clocked (BitStream × BitVec 128 × BitVec 16)
  | 0, _, _ => fun _ => .error .fuel
  | fuel + 1, s, quotient => do
    ticks 1
    let (s, chunk) ← s.peekBits 128
    if chunk = BitVec.allOnes 128 then
      let s := s.offsetBitCursor 128
      let quotient ← i16op b (quotient.toInt + 128)
      readOnesT b fuel s quotient
    else pure (s, chunk, quotient)

/-- bitstream.rs 342-346: a tick for every bit -/
def firstZeroT : (fuel : Nat) → BitVec 128 → Clocked Nat
  | 0, _ => pure 0
  | fuel + 1, chunk =>
    if chunk &&& 1#128 ≠ 0#128 then do
      ticks 1
      let n ← firstZeroT fuel (chunk >>> 1)
      pure (n + 1)
    else pure 0

/-- bitstream.rs 320-354: `read_compressed` -/
def readCompressedT (b : Build) (s : BitStream) (exponent : Nat) : Clocked (BitStream × BitVec 16) := do
  let (s, bit) ← s.readBit
  let signBit : BitVec 16 := bit.setWidth 16
  let divisor : BitVec 16 := 1#16 <<< exponent
  let (s, chunk, quotient) ← readOnesT b (s.binary.length + 3) s 0#16
  let zeroPos ← firstZeroT 128 chunk
  let s := s.offsetBitCursor (zeroPos + 1)
  let quotient ← i16op b (quotient.toInt + zeroPos)
  let (s, rem) ← s.readBits exponent
  let remainder : BitVec 16 := rem.setWidth 16
  let dq ← i16op b (divisor.toInt * quotient.toInt)
  let unsignedVal ← i16op b (dq.toInt + remainder.toInt)
  let x ← i16op b (unsignedVal.toInt * -signBit.toInt)
  let y ← i16op b (unsignedVal.toInt * (1 - signBit.toInt))
  let v ← i16op b (x.toInt + y.toInt)
  pure (s, v)

end BitStream

namespace FrameCodec

/-- frame.rs 390-394: a tick for every entry of the table -/
def addCostsT (b : Build) (entropy : Nat) : (k : Nat) → List Nat → Clocked (List Nat)
  | 0, t => pure t
  | n + 1, t => do
    ticks 1
    let k := 16 - (n + 1)
    let old ← idx t k
    let quotientBits ← chkU b 32 (((entropy >>> k : Nat) : Int) + 1)
    let s1 ← chkU b 32 ((quotientBits : Int) + k)
    let s2 ← chkU b 32 ((s1 : Int) + 1)
    let s3 ← chkU b 32 ((old : Int) + s2)
    let t ← setIdx t k s3
    addCostsT b entropy n t

/-- frame.rs 380-396: a tick for every sample -/
def costTableT (b : Build) : CircularStack Int → List F32 → List Nat → Clocked (List Nat)
  | _, [], t => pure t
  | h, sample :: rest, t => do
    ticks 1
    let current := truncateSample sample
    let predicted := predictFrom h
    let entropy := (current - predicted).natAbs
    let t ← addCostsT b entropy 15 t
    costTableT b (h.push current) rest t

/-- frame.rs 373-406: `compute_optimal_divisor_exponent`; 16 ticks for the iterator over the table in 398-405 -/
def computeOptimalDivisorExponentT (b : Build) (h : CircularStack Int) (samples : List F32) : Clocked Nat := do
  let t ← costTableT b h samples (List.replicate 16 0)
  ticks 16
  pure ((argminPos t).getD 1)

/-- frame.rs 232-250, 269-287: a tick for every sample -/
def encodeSamplesT (b : Build) (exponent : Nat) :
    BitStream → CircularStack Int → List F32 → Clocked (BitStream × CircularStack Int)
  | s, h, [] => pure (s, h)
  | s, h, sample :: rest => do
    ticks 1
    let current := truncateSample sample
    let predicted := predictFrom h
    let entropy ← clampI (current - predicted) (-32768 + 1) (32767 - 1)
    let s ← s.writeCompressedT b exponent (BitVec.ofInt 16 entropy)
    encodeSamplesT b exponent s (h.push current) rest

/-- frame.rs 193-291: `encode_frame`; three ticks for the loop in 210-215 -/
def encodeFrameT (b : Build) (c : FrameCodec) (stream : AudioStream) (headers : FrameHeaders) (pcm : List F32) :
    Clocked (FrameCodec × AudioStream × FrameHeaders) :=
  match c.state with
  | .init => do
    let bitCursor := stream.stream.bitCursor
    ticks 3
    let p0 ← idx pcm 0
    let s ← stream.stream.writeU16 (BitVec.ofInt 16 (truncateSample p0))
    let h := c.history.push (truncateSample p0)
    let p1 ← idx pcm 1
    let s ← s.writeU16 (BitVec.ofInt 16 (truncateSample p1))
    let h := h.push (truncateSample p1)
    let p2 ← idx pcm 2
    let s ← s.writeU16 (BitVec.ofInt 16 (truncateSample p2))
    let h := h.push (truncateSample p2)
    let exponent ← computeOptimalDivisorExponentT b h (pcm.drop 3)
    let headers ← headers.push
      { exponent := exponent, size := pcm.length % 2 ^ 16, bitCursor := bitCursor, isInit := true
        history := historyOf h }
    let (s, h) ← encodeSamplesT b exponent s h (pcm.drop 3)
    pure ({ c with state := .encoding, history := h }, { stream with stream := s }, headers)
  | .encoding => do
    let exponent ← computeOptimalDivisorExponentT b c.history pcm
    let headers ← headers.push
      { exponent := exponent, size := pcm.length % 2 ^ 16, bitCursor := stream.stream.bitCursor, isInit := false
        history := historyOf c.history }
    let (s, h) ← encodeSamplesT b exponent stream.stream c.history pcm
    pure ({ c with history := h }, { stream with stream := s }, headers)
  | .decoding => fun _ => .error .explicit

/-- frame.rs 319-338, 346-365: a tick for every sample -/
def decodeSamplesT (b : Build) (exponent : Nat) :
    (n : Nat) → BitStream → CircularStack Int → List F32 → Clocked (BitStream × CircularStack Int × List F32)
  | 0, s, h, buf => pure (s, h, buf)
  | n + 1, s, h, buf => do
    ticks 1
    let (s, entropy) ← s.readCompressedT b exponent
    let predicted := predictFrom h
    let current ← clampI (entropy.toInt + predicted) (-32768) 32767
    let decoded := (normalizeSample current).clamp (F32.ofInt (-1)) (F32.ofInt 1)
    decodeSamplesT b exponent n s (h.push current) (buf ++ [decoded])

/-- frame.rs 294-371: `decode_frame`; six ticks for the loops in 308-311 and 312-316 -/
def decodeFrameT (b : Build) (c : FrameCodec) (stream : AudioStream) (headers : FrameHeaders) :
    Clocked (FrameCodec × AudioStream × FrameHeaders × Option Nat) := do
  let (headers, hdr?) ← headers.next
  match hdr? with
  | none => pure (c, stream, headers, none)
  | some hdr =>
    match c.state with
    | .init => do
      ticks 6
      let (s, x0) ← readRaw stream.stream
      let h := c.history.push x0
      let (s, x1) ← readRaw s
      let h := h.push x1
      let (s, x2) ← readRaw s
      let h := h.push x2
      let buf := c.buffered ++ [normalizeSample (h.prev 3), normalizeSample (h.prev 2), normalizeSample (h.prev 1)]
      let (s, h, buf) ← decodeSamplesT b hdr.exponent (hdr.size - 3) s h buf
      pure ({ state := .decoding, history := h, buffered := buf }, { stream with stream := s }, headers,
        some (3 + (hdr.size - 3)))
    | .decoding => do
      let (s, h, buf) ← decodeSamplesT b hdr.exponent hdr.size stream.stream c.history c.buffered
      pure ({ c with history := h, buffered := buf }, { stream with stream := s }, headers, some hdr.size)
    | .encoding => fun _ => .error .explicit

end FrameCodec

namespace AdhocCodec

/-- adhoc.rs 241-249: a tick for every sample -/
def ditherT (b : Build) (invScale : F32) : PseudoRandom → List F32 → Clocked (PseudoRandom × List F32)
  | seq, [] => pure (seq, [])
  | seq, x :: xs => do
    ticks 1
    let (seq, noise) ← seq.triangle b
    let y := (x + noise * DITHER_AMPLITUDE * (F32.ofInt 1 - invScale)) * invScale
    let (seq, ys) ← ditherT b invScale seq xs
    pure (seq, y :: ys)

/-- adhoc.rs 236-239: a tick for every sample -/
def deinterleaveT (pcm : List F32) (numChannels numChunks ch : Nat) : Clocked (List F32) := do
  ticks numChunks
  deinterleave pcm numChannels numChunks ch

/-- adhoc.rs 235-252: the body of the channel loop, with a tick of its own -/
def encodeChannelT (b : Build) (c : AdhocCodec) (pcm : List F32) (numChannels numChunks ch : Nat) : Clocked AdhocCodec := do
  ticks 1
  let xs ← deinterleaveT pcm numChannels numChunks ch
  let (seq, ys) ← ditherT b c.invScale c.seq xs
  let fc ← idx c.channelStateList ch
  let (fc, stream, headers) ← fc.encodeFrameT b c.stream c.frameHeaderList ys
  let chs ← setIdx c.channelStateList ch fc
  pure { c with seq := seq, channelStateList := chs, stream := stream, frameHeaderList := headers }

/-- adhoc.rs 216-254, 321-325: `encode`; 231, `resize`, takes a tick for every sample of a channel -/
def encodeT (b : Build) (c : AdhocCodec) (pcm : List F32) : Clocked (AdhocCodec × Option Nat) := do
  let info ← expect c.stream.info
  let numChannels := info.channels
  let numChunks ← udiv pcm.length numChannels
  ticks numChunks
  let c ← (List.range numChannels).foldlM (fun c ch => c.encodeChannelT b pcm numChannels numChunks ch) c
  pure (c, some pcm.length)

/-- adhoc.rs 274: with a tick of its own -/
def decodeChannelT (b : Build) (c : AdhocCodec) (ch : Nat) : Clocked AdhocCodec := do
  ticks 1
  let fc ← idx c.channelStateList ch
  let (fc, stream, headers, _) ← fc.decodeFrameT b c.stream c.frameHeaderList
  let chs ← setIdx c.channelStateList ch fc
  pure { c with channelStateList := chs, stream := stream, frameHeaderList := headers }

/-- adhoc.rs 273-275 -/
def decodeBlockT (b : Build) (c : AdhocCodec) (numChannels : Nat) : Clocked AdhocCodec :=
  (List.range numChannels).foldlM (fun c ch => c.decodeChannelT b ch) c

/-- adhoc.rs 268-279: `buffer_audio`; every round looks at the channels one by one, 262-266, here always at all of them -/
def bufferAudioT (b : Build) (numChannels : Nat) : (left : Nat) → AdhocCodec → Clocked (AdhocCodec × Nat)
  | 0, c => pure (c, 0)
  | left + 1, c => do
    ticks (1 + c.channelStateList.length)
    if c.isBuffersEmpty then do
      let c ← c.decodeBlockT b numChannels
      bufferAudioT b numChannels left c
    else pure (c, left + 1)

/-- adhoc.rs 290-299: a tick for every sample -/
def popBlockT (legal : Nat) : (n ch : Nat) → AdhocCodec → List F32 → (cursor : Nat) → Clocked (AdhocCodec × List F32 × Nat)
  | 0, _, c, pcm, cursor => pure (c, pcm, cursor)
  | n + 1, ch, c, pcm, cursor =>
    if cursor < legal then do
      ticks 1
      let fc ← idx c.channelStateList ch
      let sample := fc.buffered.headD (F32.ofInt 0)
      let chs ← setIdx c.channelStateList ch { fc with buffered := fc.buffered.tail }
      let pcm ← setIdx pcm cursor sample
      popBlockT legal n (ch + 1) { c with channelStateList := chs } pcm (cursor + 1)
    else pure (c, pcm, cursor)

/-- adhoc.rs 285-300: a tick for every round -/
def decodeLoopT (b : Build) (numChannels legal : Nat) :
    (fuel : Nat) → AdhocCodec → List F32 → (cursor : Nat) → Clocked (AdhocCodec × List F32 × Nat)
  | 0, _, _, _ => fun _ => .error .fuel
  | fuel + 1, c, pcm, cursor =>
    if cursor < legal then do
      ticks 1
      let (c, left) ← bufferAudioT b numChannels MAX_DECODE_ATTEMPTS c
      if left = 0 then pure (c, pcm, cursor)
      else do
        let (c, pcm, cursor) ← popBlockT legal numChannels 0 c pcm cursor
        decodeLoopT b numChannels legal fuel c pcm cursor
    else pure (c, pcm, cursor)

/-- adhoc.rs 256-308, 327-330: `decode`; the loop in 303-305 takes a tick for every sample of the buffer -/
def decodeT (b : Build) (c : AdhocCodec) (pcmOut : List F32) : Clocked (AdhocCodec × List F32 × Option Nat) := do
  let info ← expect c.stream.info
  let numChannels := info.channels
  let q ← udiv pcmOut.length numChannels
  let legal := q * numChannels
  let (c, pcm, cursor) ← decodeLoopT b numChannels legal (legal + 1) c pcmOut 0
  ticks pcm.length
  pure (c, pcm.map (· * c.scale), if cursor > 0 then some cursor else none)

/-- adhoc.rs 363-376: a tick for every round -/
def findBlockT (b : Build) (h : FrameHeaders) (channels target blockLen : Nat) :
    (fuel : Nat) → (skipped block : Nat) → Clocked (Nat × Nat)
  | 0, _, _ => fun _ => .error .fuel
  | fuel + 1, skipped, block =>
    if block < blockLen ∧ skipped < target then do
      ticks 1
      let hdr? ← h.get (block * channels)
      let hdr ← expect hdr?
      let headerSize ← chkU b 64 ((hdr.size * channels : Nat) : Int)
      let sum ← chkU b 64 ((skipped + headerSize : Nat) : Int)
      if sum ≥ target then pure (skipped, block)
      else findBlockT b h channels target blockLen fuel sum (block + 1)
    else pure (skipped, block)

/-- adhoc.rs 392-416: four ticks, for the round and for the loop in 401-403 -/
def seekChannelT (b : Build) (c : AdhocCodec) (startIdx off : Nat) : Clocked AdhocCodec := do
  ticks 4
  let hdr? ← c.frameHeaderList.get (startIdx + off)
  let hdr ← expect hdr?
  let fc ← idx c.channelStateList off
  let h := ((fc.history.push hdr.history.1).push hdr.history.2.1).push hdr.history.2.2
  let fc : FrameCodec := { state := if hdr.isInit then .init else .decoding, history := h, buffered := [] }
  let (fc, stream, headers, _) ← fc.decodeFrameT b c.stream c.frameHeaderList
  let chs ← setIdx c.channelStateList off fc
  pure { c with channelStateList := chs, stream := stream, frameHeaderList := headers }

/-- adhoc.rs 420-427: a tick for every channel and round, and one for the round -/
def pruneT (b : Build) (channels target : Nat) : (fuel : Nat) → (skipped : Nat) → AdhocCodec → Clocked AdhocCodec
  | 0, _, _ => fun _ => .error .fuel
  | fuel + 1, skipped, c =>
    if skipped < target then do
      ticks (1 + channels)
      let c ← c.dropOne channels
      let skipped ← chkU b 64 ((skipped + channels : Nat) : Int)
      pruneT b channels target fuel skipped c
    else pure c

/-- adhoc.rs 351-428 -/
def seekToT (b : Build) (info : StreamInfo) (c : AdhocCodec) (dt : Nat) : Clocked AdhocCodec := do
  let channels := info.channels
  let offset := seekOffset info dt
  let target ← chkU b 64 ((offset * channels : Nat) : Int)
  let blockLen ← udiv c.frameHeaderList.len channels
  let (skipped, block) ← findBlockT b c.frameHeaderList channels target blockLen (blockLen + 1) 0 0
  let startIdx := block * channels
  let hdr? ← c.frameHeaderList.get startIdx
  let hdr ← expect hdr?
  let c : AdhocCodec :=
    { c with
      stream := { c.stream with stream := c.stream.stream.setBitCursor hdr.bitCursor }
      frameHeaderList := c.frameHeaderList.setCursor startIdx }
  let c ← (List.range channels).foldlM (fun c off => c.seekChannelT b startIdx off) c
  pruneT b channels target (target + 1) skipped c

/-- adhoc.rs 332-433: `seek`; `init`, 138-142, takes a tick for every channel -/
def seekT (b : Build) (c : AdhocCodec) (dt : SeekFrom) : Clocked AdhocCodec := do
  let info ← expect c.stream.info
  ticks c.channelStateList.length
  let c := c.init
  match dt with
  | .start dt => if dt = 0 then pure c else seekToT b info c dt
  | _ => fun _ => .error .unimplemented

end AdhocCodec
end Adhoc
