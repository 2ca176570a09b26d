import Verif.Model.Sample
import Verif.Model.BitStream

/-!
# src/codec/adhoc/frame.rs and audio_stream.rs

i16 samples are `Int`s in range; `VecDeque<f32>` is a list, front first.
-/

namespace Adhoc

/-- frame.rs 8-14: `struct FrameHeader` -/
structure FrameHeader where
  exponent : Nat
  size : Nat
  bitCursor : Nat
  isInit : Bool
  history : Int × Int × Int
  deriving DecidableEq, Repr

/-- frame.rs 19-27: `struct FrameHeaders` -/
structure FrameHeaders where
  divisorExpList : NibbleList
  isInitFrameList : BitVecU64
  frameSizeList : List Nat
  bitCursorList : List Nat
  stackHistoryList : List (Int × Int × Int)
  headerCursor : Nat
  deriving DecidableEq, Repr

namespace FrameHeaders

/-- frame.rs 30-39: `new` -/
def new : FrameHeaders :=
  { divisorExpList := .new, isInitFrameList := .new, frameSizeList := [], bitCursorList := [],
    stackHistoryList := [], headerCursor := 0 }

/-- frame.rs 136-138: `len` -/
def len (h : FrameHeaders) : Nat := h.divisorExpList.len

/-- frame.rs 43-80: `calculate_weight_upperbound`; `nibCap` is `Vec::capacity` of the nibble bytes -/
def calculateWeightUpperbound (h : FrameHeaders) (nibCap : Nat) : Nat :=
  let len := h.len
  let vectorHeaderSize := 8
  let divisorWeight := nibCap * 8 + vectorHeaderSize
  let isInitWeight := h.isInitFrameList.capacity + vectorHeaderSize
  let frameSizeWeight := len * (2 * 8) + vectorHeaderSize
  let bitCursorWeight := len * (8 * 8) + vectorHeaderSize
  let stackHistoryWeight := len * (6 * 8) + vectorHeaderSize
  let headerCursorBits := 4 * 8
  let nibbleListCursor := 32
  let bitVecCursor := 128
  divisorWeight + isInitWeight + frameSizeWeight + bitCursorWeight + stackHistoryWeight + headerCursorBits
    + nibbleListCursor + bitVecCursor

/-- frame.rs 86-113: `push` -/
def push (h : FrameHeaders) (hdr : FrameHeader) : R FrameHeaders := do
  let c := h.headerCursor
  let isInit : BitVec 64 := if hdr.isInit then 1#64 else 0#64
  if c ≥ h.divisorExpList.len then do
    let d ← h.divisorExpList.push (BitVec.ofNat 8 hdr.exponent)
    let i ← h.isInitFrameList.push isInit
    pure
      { divisorExpList := d, isInitFrameList := i
        frameSizeList := h.frameSizeList ++ [hdr.size]
        bitCursorList := h.bitCursorList ++ [hdr.bitCursor % 2 ^ 64]
        stackHistoryList := h.stackHistoryList ++ [hdr.history]
        headerCursor := c + 1 }
  else do
    let fs ← setIdx h.frameSizeList c hdr.size
    let bc ← setIdx h.bitCursorList c (hdr.bitCursor % 2 ^ 64)
    let sh ← setIdx h.stackHistoryList c hdr.history
    pure
      { divisorExpList := h.divisorExpList.set c (BitVec.ofNat 8 hdr.exponent)
        isInitFrameList := h.isInitFrameList.set c isInit
        frameSizeList := fs, bitCursorList := bc, stackHistoryList := sh
        headerCursor := c + 1 }

/-- frame.rs 115-130: `get` -/
def get (h : FrameHeaders) (i : Nat) : R (Option FrameHeader) :=
  if i < h.len then do
    let size ← idx h.frameSizeList i
    let cursor ← idx h.bitCursorList i
    let history ← idx h.stackHistoryList i
    pure (some
      { exponent := (h.divisorExpList.get i).toNat, size := size, bitCursor := cursor
        isInit := h.isInitFrameList.get i == 1#64, history := history })
  else pure none

/-- frame.rs 132-134: `set_cursor` -/
def setCursor (h : FrameHeaders) (i : Nat) : FrameHeaders := { h with headerCursor := i }

/-- frame.rs 140-142: `reset` -/
def reset (h : FrameHeaders) : FrameHeaders := { h with headerCursor := 0 }

/-- frame.rs 145-161: `Iterator::next` -/
def next (h : FrameHeaders) : R (FrameHeaders × Option FrameHeader) := do
  let c := h.headerCursor
  if c < h.divisorExpList.len then do
    let size ← idx h.frameSizeList c
    let cursor ← idx h.bitCursorList c
    let history ← idx h.stackHistoryList c
    pure ({ h with headerCursor := c + 1 }, some
      { exponent := (h.divisorExpList.get c).toNat, size := size, bitCursor := cursor
        isInit := h.isInitFrameList.get c == 1#64, history := history })
  else pure (h, none)

end FrameHeaders

/-- audio_stream.rs 6-9: `struct AudioStream` -/
structure AudioStream where
  info : Option StreamInfo
  stream : BitStream
  deriving DecidableEq, Repr

/-- adhoc.rs 22-26: `enum CodecState` -/
inductive CodecState
  | init
  | encoding
  | decoding
  deriving DecidableEq, Repr

/-- frame.rs 166-170: `struct FrameCodec` -/
structure FrameCodec where
  state : CodecState
  history : CircularStack Int
  buffered : List F32

namespace FrameCodec

/-- frame.rs 173-179: `new` -/
def new : FrameCodec := { state := .init, history := .new 0, buffered := [] }

/-- frame.rs 187-190: `init` -/
def init (c : FrameCodec) : FrameCodec := { c with state := .init, buffered := [] }

/-- frame.rs 235-241: the prediction from a sample history -/
def predictFrom (h : CircularStack Int) : Int := predict (h.prev 3) (h.prev 2) (h.prev 1)

/-- frame.rs 224-228, 262-266: the history stored in a header -/
def historyOf (h : CircularStack Int) : Int × Int × Int := (h.prev 3, h.prev 2, h.prev 1)

/-- frame.rs 390-394: add one sample's cost to the table, for k = 1..15 -/
def addCosts (b : Build) (entropy : Nat) : (k : Nat) → List Nat → R (List Nat)
  | 0, t => pure t
  | n + 1, t => do
    -- k runs upwards: k = 16 - (n + 1)
    let k := 16 - (n + 1)
    let old ← idx t k
    let quotientBits ← chkU b 32 (((entropy >>> k : Nat) : Int) + 1)
    let s1 ← chkU b 32 ((quotientBits : Int) + k)
    let s2 ← chkU b 32 ((s1 : Int) + 1)
    let s3 ← chkU b 32 ((old : Int) + s2)
    let t ← setIdx t k s3
    addCosts b entropy n t

/-- frame.rs 380-396: the loop over the samples -/
def costTable (b : Build) : CircularStack Int → List F32 → List Nat → R (List Nat)
  | _, [], t => pure t
  | h, sample :: rest, t => do
    let current := truncateSample sample
    let predicted := predictFrom h
    -- 389: `(current as i32 - predicted as i32).abs() as u32`
    let entropy := (current - predicted).natAbs
    let t ← addCosts b entropy 15 t
    costTable b (h.push current) rest t

/-- frame.rs 398-405: index of the first least positive entry among indices ≥ 1 -/
def argminPos (t : List Nat) : Option Nat :=
  let cands := (t.zipIdx.drop 1).filter fun p => decide (p.1 > 0)
  match cands with
  | [] => none
  | c :: cs => some (cs.foldl (fun m p => if p.1 < m.1 then p else m) c).2

/-- frame.rs 373-406: `compute_optimal_divisor_exponent` -/
def computeOptimalDivisorExponent (b : Build) (h : CircularStack Int) (samples : List F32) : R Nat := do
  let t ← costTable b h samples (List.replicate 16 0)
  pure ((argminPos t).getD 1)

/-- frame.rs 232-250, 269-287: entropy-encode samples (`max_entropy` is never read and left out) -/
def encodeSamples (b : Build) (exponent : Nat) :
    BitStream → CircularStack Int → List F32 → R (BitStream × CircularStack Int)
  | s, h, [] => pure (s, h)
  | s, h, sample :: rest => do
    let current := truncateSample sample
    let predicted := predictFrom h
    let entropy ← clampI (current - predicted) (-32768 + 1) (32767 - 1)
    let s ← s.writeCompressed b exponent (BitVec.ofInt 16 entropy)
    encodeSamples b exponent s (h.push current) rest

/-- frame.rs 193-291: `encode_frame` -/
def encodeFrame (b : Build) (c : FrameCodec) (stream : AudioStream) (headers : FrameHeaders) (pcm : List F32) :
    R (FrameCodec × AudioStream × FrameHeaders) :=
  match c.state with
  | .init => do
    -- 206
    let bitCursor := stream.stream.bitCursor
    -- 210-215
    let p0 ← idx pcm 0
    let s ← stream.stream.writeU16 (BitVec.ofInt 16 (truncateSample p0))
    let h := c.history.push (truncateSample p0)
    let p1 ← idx pcm 1
    let s ← s.writeU16 (BitVec.ofInt 16 (truncateSample p1))
    let h := h.push (truncateSample p1)
    let p2 ← idx pcm 2
    let s ← s.writeU16 (BitVec.ofInt 16 (truncateSample p2))
    let h := h.push (truncateSample p2)
    -- 217
    let exponent ← computeOptimalDivisorExponent b h (pcm.drop 3)
    -- 219-229
    let headers ← headers.push
      { exponent := exponent, size := pcm.length % 2 ^ 16, bitCursor := bitCursor, isInit := true
        history := historyOf h }
    -- 232-250
    let (s, h) ← encodeSamples b exponent s h (pcm.drop 3)
    pure ({ c with state := .encoding, history := h }, { stream with stream := s }, headers)
  | .encoding => do
    let exponent ← computeOptimalDivisorExponent b c.history pcm
    let headers ← headers.push
      { exponent := exponent, size := pcm.length % 2 ^ 16, bitCursor := stream.stream.bitCursor, isInit := false
        history := historyOf c.history }
    let (s, h) ← encodeSamples b exponent stream.stream c.history pcm
    pure ({ c with history := h }, { stream with stream := s }, headers)
  | .decoding => .error .explicit

/-- frame.rs 319-338, 346-365: entropy-decode `n` samples, appending to the buffer -/
def decodeSamples (b : Build) (exponent : Nat) :
    (n : Nat) → BitStream → CircularStack Int → List F32 → R (BitStream × CircularStack Int × List F32)
  | 0, s, h, buf => pure (s, h, buf)
  | n + 1, s, h, buf => do
    let (s, entropy) ← s.readCompressed b exponent
    let predicted := predictFrom h
    -- 330-332
    let current ← clampI (entropy.toInt + predicted) (-32768) 32767
    -- 334
    let decoded := (normalizeSample current).clamp (F32.ofInt (-1)) (F32.ofInt 1)
    decodeSamples b exponent n s (h.push current) (buf ++ [decoded])

/-- frame.rs 308-311: read one raw 16-bit sample -/
def readRaw (s : BitStream) : R (BitStream × Int) := do
  let (s, v) ← s.readBits 16
  pure (s, (v.setWidth 16).toInt)

/-- frame.rs 294-371: `decode_frame` -/
def decodeFrame (b : Build) (c : FrameCodec) (stream : AudioStream) (headers : FrameHeaders) :
    R (FrameCodec × AudioStream × FrameHeaders × Option Nat) := do
  let (headers, hdr?) ← headers.next
  match hdr? with
  | none => pure (c, stream, headers, none)
  | some hdr =>
    match c.state with
    | .init => do
      -- 308-311
      let (s, x0) ← readRaw stream.stream
      let h := c.history.push x0
      let (s, x1) ← readRaw s
      let h := h.push x1
      let (s, x2) ← readRaw s
      let h := h.push x2
      -- 312-316
      let buf := c.buffered ++ [normalizeSample (h.prev 3), normalizeSample (h.prev 2), normalizeSample (h.prev 1)]
      -- 319-338: `for _ in 3..size`
      let (s, h, buf) ← decodeSamples b hdr.exponent (hdr.size - 3) s h buf
      pure ({ state := .decoding, history := h, buffered := buf }, { stream with stream := s }, headers,
        some (3 + (hdr.size - 3)))
    | .decoding => do
      let (s, h, buf) ← decodeSamples b hdr.exponent hdr.size stream.stream c.history c.buffered
      pure ({ c with history := h, buffered := buf }, { stream with stream := s }, headers, some hdr.size)
    | .encoding => .error .explicit

end FrameCodec
end Adhoc
