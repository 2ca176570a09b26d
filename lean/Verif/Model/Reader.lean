import Verif.Model.Adhoc
import Verif.Model.Wav

/-!
# std::io::Read and Seek as the crate uses them, and the two `load`s from such a reader

`AdhocCodec.load` and `WavCodec.loadAt` are about the content of the resource. Here the resource may hand out its content in
pieces, be interrupted or fail: like a writer it is scripted, the list says how it answers each successive `read` call. Once the script
is used up the reader hands out all it is asked for. A `read` of std (`File`, `&[u8]`, `Cursor`) never gives no bytes before the end, but
nothing forbids another reader to do it: `give 0`. What a failed call has taken from the reader is not modelled: after it the result
holds no reader.
-/

namespace Adhoc

/-- answer of one `Read::read` call -/
inductive ReadResp
  /-- hand out at most this many bytes -/
  | give (n : Nat)
  /-- `ErrorKind::Interrupted` -/
  | interrupted
  /-- any other error -/
  | fail
  deriving DecidableEq, Repr

/-- a reader: its content, its position, its future answers, and whether it can seek -/
structure Reader where
  bytes : List Byte
  pos : Nat
  script : List ReadResp
  seekable : Bool
  deriving DecidableEq, Repr

namespace Reader

/-- the content from the position on -/
def unread (r : Reader) : List Byte := r.bytes.drop r.pos

/-- `Read::read_exact` of `n` more bytes after `got`: an interrupted `read` is repeated, `Ok(0)` and other errors make it fail. Gives the
bytes and the script left. -/
def readExactAux : (script : List ReadResp) → (unread : List Byte) → (n : Nat) → (got : List Byte) →
    Option (List Byte × List ReadResp)
  | script, _, 0, got => some (got, script)
  | [], unread, n + 1, got => if n + 1 ≤ unread.length then some (got ++ unread.take (n + 1), []) else none
  | .give k :: rest, unread, n + 1, got =>
    let m := min k (min (n + 1) unread.length)
    if m = 0 then none else readExactAux rest (unread.drop m) (n + 1 - m) (got ++ unread.take m)
  | .interrupted :: rest, unread, n + 1, got => readExactAux rest unread (n + 1) got
  | .fail :: _, _, _ + 1, _ => none

/-- `Read::read_exact` of `n` bytes -/
def readExact (r : Reader) (n : Nat) : Option (List Byte × Reader) :=
  (readExactAux r.script r.unread n []).map fun (bytes, script) => (bytes, { r with pos := r.pos + n, script := script })

/-- `Read::read_to_end` after `got`: reads until a `read` gives no bytes -/
def readToEndAux : (script : List ReadResp) → (unread : List Byte) → (got : List Byte) → Option (List Byte)
  | [], unread, got => some (got ++ unread)
  | .give k :: rest, unread, got =>
    let m := min k unread.length
    if m = 0 then some got else readToEndAux rest (unread.drop m) (got ++ unread.take m)
  | .interrupted :: rest, unread, got => readToEndAux rest unread got
  | .fail :: _, _, _ => none

/-- `Read::read_to_end` -/
def readToEnd (r : Reader) : Option (List Byte) := readToEndAux r.script r.unread []

/-- `Seek::seek(SeekFrom::Start(n))` -/
def seekStart (r : Reader) (n : Nat) : Option Reader := if r.seekable then some { r with pos := n } else none

/-! ## bincode from a reader

`bincode::deserialize_from` takes every number with one `read_exact`. The functions are those of `Bincode.lean`. -/

/-- a decoder that reads from a reader -/
abbrev Dec (α : Type) := Reader → Option (α × Reader)

/-- read an unsigned integer of `w` bytes -/
def decU (w : Nat) : Dec Nat := fun r => do
  let (bytes, r) ← r.readExact w
  pure (Bincode.leNat bytes, r)

/-- read an i16 -/
def decI16 : Dec Int := fun r => do
  let (n, r) ← decU 2 r
  pure (asI 16 n, r)

/-- read `n` elements -/
def decN {α} (d : Dec α) : (n : Nat) → Dec (List α)
  | 0, r => some ([], r)
  | n + 1, r => do
    let (a, r) ← d r
    let (as, r) ← decN d n r
    pure (a :: as, r)

/-- read a `Vec` -/
def decVec {α} (d : Dec α) : Dec (List α) := fun r => do
  let (n, r) ← decU 8 r
  decN d n r

/-- read an `Option` -/
def decOpt {α} (d : Dec α) : Dec (Option α) := fun r => do
  let (t, r) ← decU 1 r
  if t = 0 then some (none, r)
  else if t = 1 then (d r).map fun (a, r) => (some a, r)
  else none

/-- read an unsigned integer of `w` bytes as `8 * w` bits -/
def decBits (w : Nat) : Dec (BitVec (8 * w)) := fun r => do
  let (n, r) ← decU w r
  pure (BitVec.ofNat (8 * w) n, r)

end Reader

namespace AdhocCodec

/-- adhoc.rs 194: the derived deserializer of `SlimAdhocCodec`, from a reader; the fields as in `decSlim` -/
def readSlim : Reader.Dec Slim := fun r => do
  let (level, r) ← Reader.decU 4 r
  let (data, r) ← Reader.decVec (Reader.decBits 1) r
  let (nibbleCount, r) ← Reader.decU 4 r
  let (bits, r) ← Reader.decVec (Reader.decBits 8) r
  let (bitsCursor, r) ← Reader.decU 16 r
  let (sizes, r) ← Reader.decVec (Reader.decU 2) r
  let (cursors, r) ← Reader.decVec (Reader.decU 8) r
  let (hist, r) ← Reader.decVec (fun r => do
    let (a, r) ← Reader.decI16 r
    let (b, r) ← Reader.decI16 r
    let (c, r) ← Reader.decI16 r
    pure ((a, b, c), r)) r
  let (headerCursor, r) ← Reader.decU 4 r
  let (info, r) ← Reader.decOpt (fun r => do
    let (q, r) ← Reader.decU 4 r
    let (c, r) ← Reader.decU 4 r
    pure (({ sampleRate := q, channels := c } : StreamInfo), r)) r
  let (binary, r) ← Reader.decVec (Reader.decBits 16) r
  let (bitCursor, r) ← Reader.decU 16 r
  let (capacity, r) ← Reader.decU 16 r
  pure
    ({ compressionLevel := level
       frameHeaderList :=
         { divisorExpList := { data := data, nibbleCount := nibbleCount }
           isInitFrameList := { binary := bits, bitCursor := bitsCursor }
           frameSizeList := sizes, bitCursorList := cursors, stackHistoryList := hist, headerCursor := headerCursor }
       stream := { info := info, stream := { binary := binary, bitCursor := bitCursor, capacity := capacity } } }, r)

/-- adhoc.rs 183-214: `load`, from a reader; gives the codec and the reader behind what was read, which the caller still has if it passed
`&mut reader` -/
def loadFrom (b : Build) (r : Reader) : R (Option (AdhocCodec × Reader)) :=
  match readSlim r with
  | none => pure none
  | some (slim, r) => do
    let s ← shl1 b slim.compressionLevel
    let scale := F32.ofInt s
    match slim.stream.info with
    | none => pure none
    | some info =>
      let c : AdhocCodec :=
        { compressionLevel := slim.compressionLevel
          channelStateList := List.replicate info.channels FrameCodec.new
          stream := slim.stream, frameHeaderList := slim.frameHeaderList
          scale := scale, invScale := F32.ofInt 1 / scale, seq := .new 314 }
      pure (some (c.init, r))

end AdhocCodec

/-- why `WavCodec::load` returned `Err`, with the errors of the reader -/
inductive WavIoErr
  /-- one of those that depend on the content only -/
  | content (e : WavErr)
  /-- wav.rs 191: "failed to seek to pcm data" -/
  | seek
  /-- wav.rs 196: "failed to read to end" -/
  | readToEnd
  deriving DecidableEq, Repr

namespace WavCodec

/-- wav.rs 134-222: `load`, from a reader; "failed to read header bytes" is given for whatever made `read_exact` fail -/
def loadFrom (r : Reader) : R (Except WavIoErr WavCodec) :=
  -- 140-142: `read_exact` of 256 bytes
  match r.readExact 256 with
  | none => pure (.error (.content .readHeader))
  | some (hdr, r) =>
    match findData hdr with
    | none => pure (.error (.content .noData))
    | some dataStart => do
      -- 171-177: the declared length is read (and only printed in comments)
      let rest := hdr.drop (dataStart + 4)
      let _ ← idx rest 0
      let _ ← idx rest 1
      let _ ← idx rest 2
      let _ ← idx rest 3
      -- 158-161: fields at fixed offsets
      let audioFormat := i16At hdr 20
      let numChannels := i16At hdr 22
      let frequency := Bincode.leNat ((hdr.drop 24).take 4)
      let bits := i16At hdr 34
      if bits ≠ 16 ∧ bits ≠ 8 then pure (.error (.content .badBits))
      else if audioFormat ≠ 1 then pure (.error (.content .badFormat))
      else
        -- 189-191: absolute seek
        match r.seekStart (dataStart + 8) with
        | none => pure (.error .seek)
        | some r =>
          -- 193-196: everything up to the end
          match r.readToEnd with
          | none => pure (.error .readToEnd)
          | some pcm => do
            let pcm ← if bits = 8 then widen pcm.length (pcm ++ List.replicate pcm.length 0#8) else pure pcm
            pure (.ok
              { info := { sampleRate := frequency, channels := asU 32 numChannels }
                pcm := pcm, shortCursor := 0 })

end WavCodec
end Adhoc
