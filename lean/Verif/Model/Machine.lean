import Verif.Model.Wav

/-!
# The `unsafe` views of src/codec/wav.rs on a machine

The other files read the views (wav.rs 70-81 and 228-235) as little-endian and take them to be valid. Here the byte order of the machine and
the address of the bytes are parameters. `slice::from_raw_parts` must be given a pointer that is not null and aligned, also if the slice is
empty, to that many initialised elements; otherwise the behaviour is undefined (since Rust 1.78 debug builds check this much and abort).
-/

namespace Adhoc

/-- byte order of the machine -/
inductive Endian
  | little
  | big
  deriving DecidableEq, Repr

/-- a number in memory, given its little-endian bytes -/
def Endian.store : Endian → List Byte → List Byte
  | .little, l => l
  | .big, l => l.reverse

/-- `Vec::<u8>::as_ptr`: without capacity nothing is allocated and the pointer dangles; std uses the alignment of the type, 1, as
address. `heap` is where the allocator put the bytes: any address, because the alignment of u8 is 1. -/
def vecAddr (heap capacity : Nat) : Nat := if capacity = 0 then 1 else heap

/-- may `slice::from_raw_parts` be called with this address and count, for elements of this size and alignment, if `len` bytes are there? -/
def ValidSlice (size align addr len count : Nat) : Prop := addr ≠ 0 ∧ addr % align = 0 ∧ count * size ≤ len

instance (size align addr len count : Nat) : Decidable (ValidSlice size align addr len count) := by unfold ValidSlice; infer_instance

namespace WavCodec

/-- wav.rs 228-230: `get_pcm` of bytes at address `addr`; `none`: undefined behaviour -/
def getPcm (e : Endian) (addr : Nat) (pcm : List Byte) : Option (List Int) :=
  if ValidSlice 2 2 addr pcm.length (pcm.length / 2) then
    some ((List.range (pcm.length / 2)).map fun i => asI 16 (Bincode.leNat (e.store ((pcm.drop (2 * i)).take 2))))
  else none

/-- wav.rs 287-293: the output loop on the view -/
def decodeLoopM (view : List Int) (streamLength validLength : Nat) :
    (fuel : Nat) → (cursor : Nat) → (out : List F32) → (outCursor : Nat) → R (Nat × List F32 × Nat)
  | 0, _, _, _ => .error .fuel
  | fuel + 1, cursor, out, outCursor =>
    if cursor < streamLength ∧ outCursor < validLength then do
      let s ← idx view cursor
      let out ← setIdx out outCursor (normalizeSample s)
      decodeLoopM view streamLength validLength fuel (cursor + 1) out (outCursor + 1)
    else pure (cursor, out, outCursor)

/-- wav.rs 276-296: `decode`, with the bytes at address `addr`; `none`: undefined behaviour -/
def decodeM (e : Endian) (addr : Nat) (w : WavCodec) (out : List F32) : Option (R (WavCodec × List F32 × Option Nat)) :=
  let streamLength := w.numSamples
  match getPcm e addr w.pcm with
  | none => none
  | some view => some do
    let q ← udiv out.length w.info.channels
    let validLength := q * w.info.channels
    let (cursor, out, n) ← decodeLoopM view streamLength validLength (validLength + 1) w.shortCursor out 0
    pure ({ w with shortCursor := cursor }, out, if n > 0 then some n else none)

end WavCodec

/-- wav.rs 12-26, 70-75: `as_bytes` -/
def RawWavHeader.asBytesM (e : Endian) (h : RawWavHeader) : List Byte :=
  ascii ['R', 'I', 'F', 'F'] ++ e.store (Bincode.leBytes 4 h.fileSize) ++ ascii ['W', 'A', 'V', 'E'] ++ ascii ['f', 'm', 't', ' ']
    ++ e.store (Bincode.leBytes 4 h.cksize) ++ e.store (Bincode.leBytes 2 (asU 16 h.audioFormat))
    ++ e.store (Bincode.leBytes 2 (asU 16 h.numChannels))
    ++ e.store (Bincode.leBytes 4 (asU 32 h.frequency)) ++ e.store (Bincode.leBytes 4 (asU 32 h.bytesPerSec))
    ++ e.store (Bincode.leBytes 2 (asU 16 h.blockAlign)) ++ e.store (Bincode.leBytes 2 (asU 16 h.bitsPerSample))
    ++ ascii ['d', 'a', 't', 'a'] ++ e.store (Bincode.leBytes 4 h.fileSizeData)

namespace WavCodec

/-- wav.rs 112-131: `save_to`; the samples are bytes already -/
def saveToM (b : Build) (e : Endian) (w : WavCodec) (dst : Writer) : R (Writer × Bool) := do
  let h ← w.header b
  match dst.write (h.asBytesM e) with
  | (dst, none) => pure (dst, false)
  | (dst, some _) => pure (dst.writeAll w.pcm)

/-- wav.rs 158-161: the i16 field at offset `o` of the header that was filled with bytes -/
def i16AtM (e : Endian) (l : List Byte) (o : Nat) : Int := asI 16 (Bincode.leNat (e.store ((l.drop o).take 2)))

/-- wav.rs 134-222: `load` of a freshly opened resource. The 8-bit samples are widened by arithmetic (204-208), so that they are stored low byte first on
every machine. -/
def loadM (e : Endian) (bytes : List Byte) : R (Except WavErr WavCodec) :=
  let hdr := bytes.take 256
  if hdr.length < 256 then pure (.error .readHeader)
  else match findData hdr with
  | none => pure (.error .noData)
  | some dataStart => do
    let rest := hdr.drop (dataStart + 4)
    let _ ← idx rest 0
    let _ ← idx rest 1
    let _ ← idx rest 2
    let _ ← idx rest 3
    let audioFormat := i16AtM e hdr 20
    let numChannels := i16AtM e hdr 22
    let frequency := Bincode.leNat (e.store ((hdr.drop 24).take 4))
    let bits := i16AtM e hdr 34
    if bits ≠ 16 ∧ bits ≠ 8 then pure (.error .badBits)
    else if audioFormat ≠ 1 then pure (.error .badFormat)
    else do
      let pcm := bytes.drop (dataStart + 8)
      let pcm ← if bits = 8 then widen pcm.length (pcm ++ List.replicate pcm.length 0#8) else pure pcm
      pure (.ok
        { info := { sampleRate := frequency, channels := asU 32 numChannels }
          pcm := pcm, shortCursor := 0 })

end WavCodec

/-! ## the layout of the header -/

/-- `#[repr(C)]`: where the fields are, given their sizes and alignments, and where the last one ends -/
def reprC : (at_ : Nat) → List (Nat × Nat) → List Nat × Nat
  | at_, [] => ([], at_)
  | at_, (size, align) :: fs =>
    let off := (at_ + align - 1) / align * align
    let (offs, end_) := reprC (off + size) fs
    (off :: offs, end_)

/-- wav.rs 12-26: sizes and alignments of the fields of `RawWavHeader` -/
def headerFields : List (Nat × Nat) :=
  [(4, 1), (4, 4), (4, 1), (4, 1), (4, 4), (2, 2), (2, 2), (4, 4), (4, 4), (2, 2), (2, 2), (4, 1), (4, 4)]

end Adhoc
