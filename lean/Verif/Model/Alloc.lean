import Verif.Model.Adhoc

/-!
# The memory of the vectors that a recording fills

`Vec` of the standard library (alloc/src/raw_vec, `grow_amortized`): a vector that has no room for the length it needs gets a new block for at least twice as many
elements as before, at least for the length needed, and at least for 4 elements (8 if they are bytes). The old block is copied.
-/

namespace Adhoc

/-- the block of a vector: for how many elements it has room, how many blocks were allocated so far and how many elements were copied when a block was replaced -/
structure Block where
  cap : Nat := 0
  allocs : Nat := 0
  copied : Nat := 0
  deriving DecidableEq, Repr

namespace Block

/-- `RawVec::reserve`: make room for `len` elements; `least` is the smallest block ever made -/
def room (least : Nat) (v : Block) (len : Nat) : Block :=
  if len ≤ v.cap then v else { cap := max least (max (2 * v.cap) len), allocs := v.allocs + 1, copied := v.copied + v.cap }

/-- `Vec::push` called again and again while the length grows from `len` to `len'` -/
def pushes (least : Nat) (v : Block) (len len' : Nat) : Block := (List.range (len' - len)).foldl (fun v i => v.room least (len + i + 1)) v

end Block

/-- the vectors that `encode` makes longer: bitstream.rs 54 (u128), nibble_list.rs 5 (u8), bitvec.rs 7 (u64), frame.rs 23-25 (u16, u64, [i16; 3]) and adhoc.rs 44 (f32) -/
structure Memory where
  chunks : Block := {}
  exps : Block := {}
  inits : Block := {}
  sizes : Block := {}
  cursors : Block := {}
  histories : Block := {}
  scratch : Block := {}
  deriving DecidableEq, Repr

namespace Memory

/-- the seven vectors -/
def all (m : Memory) : List Block := [m.chunks, m.exps, m.inits, m.sizes, m.cursors, m.histories, m.scratch]

/-- how many blocks were allocated -/
def allocs (m : Memory) : Nat := (m.all.map (·.allocs)).sum

/-- how many elements were copied -/
def copied (m : Memory) : Nat := (m.all.map (·.copied)).sum

end Memory

namespace AdhocCodec

/-- adhoc.rs 216-254: `encode` with the memory of its vectors. All but the scratch vector are made longer by `Vec::push` only, one element at a time
(bitstream.rs 237, nibble_list.rs 36, bitvec.rs 46, frame.rs 100-103), so their lengths before and after the call tell what was pushed.
The scratch vector is resized to the number of blocks, adhoc.rs 231. -/
def encodeM (b : Build) (c : AdhocCodec) (m : Memory) (pcm : List F32) : R (AdhocCodec × Memory) := do
  let info ← expect c.stream.info
  let numChunks ← udiv pcm.length info.channels
  let (c', _) ← c.encode b pcm
  let h := c.frameHeaderList
  let h' := c'.frameHeaderList
  pure (c',
    { chunks := m.chunks.pushes 4 c.stream.stream.binary.length c'.stream.stream.binary.length
      exps := m.exps.pushes 8 h.divisorExpList.data.length h'.divisorExpList.data.length
      inits := m.inits.pushes 4 h.isInitFrameList.binary.length h'.isInitFrameList.binary.length
      sizes := m.sizes.pushes 4 h.frameSizeList.length h'.frameSizeList.length
      cursors := m.cursors.pushes 4 h.bitCursorList.length h'.bitCursorList.length
      histories := m.histories.pushes 4 h.stackHistoryList.length h'.stackHistoryList.length
      scratch := m.scratch.room 4 numChunks })

/-- successive calls -/
def encodeAllM (b : Build) (c : AdhocCodec) (calls : List (List F32)) : R (AdhocCodec × Memory) :=
  calls.foldlM (fun (c, m) pcm => c.encodeM b m pcm) (c, {})

end AdhocCodec
end Adhoc
