import Verif.Model.Frame

/-!
# The counters of the frame headers with their 32 bits

Elsewhere `nibble_count` and `header_cursor` are unbounded. Here they are `u32` and `+= 1` panics in a debug build and wraps in a release build.
-/

namespace Adhoc

/-- nibble_list.rs 32-40: `push`; line 39 counts in 32 bits -/
def NibbleList.push32 (b : Build) (l : NibbleList) (val : Byte) : R NibbleList := do
  let block := l.nibbleCount / 2
  let nib := l.nibbleCount % 2
  let data := if block ≥ l.data.length then l.data ++ [0#8] else l.data
  let c ← idx data block
  let data ← setIdx data block (c ||| (val <<< (4 * nib)))
  let count ← chkU b 32 ((l.nibbleCount + 1 : Nat) : Int)
  pure { data := data, nibbleCount := count }

namespace FrameHeaders

/-- frame.rs 86-113: `push`; line 112 counts in 32 bits -/
def push32 (b : Build) (h : FrameHeaders) (hdr : FrameHeader) : R FrameHeaders := do
  let c := h.headerCursor
  let isInit : BitVec 64 := if hdr.isInit then 1#64 else 0#64
  if c ≥ h.divisorExpList.len then do
    let d ← h.divisorExpList.push32 b (BitVec.ofNat 8 hdr.exponent)
    let i ← h.isInitFrameList.push isInit
    let next ← chkU b 32 ((c + 1 : Nat) : Int)
    pure
      { divisorExpList := d, isInitFrameList := i
        frameSizeList := h.frameSizeList ++ [hdr.size]
        bitCursorList := h.bitCursorList ++ [hdr.bitCursor % 2 ^ 64]
        stackHistoryList := h.stackHistoryList ++ [hdr.history]
        headerCursor := next }
  else do
    let fs ← setIdx h.frameSizeList c hdr.size
    let bc ← setIdx h.bitCursorList c (hdr.bitCursor % 2 ^ 64)
    let sh ← setIdx h.stackHistoryList c hdr.history
    let next ← chkU b 32 ((c + 1 : Nat) : Int)
    pure
      { divisorExpList := h.divisorExpList.set c (BitVec.ofNat 8 hdr.exponent)
        isInitFrameList := h.isInitFrameList.set c isInit
        frameSizeList := fs, bitCursorList := bc, stackHistoryList := sh
        headerCursor := next }

/-- frame.rs 145-161: `Iterator::next`; line 157 counts in 32 bits -/
def next32 (b : Build) (h : FrameHeaders) : R (FrameHeaders × Option FrameHeader) := do
  let c := h.headerCursor
  if c < h.divisorExpList.len then do
    let size ← idx h.frameSizeList c
    let cursor ← idx h.bitCursorList c
    let history ← idx h.stackHistoryList c
    let next ← chkU b 32 ((c + 1 : Nat) : Int)
    pure ({ h with headerCursor := next }, some
      { exponent := (h.divisorExpList.get c).toNat, size := size, bitCursor := cursor
        isInit := h.isInitFrameList.get c == 1#64, history := history })
  else pure (h, none)

end FrameHeaders

end Adhoc
