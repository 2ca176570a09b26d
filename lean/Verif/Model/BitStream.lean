import Verif.Model.Rust

/-!
# src/collections/bitstream.rs

`binary : Vec<u128>` is a list of `BitVec 128`; bit `i` of the stream is bit `i % 128` of chunk `i / 128`.
`bit_cursor` and `capacity` (u128) are unbounded naturals: 2^128 bits do not fit in memory.
-/

namespace Adhoc

/-- bitstream.rs 10: `CHUNK_SIZE_IN_BITS` -/
def CHUNK_SIZE_IN_BITS : Nat := 128
/-- bitstream.rs 6: `CAPPED_BITS` -/
def CAPPED_BITS : Nat := 14
/-- bitstream.rs 7: `CAPPED_SHIFT_FACTOR` -/
def CAPPED_SHIFT_FACTOR : Nat := 128 - CAPPED_BITS
/-- bitstream.rs 47: `CAPPED_MAX` -/
def CAPPED_MAX : Int := 2 ^ (CAPPED_BITS - 1) - 1
/-- bitstream.rs 50: `CAPPED_MIN` -/
def CAPPED_MIN : Int := -(CAPPED_MAX + 1)

/-- bitstream.rs 53-57: `struct BitStream` -/
structure BitStream where
  binary : List (BitVec 128)
  bitCursor : Nat
  capacity : Nat
  deriving DecidableEq, Repr

namespace BitStream

/-- bitstream.rs 59-66: `new` (also 69-76, `with_capacity_in_megabytes`: the reserved memory is not observable) -/
def new : BitStream := { binary := [], bitCursor := 0, capacity := 0 }

/-- bitstream.rs 83-85: `len` -/
def len (s : BitStream) : Nat := s.bitCursor

/-- bitstream.rs 97-102: `capacity_upperbound` -/
def capacityUpperbound (s : BitStream) : Nat := s.binary.length * 128

/-- bitstream.rs 106-108: `blocks_allocated` -/
def blocksAllocated (s : BitStream) : Nat := s.binary.length

/-- bitstream.rs 356-358: `chunk_index` -/
def chunkIndex (s : BitStream) : Nat := s.bitCursor / 128

/-- bitstream.rs 359-361: `chunk_bit_index` -/
def chunkBitIndex (s : BitStream) : Nat := s.bitCursor % 128

/-- bitstream.rs 362-365: `offset_bit_cursor`, for the non-negative offsets the crate uses -/
def offsetBitCursor (s : BitStream) (offset : Nat) : BitStream :=
  { s with bitCursor := s.bitCursor + offset, capacity := max (s.bitCursor + offset) s.capacity }

/-- bitstream.rs 367-369: `set_bit_cursor` -/
def setBitCursor (s : BitStream) (i : Nat) : BitStream := { s with bitCursor := i }

/-- bitstream.rs 245-247: `seek_start` -/
def seekStart (s : BitStream) : BitStream := { s with bitCursor := 0 }

/-- bitstream.rs 241-243: `zero` -/
def zero (s : BitStream) : BitStream := { s with binary := s.binary.map fun _ => 0#128 }

/-- bitstream.rs 235-239: `allocate_if_needed` (pushes one chunk at most) -/
def allocateIfNeeded (s : BitStream) (chunkIdx : Nat) : BitStream :=
  if chunkIdx ≥ s.binary.length then { s with binary := s.binary ++ [0#128] } else s

/-- bitstream.rs 112-139: `write_bits`, `val` already widened to u128, `numBits ≤ 128` -/
def writeBits (s : BitStream) (val : BitVec 128) (numBits : Nat) : R BitStream := do
  let cur := s.chunkIndex
  let nxt := cur + 1
  let bitIdx := s.chunkBitIndex
  let s := s.allocateIfNeeded cur
  let s := s.allocateIfNeeded nxt
  -- 126: clear everything left of the bit index, 128: write bits
  let c ← idx s.binary cur
  let c := c &&& ((1#128 <<< bitIdx) - 1#128)
  let c := c ||| (val <<< bitIdx)
  let bin ← setIdx s.binary cur c
  let s := { s with binary := bin }
  -- 130-136: the part that straddles into the next chunk
  let remaining := CHUNK_SIZE_IN_BITS - bitIdx
  let s ← if remaining < numBits then do
      let d ← idx s.binary nxt
      let d := d &&& ((1#128 <<< (numBits - remaining)) - 1#128)
      let d := d ||| (val >>> remaining)
      let bin ← setIdx s.binary nxt d
      pure { s with binary := bin }
    else pure s
  pure (s.offsetBitCursor numBits)

/-- bitstream.rs 141-169: `peek_bits` -/
def peekBits (s : BitStream) (numBits : Nat) : R (BitStream × BitVec 128) := do
  -- 145-148: checked_shl, all ones when the shift is out of range
  let mask : BitVec 128 := if numBits < 128 then (1#128 <<< numBits) - 1#128 else BitVec.allOnes 128
  let cur := s.chunkIndex
  let nxt := cur + 1
  let bitIdx := s.chunkBitIndex
  let s := s.allocateIfNeeded cur
  let s := s.allocateIfNeeded nxt
  -- 158-160: return 0 if out of bounds
  if cur ≥ s.binary.length then pure (s, 0#128) else
  let c ← idx s.binary cur
  let bits := c >>> bitIdx
  let remaining := 128 - bitIdx
  let bits ← if remaining < numBits then do
      let d ← idx s.binary nxt
      pure (bits ||| (d <<< remaining))
    else pure bits
  pure (s, bits &&& mask)

/-- bitstream.rs 175-183: `write_bit` -/
def writeBit (s : BitStream) (val : BitVec 8) : R BitStream := do
  let bit : BitVec 128 := val.setWidth 128 &&& 1#128
  let cur := s.chunkIndex
  let bitIdx := s.chunkBitIndex
  let s := s.allocateIfNeeded cur
  let c ← idx s.binary cur
  let c := c &&& ((1#128 <<< bitIdx) - 1#128)
  let c := c ||| (bit <<< bitIdx)
  let bin ← setIdx s.binary cur c
  pure ({ s with binary := bin }.offsetBitCursor 1)

/-- bitstream.rs 189-198: `read_bit` (0 and no movement beyond the last chunk) -/
def readBit (s : BitStream) : R (BitStream × BitVec 128) := do
  let cur := s.chunkIndex
  let bitIdx := s.chunkBitIndex
  if cur ≥ s.binary.length then pure (s, 0#128) else
  let s := s.offsetBitCursor 1
  let c ← idx s.binary cur
  pure (s, (c >>> bitIdx) &&& 1#128)

/-- bitstream.rs 202-206: `read_bits`; `read::<T>` (224-233) is `readBits` of the width of `T` -/
def readBits (s : BitStream) (n : Nat) : R (BitStream × BitVec 128) := do
  let (s, v) ← s.peekBits n
  pure (s.offsetBitCursor n, v)

/-- bitstream.rs 215-221: `write::<u16>` -/
def writeU16 (s : BitStream) (v : BitVec 16) : R BitStream := s.writeBits (v.setWidth 128) 16

/-- an `i16` operation with mathematical result `x` -/
def i16op (b : Build) (x : Int) : R (BitVec 16) := do
  let y ← chkI b 16 x
  pure (BitVec.ofInt 16 y)

/-- bitstream.rs 302-310: the loop writing `quotient` one bits, 128 at a time -/
def writeUnary : (fuel : Nat) → BitStream → (quotient : Int) → R BitStream
  | 0, _, _ => .error .fuel
  | fuel + 1, s, quotient =>
    if quotient > 0 then
      if quotient > 128 then do
        let s ← s.writeBits (BitVec.allOnes 128) 128
        writeUnary fuel s (quotient - 128)
      else
        s.writeBits (BitVec.allOnes 128) quotient.toNat
    else pure s

/-- bitstream.rs 283-318: `write_compressed`, `exponent` in 0..15 -/
def writeCompressed (b : Build) (s : BitStream) (exponent : Nat) (entropy : BitVec 16) : R BitStream := do
  let signBit : BitVec 16 := (entropy.sshiftRight 15) &&& 1#16
  let absE ← i16op b (entropy.toInt.natAbs : Int)
  let quotient : BitVec 16 := absE.sshiftRight exponent
  -- 286: `(1 << exponent) - 1` is computed in i16
  let mask ← i16op b ((1#16 <<< exponent).toInt - 1)
  let remainder : BitVec 16 := absE &&& mask
  -- 290: sign bit
  let s ← s.writeBit (signBit.setWidth 8)
  -- 302-310: unary quotient
  let s ← writeUnary (quotient.toInt.toNat + 1) s quotient.toInt
  -- 315: terminating zero
  let s ← s.writeBit 0#8
  -- 317: `remainder as u32`, widened to u128
  s.writeBits ((remainder.signExtend 32).setWidth 128) exponent

/-- bitstream.rs 332-338: skip full chunks of ones -/
def readOnes (b : Build) : (fuel : Nat) → BitStream → (quotient : BitVec 16) → R (BitStream × BitVec 128 × BitVec 16)
  | 0, _, _ => .error .fuel
  | fuel + 1, s, quotient => do
    let (s, chunk) ← s.peekBits 128
    -- 334: `bit_chunk.count_zeros() == 0`
    if chunk = BitVec.allOnes 128 then
      let s := s.offsetBitCursor 128
      let quotient ← i16op b (quotient.toInt + 128)
      readOnes b fuel s quotient
    else pure (s, chunk, quotient)

/-- bitstream.rs 342-346: position of the first zero bit, at most `fuel` -/
def firstZero : (fuel : Nat) → BitVec 128 → Nat
  | 0, _ => 0
  | fuel + 1, chunk => if chunk &&& 1#128 ≠ 0#128 then firstZero fuel (chunk >>> 1) + 1 else 0

/-- bitstream.rs 320-354: `read_compressed`, `exponent` in 0..15.
The fuel bounds the number of all-ones refills by the number of chunks. -/
def readCompressed (b : Build) (s : BitStream) (exponent : Nat) : R (BitStream × BitVec 16) := do
  let (s, bit) ← s.readBit
  let signBit : BitVec 16 := bit.setWidth 16
  let divisor : BitVec 16 := 1#16 <<< exponent
  let (s, chunk, quotient) ← readOnes b (s.binary.length + 3) s 0#16
  let zeroPos := firstZero 128 chunk
  let s := s.offsetBitCursor (zeroPos + 1)
  let quotient ← i16op b (quotient.toInt + zeroPos)
  let (s, rem) ← s.readBits exponent
  let remainder : BitVec 16 := rem.setWidth 16
  -- 352
  let dq ← i16op b (divisor.toInt * quotient.toInt)
  let unsignedVal ← i16op b (dq.toInt + remainder.toInt)
  -- 353
  let x ← i16op b (unsignedVal.toInt * -signBit.toInt)
  let y ← i16op b (unsignedVal.toInt * (1 - signBit.toInt))
  let v ← i16op b (x.toInt + y.toInt)
  pure (s, v)

/-- bitstream.rs 276-278: `(divisor - 1).count_ones()` for a positive divisor -/
def countOnes (fuel n : Nat) : Nat :=
  match fuel with
  | 0 => 0
  | fuel + 1 => n % 2 + countOnes fuel (n / 2)

/-- bitstream.rs 276-278: `write_compressed_divisor`, `divisor` a positive i16 -/
def writeCompressedDivisor (b : Build) (s : BitStream) (divisor : Nat) (entropy : BitVec 16) : R BitStream :=
  s.writeCompressed b (countOnes 16 (divisor - 1)) entropy

/-- bitstream.rs 279-281: `read_compressed_divisor`, `divisor` a positive i16 -/
def readCompressedDivisor (b : Build) (s : BitStream) (divisor : Nat) : R (BitStream × BitVec 16) :=
  s.readCompressed b (countOnes 16 (divisor - 1))

/-- bitstream.rs 255-265: `write_compressed_capped::<DIVISOR>`, `divisor` a positive i16 -/
def writeCompressedCapped (b : Build) (s : BitStream) (divisor : Nat) (value : BitVec 16) : R BitStream := do
  let absV ← i16op b (value.toInt.natAbs : Int)
  -- 256: i16 division truncates toward zero
  let quotient : Int := absV.toInt.tdiv divisor
  let cappingNotNeeded : Bool := decide (quotient < 16)
  let s ← s.writeBit (if cappingNotNeeded then 0#8 else 1#8)
  if cappingNotNeeded then
    s.writeCompressedDivisor b divisor value
  else do
    let c ← clampI value.toInt CAPPED_MIN CAPPED_MAX
    s.writeBits ((BitVec.ofInt 16 c).setWidth 128) CAPPED_BITS

/-- bitstream.rs 267-275: `read_compressed_capped` -/
def readCompressedCapped (b : Build) (s : BitStream) (divisor : Nat) : R (BitStream × BitVec 16) := do
  let (s, bit) ← s.readBit
  -- 268: `as u8 == 1`
  if bit.setWidth 8 = 1#8 then do
    let (s, bits) ← s.readBits CAPPED_BITS
    -- 271: shift left then arithmetic shift right on i128, `as i16`
    pure (s, ((bits <<< CAPPED_SHIFT_FACTOR).sshiftRight CAPPED_SHIFT_FACTOR).setWidth 16)
  else
    s.readCompressedDivisor b divisor

end BitStream
end Adhoc
