import Verif.Model.Rust

/-!
# src/collections/nibble_list.rs, bitvec.rs, stack.rs, queue.rs

The small containers. `nibble_count : u32` and `bit_cursor : u128` are unbounded naturals.
-/

namespace Adhoc

/-! ## nibble_list.rs -/

/-- nibble_list.rs 4-7: `struct NibbleList` -/
structure NibbleList where
  data : List Byte
  nibbleCount : Nat
  deriving DecidableEq, Repr

namespace NibbleList

/-- nibble_list.rs 11-16: `new` -/
def new : NibbleList := { data := [], nibbleCount := 0 }

/-- nibble_list.rs 22-24: `len` -/
def len (l : NibbleList) : Nat := l.nibbleCount

/-- nibble_list.rs 18-20: `is_empty` -/
def isEmpty (l : NibbleList) : Bool := l.len == 0

/-- nibble_list.rs 32-40: `push` -/
def push (l : NibbleList) (val : Byte) : R NibbleList := do
  let block := l.nibbleCount / 2
  let nib := l.nibbleCount % 2
  let data := if block ≥ l.data.length then l.data ++ [0#8] else l.data
  let c ← idx data block
  let data ← setIdx data block (c ||| (val <<< (4 * nib)))
  pure { data := data, nibbleCount := l.nibbleCount + 1 }

/-- nibble_list.rs 42-49: `get` -/
def get (l : NibbleList) (i : Nat) : Byte :=
  match l.data[i / 2]? with
  | none => 0#8
  | some c => (c >>> (4 * (i % 2))) &&& 0x0f#8

/-- nibble_list.rs 51-59: `set` -/
def set (l : NibbleList) (i : Nat) (val : Byte) : NibbleList :=
  let nib := i % 2
  match l.data[i / 2]? with
  | none => l
  | some c =>
    -- 57: `(0x0f * nibble_idx) | (0xf0 * (1 - nibble_idx))`
    let keep : Byte := BitVec.ofNat 8 (0x0f * nib) ||| BitVec.ofNat 8 (0xf0 * (1 - nib))
    { l with data := l.data.set (i / 2) ((c &&& keep) ||| (val <<< (4 * nib))) }

/-- nibble_list.rs 61-63: `clear` -/
def clear (l : NibbleList) : NibbleList := { l with nibbleCount := 0 }

/-- nibble_list.rs 65-67: `iter` -/
def iter (l : NibbleList) : List Byte := (List.range l.len).map l.get

end NibbleList

/-! ## bitvec.rs -/

/-- bitvec.rs 6-9: `struct BitVec` (here `BitVecU64`, since `BitVec` is Lean's type of machine words) -/
structure BitVecU64 where
  binary : List (BitVec 64)
  bitCursor : Nat
  deriving DecidableEq, Repr

namespace BitVecU64

/-- bitvec.rs 13-18: `new` -/
def new : BitVecU64 := { binary := [], bitCursor := 0 }

/-- bitvec.rs 20-22: `clear` -/
def clear (v : BitVecU64) : BitVecU64 := { v with bitCursor := 0 }

/-- bitvec.rs 26-28: `len` -/
def len (v : BitVecU64) : Nat := v.bitCursor

/-- bitvec.rs 32-34: `capacity` -/
def capacity (v : BitVecU64) : Nat := v.binary.length * 64

/-- bitvec.rs 40-51: `push` -/
def push (v : BitVecU64) (bit : BitVec 64) : R BitVecU64 := do
  let bit := bit &&& 1#64
  let chunk := v.bitCursor / 64
  let b := v.bitCursor % 64
  let binary := if chunk ≥ v.binary.length then v.binary ++ [0#64] else v.binary
  let c ← idx binary chunk
  let c := c &&& ~~~(1#64 <<< b)
  let c := c ||| (bit <<< b)
  let binary ← setIdx binary chunk c
  pure { binary := binary, bitCursor := v.bitCursor + 1 }

/-- bitvec.rs 57-67: `get` -/
def get (v : BitVecU64) (i : Nat) : BitVec 64 :=
  match v.binary[i / 64]? with
  | none => 0#64
  | some c => (c >>> (i % 64)) &&& 1#64

/-- bitvec.rs 71-91: `set` -/
def set (v : BitVecU64) (i : Nat) (bit : BitVec 64) : BitVecU64 :=
  match v.binary[i / 64]? with
  | none => v
  | some c =>
    let c := c &&& ~~~(1#64 <<< (i % 64))
    let c := c ||| ((bit &&& 1#64) <<< (i % 64))
    { v with binary := v.binary.set (i / 64) c }

/-- bitvec.rs 110-112: `iter` -/
def iter (v : BitVecU64) : List (BitVec 64) := (List.range v.len).map v.get

/-- bitvec.rs 115-117: `compute_bits_required` -/
def computeBitsRequired (n : Nat) : Nat := ((n / 64) + min (n % 64) 1) * 64

end BitVecU64

/-! ## stack.rs -/

/-- stack.rs 8-12: `struct CircularStack<T>`; `data : [T; 4]` is a function on `Fin 4` -/
structure CircularStack (α : Type) where
  data : Fin 4 → α
  cursor : Nat
  len : Nat

namespace CircularStack
variable {α : Type}

/-- stack.rs 18-24: `new`, `d` is `T::default()` -/
def new (d : α) : CircularStack α := { data := fun _ => d, cursor := 0, len := 0 }

/-- stack.rs 30-32: `is_empty` (as written: true iff the stack is full) -/
def isEmpty (s : CircularStack α) : Bool := decide (s.len ≥ 4)

/-- stack.rs 34-40: `push` -/
def push (s : CircularStack α) (item : α) : CircularStack α :=
  let i : Fin 4 := Fin.ofNat 4 (s.cursor &&& 3)
  { data := fun j => if j = i then item else s.data j
    cursor := (s.cursor + 1) &&& 3
    len := min (s.len + 1) 4 }

/-- stack.rs 42-48: `pop` -/
def pop (s : CircularStack α) : CircularStack α × α :=
  let cursor := ((s.cursor + 4) - 1) &&& 3
  ({ s with cursor := cursor, len := ((s.len : Int) - 1).toNat }, s.data (Fin.ofNat 4 cursor))

/-- stack.rs 51-55: `prev` -/
def prev (s : CircularStack α) (offset : Nat) : α :=
  let clamped := min offset s.len
  s.data (Fin.ofNat 4 (((s.cursor + 4) - clamped) &&& 3))

end CircularStack

/-! ## queue.rs -/

/-- queue.rs 7-13: `struct FixedRingBuffer<BACKING>`, with a list as the indexable backing store -/
structure FixedRingBuffer (α : Type) where
  backing : List α
  front : Nat
  rear : Nat
  len : Nat
  capacity : Nat
  deriving DecidableEq

namespace FixedRingBuffer
variable {α : Type}

/-- queue.rs 18: `capacity.count_ones() != 1` for a u32 -/
def countOnes : (fuel : Nat) → Nat → Nat
  | 0, _ => 0
  | fuel + 1, n => n % 2 + countOnes fuel (n / 2)

/-- queue.rs 17-29: `new` -/
def new (backing : List α) (capacity : Nat) : R (FixedRingBuffer α) :=
  if countOnes 32 capacity ≠ 1 then .error .explicit
  else pure { backing := backing, front := 0, rear := 0, len := 0, capacity := capacity }

/-- queue.rs 40-42: `is_full` -/
def isFull (q : FixedRingBuffer α) : Bool := decide (q.len ≥ q.capacity)

/-- queue.rs 44-46: `is_empty` -/
def isEmpty (q : FixedRingBuffer α) : Bool := q.len == 0

/-- queue.rs 48-55: `push_front` -/
def pushFront (q : FixedRingBuffer α) (item : α) : R (FixedRingBuffer α) :=
  if q.isFull = false then do
    let front := (q.front + q.capacity - 1) &&& (q.capacity - 1)
    let backing ← setIdx q.backing front item
    pure { q with backing := backing, front := front, len := q.len + 1 }
  else pure q

/-- queue.rs 57-67: `pop_front` -/
def popFront (q : FixedRingBuffer α) : R (FixedRingBuffer α × Option α) :=
  if q.isEmpty = false then do
    let oldFront := q.front
    let front := (q.front + 1) &&& (q.capacity - 1)
    let item ← idx q.backing oldFront
    pure ({ q with front := front, len := q.len - 1 }, some item)
  else pure (q, none)

/-- queue.rs 69-76: `push_rear` -/
def pushRear (q : FixedRingBuffer α) (item : α) : R (FixedRingBuffer α) :=
  if q.isFull = false then do
    let backing ← setIdx q.backing q.rear item
    pure { q with backing := backing, rear := (q.rear + 1) &&& (q.capacity - 1), len := q.len + 1 }
  else pure q

/-- queue.rs 78-88: `pop_rear` -/
def popRear (q : FixedRingBuffer α) : R (FixedRingBuffer α × Option α) :=
  if q.isEmpty = false then do
    let newRear := (q.rear + q.capacity - 1) &&& (q.capacity - 1)
    let item ← idx q.backing newRear
    pure ({ q with rear := newRear, len := q.len - 1 }, some item)
  else pure (q, none)

/-- queue.rs 89-97: `iter` -/
def iter (q : FixedRingBuffer α) : R (List α) :=
  (List.range q.len).mapM fun offset => idx q.backing ((q.front + offset) % q.capacity)

/-- queue.rs 99-103: `clear` -/
def clear (q : FixedRingBuffer α) : FixedRingBuffer α := { q with len := 0, front := 0, rear := 0 }

end FixedRingBuffer
end Adhoc
