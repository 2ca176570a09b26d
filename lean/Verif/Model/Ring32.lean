import Verif.Model.Packed

/-!
# The ring buffer with fields of 32 bits

`Model/Packed.lean` takes the four `u32` fields of `FixedRingBuffer` (queue.rs 9-12) for unbounded numbers. Here every sum and difference is one of 32 bits: it panics
in a build with overflow checks and wraps in one without, and `%` panics on a capacity of 0. The fields may have any values, as after `Deserialize` (queue.rs 6).
-/

namespace Adhoc.FixedRingBuffer
variable {α : Type}

/-- queue.rs 50, 80: `(x + self.capacity - 1) & (self.capacity - 1)` -/
def stepBack32 (b : Build) (x capacity : Nat) : R Nat := do
  let s ← chkU b 32 ((x + capacity : Nat) : Int)
  let s ← chkU b 32 ((s : Int) - 1)
  let m ← chkU b 32 ((capacity : Int) - 1)
  pure (s &&& m)

/-- queue.rs 60, 73: `(x + 1) & (self.capacity - 1)` -/
def stepOn32 (b : Build) (x capacity : Nat) : R Nat := do
  let s ← chkU b 32 ((x + 1 : Nat) : Int)
  let m ← chkU b 32 ((capacity : Int) - 1)
  pure (s &&& m)

/-- queue.rs 48-55: `push_front` -/
def pushFront32 (b : Build) (q : FixedRingBuffer α) (item : α) : R (FixedRingBuffer α) :=
  if q.isFull = false then do
    let front ← stepBack32 b q.front q.capacity
    let backing ← setIdx q.backing front item
    let len ← chkU b 32 ((q.len + 1 : Nat) : Int)
    pure { q with backing := backing, front := front, len := len }
  else pure q

/-- queue.rs 57-67: `pop_front` -/
def popFront32 (b : Build) (q : FixedRingBuffer α) : R (FixedRingBuffer α × Option α) :=
  if q.isEmpty = false then do
    let oldFront := q.front
    let front ← stepOn32 b q.front q.capacity
    let len ← chkU b 32 ((q.len : Int) - 1)
    let item ← idx q.backing oldFront
    pure ({ q with front := front, len := len }, some item)
  else pure (q, none)

/-- queue.rs 69-76: `push_rear` -/
def pushRear32 (b : Build) (q : FixedRingBuffer α) (item : α) : R (FixedRingBuffer α) :=
  if q.isFull = false then do
    let backing ← setIdx q.backing q.rear item
    let rear ← stepOn32 b q.rear q.capacity
    let len ← chkU b 32 ((q.len + 1 : Nat) : Int)
    pure { q with backing := backing, rear := rear, len := len }
  else pure q

/-- queue.rs 78-88: `pop_rear` -/
def popRear32 (b : Build) (q : FixedRingBuffer α) : R (FixedRingBuffer α × Option α) :=
  if q.isEmpty = false then do
    let newRear ← stepBack32 b q.rear q.capacity
    let len ← chkU b 32 ((q.len : Int) - 1)
    let item ← idx q.backing newRear
    pure ({ q with rear := newRear, len := len }, some item)
  else pure (q, none)

/-- queue.rs 89-97: `iter`, run to its end -/
def iter32 (b : Build) (q : FixedRingBuffer α) : R (List α) :=
  (List.range q.len).mapM fun offset => do
    let s ← chkU b 32 ((q.front + offset : Nat) : Int)
    if q.capacity = 0 then .error .divZero else idx q.backing (s % q.capacity)

end Adhoc.FixedRingBuffer
