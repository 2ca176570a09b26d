import Verif.Model.Rust

/-!
# src/collections.rs, linked_list.rs, lru_cache.rs

`Ptr` (u32) is a natural number, `NULL` is `u32::MAX`. `len : u32` is an unbounded natural; `Model/List32.lean` has it with 32 bits (C146).
The `HashMap` of the cache is a function: its documented behaviour is trusted.
-/

namespace Adhoc

/-- collections.rs 53: `NULL` -/
def NULL : Nat := 2 ^ 32 - 1

/-- collections.rs 47-51: `Ptr::from(usize)` keeps the low 32 bits -/
def ptrOf (n : Nat) : Nat := n % 2 ^ 32

/-- collections.rs 56-59: `struct Node<T, 2>` -/
structure Node (α : Type) where
  data : Option α
  left : Nat
  right : Nat
  deriving DecidableEq, Repr

/-- linked_list.rs 6-9: `enum InsertDirection` -/
inductive Dir
  | left
  | right
  deriving DecidableEq, Repr

/-- the other direction, `1 - raw_direction` -/
def Dir.flip : Dir → Dir
  | .left => .right
  | .right => .left

namespace Node
variable {α : Type}

/-- collections.rs 86-93: `Node::from` -/
def ofItem (a : α) : Node α := { data := some a, left := NULL, right := NULL }

/-- `children[d]` -/
def child (n : Node α) : Dir → Nat
  | .left => n.left
  | .right => n.right

/-- `children[d] = p` -/
def setChild (n : Node α) (d : Dir) (p : Nat) : Node α :=
  match d with
  | .left => { n with left := p }
  | .right => { n with right := p }

end Node

/-- linked_list.rs 18-24: `struct LinkedList<T>` -/
structure LinkedList (α : Type) where
  memory : List (Node α)
  front : Nat
  rear : Nat
  pool : Nat
  len : Nat
  deriving DecidableEq, Repr

namespace LinkedList
variable {α : Type}

/-- linked_list.rs 27-35: `new` -/
def new : LinkedList α := { memory := [], front := NULL, rear := NULL, pool := NULL, len := 0 }

/-- linked_list.rs 176-186: `self[p]` -/
def node (l : LinkedList α) (p : Nat) : R (Node α) := idx l.memory p

/-- write a node back -/
def modify (l : LinkedList α) (p : Nat) (f : Node α → Node α) : R (LinkedList α) := do
  let n ← idx l.memory p
  let memory ← setIdx l.memory p (f n)
  pure { l with memory := memory }

/-- linked_list.rs 130-142: `allocate` -/
def allocate (l : LinkedList α) (item : α) : R (LinkedList α × Nat) :=
  if l.pool = NULL then
    let memory := l.memory ++ [Node.ofItem item]
    pure ({ l with memory := memory }, ptrOf (memory.length - 1))
  else do
    let p := l.pool
    let n ← l.node p
    let l := { l with pool := n.right }
    let l ← l.modify p fun n => { n with data := some item }
    let l ← l.modify p fun n => { n with left := NULL, right := NULL }
    pure (l, p)

/-- linked_list.rs 144-148: `free` -/
def free (l : LinkedList α) (p : Nat) : R (LinkedList α × Option α) := do
  let pool := l.pool
  let l ← l.modify p fun n => { n with left := NULL, right := pool }
  let l := { l with pool := p }
  let n ← l.node p
  let l ← l.modify p fun n => { n with data := none }
  pure (l, n.data)

/-- linked_list.rs 97-128: `insert_at` -/
def insertAt (l : LinkedList α) (node : Nat) (d : Dir) (data : α) : R (LinkedList α) :=
  if l.len = 0 then do
    let (l, p) ← l.allocate data
    let l ← l.modify p fun n => { n with left := p, right := p }
    pure { l with front := p, rear := p, len := l.len + 1 }
  else if node = NULL then pure l
  else do
    let (l, p) ← l.allocate data
    let n ← l.node node
    let adj := n.child d
    let l ← l.modify node fun n => n.setChild d p
    let l ← l.modify adj fun n => n.setChild d.flip p
    let l ← l.modify p fun n => n.setChild d.flip node
    let l ← l.modify p fun n => n.setChild d adj
    let l := if node = l.front ∧ d = .left then { l with front := p } else l
    let l := if node = l.rear ∧ d = .right then { l with rear := p } else l
    pure { l with len := l.len + 1 }

/-- linked_list.rs 63-95: `remove_at` -/
def removeAt (l : LinkedList α) (node : Nat) : R (LinkedList α × Option α) :=
  if l.len = 0 then pure (l, none)
  else if l.len = 1 then
    let r := l.rear
    if l.front ≠ r then .error .explicit
    else { l with front := NULL, rear := NULL, len := 0 }.free r
  else do
    let n ← l.node node
    let left := n.left
    let n ← l.node node
    let right := n.right
    let l ← l.modify left fun n => { n with right := right }
    let l ← l.modify right fun n => { n with left := left }
    let l ← if node = l.front then do
        let n ← l.node l.front
        pure { l with front := n.right }
      else pure l
    let l ← if node = l.rear then do
        let n ← l.node l.rear
        pure { l with rear := n.left }
      else pure l
    { l with len := l.len - 1 }.free node

/-- linked_list.rs 48-50: `push_front` -/
def pushFront (l : LinkedList α) (a : α) : R (LinkedList α) := l.insertAt l.front .left a

/-- linked_list.rs 51-53: `push_rear` -/
def pushRear (l : LinkedList α) (a : α) : R (LinkedList α) := l.insertAt l.rear .right a

/-- linked_list.rs 55-57: `pop_rear` -/
def popRear (l : LinkedList α) : R (LinkedList α × Option α) := l.removeAt l.rear

/-- linked_list.rs 59-61: `pop_front` -/
def popFront (l : LinkedList α) : R (LinkedList α × Option α) := l.removeAt l.front

/-- linked_list.rs 188-214: the pointers visited by the iterator, `n` items from `p` -/
def walk (l : LinkedList α) : (n : Nat) → (p : Nat) → R (List Nat)
  | 0, _ => pure []
  | n + 1, p => do
    let nd ← l.node p
    let ps ← l.walk n nd.right
    pure (p :: ps)

/-- linked_list.rs 158-160: `iter` -/
def iter (l : LinkedList α) : R (List α) := do
  let ps ← l.walk l.len l.front
  ps.mapM fun p => do
    let n ← l.node p
    expect n.data

/-- the writes `f i v` through the references of `iter_mut`, the `i`-th being to slot `p` with value `v`. The code reaches the slot by
unchecked pointer arithmetic; here a slot out of range is a panic. -/
def writeAll (f : Nat → α → α) (l : LinkedList α) : (i : Nat) → List Nat → R (LinkedList α)
  | _, [] => pure l
  | i, p :: ps => do
    let n ← l.node p
    let v ← expect n.data
    let l ← l.modify p fun n => { n with data := some (f i v) }
    writeAll f l (i + 1) ps

/-- linked_list.rs 162-173: `iter_mut` driven to its end; returns the list and the slots whose items were handed out -/
def iterMut (l : LinkedList α) (f : Nat → α → α) : R (LinkedList α × List Nat) := do
  let ps ← l.walk l.len l.front
  let l ← writeAll f l 0 ps
  pure (l, ps)

end LinkedList

/-! ## lru_cache.rs -/

/-- lru_cache.rs 6-13: `struct LruCache<K, V>`; the `HashMap` is the function it represents -/
structure LruCache (κ ν : Type) where
  table : κ → Option Nat
  list : LinkedList (κ × ν)
  capacity : Nat

namespace LruCache
variable {κ ν : Type} [DecidableEq κ]

/-- `HashMap::insert` (and writing through `get_mut`) -/
def tset (t : κ → Option Nat) (k : κ) (v : Option Nat) : κ → Option Nat := fun x => if x = k then v else t x

/-- lru_cache.rs 21-27: `new`, `capacity as u32` -/
def new (capacity : Nat) : LruCache κ ν := { table := fun _ => none, list := .new, capacity := capacity % 2 ^ 32 }

/-- lru_cache.rs 28-30: `len` -/
def len (c : LruCache κ ν) : Nat := c.list.len

/-- lru_cache.rs 34-40: `lookup` -/
def lookup (c : LruCache κ ν) (key : κ) : R (Option ν) :=
  match c.table key with
  | none => pure none
  | some p => do
    let n ← c.list.node p
    pure (n.data.map (·.2))

/-- lru_cache.rs 97-107: `raise_key`; returns the list and the new pointer -/
def raiseKey (p : Nat) (list : LinkedList (κ × ν)) (val : Option ν) : R (LinkedList (κ × ν) × Nat) := do
  let (list, item) ← list.removeAt p
  let (key, old) ← expect item
  let list ← list.pushFront (key, val.getD old)
  pure (list, list.front)

/-- lru_cache.rs 43-50: `get` -/
def get (c : LruCache κ ν) (key : κ) : R (LruCache κ ν × Option ν) :=
  match c.table key with
  | none => pure (c, none)
  | some p => do
    let (list, p) ← raiseKey p c.list none
    let n ← list.node list.front
    pure ({ c with list := list, table := tset c.table key (some p) }, n.data.map (·.2))

/-- lru_cache.rs 63-71: `get_mut`, followed by the caller writing `f v` through the reference -/
def getMut (c : LruCache κ ν) (key : κ) (f : ν → ν) : R (LruCache κ ν × Option ν) :=
  match c.table key with
  | none => pure (c, none)
  | some p => do
    let (list, p) ← raiseKey p c.list none
    let n ← list.node list.front
    let list' ← list.modify list.front fun n => { n with data := n.data.map fun (k, v) => (k, f v) }
    pure ({ c with list := list', table := tset c.table key (some p) }, n.data.map (·.2))

/-- lru_cache.rs 51-61: `remove` -/
def remove (c : LruCache κ ν) (key : κ) : R (LruCache κ ν × Option ν) :=
  match c.table key with
  | none => pure (c, none)
  | some p => do
    let (list, item) ← c.list.removeAt p
    match item with
    | none => pure ({ c with list := list }, none)
    | some (k, v) => pure ({ c with list := list, table := tset c.table k none }, some v)

/-- lru_cache.rs 73-95: `put` -/
def put (c : LruCache κ ν) (key : κ) (val : ν) : R (LruCache κ ν) :=
  match c.table key with
  | some p => do
    let (list, p) ← raiseKey p c.list (some val)
    pure { c with list := list, table := tset c.table key (some p) }
  | none => do
    let c ← if c.len ≥ c.capacity then do
        let n ← c.list.node c.list.rear
        let (k, _) ← expect n.data
        let (list, _) ← c.list.popRear
        pure { c with list := list, table := tset c.table k none }
      else pure c
    let list ← c.list.pushFront (key, val)
    pure { c with list := list, table := tset c.table key (some list.front) }

end LruCache
end Adhoc
