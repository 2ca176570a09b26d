import Verif.Model.LinkedList

/-!
# The linked list with its length as `u32`

`Model/LinkedList.lean` takes `len : u32` (linked_list.rs 23) for an unbounded number. Here `self.len += 1` is that of 32 bits: it panics in a build with overflow checks
and wraps in one without. The pointers are of 32 bits in both (`ptrOf`).
-/

namespace Adhoc.LinkedList
variable {α : Type}

/-- linked_list.rs 97-128: `insert_at` -/
def insertAt32 (b : Build) (l : LinkedList α) (node : Nat) (d : Dir) (data : α) : R (LinkedList α) :=
  if l.len = 0 then do
    let (l, p) ← l.allocate data
    let l ← l.modify p fun n => { n with left := p, right := p }
    let len ← chkU b 32 ((l.len + 1 : Nat) : Int)
    pure { l with front := p, rear := p, len := len }
  else if node = NULL then pure l
  else do
    let (l, p) ← l.allocate data
    let n ← l.node node
    let adj := n.child d
    let l ← l.modify node fun n => n.setChild d p
    let l ← l.modify adj fun n => n.setChild d.flip p
    let l ← l.modify p fun n => n.setChild d.flip node
    let l ← l.modify p fun n => n.setChild d adj
    let l := if node = l.front ∧ d = .left then { l with front := p } else l
    let l := if node = l.rear ∧ d = .right then { l with rear := p } else l
    let len ← chkU b 32 ((l.len + 1 : Nat) : Int)
    pure { l with len := len }

/-- linked_list.rs 48-50: `push_front` -/
def pushFront32 (b : Build) (l : LinkedList α) (a : α) : R (LinkedList α) := l.insertAt32 b l.front .left a

/-- linked_list.rs 51-53: `push_rear` -/
def pushRear32 (b : Build) (l : LinkedList α) (a : α) : R (LinkedList α) := l.insertAt32 b l.rear .right a

end Adhoc.LinkedList

/-! ## the cache on this list -/

namespace Adhoc.LruCache
variable {κ ν : Type} [DecidableEq κ]

/-- lru_cache.rs 97-107: `raise_key`; returns the list and the new pointer -/
def raiseKey32 (b : Build) (p : Nat) (list : LinkedList (κ × ν)) (val : Option ν) : R (LinkedList (κ × ν) × Nat) := do
  let (list, item) ← list.removeAt p
  let (key, old) ← expect item
  let list ← list.pushFront32 b (key, val.getD old)
  pure (list, list.front)

/-- lru_cache.rs 43-50: `get` -/
def get32 (b : Build) (c : LruCache κ ν) (key : κ) : R (LruCache κ ν × Option ν) :=
  match c.table key with
  | none => pure (c, none)
  | some p => do
    let (list, p) ← raiseKey32 b p c.list none
    let n ← list.node list.front
    pure ({ c with list := list, table := tset c.table key (some p) }, n.data.map (·.2))

/-- lru_cache.rs 63-71: `get_mut`, followed by the caller writing `f v` through the reference -/
def getMut32 (b : Build) (c : LruCache κ ν) (key : κ) (f : ν → ν) : R (LruCache κ ν × Option ν) :=
  match c.table key with
  | none => pure (c, none)
  | some p => do
    let (list, p) ← raiseKey32 b p c.list none
    let n ← list.node list.front
    let list' ← list.modify list.front fun n => { n with data := n.data.map fun (k, v) => (k, f v) }
    pure ({ c with list := list', table := tset c.table key (some p) }, n.data.map (·.2))

/-- lru_cache.rs 73-95: `put` -/
def put32 (b : Build) (c : LruCache κ ν) (key : κ) (val : ν) : R (LruCache κ ν) :=
  match c.table key with
  | some p => do
    let (list, p) ← raiseKey32 b p c.list (some val)
    pure { c with list := list, table := tset c.table key (some p) }
  | none => do
    let c ← if c.len ≥ c.capacity then do
        let n ← c.list.node c.list.rear
        let (k, _) ← expect n.data
        let (list, _) ← c.list.popRear
        pure { c with list := list, table := tset c.table k none }
      else pure c
    let list ← c.list.pushFront32 b (key, val)
    pure { c with list := list, table := tset c.table key (some list.front) }

end Adhoc.LruCache
