import Verif.Model.LinkedList
import Verif.Model.Bincode
import Verif.Model.Packed

/-!
# Serialisation of the linked list with bincode

collections.rs 26-29 (`Ptr`), 95-226 (`Node`), linked_list.rs 17-24 (`LinkedList`, derived, fields in order). `e` and `d` are the
serialisation of the items. Then lru_cache.rs 5-13 (`LruCache`) and queue.rs 6-13 (`FixedRingBuffer` over a `Vec`), derived as well.
-/

namespace Adhoc
open Bincode

namespace Node

/-- collections.rs 95-108: the data, then the children as a `Vec` -/
def enc {α : Type} (e : α → List (List Byte)) (n : Node α) : List (List Byte) := encOpt e n.data ++ encVec (encU 4) [n.left, n.right]

/-- collections.rs 165-187: `visit_seq`: a `Vec` of any length is copied over `[NULL; 2]` (bincode reads structs as sequences) -/
def dec {α : Type} (d : Dec α) : Dec (Node α) := fun bs => do
  let (data, bs) ← decOpt d bs
  let (children, bs) ← decVec (decU 4) bs
  pure ({ data := data, left := children.getD 0 NULL, right := children.getD 1 NULL }, bs)

end Node

namespace LinkedList

/-- linked_list.rs 17-24: derived `Serialize` -/
def enc {α : Type} (e : α → List (List Byte)) (l : LinkedList α) : List (List Byte) :=
  encVec (Node.enc e) l.memory ++ encU 4 l.front ++ encU 4 l.rear ++ encU 4 l.pool ++ encU 4 l.len

/-- linked_list.rs 17-24: derived `Deserialize` -/
def dec {α : Type} (d : Dec α) : Dec (LinkedList α) := fun bs => do
  let (memory, bs) ← decVec (Node.dec d) bs
  let (front, bs) ← decU 4 bs
  let (rear, bs) ← decU 4 bs
  let (pool, bs) ← decU 4 bs
  let (len, bs) ← decU 4 bs
  pure ({ memory := memory, front := front, rear := rear, pool := pool, len := len }, bs)

end LinkedList

namespace Bincode

/-- a pair, as a struct without names -/
def encPair {κ ν : Type} (ek : κ → List (List Byte)) (ev : ν → List (List Byte)) (x : κ × ν) : List (List Byte) := ek x.1 ++ ev x.2

/-- read a pair -/
def decPair {κ ν : Type} (dk : Dec κ) (dv : Dec ν) : Dec (κ × ν) := fun bs => do
  let (k, bs) ← dk bs
  let (v, bs) ← dv bs
  pure ((k, v), bs)

end Bincode

namespace LruCache
variable {κ ν : Type}

/-- lru_cache.rs 5-13: derived `Serialize`. A `HashMap` is written as its length and its entries in the order of its iterator, which is
unspecified and a parameter here: `entries`. -/
def enc (ek : κ → List (List Byte)) (ev : ν → List (List Byte)) (entries : List (κ × Nat)) (c : LruCache κ ν) : List (List Byte) :=
  encVec (encPair ek (encU 4)) entries ++ c.list.enc (encPair ek ev) ++ encU 4 c.capacity

/-- lru_cache.rs 5-13: derived `Deserialize`; the entries are inserted into an empty `HashMap` one after the other -/
def dec [DecidableEq κ] (dk : Dec κ) (dv : Dec ν) : Dec (LruCache κ ν) := fun bs => do
  let (entries, bs) ← decVec (decPair dk (decU 4)) bs
  let (list, bs) ← LinkedList.dec (decPair dk dv) bs
  let (capacity, bs) ← decU 4 bs
  pure ({ table := entries.foldl (fun t e => tset t e.1 (some e.2)) fun _ => none, list := list, capacity := capacity }, bs)

end LruCache

namespace FixedRingBuffer
variable {α : Type}

/-- queue.rs 6-13: derived `Serialize` -/
def enc (e : α → List (List Byte)) (q : FixedRingBuffer α) : List (List Byte) :=
  encVec e q.backing ++ encU 4 q.front ++ encU 4 q.rear ++ encU 4 q.len ++ encU 4 q.capacity

/-- queue.rs 6-13: derived `Deserialize`; nothing is checked -/
def dec (d : Dec α) : Dec (FixedRingBuffer α) := fun bs => do
  let (backing, bs) ← decVec d bs
  let (front, bs) ← decU 4 bs
  let (rear, bs) ← decU 4 bs
  let (len, bs) ← decU 4 bs
  let (capacity, bs) ← decU 4 bs
  pure ({ backing := backing, front := front, rear := rear, len := len, capacity := capacity }, bs)

end FixedRingBuffer
end Adhoc
