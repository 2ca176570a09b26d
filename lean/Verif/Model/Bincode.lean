import Verif.Model.Rust

/-!
# bincode 1.3 `serialize_into` / `deserialize_from` with default options

Fixed-width little-endian integers, u64 lengths before sequences, one tag byte before an `Option`, nothing before struct
fields and arrays. The crate is a dependency, not part of /repo; this is the trusted description of its format. Encoders give
the list of pieces passed to `write_all` one after the other, decoders take the bytes still to be read (`none` = `Err`).
-/

namespace Adhoc.Bincode

/-- a decoder -/
abbrev Dec (α : Type) := List Byte → Option (α × List Byte)

/-- `w` little-endian bytes of `n` -/
def leBytes : (w : Nat) → (n : Nat) → List Byte
  | 0, _ => []
  | w + 1, n => BitVec.ofNat 8 n :: leBytes w (n / 256)

/-- the number with these little-endian bytes -/
def leNat : List Byte → Nat
  | [] => 0
  | b :: bs => b.toNat + 256 * leNat bs

/-- write an unsigned integer of `w` bytes -/
def encU (w n : Nat) : List (List Byte) := [leBytes w n]

/-- read an unsigned integer of `w` bytes (`read_exact`) -/
def decU (w : Nat) : Dec Nat := fun bs =>
  if w ≤ bs.length then some (leNat (bs.take w), bs.drop w) else none

/-- write an i16 -/
def encI16 (x : Int) : List (List Byte) := encU 2 (asU 16 x)

/-- read an i16 -/
def decI16 : Dec Int := fun bs => do
  let (n, bs) ← decU 2 bs
  pure (asI 16 n, bs)

/-- read `n` elements -/
def decN {α} (d : Dec α) : (n : Nat) → Dec (List α)
  | 0, bs => some ([], bs)
  | n + 1, bs => do
    let (a, bs) ← d bs
    let (as, bs) ← decN d n bs
    pure (a :: as, bs)

/-- write a `Vec` -/
def encVec {α} (e : α → List (List Byte)) (l : List α) : List (List Byte) := encU 8 l.length ++ l.flatMap e

/-- read a `Vec` -/
def decVec {α} (d : Dec α) : Dec (List α) := fun bs => do
  let (n, bs) ← decU 8 bs
  decN d n bs

/-- write an `Option` -/
def encOpt {α} (e : α → List (List Byte)) : Option α → List (List Byte)
  | none => [[0#8]]
  | some a => [1#8] :: e a

/-- read an `Option` -/
def decOpt {α} (d : Dec α) : Dec (Option α) := fun bs =>
  match bs with
  | [] => none
  | t :: bs =>
    if t = 0#8 then some (none, bs)
    else if t = 1#8 then (d bs).map fun (a, bs) => (some a, bs)
    else none

end Adhoc.Bincode
