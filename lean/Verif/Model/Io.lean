import Verif.Model.Rust

/-!
# std::io::Write as the crate uses it

A writer is scripted: the list says how it answers each successive `write` call. Every finite run of a real writer is one
such script; once the script is used up the writer accepts everything. Readers are byte lists (the crate always reads to the
end of the data or fails on it). This file models no line of /repo.
-/

namespace Adhoc

/-- answer of one `Write::write` call -/
inductive WriteResp
  /-- accept at most this many bytes -/
  | accept (n : Nat)
  /-- `ErrorKind::Interrupted` -/
  | interrupted
  /-- any other error -/
  | fail
  deriving DecidableEq, Repr

/-- a writer: bytes it has accepted so far, and its future answers -/
structure Writer where
  out : List Byte
  script : List WriteResp
  deriving DecidableEq, Repr

namespace Writer

/-- the writer that accepts everything -/
def perfect : Writer := { out := [], script := [] }

/-- one `Write::write` call; `none` is `Err`, `some n` is `Ok(n)` -/
def write (w : Writer) (buf : List Byte) : Writer × Option Nat :=
  match w.script with
  | [] => ({ w with out := w.out ++ buf }, some buf.length)
  | .accept n :: rest => ({ out := w.out ++ buf.take n, script := rest }, some (min n buf.length))
  | .interrupted :: rest => ({ w with script := rest }, none)
  | .fail :: rest => ({ w with script := rest }, none)

/-- `Write::write_all`: retries short and interrupted writes, fails on `Ok(0)` and on other errors.
The script is passed separately to make the recursion structural. -/
def writeAllAux : (script : List WriteResp) → (out buf : List Byte) → Writer × Bool
  | script, out, [] => ({ out := out, script := script }, true)
  | [], out, buf => ({ out := out ++ buf, script := [] }, true)
  | .accept 0 :: rest, out, _ :: _ => ({ out := out, script := rest }, false)
  | .accept (n + 1) :: rest, out, buf => writeAllAux rest (out ++ buf.take (n + 1)) (buf.drop (n + 1))
  | .interrupted :: rest, out, buf => writeAllAux rest out buf
  | .fail :: rest, out, _ => ({ out := out, script := rest }, false)

/-- `Write::write_all` -/
def writeAll (w : Writer) (buf : List Byte) : Writer × Bool := writeAllAux w.script w.out buf

/-- successive `write_all` calls, stopping at the first error -/
def writePieces : Writer → List (List Byte) → Writer × Bool
  | w, [] => (w, true)
  | w, p :: ps =>
    match w.writeAll p with
    | (w, true) => writePieces w ps
    | (w, false) => (w, false)

end Writer
end Adhoc
