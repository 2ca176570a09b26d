import Verif.Model.Usize
import Verif.Spec.Tape
import Verif.Spec.Session

/-! # Sequences of calls on a target whose `usize` has `w` bits -/

namespace Adhoc.Spec

/-- a call -/
inductive Ask
  | encode (pcm : List F32)
  | decode (buf : List F32)
  | seek (dt : SeekFrom)

/-- what a call returns -/
inductive Answer
  | encoded (n : Option Nat)
  | decoded (buf : List F32) (n : Option Nat)
  | sought

/-- the codec and the answer after each of the calls -/
def asked (b : Build) : AdhocCodec → List Ask → R (List (AdhocCodec × Answer))
  | _, [] => pure []
  | c, .encode pcm :: asks => do
    let (c, n) ← c.encode b pcm
    let rest ← asked b c asks
    pure ((c, .encoded n) :: rest)
  | c, .decode buf :: asks => do
    let (c, out, n) ← c.decode b buf
    let rest ← asked b c asks
    pure ((c, .decoded out n) :: rest)
  | c, .seek dt :: asks => do
    let c ← c.seek b dt
    let rest ← asked b c asks
    pure ((c, .sought) :: rest)

/-- the same with `w` bits -/
def askedW (b : Build) (w : Nat) : AdhocCodec → List Ask → R (List (AdhocCodec × Answer))
  | _, [] => pure []
  | c, .encode pcm :: asks => do
    let (c, n) ← c.encodeW b w pcm
    let rest ← askedW b w c asks
    pure ((c, .encoded n) :: rest)
  | c, .decode buf :: asks => do
    let (c, out, n) ← c.decodeW b w buf
    let rest ← askedW b w c asks
    pure ((c, .decoded out n) :: rest)
  | c, .seek dt :: asks => do
    let c ← c.seekW b w dt
    let rest ← askedW b w c asks
    pure ((c, .sought) :: rest)

end Adhoc.Spec

namespace Adhoc
open Spec

/-- recording with `w` bits -/
def encodeAllW (b : Build) (w : Nat) (c : AdhocCodec) (calls : List (List F32)) : R AdhocCodec :=
  calls.foldlM (fun c pcm => do let (c, _) ← c.encodeW b w pcm; pure c) c

/-- reads and seeks with `w` bits -/
def windsW (b : Build) (w : Nat) : AdhocCodec → List Act → R (List (List F32 × Option Nat))
  | _, [] => pure []
  | c, .read buf :: acts => do
    let (c, out, n) ← c.decodeW b w buf
    let outs ← windsW b w c acts
    pure ((out, n) :: outs)
  | c, .seek ms :: acts => do
    let c ← c.seekW b w (.start ms)
    windsW b w c acts

end Adhoc
