import Verif.Spec.Session

/-!
# A tape recorder

What a caller expects who reads and winds: a tape holds a fixed signal and a position. Reading takes whole blocks from the position on
and moves it, winding sets the position.
-/

namespace Adhoc.Spec

/-- what a caller does with a recording -/
inductive Act
  /-- `decode` into a buffer -/
  | read (buf : List F32)
  /-- `seek(SeekFrom::Start(ms))` -/
  | seek (ms : Nat)

/-- the buffers and return values of the reads on a tape with `n` channels and the blocks `sig`; `pos ms` is the block a seek goes to -/
def tape (n : Nat) (pos : Nat → Nat) (sig : List (List F32)) : Nat → List Act → List (List F32 × Option Nat)
  | _, [] => []
  | _, .seek ms :: acts => tape n pos sig (pos ms) acts
  | m, .read buf :: acts =>
    let d := min (buf.length / n) (sig.length - m)
    (((sig.drop m).take d).flatten ++ buf.drop (d * n), if d = 0 then none else some (d * n)) :: tape n pos sig (m + d) acts

end Adhoc.Spec

namespace Adhoc
open Spec

/-- the calls on the .adhoc codec: what they leave in the buffers and return -/
def winds (b : Build) : AdhocCodec → List Act → R (List (List F32 × Option Nat))
  | _, [] => pure []
  | c, .read buf :: acts => do
    let (c, out, n) ← c.decode b buf
    let outs ← winds b c acts
    pure ((out, n) :: outs)
  | c, .seek ms :: acts => do
    let c ← c.seek b (.start ms)
    winds b c acts

end Adhoc
