import Verif.Model.Wav

/-!
# A tape of 16-bit samples

The independent specification of `WavCodec`: cells and a position. Writing overwrites from the position on and extends the tape at its end.
-/

namespace Adhoc.Spec

/-- the tape -/
structure Reel where
  cells : List Int
  pos : Nat

namespace Reel

/-- write samples at the position -/
def put (t : Reel) (xs : List Int) : Reel := ⟨t.cells.take t.pos ++ xs ++ t.cells.drop (t.pos + xs.length), t.pos + xs.length⟩

/-- the samples that up to `k` reads give -/
def next (t : Reel) (k : Nat) : List Int := (t.cells.drop t.pos).take k

end Reel

/-- what a caller does with a WAV codec -/
inductive WavOp
  | encode (samples : List F32)
  | decode (buf : List F32)

/-- the length of the whole blocks of `n` samples in a buffer of length `len` -/
def whole (n len : Nat) : Nat := len / n * n

/-- operations on a tape with `n` channels: the tape afterwards, and for every operation the buffer afterwards and the returned count -/
def reelRun (n : Nat) : Reel → List WavOp → Reel × List (List F32 × Option Nat)
  | t, [] => (t, [])
  | t, .encode xs :: ops =>
    let (t', outs) := reelRun n (t.put ((xs.take (whole n xs.length)).map truncateSample)) ops
    (t', (xs, some (whole n xs.length)) :: outs)
  | t, .decode buf :: ops =>
    let ys := t.next (whole n buf.length)
    let (t', outs) := reelRun n ⟨t.cells, t.pos + ys.length⟩ ops
    (t', (ys.map normalizeSample ++ buf.drop ys.length, if ys = [] then none else some ys.length) :: outs)

/-- the bytes of a sample, low byte first -/
def le16 (x : Int) : List Byte := [BitVec.ofInt 8 x, BitVec.ofInt 8 (x / 256)]

end Adhoc.Spec

namespace Adhoc
open Spec

/-- the operations on the WAV codec -/
def wavRun : WavCodec → List WavOp → R (WavCodec × List (List F32 × Option Nat))
  | w, [] => pure (w, [])
  | w, .encode xs :: ops => do
    let (w, n) ← w.encode xs
    let (w, outs) ← wavRun w ops
    pure (w, (xs, n) :: outs)
  | w, .decode buf :: ops => do
    let (w, out, n) ← w.decode buf
    let (w, outs) ← wavRun w ops
    pure (w, (out, n) :: outs)

/-- the codec `w` is the tape `t` -/
structure IsReel (w : WavCodec) (t : Reel) : Prop where
  bytes : w.pcm = t.cells.flatMap le16
  range : ∀ x ∈ t.cells, -32768 ≤ x ∧ x ≤ 32767
  pos : w.shortCursor = t.pos
  le : t.pos ≤ t.cells.length

end Adhoc
