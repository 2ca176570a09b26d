import Verif.Model.Adhoc

/-! # How a caller uses the codec: sequences of calls -/

namespace Adhoc

/-- `AdhocCodec::new().with_info(info).with_compression_level(level)` -/
def fresh (info : StreamInfo) (level : Nat) : AdhocCodec := (AdhocCodec.new.setInfo info).withCompressionLevel level

/-- successive decode calls: what they leave in the buffers and what they return -/
def decodeAll (b : Build) : AdhocCodec → List (List F32) → R (AdhocCodec × List (List F32 × Option Nat))
  | c, [] => pure (c, [])
  | c, buf :: bufs => do
    let (c, out, n) ← c.decode b buf
    let (c, outs) ← decodeAll b c bufs
    pure (c, (out, n) :: outs)

/-- successive encode calls, dropping what they return -/
def encodeAll (b : Build) (c : AdhocCodec) (calls : List (List F32)) : R AdhocCodec :=
  calls.foldlM (fun c pcm => do let (c, _) ← c.encode b pcm; pure c) c

/-- record, rewind, play: what the decode calls leave in the buffers and return -/
def session (b : Build) (info : StreamInfo) (level : Nat) (calls bufs : List (List F32)) : R (List (List F32 × Option Nat)) := do
  let c ← encodeAll b (fresh info level) calls
  let (_, outs) ← decodeAll b c.init bufs
  pure outs

end Adhoc
