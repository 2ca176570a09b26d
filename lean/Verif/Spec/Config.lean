import Verif.Spec.Session
import Verif.Spec.Dither

/-! # Setting the stream info and the compression level, also during a recording -/

namespace Adhoc

/-- what a caller does before and during a recording -/
inductive Setting where
  /-- `set_info` or `with_info` -/
  | info (i : StreamInfo)
  /-- `with_compression_level` -/
  | level (l : Nat)
  /-- `encode` -/
  | call (pcm : List F32)

/-- one of these calls -/
def AdhocCodec.setting (b : Build) (c : AdhocCodec) : Setting → R AdhocCodec
  | .info i => pure (c.setInfo i)
  | .level l => pure (c.withCompressionLevel l)
  | .call pcm => do
    let (c, _) ← c.encode b pcm
    pure c

/-- successive calls -/
def settings (b : Build) (c : AdhocCodec) (l : List Setting) : R AdhocCodec := l.foldlM (fun c s => c.setting b s) c

namespace Spec

/-- the info that is set last -/
def lastInfo : Option StreamInfo → List Setting → Option StreamInfo
  | i, [] => i
  | _, .info i :: l => lastInfo (some i) l
  | i, _ :: l => lastInfo i l

/-- the level that is set last -/
def lastLevel : Nat → List Setting → Nat
  | k, [] => k
  | _, .level k :: l => lastLevel k l
  | k, _ :: l => lastLevel k l

/-- the encode calls with the level in force -/
def callsAt : Nat → List Setting → List (Nat × List F32)
  | _, [] => []
  | k, .call pcm :: l => (k, pcm) :: callsAt k l
  | _, .level k :: l => callsAt k l
  | k, .info _ :: l => callsAt k l

/-- levels above 10 count as 10; playing multiplies by 2 to the level -/
def gain (level : Nat) : F32 := F32.ofRat (2 ^ min level 10)

/-- recording divides by 2 to the level -/
def loss (level : Nat) : F32 := F32.ofRat (1 / 2 ^ min level 10)

/-- the codes of channel `ch` that calls with levels store when `k` samples have been encoded before -/
def storedAt (n ch : Nat) : Nat → List (Nat × List F32) → List Int
  | _, [] => []
  | k, (level, pcm) :: rest => (ditherAt (loss level) (k + ch * (pcm.length / n)) (column n ch pcm)).map truncateSample ++
      storedAt n ch (k + n * (pcm.length / n)) rest

end Spec

end Adhoc
