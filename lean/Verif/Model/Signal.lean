import Verif.Model.Rust
import Verif.Model.F32

/-!
# src/math/signal.rs

`gaussian_filter` (3-13) uses `exp`/`powf`/`sqrt` and is modelled in `Tools.lean`, with these as parameters.
-/

namespace Adhoc.Signal

/-- signal.rs 20-24: the inner loop of `convolve_1d`, `j = kernelLen - n, ..` -/
def convInner (samples kernel : List F32) (i : Nat) : (js : List Nat) → (sum : F32) → R F32
  | [], sum => pure sum
  | j :: js, sum => do
    let ix : Int := (j : Int) + i - ((kernel.length / 2 : Nat) : Int)
    let s ← if ix < 0 ∨ ix ≥ samples.length then pure (F32.ofInt 0) else idx samples ix.toNat
    let k ← idx kernel j
    convInner samples kernel i js (sum + s * k)

/-- signal.rs 15-27: `convolve_1d` -/
def convolve1d (samples kernel result : List F32) : R (List F32) :=
  (List.range samples.length).foldlM (fun result i => do
    let sum ← convInner samples kernel i (List.range kernel.length) (F32.ofInt 0)
    setIdx result i sum) result

/-- signal.rs 36: all ones when out of bounds, else zero: `((oob << 31) as i32 >> 31) as u32` -/
def oobMask (oob : Bool) : BitVec 32 := ((if oob then 1#32 else 0#32) <<< 31).sshiftRight 31

/-- signal.rs 38-39 on bit patterns: `(mask & 0.0.to_bits()) | (!mask & sample.to_bits())` -/
def maskedBits (mask sampleBits : BitVec 32) : BitVec 32 := (mask &&& 0#32) ||| (~~~mask &&& sampleBits)

/-- signal.rs 34-42: the inner loop of `convolve_1d_branchless`. `toBits` is `f32::to_bits`, a parameter because the model has one NaN and
one zero: any function that `f32::from_bits` undoes. -/
def convInnerBranchless (toBits : F32 → BitVec 32) (samples kernel : List F32) (i : Nat) :
    (js : List Nat) → (sum : F32) → R F32
  | [], sum => pure sum
  | j :: js, sum => do
    let ix : Int := (j : Int) + ((i : Int) - ((kernel.length >>> 1 : Nat) : Int))
    let mask := oobMask (decide (ix < 0 ∨ ix ≥ samples.length))
    let ci ← clampI ix 0 ((samples.length : Int) - 1)
    let sample ← idx samples ci.toNat
    let k ← idx kernel j
    convInnerBranchless toBits samples kernel i js (sum + F32.fromBits (maskedBits mask (toBits sample)) * k)

/-- signal.rs 29-45: `convolve_1d_branchless` -/
def convolve1dBranchless (toBits : F32 → BitVec 32) (samples kernel result : List F32) : R (List F32) :=
  (List.range samples.length).foldlM (fun result i => do
    let sum ← convInnerBranchless toBits samples kernel i (List.range kernel.length) (F32.ofInt 0)
    setIdx result i sum) result

/-- `f32::floor` (exact) -/
def floor : F32 → F32
  | .fin q _ => F32.ofRat (q.floor : ℤ)
  | x => x

/-- `f32::trunc` (exact) -/
def trunc : F32 → F32
  | .fin q _ => F32.ofRat (F32.truncQ q : ℤ)
  | x => x

/-- `f32::fract`: `x - x.trunc()` -/
def fract (x : F32) : F32 := x - trunc x

/-- signal.rs 51-55: one output sample -/
def scaleAt (b : Build) (input : List F32) (scaleFactor : F32) (k : Nat) : R F32 := do
  let last ← chkU b 64 ((input.length : Int) - 1)
  let kf := F32.ofInt k * scaleFactor
  let w0 := min ((floor kf).toIntSat 0 (2 ^ 64 - 1)).toNat last
  let w1 := min (w0 + 1) last
  let t := fract kf
  let a ← idx input w0
  let c ← idx input w1
  pure (a * (F32.ofInt 1 - t) + c * t)

/-- signal.rs 47-58: `scale_signal`; the result is the whole output buffer, of which the first `dstLen` entries are returned -/
def scaleSignal (b : Build) (input : List F32) (dstLen : Nat) (output : List F32) : R (List F32) := do
  let s ← chkU b 64 ((input.length : Int) - 1)
  let d ← chkU b 64 ((dstLen : Int) - 1)
  let scaleFactor := F32.ofInt s / F32.ofInt d
  let output ← (List.range dstLen).foldlM (fun output k => do
    let y ← scaleAt b input scaleFactor k
    setIdx output k y) output
  -- 57: `&mut output[0..dst_len]`
  if dstLen ≤ output.length then pure output else .error .index

end Adhoc.Signal
