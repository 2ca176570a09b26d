import Verif.Model.Rust
import Verif.Model.F32
import Verif.Model.Packed

/-!
# src/codec.rs (sample conversion), src/math/parabola.rs, src/math/noise.rs
-/

namespace Adhoc

/-! ## codec.rs -/

/-- codec.rs 15: `NORMALIZE_FACTOR = 1.0 / i16::MAX as f32` -/
def NORMALIZE_FACTOR : F32 := F32.ofInt 1 / F32.ofInt 32767

/-- codec.rs 17-23: `normalize_sample` -/
def normalizeSample (samp : Int) : F32 := F32.ofInt samp * NORMALIZE_FACTOR

/-- codec.rs 25-27: `truncate_sample` -/
def truncateSample (samp : F32) : Int :=
  (samp.clamp (F32.ofInt (-1)) (F32.ofInt 1) * F32.ofInt 32767).toIntSat (-32768) 32767

/-- codec.rs 33-59: `struct StreamInfo` (u32 fields) -/
structure StreamInfo where
  sampleRate : Nat
  channels : Nat
  deriving DecidableEq, Repr

/-! ## parabola.rs -/

/-- parabola.rs 6-10: `struct FixedParabola` (`f` and `coefs` arrays spelled out) -/
structure FixedParabola where
  f0 : F32
  f1 : F32
  f2 : F32
  c0 : F32
  c1 : F32
  c2 : F32

namespace FixedParabola

/-- parabola.rs 19-24: `from_samples` -/
def fromSamples (f0 f1 f2 : F32) : FixedParabola :=
  { f0 := f0, f1 := f1, f2 := f2, c0 := F32.ofInt 0, c1 := F32.ofInt 0, c2 := F32.ofInt 0 }

/-- parabola.rs 26-34: `compute_coefs`; `0.5` is `1/2` -/
def computeCoefs (p : FixedParabola) : FixedParabola :=
  let d := p.f1 - p.f0
  let e := p.f2 - p.f0
  let half := F32.ofRat (1 / 2)
  { p with
    c0 := p.f0
    c1 := (F32.ofInt 4 * d - e) * half
    c2 := (e - F32.ofInt 2 * d) * half }

/-- parabola.rs 36-39: `eval` -/
def eval (p : FixedParabola) (x : F32) : F32 := p.c0 + (p.c1 + p.c2 * x) * x

end FixedParabola

/-- frame.rs 235-241 (also 272-278, 321-327, 348-354, 382-388): the predicted next sample from the last three,
`h3` the oldest -/
def predict (h3 h2 h1 : Int) : Int :=
  let p := FixedParabola.fromSamples (normalizeSample h3) (normalizeSample h2) (normalizeSample h1)
  truncateSample (p.computeCoefs.eval (F32.ofInt 3))

/-! ## noise.rs -/

/-- noise.rs 4-6: `struct PseudoRandom` -/
structure PseudoRandom where
  sequence : Nat
  deriving DecidableEq, Repr

namespace PseudoRandom

/-- noise.rs 8-10: `new` -/
def new (seed : Nat) : PseudoRandom := { sequence := seed }

/-- noise.rs 30-42: `rand`, u64 arithmetic -/
def rand (b : Build) (s : PseudoRandom) : R (PseudoRandom × Nat) := do
  let p ← chkU b 64 (1000003 * s.sequence)
  let q ← chkU b 64 (p + 314159)
  let v := q % 507961
  pure ({ sequence := v }, v)

/-- noise.rs 14-16: one item of `uniform` -/
def uniform (b : Build) (s : PseudoRandom) : R (PseudoRandom × F32) := do
  let (s, r) ← s.rand b
  pure (s, (F32.ofInt (r &&& 1023 : Nat) / F32.ofInt 1024) * F32.ofInt 2 - F32.ofInt 1)

/-- noise.rs 19-28: one item of `triangle` -/
def triangle (b : Build) (s : PseudoRandom) : R (PseudoRandom × F32) := do
  let (s, r1) ← s.rand b
  let a := (F32.ofInt (r1 &&& 16383 : Nat) / F32.ofInt 16384) * F32.ofInt (-1)
  let (s, r2) ← s.rand b
  let c := (F32.ofInt (r2 &&& 16383 : Nat) / F32.ofInt 16384) * F32.ofInt 1
  pure (s, a + c)

end PseudoRandom
end Adhoc
