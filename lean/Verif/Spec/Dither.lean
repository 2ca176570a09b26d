import Verif.Spec.Codec

/-! The codes an encoder stores, noise included, as a function of the calls alone. -/

namespace Adhoc.Spec

/-- the random numbers, the seed first -/
def draw : Nat → Nat
  | 0 => 314
  | k + 1 => (1000003 * draw k + 314159) % 507961

/-- the noise of the `k`th sample that is encoded: the difference of two random numbers in [0, 1), in steps of 1/16384 -/
def noise (k : Nat) : F32 := F32.ofRat ((((draw (2 * k + 2) % 16384 : Nat) : ℚ) - (draw (2 * k + 1) % 16384 : Nat)) / 16384)

/-- the samples with noise added, then scaled down by `inv` -/
def ditherAt (inv : F32) (k : Nat) (xs : List F32) : List F32 :=
  xs.mapIdx fun i x => (x + noise (k + i) * F32.ofRat (1 / 1000) * (F32.ofInt 1 - inv)) * inv

/-- the codes of channel `ch` that the calls store when `k` samples have been encoded before: within a call the noise is used up channel
by channel -/
def stored (inv : F32) (n ch : Nat) : Nat → List (List F32) → List Int
  | _, [] => []
  | k, pcm :: rest => (ditherAt inv (k + ch * (pcm.length / n)) (column n ch pcm)).map truncateSample ++
      stored inv n ch (k + n * (pcm.length / n)) rest

end Adhoc.Spec
