/-!
# Independent specification of the bit stream: lists of bits
-/

namespace Adhoc.Spec

/-- the `w` low bits of `n`, least significant first -/
def natBits (w n : Nat) : List Bool := (List.range w).map fun j => n.testBit j

/-- the Rice code of `v` with parameter `k`: sign, unary quotient, terminator, `k` remainder bits -/
def riceBits (k : Nat) (v : Int) : List Bool :=
  decide (v < 0) :: (List.replicate (v.natAbs / 2 ^ k) true ++ false :: natBits k v.natAbs)

end Adhoc.Spec
