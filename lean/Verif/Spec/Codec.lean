import Verif.Model.Sample

/-!
# Independent specification of the lossy channel

A channel is a list of 16-bit codes. The encoder writes the first three codes verbatim and then, for every code, its difference to
the quadratic prediction from the codes before it, limited to [-32767, 32766]. The decoder adds the difference to the prediction
from what it has decoded itself.
-/

namespace Adhoc.Spec

/-- the prediction from the last three codes -/
def guess (P : List Int) : Int :=
  predict (P.getD (P.length - 3) 0) (P.getD (P.length - 2) 0) (P.getD (P.length - 1) 0)

/-- the differences written for `qs` when `P` came before -/
def residuals : List Int → List Int → List Int
  | _, [] => []
  | P, q :: qs => max (-32767) (min 32766 (q - guess P)) :: residuals (P ++ [q]) qs

/-- the codes a decoder that has decoded `P` makes from differences -/
def rebuild : List Int → List Int → List Int
  | _, [] => []
  | P, r :: rs =>
    let d := max (-32768) (min 32767 (r + guess P))
    d :: rebuild (P ++ [d]) rs

/-- what is decoded when `Q` was encoded -/
def decoded (Q : List Int) : List Int := Q.take 3 ++ rebuild (Q.take 3) (residuals (Q.take 3) (Q.drop 3))

/-- every difference to the prediction fits into the limits -/
def InSync (Q : List Int) : Prop :=
  ∀ n, 3 ≤ n → n < Q.length → -32767 ≤ Q.getD n 0 - guess (Q.take n) ∧ Q.getD n 0 - guess (Q.take n) ≤ 32766

/-- every difference to the prediction is less than 49152 -/
def Quiet (Q : List Int) : Prop := ∀ n, 3 ≤ n → n < Q.length → (Q.getD n 0 - guess (Q.take n)).natAbs < 49152

/-- the sample a decoder returns for a code -/
def out (d : Int) : F32 := (normalizeSample d).clamp (F32.ofInt (-1)) (F32.ofInt 1)

/-! ## interleaving -/

/-- channel `ch` of an interleaved signal -/
def column (c ch : Nat) (xs : List F32) : List F32 := (List.range (xs.length / c)).map fun k => xs.getD (k * c + ch) (F32.ofInt 0)

/-- blocks `m .. m + n - 1` of the interleaved signal with the given channels -/
def rows (cols : List (List F32)) (m n : Nat) : List F32 :=
  (List.range n).flatMap fun k => cols.map fun l => l.getD (m + k) (F32.ofInt 0)

/-- the whole blocks of an interleaved signal of `n` channels -/
def blocksOf (n : Nat) (xs : List F32) : List (List F32) := (List.range (xs.length / n)).map fun k => (xs.drop (k * n)).take n

/-- the whole blocks of the signal passed to a sequence of calls -/
def signal (n : Nat) (calls : List (List F32)) : List (List F32) := calls.flatMap (blocksOf n)

/-- channel `ch` of a signal -/
def chan (ch : Nat) (sig : List (List F32)) : List F32 := sig.map fun blk => blk.getD ch (F32.ofInt 0)

/-- the 16-bit codes of channel `ch` -/
def codes (ch : Nat) (sig : List (List F32)) : List Int := sig.map fun blk => truncateSample (blk.getD ch (F32.ofInt 0))

/-- the signal whose channel `ch` holds the codes `Q ch` after a trip through the codec -/
def played (n len : Nat) (Q : Nat → List Int) : List (List F32) :=
  (List.range len).map fun k => (List.range n).map fun ch => out ((decoded (Q ch)).getD k 0)

/-- Reading a signal of `n` channels with a sequence of buffers: every call takes as many whole blocks as fit and are left,
puts them at the front of the buffer and reports how many samples that is, or nothing if it is none. -/
def readBlocks (n : Nat) : List (List F32) → List (List F32) → List (List F32 × Option Nat)
  | _, [] => []
  | sig, buf :: bufs =>
    let d := min (buf.length / n) sig.length
    ((sig.take d).flatten ++ buf.drop (d * n), if d = 0 then none else some (d * n)) :: readBlocks n (sig.drop d) bufs

/-- the decoder's patience suffices: among the sizes of the encode calls there are never 9 zeros in a row before a non-zero one -/
def NoGap (sizes : List Nat) : Prop := ∀ j, (∃ t, t ≤ 8 ∧ 0 < sizes.getD (j + t) 0) ∨ ∀ t, sizes.getD (j + t) 0 = 0

end Adhoc.Spec
