import Verif.Spec.Player

/-! # Files of any encoder

What the format leaves to an encoder: how many samples a piece has, its Rice parameter, and the values of the Rice codes. -/

namespace Adhoc.Spec

/-- a piece of a channel as it is stored: the Rice parameter, the codes stored as they are (three in the first piece of a channel, none later) and
the values of the Rice codes -/
structure Clip where
  parameter : Nat
  first : List Int
  steps : List Int

namespace Clip

/-- the number of samples -/
def size (f : Clip) : Nat := f.first.length + f.steps.length

/-- the bits in the sound -/
def bits (f : Clip) : List Bool := f.first.flatMap (fun q => natBits 16 (q % 65536).toNat) ++ f.steps.flatMap (riceBits f.parameter)

end Clip

/-- all pieces of a file in their order: rows of one piece per channel -/
def inOrder (n : Nat) (rows : List (Nat → Clip)) : List Clip := rows.flatMap fun r => (List.range n).map r

/-- what the format asks of the rows -/
structure Laid (n : Nat) (rows : List (Nat → Clip)) : Prop where
  parameter : ∀ r ∈ rows, ∀ ch < n, (r ch).parameter ≤ 15
  start : ∀ j (h : j < rows.length), ∀ ch < n, (rows[j] ch).first.length = if j = 0 then 3 else 0
  first : ∀ r ∈ rows, ∀ ch < n, ∀ q ∈ (r ch).first, -32767 ≤ q ∧ q ≤ 32767
  steps : ∀ r ∈ rows, ∀ ch < n, ∀ q ∈ (r ch).steps, -32767 ≤ q ∧ q ≤ 32767
  size : ∀ r ∈ rows, ∀ ch < n, (r ch).size = (r 0).size
  short : ∀ r ∈ rows, (r 0).size < 65536

/-- the numbers of entries in the tables of sizes, positions and histories -/
def counts (file : List Byte) : List Nat :=
  let parameters := table 1 (file.drop 4)
  let starts := table 8 (parameters.2.drop 4)
  let sizes := starts.2.drop 16
  let positions := (table 2 sizes).2
  let histories := (table 8 positions).2
  [numberOf (sizes.take 8), numberOf (positions.take 8), numberOf (histories.take 8)]

/-- a file stores these rows: parameters and sizes are theirs, the sound starts with theirs, and no table is too short. Positions, histories, flags
and whatever the file says of the encoder's state can be anything. -/
structure Stores (file : List Byte) (rows : List (Nat → Clip)) : Prop where
  laid : Laid (contents file).info.channels rows
  parameters : (contents file).parameters = (inOrder (contents file).info.channels rows).map Clip.parameter
  sizes : (contents file).sizes = (inOrder (contents file).info.channels rows).map Clip.size
  sound : (inOrder (contents file).info.channels rows).flatMap Clip.bits <+: (contents file).sound
  tables : ∀ m ∈ counts file, rows.length * (contents file).info.channels ≤ m

end Adhoc.Spec
