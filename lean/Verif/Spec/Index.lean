import Verif.Spec.Clip
import Verif.Spec.Tape

/-! # The tables of a file that are for seeking

`Verif/Spec/Player.lean` passes over three of the tables: which pieces are the first of their channel, where the pieces start in the sound, and
the three codes before each piece. A player that plays from the start does not need them. -/

namespace Adhoc.Spec

/-- the signed number with these two bytes -/
def signedNumber (bs : List Byte) : Int := if numberOf bs < 32768 then numberOf bs else (numberOf bs : Int) - 65536

/-- what a file says to those who seek -/
structure Index where
  firsts : List Bool
  positions : List Nat
  histories : List (List Int)

/-- taking the tables out of a file -/
def index (file : List Byte) : Index :=
  let parameters := table 1 (file.drop 4)
  let starts := table 8 (parameters.2.drop 4)
  let sizes := table 2 (starts.2.drop 16)
  let positions := table 8 sizes.2
  let histories := table 6 positions.2
  { firsts := bitsIn starts.1
    positions := (groups 8 (numberOf (sizes.2.take 8)) positions.1).map numberOf
    histories := (groups 6 (numberOf (positions.2.take 8)) histories.1).map fun g => (groups 2 3 g).map signedNumber }

/-- the number of samples of a channel in some rows -/
def samplesIn (rows : List (Nat → Clip)) : Nat := (rows.map fun r => (r 0).size).sum

/-- the tables fit the rows. For every row: it is marked as a first one exactly if it is the first; the position of its first piece is the number of
bits before it; and, but for the first row, the history of each of its pieces is made of the last three codes before it in its channel. The
positions of the other pieces of a row and the histories of the first row can be anything. -/
structure Indexed (file : List Byte) (rows : List (Nat → Clip)) : Prop where
  first : ∀ j < rows.length, ∀ ch < (contents file).info.channels,
    (index file).firsts.getD (j * (contents file).info.channels + ch) false = decide (j = 0)
  position : ∀ j < rows.length, (index file).positions[j * (contents file).info.channels]? =
    some ((inOrder (contents file).info.channels (rows.take j)).flatMap Clip.bits).length
  history : ∀ j < rows.length, 0 < j → ∀ ch < (contents file).info.channels,
    (index file).histories[j * (contents file).info.channels + ch]? =
      some ((((channelsIn (contents file)).getD ch []).take (samplesIn (rows.take j))).drop (samplesIn (rows.take j) - 3))

/-- a call with the contents of its buffer multiplied -/
def Act.times (x : F32) : Act → Act
  | .read buf => .read (buf.map (· * x))
  | .seek ms => .seek ms

end Adhoc.Spec
