import Verif.Spec.Bits
import Verif.Spec.Dither
import Verif.Spec.Config

/-! # The .adhoc file of a recording, byte by byte, as a function of the calls

Nothing here refers to cursors, chunks, headers or any other part of the codec: a file is a concatenation of numbers and packed bits. -/

namespace Adhoc.Spec

/-- an unsigned number in `w` bytes, the lowest first -/
def little (w n : Nat) : List Byte := (List.range w).map fun i => BitVec.ofNat 8 (n / 256 ^ i)

/-- a signed 16-bit number -/
def littleI16 (x : Int) : List Byte := little 2 (x % 65536).toNat

/-- `m` bytes with the given bits, the lowest bit of a byte first, then zeros -/
def packed (m : Nat) (bits : List Bool) : List Byte :=
  (List.range m).map fun i => BitVec.ofNat 8 ((List.range 8).map fun j => if bits.getD (8 * i + j) false then 2 ^ j else 0).sum

/-- what one call adds to one channel: the codes it held before and the new ones -/
structure Piece where
  before : List Int
  codes : List Int

namespace Piece

/-- the first three codes of a channel are stored as they are -/
def verbatim (p : Piece) : List Int := if p.before = [] then p.codes.take 3 else []

/-- the codes stored as differences -/
def coded (p : Piece) : List Int := if p.before = [] then p.codes.drop 3 else p.codes

/-- the codes known when the first difference is taken -/
def known (p : Piece) : List Int := p.before ++ p.verbatim

/-- the bits that Rice codes with parameter `k` would take, counted in 32 bits and without the limit for the differences -/
def fee (p : Piece) (k : Nat) : Nat :=
  ((List.range p.coded.length).map fun i => (p.coded.getD i 0 - guess (p.known ++ p.coded.take i)).natAbs / 2 ^ k + k + 2).sum % 2 ^ 32

/-- the first parameter from 1 to 15 with the least positive fee, 1 if there is none -/
def parameter (p : Piece) : Nat :=
  (((List.range 15).map (· + 1)).find? fun k => decide (0 < p.fee k) && ((List.range 15).map (· + 1)).all fun j => decide (0 < p.fee j → p.fee k ≤ p.fee j)).getD 1

/-- the bits of a piece -/
def bits (p : Piece) : List Bool :=
  p.verbatim.flatMap (fun q => natBits 16 (q % 65536).toNat) ++ (residuals p.known p.coded).flatMap (riceBits p.parameter)

/-- the width of the number written last -/
def lastWidth (p : Piece) : Nat := if p.coded = [] then 16 else p.parameter

/-- the last three known codes -/
def history (p : Piece) : List Int := (List.range 3).map fun i => p.known.getD (p.known.length - 3 + i) 0

end Piece

/-- the pieces of a recording, call by call and channel by channel -/
def piecesOf (inv : F32) (n : Nat) (calls : List (List F32)) : List Piece :=
  (List.range calls.length).flatMap fun j => (List.range n).map fun ch =>
    { before := stored inv n ch 0 (calls.take j)
      codes := (stored inv n ch 0 (calls.take (j + 1))).drop (stored inv n ch 0 (calls.take j)).length }

/-- the sound: the bits of all pieces -/
def soundBits (ps : List Piece) : List Bool := ps.flatMap Piece.bits

/-- how many blocks of 16 bytes the sound takes in the file: up to one more than needed -/
def chunks (ps : List Piece) : Nat :=
  match (ps.filter fun p => !p.codes.isEmpty).getLast? with
  | none => 0
  | some p => ((soundBits ps).length - p.lastWidth) / 128 + 2

/-- the file with these pieces -/
def fileOf (info : StreamInfo) (level : Nat) (ps : List Piece) : List Byte :=
  let n := ps.length
  let sound := soundBits ps
  little 4 level
    -- the parameters, two to a byte
    ++ little 8 ((n + 1) / 2) ++ packed ((n + 1) / 2) (ps.flatMap fun p => natBits 4 p.parameter) ++ little 4 n
    -- which pieces start a channel
    ++ little 8 ((n + 63) / 64) ++ packed (8 * ((n + 63) / 64)) (ps.map fun p => p.before.isEmpty) ++ little 16 n
    -- the number of samples of each piece
    ++ little 8 n ++ ps.flatMap (fun p => little 2 p.codes.length)
    -- where its bits start
    ++ little 8 n ++ (List.range n).flatMap (fun i => little 8 (soundBits (ps.take i)).length)
    -- what to predict from
    ++ little 8 n ++ ps.flatMap (fun p => p.history.flatMap littleI16) ++ little 4 n
    -- the stream info
    ++ [1#8] ++ little 4 info.sampleRate ++ little 4 info.channels
    -- the sound
    ++ little 8 (chunks ps) ++ packed (16 * chunks ps) sound ++ little 16 sound.length ++ little 16 sound.length

/-- the file of a recording -/
def adhocFile (info : StreamInfo) (level : Nat) (calls : List (List F32)) : List Byte :=
  fileOf info (min level 10) (piecesOf (loss level) info.channels calls)

end Adhoc.Spec
