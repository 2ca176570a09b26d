import Verif.Spec.Format

/-! # A player for .adhoc files, written from the description of the format

It knows nothing of the codec: no cursors, chunks, states, attempts or buffers. It takes the tables out of the file, then the Rice codes out of
the sound, one piece after the other, channel by channel, and adds them to the predictions. -/

namespace Adhoc.Spec

/-- the number with these bytes, the lowest first -/
def numberOf (bs : List Byte) : Nat := bs.foldr (fun b n => b.toNat + 256 * n) 0

/-- the bits in these bytes, the lowest bit of a byte first -/
def bitsIn (bs : List Byte) : List Bool := bs.flatMap fun b => natBits 8 b.toNat

/-- the number with these bits, the lowest first -/
def valueOf (bits : List Bool) : Nat := bits.foldr (fun b n => b.toNat + 2 * n) 0

/-- the first `n` groups of `w` -/
def groups {α : Type} (w : Nat) : Nat → List α → List (List α)
  | 0, _ => []
  | n + 1, l => l.take w :: groups w n (l.drop w)

/-- a table: the number of entries in 8 bytes, then the entries of `w` bytes each; and what comes after it -/
def table (w : Nat) (bs : List Byte) : List Byte × List Byte :=
  let size := w * numberOf (bs.take 8)
  ((bs.drop 8).take size, (bs.drop 8).drop size)

/-- what a player needs from a file -/
structure Contents where
  level : Nat
  parameters : List Nat
  sizes : List Nat
  info : StreamInfo
  sound : List Bool

/-- taking a file apart -/
def contents (file : List Byte) : Contents :=
  let parameters := table 1 (file.drop 4)
  let n := numberOf (parameters.2.take 4)
  let starts := table 8 (parameters.2.drop 4)
  let sizes := table 2 (starts.2.drop 16)
  let positions := table 8 sizes.2
  let histories := table 6 positions.2
  let info := histories.2.drop 5
  { level := numberOf (file.take 4)
    parameters := (groups 4 n (bitsIn parameters.1)).map valueOf
    sizes := (groups 2 n sizes.1).map numberOf
    info := { sampleRate := numberOf (info.take 4), channels := numberOf ((info.drop 4).take 4) }
    sound := bitsIn (table 16 (info.drop 8)).1 }

/-- the Rice code at the front of the bits, and the bits after it -/
def riceAt (k : Nat) (bits : List Bool) : Int × List Bool :=
  let q := (bits.tail.takeWhile id).length
  let rest := bits.tail.drop (q + 1)
  let size : Int := (2 ^ k * q + valueOf (rest.take k) : Nat)
  (if bits.headD false then -size else size, rest.drop k)

/-- `m` Rice codes -/
def ricesAt (k : Nat) : Nat → List Bool → List Int × List Bool
  | 0, bits => ([], bits)
  | m + 1, bits => ((riceAt k bits).1 :: (ricesAt k m (riceAt k bits).2).1, (ricesAt k m (riceAt k bits).2).2)

/-- the signed 16-bit number with these bits -/
def signedOf (bits : List Bool) : Int := if valueOf bits < 32768 then valueOf bits else (valueOf bits : Int) - 65536

/-- a channel after the next piece: the first one starts with three codes as they are -/
def extend (done : List Int) (k m : Nat) (bits : List Bool) : List Int × List Bool :=
  if done = [] then
    let raw := (groups 16 3 bits).map signedOf
    let r := ricesAt k (m - 3) (bits.drop 48)
    (raw ++ rebuild raw r.1, r.2)
  else
    let r := ricesAt k m bits
    (done ++ rebuild done r.1, r.2)

/-- all pieces: the next one belongs to the channel at the front, which then goes to the rear -/
def extendAll : List (Nat × Nat) → List (List Int) → List Bool → List (List Int)
  | (k, m) :: ps, done :: chs, bits => extendAll ps (chs ++ [(extend done k m bits).1]) (extend done k m bits).2
  | _, chs, _ => chs

/-- the codes of the channels -/
def channelsIn (c : Contents) : List (List Int) :=
  extendAll (c.parameters.zip c.sizes) (List.replicate c.info.channels []) c.sound

/-- the sound of a file in blocks of one sample per channel -/
def playFile (file : List Byte) : List (List F32) :=
  let c := contents file
  let chs := channelsIn c
  (List.range (chs.headD []).length).map fun i => chs.map fun ch => out (ch.getD i 0) * F32.ofInt (2 ^ c.level)

end Adhoc.Spec
