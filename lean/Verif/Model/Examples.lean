import Verif.Model.Cli

/-!
# examples/compress.rs, examples/decompress.rs (and the same programs in the documentation of src/lib.rs)

The programs read and write fixed files and print. A program maps the content of its input file (`none`: it cannot be opened) and the
output file that `File::create` makes (`none`: it cannot be made) to the final state of that file, or panics. Printing is not modelled.
-/

namespace Adhoc.Examples

/-- `Result::unwrap` -/
def unwrap {ε α : Type} : Except ε α → R α
  | .ok a => .ok a
  | .error _ => .error .expect

/-- examples/compress.rs 4-32, lib.rs 9-42: `main` -/
def compress (b : Build) (input : Option (List Byte)) (dst : Option Writer) : R Writer := do
  let bytes ← expect input
  let wav ← unwrap (← WavCodec.load bytes)
  let adhoc := (AdhocCodec.new.withCompressionLevel 7).setInfo wav.info
  let adhoc ← Cli.compressLoop b (wav.numSamples + 1) wav adhoc Cli.buffer
  let w ← expect dst
  let (w, ok) := adhoc.saveTo w
  let _ ← expect ok
  pure w

/-- examples/decompress.rs 4-31, lib.rs 51-78: `main`. `fuel` bounds the number of decode calls. -/
def decompress (b : Build) (fuel : Nat) (input : Option (List Byte)) (dst : Option Writer) : R Writer := do
  let bytes ← expect input
  let adhoc ← expect (← AdhocCodec.load b bytes)
  let info ← adhoc.info
  let wav ← Cli.decompressLoop b fuel adhoc (WavCodec.new info) Cli.buffer
  let w ← expect dst
  let (w, ok) ← wav.saveTo b w
  let _ ← expect (if ok then some () else none)
  pure w

end Adhoc.Examples
