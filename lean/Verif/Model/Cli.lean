import Verif.Model.Adhoc
import Verif.Model.Wav

/-!
# src/main.rs (and examples/compress.rs, decompress.rs, which run the same loops)

A conversion maps the content of the input file and a writer (the created output file) to the writer's final state and the
returned `Option<()>`. Directory checks and rayon are in `Disk.lean`; of the argument parsing, only what main.rs does with the strings that
clap hands over.
-/

namespace Adhoc.Cli

/-- main.rs 115, 141: the zeroed 1024-sample buffer -/
def buffer : List F32 := List.replicate 1024 (F32.ofInt 0)

/-- main.rs 116-118: decode the WAV a buffer at a time and encode it -/
def compressLoop (b : Build) : (fuel : Nat) → WavCodec → AdhocCodec → List F32 → R AdhocCodec
  | 0, _, _, _ => .error .fuel
  | fuel + 1, wav, adhoc, buf => do
    let (wav, buf, n?) ← wav.decode buf
    match n? with
    | none => pure adhoc
    | some n => do
      let (adhoc, _) ← adhoc.encode b (buf.take n)
      compressLoop b fuel wav adhoc buf

/-- main.rs 105-133: `convert_wav_to_adhoc`; `dst` is the created file (`none`: creating it failed) -/
def convertWavToAdhoc (b : Build) (input : List Byte) (level : Nat) (dst : Option Writer) :
    R (Option Writer × Option Unit) := do
  match ← WavCodec.load input with
  | .error _ => pure (dst, none)
  | .ok wav => do
    let adhoc := (AdhocCodec.new.withCompressionLevel level).setInfo wav.info
    let adhoc ← compressLoop b (wav.numSamples + 1) wav adhoc buffer
    match dst with
    | none => pure (none, none)
    | some w =>
      -- 130: the result of `save_to` is dropped
      let (w, _) := adhoc.saveTo w
      pure (some w, some ())

/-- main.rs 143-145: decode the .adhoc a buffer at a time and store the samples -/
def decompressLoop (b : Build) : (fuel : Nat) → AdhocCodec → WavCodec → List F32 → R WavCodec
  | 0, _, _, _ => .error .fuel
  | fuel + 1, adhoc, wav, buf => do
    let (adhoc, buf, n?) ← adhoc.decode b buf
    match n? with
    | none => pure wav
    | some n => do
      let (wav, _) ← wav.encode (buf.take n)
      decompressLoop b fuel adhoc wav buf

/-- main.rs 134-154: `convert_adhoc_to_wav`. `fuel` bounds the number of decode calls. -/
def convertAdhocToWav (b : Build) (fuel : Nat) (input : List Byte) (dst : Option Writer) :
    R (Option Writer × Option Unit) := do
  match ← AdhocCodec.load b input with
  | none => pure (dst, none)
  | some adhoc => do
    let info ← adhoc.info
    let wav ← decompressLoop b fuel adhoc (WavCodec.new info) buffer
    match dst with
    | none => pure (none, none)
    | some w => do
      let (w, ok) ← wav.saveTo b w
      pure (some w, if ok then some () else none)

/-! ## file names -/

/-- `Path::file_stem` and `Path::extension` of a file name: split at the last dot, unless there is none, the name starts with
it, or the name is `..` -/
def splitExt (name : List Char) : List Char × Option (List Char) :=
  if name = ['.', '.'] then (name, none)
  else
    let ext := (name.reverse.takeWhile (· ≠ '.')).reverse
    let stem := name.take (name.length - ext.length - 1)
    if ext.length = name.length ∨ stem = [] then (name, none) else (stem, some ext)

/-- `PathBuf::push(name)` and then `set_extension(ext)`: the last component of the path. `none` if `name` is `.` or `..`: then the path
names a directory and has no file name, or the extension is put on the output directory. -/
def setExtension (name ext : List Char) : Option (List Char) :=
  if name = ['.'] ∨ name = ['.', '.'] then none else some ((splitExt name).1 ++ '.' :: ext)

/-- main.rs 107, 120-126 and 136, 147-149: the name of the output file: stem of the input, then `set_extension` -/
def outputName (input ext : List Char) : Option (List Char) := setExtension (splitExt input).1 ext

/-- `str::contains` -/
def containsStr (needle : List Char) : List Char → Bool
  | [] => needle.isEmpty
  | c :: cs => needle.isPrefixOf (c :: cs) || containsStr needle cs

/-- main.rs 94-103: which conversions `convert_file` runs for an input name, in order -/
def conversions (input : List Char) : List String :=
  match (splitExt input).2 with
  | none => []
  | some ext =>
    (if containsStr ['w', 'a', 'v'] ext then ["wav2adhoc"] else [])
      ++ (if containsStr ['a', 'd', 'h', 'o', 'c'] ext then ["adhoc2wav"] else [])

/-! ## the compression level option -/

/-- `char::to_digit(10)` -/
def toDigit (c : Char) : Option Nat := if '0' ≤ c ∧ c ≤ '9' then some (c.toNat - '0'.toNat) else none

/-- the loop of `u32::from_str_radix(_, 10)`: `checked_mul`, then `checked_add` -/
def parseDigits : List Char → Nat → Option Nat
  | [], n => some n
  | c :: cs, n => do
    let d ← toDigit c
    if n * 10 < 2 ^ 32 then
      if n * 10 + d < 2 ^ 32 then parseDigits cs (n * 10 + d) else none
    else none

/-- `str::parse::<u32>` as used in main.rs 79: `Err` is `none`. Neither the empty string nor a lone sign is a number; one `+` is skipped. -/
def parseU32 (s : List Char) : Option Nat :=
  match s with
  | [] => none
  | ['+'] => none
  | ['-'] => none
  | '+' :: cs => parseDigits cs 0
  | cs => parseDigits cs 0

/-- main.rs 77-80: the compression level of an option value -/
def levelOption (value : List Char) : Nat := (parseU32 value).getD 5

end Adhoc.Cli
