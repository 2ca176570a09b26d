import Verif.Model.Cli

/-!
# src/main.rs 86-154: the conversions of several files at once

rayon's `par_iter().for_each` runs `convert_file` for the given files on several threads, in any order and interleaving. The model has one
thread per file and lets them take steps in any order. Reading and writing take any number of steps of any size, because `read` and
`write` may be short; between two steps the other threads may run.

Simplifications: a path is a directory and a file name, and two paths that differ name different files (no links, no `./a` beside `a`); a
file that is created is emptied if it exists, as `File::create` does; a thread that panics takes no further steps; the whole input is
read before it is converted (`load` reads it a piece at a time, and a WAV not beyond its samples).
-/

namespace Adhoc.Disk

/-- directory and name of a file -/
abbrev Path := List Char × List Char

/-- the files there are, with their content -/
abbrev Files := Path → Option (List Byte)

/-- a file is created or changed -/
def Files.put (fs : Files) (p : Path) (c : List Byte) : Files := fun q => if q = p then some c else fs q

/-- one conversion: `convert_wav_to_adhoc` or `convert_adhoc_to_wav`. `run` gives the content of the output file, or `none` if the input is
not accepted. `lenient`: the conversion goes on if saving fails (main.rs 130 drops the result; 151 does not). -/
structure Task where
  input : Path
  output : Path
  run : List Byte → R (Option (List Byte))
  lenient : Bool

/-- what a conversion with a faultless output file leaves there -/
def content : R (Option Writer × Option Unit) → R (Option (List Byte))
  | .error e => .error e
  | .ok (some w, some ()) => .ok (some w.out)
  | .ok _ => .ok none

/-- main.rs 94-103: `convert_file`, as the conversions to run one after the other. `outDir` is the output directory, `fuel` bounds the number of decode
calls. -/
def convertFile (b : Build) (fuel level : Nat) (outDir : List Char) (input : Path) : List Task :=
  (Cli.conversions input.2).map fun c =>
    if c = "wav2adhoc" then
      { input := input
        output := (outDir, (Cli.outputName input.2 ['a', 'd', 'h', 'o', 'c']).getD [])
        run := fun bytes => content (Cli.convertWavToAdhoc b bytes level (some .perfect))
        lenient := true }
    else
      { input := input
        output := (outDir, (Cli.outputName input.2 ['w', 'a', 'v']).getD [])
        run := fun bytes => content (Cli.convertAdhocToWav b fuel bytes (some .perfect))
        lenient := false }

/-- main.rs 65-90: `cli` from the option values on, as the conversions to run for each input. `isDir` says which paths are directories; the
default values of the options, `./` and `5`, are given like any other. -/
def cli (b : Build) (fuel : Nat) (isDir : List Char → Bool) (outDir level : List Char) (inputs : List Path) : List (List Task) :=
  if isDir outDir = false then []
  else inputs.map (convertFile b fuel (Cli.levelOption level) outDir)

/-- where a thread is in its first remaining conversion -/
inductive Phase
  /-- about to open the input (106, 135) -/
  | start
  /-- the input is open, these bytes have been read (109, 138) -/
  | reading (acc : List Byte)
  /-- the output is created, this many bytes have been written and these are left (130, 151) -/
  | writing (pos : Nat) (rest : List Byte)

/-- a thread: the conversions left, the first of which is under way. No conversions left: it has ended. -/
structure Thread where
  todo : List Task
  phase : Phase

/-- bytes written at a place of a file; a gap is filled with zeros -/
def writeAt (c : List Byte) (pos : Nat) (w : List Byte) : List Byte :=
  c.take pos ++ List.replicate (pos - c.length) 0#8 ++ w ++ c.drop (pos + w.length)

/-- one step of a thread. `faulty` says whether opening, creating and writing may fail. -/
inductive Step (faulty : Prop) : Files → Thread → Files → Thread → Prop
  /-- 106, 135: there is no such file: the `?` ends the thread -/
  | missing {fs t ts} : fs t.input = none → Step faulty fs ⟨t :: ts, .start⟩ fs ⟨[], .start⟩
  /-- 106, 135 -/
  | opened {fs t ts c} : fs t.input = some c → Step faulty fs ⟨t :: ts, .start⟩ fs ⟨t :: ts, .reading []⟩
  /-- 109, 138: a `read` gives some bytes -/
  | read {fs t ts acc c} (n : Nat) : fs t.input = some c → 0 < n → acc.length < c.length →
      Step faulty fs ⟨t :: ts, .reading acc⟩ fs ⟨t :: ts, .reading (acc ++ (c.drop acc.length).take n)⟩
  /-- 109, 138: `load` fails: the `?` ends the thread -/
  | rejected {fs t ts acc c} : fs t.input = some c → c.length ≤ acc.length → t.run acc = .ok none →
      Step faulty fs ⟨t :: ts, .reading acc⟩ fs ⟨[], .start⟩
  /-- 130, 151: `File::create` -/
  | created {fs t ts acc c out} : fs t.input = some c → c.length ≤ acc.length → t.run acc = .ok (some out) →
      Step faulty fs ⟨t :: ts, .reading acc⟩ (fs.put t.output []) ⟨t :: ts, .writing 0 out⟩
  /-- 130, 151: a `write` takes some bytes -/
  | wrote {fs t ts pos rest c} (n : Nat) : 0 < n → n ≤ rest.length → fs t.output = some c →
      Step faulty fs ⟨t :: ts, .writing pos rest⟩ (fs.put t.output (writeAt c pos (rest.take n))) ⟨t :: ts, .writing (pos + n) (rest.drop n)⟩
  /-- 130, 151: all is written -/
  | saved {fs t ts pos} : Step faulty fs ⟨t :: ts, .writing pos []⟩ fs ⟨ts, .start⟩
  /-- 106, 109, 130, 135, 138, 151: the input cannot be read or the output cannot be created -/
  | unreadable {fs t ts ph} : faulty → (∀ pos rest, ph ≠ .writing pos rest) → Step faulty fs ⟨t :: ts, ph⟩ fs ⟨[], .start⟩
  /-- 130, 151: a `write` fails -/
  | unwritable {fs t ts pos rest} : faulty →
      Step faulty fs ⟨t :: ts, .writing pos rest⟩ fs ⟨if t.lenient then ts else [], .start⟩

/-- several steps, each of any one of the threads -/
inductive Run (faulty : Prop) : Files → List Thread → Files → List Thread → Prop
  | refl {fs ths} : Run faulty fs ths fs ths
  | step {fs ths fs' th th' pre post fs''} : Run faulty fs ths fs' (pre ++ th :: post) → Step faulty fs' th fs'' th' →
      Run faulty fs ths fs'' (pre ++ th' :: post)

/-- main.rs 86-90: all threads before their first step -/
def start (jobs : List (List Task)) : List Thread := jobs.map fun ts => ⟨ts, .start⟩

/-- all threads have ended -/
def ended (ths : List Thread) : Prop := ∀ th ∈ ths, th.todo = []

end Adhoc.Disk
