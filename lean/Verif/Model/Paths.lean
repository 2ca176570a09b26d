import Verif.Model.Cli

/-!
# src/main.rs 107, 120-126 and 136, 147-149: paths as they are written

`std::path` on Unix: a path is the list of its characters (valid Unicode), split at the slashes. Of the last component and of `set_extension` only what the tool uses.
-/

namespace Adhoc.Path

/-- the pieces between the slashes: the first, and the others -/
def split : List Char → List Char × List (List Char)
  | [] => ([], [])
  | c :: cs => if c = '/' then ([], (split cs).1 :: (split cs).2) else (c :: (split cs).1, (split cs).2)

/-- the pieces with slashes between them -/
def join (h : List Char) (t : List (List Char)) : List Char := h ++ t.flatMap ('/' :: ·)

/-- `Components::next_back` goes over empty pieces and dots at the end, but not over a dot at the very start -/
def trim (t : List (List Char)) : List (List Char) := (t.reverse.dropWhile fun s => s = [] || s = ['.']).reverse

/-- `Path::file_name`: the last component, unless it is the root, a dot at the start, or `..` -/
def fileName (p : List Char) : Option (List Char) :=
  match (trim (split p).2).getLast? with
  | none => if (split p).1 = [] ∨ (split p).1 = ['.'] ∨ (split p).1 = ['.', '.'] then none else some (split p).1
  | some l => if l = ['.', '.'] then none else some l

/-- `Path::file_stem` -/
def fileStem (p : List Char) : Option (List Char) := (fileName p).map fun n => (Cli.splitExt n).1

/-- `PathBuf::push` of a path: an absolute one replaces everything, otherwise a slash is put between unless there is one or nothing is in front -/
def push (p f : List Char) : List Char :=
  if f.head? = some '/' then f
  else if p = [] ∨ p.getLast? = some '/' then p ++ f
  else p ++ '/' :: f

/-- `PathBuf::set_extension` (with an extension that is not empty): everything behind the stem of the file name is cut off, and the extension put there; without a
file name nothing happens -/
def setExtension (p ext : List Char) : List Char :=
  match fileName p with
  | none => p
  | some f =>
    if trim (split p).2 = [] then (Cli.splitExt f).1 ++ '.' :: ext
    else join (split p).1 (trim (split p).2).dropLast ++ '/' :: ((Cli.splitExt f).1 ++ '.' :: ext)

/-- main.rs 107, 120-126 (with `adhoc`) and 136, 147-149 (with `wav`): the path given to `File::create`; `none` if `file_stem()?` ends the conversion -/
def output (dir input ext : List Char) : Option (List Char) := (fileStem input).map fun stem => setExtension (push dir stem) ext

end Adhoc.Path
