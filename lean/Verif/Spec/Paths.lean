import Mathlib.Data.List.SplitOn

/-! # What a path means -/

namespace Adhoc.Spec

/-- a component of a path -/
inductive Comp
  | root
  | cur
  | parent
  | normal (name : List Char)
  deriving DecidableEq, Repr

/-- what a piece between slashes stands for: nothing if it is empty or a dot -/
def compOf (s : List Char) : Option Comp :=
  if s = [] ∨ s = ['.'] then none else if s = ['.', '.'] then some .parent else some (.normal s)

/-- The components of a path, as documented for `Path::components`: repeated slashes are ignored, dots too except at the start, and a slash at the end. -/
def components (p : List Char) : List Comp :=
  (if p.head? = some '/' then [.root] else []) ++ (if (p.splitOn '/').head? = some ['.'] then [.cur] else []) ++ (p.splitOn '/').filterMap compOf

end Adhoc.Spec
