/-!
# Rust conventions used by the model

Panics are error values of `R`, the build profile decides what an overflowing integer operation does.
Nothing in this file models a line of /repo; it fixes the meaning of the Rust primitives the other files use.
-/

namespace Adhoc

/-- Why a Rust function panicked. -/
inductive Panic
  /-- slice or `Vec` index out of bounds -/
  | index
  /-- integer overflow in a build with overflow checks -/
  | overflow
  /-- integer division by zero -/
  | divZero
  /-- `Option::expect` / `Option::unwrap` on `None` -/
  | expect
  /-- explicit `panic!` -/
  | explicit
  /-- `unimplemented!` -/
  | unimplemented
  /-- `Ord::clamp` with `min > max` -/
  | clampAssert
  /-- the model ran out of loop fuel (never happens, see the theorems on termination) -/
  | fuel
  deriving DecidableEq, Repr

/-- Result of a Rust function that may panic. -/
abbrev R := Except Panic

/-- `debug`: overflow checks on (panic). `release`: overflow wraps. -/
inductive Build
  | debug
  | release
  deriving DecidableEq, Repr

/-- `v[i]` on a slice or `Vec`. -/
def idx {α} (l : List α) (i : Nat) : R α :=
  match l[i]? with
  | some a => .ok a
  | none => .error .index

/-- `v[i] = a` on a slice or `Vec`. -/
def setIdx {α} (l : List α) (i : Nat) (a : α) : R (List α) :=
  if i < l.length then .ok (l.set i a) else .error .index

/-- `opt.expect(..)` / `opt.unwrap()`. -/
def expect {α} : Option α → R α
  | some a => .ok a
  | none => .error .expect

/-- unsigned integer division `a / b` of Rust. -/
def udiv (a b : Nat) : R Nat := if b = 0 then .error .divZero else .ok (a / b)

/-- The range of `iN`. -/
def InI (bits : Nat) (x : Int) : Prop := -(2 : Int) ^ (bits - 1) ≤ x ∧ x < (2 : Int) ^ (bits - 1)

instance (bits : Nat) (x : Int) : Decidable (InI bits x) := inferInstanceAs (Decidable (_ ∧ _))

/-- Result of a signed `bits`-wide operation whose mathematical value is `x`. -/
def chkI (b : Build) (bits : Nat) (x : Int) : R Int :=
  if InI bits x then .ok x
  else match b with
    | .debug => .error .overflow
    | .release => .ok (Int.bmod x (2 ^ bits))

/-- Result of an unsigned `bits`-wide operation whose mathematical value is `x`. -/
def chkU (b : Build) (bits : Nat) (x : Int) : R Nat :=
  if 0 ≤ x ∧ x < (2 : Int) ^ bits then .ok x.toNat
  else match b with
    | .debug => .error .overflow
    | .release => .ok (x % (2 : Int) ^ bits).toNat

/-- `x as iN` from a wider integer: keep the low bits. -/
def asI (bits : Nat) (x : Int) : Int := Int.bmod x (2 ^ bits)

/-- `x as uN` from another integer: keep the low bits. -/
def asU (bits : Nat) (x : Int) : Nat := (x % (2 : Int) ^ bits).toNat

/-- `Ord::clamp` on integers. -/
def clampI (x lo hi : Int) : R Int :=
  if hi < lo then .error .clampAssert
  else .ok (if x < lo then lo else if hi < x then hi else x)

/-- A byte. -/
abbrev Byte := BitVec 8

/-- did the computation panic? -/
def panics {α} (r : R α) : Bool := match r with | .ok _ => false | .error _ => true

end Adhoc
