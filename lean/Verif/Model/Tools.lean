import Verif.Model.Sample
import Verif.Model.Signal
import Verif.Model.ListSerde

/-!
# src/math/noise.rs 45-98, src/math.rs 10-17, src/math/signal.rs 3-13, src/collections.rs 189-220

`powf(2.0)`, `exp` and `sqrt` of the platform are parameters: Rust does not specify the results of the first two, and the theorems hold for any.
-/

namespace Adhoc

namespace NoiseDistribution

/-- noise.rs 50-59, 61-70: `n` values of a generator, one after the other -/
def fill (next : PseudoRandom → R (PseudoRandom × F32)) : Nat → PseudoRandom → R (List F32)
  | 0, _ => pure []
  | n + 1, s => do
    let (s, x) ← next s
    let xs ← fill next n s
    pure (x :: xs)

/-- noise.rs 50-59: `uniform` -/
def uniform (b : Build) (n : Nat) : R (List F32) := fill (PseudoRandom.uniform b) n (PseudoRandom.new 123)

/-- noise.rs 61-70: `triangle` -/
def triangle (b : Build) (n : Nat) : R (List F32) := fill (PseudoRandom.triangle b) n (PseudoRandom.new 123)

/-- noise.rs 75: `DELTA` -/
def delta : F32 := F32.ofInt 1 / F32.ofInt 20

/-- noise.rs 80: the place of a value -/
def place (v : F32) : Nat := ((Signal.floor (((v + F32.ofInt 1) * F32.ofRat (1 / 2)) / delta)).toIntSat 0 (2 ^ 64 - 1)).toNat

/-- noise.rs 77-82: the frequencies -/
def frequencies (b : Build) (values : List F32) : R (List Nat) :=
  values.foldlM (fun freq v => do
    let i := min (place v) 19
    let f ← idx freq i
    let f ← chkU b 64 ((f : Int) + 1)
    setIdx freq i f) (List.replicate 20 0)

/-- noise.rs 84-95: the number of stars in each of the twenty lines that `Display` writes (the bounds at the start of a line are not modelled) -/
def stars (b : Build) (values : List F32) : R (List Nat) := do
  let freq ← frequencies b values
  (List.range 20).mapM fun k => do
    let f ← idx freq k
    let p ← chkU b 64 ((f : Int) * 300)
    if values.length = 0 then .error .divZero else pure (p / values.length)

end NoiseDistribution

/-- math.rs 11-17: `compute_mse`; `sq` is `|x| x.powf(2.0)` -/
def computeMse (sq : F32 → F32) (a b : List F32) : F32 :=
  (a.zip b).foldl (fun acc p => acc + sq (p.1 - p.2)) (F32.ofInt 0) / F32.ofInt (min a.length b.length : Nat)

namespace Gaussian

/-- signal.rs 7: `x_scaled` -/
def place (n : Nat) (r : F32) (k : Nat) : F32 := (F32.ofInt k / F32.ofInt ((n : Int) - 1)) * F32.ofInt 2 * r - r

/-- signal.rs 3-13: `gaussian_filter`; `root` is `(2.*3.141f32).sqrt()` -/
def filter (root : F32) (sq exp : F32 → F32) (n : Nat) (sigma r : F32) : List F32 :=
  let coef := F32.ofInt 1 / (sigma * root)
  (List.range n).map fun k => coef * exp (F32.ofRat (-1 / 2) * sq (place n r k / sigma))

end Gaussian

namespace Node

/-- what `visit_map` can fail with; `value` stands for any error of a value -/
inductive MapError
  | unknownField (name : String)
  | duplicateField (name : String)
  | missingField (name : String)
  | value
  deriving DecidableEq, Repr

/-- collections.rs 194-209: the loop over the entries of the map. `decData` and `decChildren` read a value (`none`: it is not of the type). -/
def visitEntries {α V : Type} (decData : V → Option (Option α)) (decChildren : V → Option (List Nat)) :
    List (String × V) → Option (Option α) → Option (List Nat) → Except MapError (Option (Option α) × Option (List Nat))
  | [], data, children => pure (data, children)
  | (key, v) :: rest, data, children =>
    if key = "data" then
      if data.isSome then .error (.duplicateField "data")
      else match decData v with
        | none => .error .value
        | some d => visitEntries decData decChildren rest (some d) children
    else if key = "children" then
      if children.isSome then .error (.duplicateField "children")
      else match decChildren v with
        | none => .error .value
        | some c => visitEntries decData decChildren rest data (some c)
    else .error (.unknownField key)

/-- collections.rs 189-220: `visit_map` with two children -/
def visitMap {α V : Type} (decData : V → Option (Option α)) (decChildren : V → Option (List Nat)) (entries : List (String × V)) :
    Except MapError (Node α) := do
  let (data, children) ← visitEntries decData decChildren entries none none
  match data with
  | none => .error (.missingField "data")
  | some data =>
    match children with
    | none => .error (.missingField "children")
    | some children => pure { data := data, left := children.getD 0 NULL, right := children.getD 1 NULL }

end Node
end Adhoc
