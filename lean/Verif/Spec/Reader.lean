import Verif.Model.Reader

/-!
# Kinds of readers
-/

namespace Adhoc.Spec

/-- The reader may hand out its bytes in any pieces and be interrupted, but it does not fail and does not pretend that its content has
ended. -/
def Steady (r : Reader) : Prop := ∀ a ∈ r.script, a ≠ .fail ∧ a ≠ .give 0

/-- The reader may also fail, but it does not pretend that its content has ended. -/
def Honest (r : Reader) : Prop := .give 0 ∉ r.script

instance (r : Reader) : Decidable (Steady r) := by unfold Steady; infer_instance

instance (r : Reader) : Decidable (Honest r) := by unfold Honest; infer_instance

/-- what a reader hands out if all its calls give all they are asked for -/
def plain (bytes : List Byte) : Reader := { bytes := bytes, pos := 0, script := [], seekable := true }

/-- `save_to(&mut writer)` of one codec after the other, while it succeeds -/
def saveAll : List AdhocCodec → Writer → Writer × Bool
  | [], w => (w, true)
  | c :: cs, w =>
    match c.saveTo w with
    | (w, some ()) => saveAll cs w
    | (w, none) => (w, false)

/-- `n` times `load(&mut reader)`; `none` if one of them gave `None` -/
def loadAll (b : Build) : (n : Nat) → Reader → R (Option (List AdhocCodec × Reader))
  | 0, r => pure (some ([], r))
  | n + 1, r => do
    match ← AdhocCodec.loadFrom b r with
    | none => pure none
    | some (c, r) =>
      match ← loadAll b n r with
      | none => pure none
      | some (cs, r) => pure (some (c :: cs, r))

end Adhoc.Spec
