import Verif.Spec.Codec
import Verif.Spec.Tape

/-!
# Playing from the middle

A frame header holds the last three codes before the frame. A decoder that starts with a frame takes them from there, so what it plays
depends on the codes before the frame and not on what a decoder playing from the start would have made of them.
-/

namespace Adhoc.Spec

/-- what is heard of the codes `Q` by a decoder that starts with the frame at row `s`, given the true codes before it -/
def heard (s : Nat) (Q : List Int) : List Int :=
  Q.take (max 3 s) ++ rebuild (Q.take (max 3 s)) (residuals (Q.take (max 3 s)) (Q.drop (max 3 s)))

/-- the row where the call begins that contains row `t`, counted from 1, of calls with the given numbers of rows -/
def callStart : List Nat → Nat → Nat
  | [], _ => 0
  | z :: zs, t => if t ≤ z then 0 else z + callStart zs (t - z)

/-- what a seek to row `t` finds ahead: the rows left of the call that contains row `t`, counted from 1, and the numbers of rows of the calls behind it -/
def land : List Nat → Nat → Nat × List Nat
  | [], _ => (0, [])
  | z :: zs, t => if t ≤ z then (z - t, zs) else land zs (t - z)

/-- every difference to the prediction from row `s` on fits into the limits -/
def InSyncFrom (s : Nat) (Q : List Int) : Prop :=
  ∀ n, max 3 s ≤ n → n < Q.length → -32767 ≤ Q.getD n 0 - guess (Q.take n) ∧ Q.getD n 0 - guess (Q.take n) ≤ 32766

/-- the signal heard when playing starts with the frame at row `s` -/
def playedFrom (s n len : Nat) (Q : Nat → List Int) : List (List F32) :=
  (List.range len).map fun k => (List.range n).map fun ch => out ((heard s (Q ch)).getD k 0)

/-- reads and seeks: a seek to row `t` starts with the frame of the call that reaches `t`. `s` is the frame playing started with and `m`
the row that is read next. -/
def resyncTape (n : Nat) (pos : Nat → Nat) (sizes : List Nat) (Q : Nat → List Int) : Nat → Nat → List Act → List (List F32 × Option Nat)
  | _, _, [] => []
  | _, _, .seek ms :: acts => resyncTape n pos sizes Q (callStart sizes (pos ms)) (pos ms) acts
  | s, m, .read buf :: acts =>
    let d := min (buf.length / n) (sizes.sum - m)
    ((((playedFrom s n sizes.sum Q).drop m).take d).flatten ++ buf.drop (d * n), if d = 0 then none else some (d * n)) ::
      resyncTape n pos sizes Q s (m + d) acts

end Adhoc.Spec
