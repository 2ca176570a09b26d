import Verif.Proofs.Sample
import Mathlib.Algebra.BigOperators.Intervals

/-! Two counts over one period of the dither noise, computed by the kernel. -/

namespace Adhoc
open Spec

/-! ## counting over one period -/

/-- one sample: the generator's state below 2^20, the tally above it -/
def lap (w : Nat → Nat → Nat) (s : Nat) : Nat :=
  let y := (1000003 * (s % 1048576) + 314159) % 507961
  let z := (1000003 * y + 314159) % 507961
  (s / 1048576 + w (y % 16384) (z % 16384)) * 1048576 + z

/-- apply a function to a number that is computed first -/
def force (f : Nat → Nat) : Nat → Nat
  | 0 => f 0
  | k + 1 => f (k + 1)

theorem force_eq (f : Nat → Nat) (n : Nat) : force f n = f n := by cases n <;> rfl

def lap306 (w : Nat → Nat → Nat) : Nat → Nat → Nat
  | 0, s => s
  | n + 1, s => force (fun t => lap306 w n t) (lap w s)

def laps (w : Nat → Nat → Nat) : Nat → Nat → Nat
  | 0, s => s
  | n + 1, s => force (fun t => laps w n t) (lap306 w 306 s)

theorem lap306_succ (w : Nat → Nat → Nat) (n s : Nat) : lap306 w (n + 1) s = lap306 w n (lap w s) := by
  rw [lap306, force_eq]

theorem laps_succ (w : Nat → Nat → Nat) (n s : Nat) : laps w (n + 1) s = laps w n (lap306 w 306 s) := by
  rw [laps, force_eq]

/-- the weight of sample `k` -/
def weight (w : Nat → Nat → Nat) (k : Nat) : Nat := w (draw (2 * k + 1) % 16384) (draw (2 * k + 2) % 16384)

theorem lap_spec (w : Nat → Nat → Nat) (k acc : Nat) :
    lap w (acc * 1048576 + draw (2 * k)) = (acc + weight w k) * 1048576 + draw (2 * (k + 1)) := by
  have h := draw_lt (2 * k)
  have e1 : (acc * 1048576 + draw (2 * k)) % 1048576 = draw (2 * k) := by omega
  have e2 : (acc * 1048576 + draw (2 * k)) / 1048576 = acc := by omega
  unfold lap weight
  dsimp only
  rw [e1, e2]
  rfl

theorem lap306_spec (w : Nat → Nat → Nat) : ∀ n k acc,
    lap306 w n (acc * 1048576 + draw (2 * k)) = (acc + ∑ i ∈ Finset.range n, weight w (k + i)) * 1048576 + draw (2 * (k + n))
  | 0, k, acc => by simp [lap306]
  | n + 1, k, acc => by
    rw [lap306_succ, lap_spec, lap306_spec w n, Finset.sum_range_succ']
    simp only [Nat.add_zero, Nat.add_assoc, Nat.add_comm, Nat.add_left_comm]

theorem laps_spec (w : Nat → Nat → Nat) : ∀ n k acc,
    laps w n (acc * 1048576 + draw (2 * k)) = (acc + ∑ i ∈ Finset.range (306 * n), weight w (k + i)) * 1048576 + draw (2 * (k + 306 * n))
  | 0, k, acc => by simp [laps]
  | n + 1, k, acc => by
    rw [laps_succ, lap306_spec, laps_spec w n, show 306 * (n + 1) = 306 + 306 * n by ring, Finset.sum_range_add]
    simp only [Nat.add_assoc]

theorem lap_total (w : Nat → Nat → Nat) : ∑ i ∈ Finset.range 126990, weight w i = laps w 415 314 / 1048576 := by
  have h := laps_spec w 415 0 0
  have h2 := draw_lt (2 * (0 + 306 * 415))
  rw [show 0 * 1048576 + draw (2 * 0) = 314 from rfl] at h
  rw [h]
  simp only [Nat.zero_add, show 306 * 415 = 126990 from rfl] at h2 ⊢
  generalize draw _ = x at h2 ⊢
  generalize (∑ i ∈ Finset.range 126990, weight w i) = t
  omega

theorem total_steps : ∑ i ∈ Finset.range 126990, weight (fun y z => z + 16384 - y) i = 2079858672 := by
  rw [lap_total]; decide +kernel

/-- how many samples of one period are in each part -/
def tallies : List Nat := [634, 1828, 3134, 4422, 5843, 7151, 8238, 9483, 10898, 11905, 11890, 10986, 9499, 8271, 7000, 5691, 4445, 3149, 1913, 610]

theorem total_parts : ∑ i ∈ Finset.range 126990, weight (fun y z => 1048576 ^ ((z + 16384 - y) * 20 / 32768)) i =
    ∑ j ∈ Finset.range 20, tallies.getD j 0 * 1048576 ^ j := by
  rw [lap_total]; decide +kernel

end Adhoc
