import Verif.Props.Samples
import Verif.Proofs.NoiseCount
import Mathlib.Algebra.BigOperators.Intervals
import Mathlib.Algebra.BigOperators.Ring.Finset
import Mathlib.Algebra.BigOperators.Field
import Mathlib.Data.Nat.Prime.Basic
import Mathlib.Tactic.NormNum.Prime

/-!
# C82: the dither noise is triangular, unbiased and repeats only after 126990 samples

The generator is the linear congruence x ↦ (1000003 x + 314159) mod 507961 from 314. Its closed form gives the period; the counts over one period
are computed by the kernel, and hold for any stretch of whole periods.
-/

namespace Adhoc
open Spec F32

/-- the noise of sample `k` in steps of 1/16384 -/
def Spec.steps (k : Nat) : ℤ := (draw (2 * k + 2) % 16384 : Nat) - (draw (2 * k + 1) % 16384 : Nat)

/-- which of the twenty equal parts of [-1, 1) the noise of sample `k` is in -/
def Spec.part (k : Nat) : Nat := (((steps k + 16384) * 20) / 32768).toNat

theorem noise_steps (k : Nat) : Is (noise k) ((steps k : ℚ) / 16384) := by
  obtain ⟨m, -, h, hi⟩ := noise_spec k
  rw [h] at hi
  exact hi

theorem noise_eq_iff (i j : Nat) : noise i = noise j ↔ steps i = steps j := by
  have h1 := noise_steps i
  have h2 := noise_steps j
  constructor
  · intro h
    rw [h] at h1
    have := h1.unique h2
    have : (steps i : ℚ) = steps j := by linarith
    exact_mod_cast this
  · intro h
    rw [h] at h1
    exact h1.eq h2

/-! ## the period -/

theorem draw_closed : ∀ n, draw n = (1000003 ^ n * 52590 + 455685) % 507961
  | 0 => by decide
  | n + 1 => by
    rw [draw, draw_closed n, pow_succ]
    generalize 1000003 ^ n = p
    have h1 : (1000003 * ((p * 52590 + 455685) % 507961) + 314159) % 507961 = (1000003 * (p * 52590 + 455685) + 314159) % 507961 := by
      rw [Nat.add_mod, Nat.mul_mod, Nat.mod_mod, ← Nat.mul_mod, ← Nat.add_mod]
    rw [h1]
    omega

theorem draw_period (n : Nat) : draw (n + 253980) = draw n := by
  have h : 1000003 ^ 253980 % 507961 = 1 := by decide +kernel
  rw [draw_closed, draw_closed, pow_add]
  generalize 1000003 ^ n = p
  generalize 1000003 ^ 253980 = e at h
  rw [Nat.add_mod (p * e * 52590), Nat.mul_mod (p * e), Nat.mul_mod p, h]
  simp [Nat.add_mod, Nat.mul_mod]

theorem steps_period (k : Nat) : steps (k + 126990) = steps k := by
  unfold steps
  rw [show 2 * (k + 126990) + 2 = 2 * k + 2 + 253980 by ring, show 2 * (k + 126990) + 1 = 2 * k + 1 + 253980 by ring, draw_period, draw_period]

theorem periods {f : Nat → ℤ} {d : Nat} (h : ∀ k, f (k + d) = f k) : ∀ a k, f (k + a * d) = f k
  | 0, k => by rw [Nat.zero_mul, Nat.add_zero]
  | a + 1, k => by rw [Nat.add_mul, Nat.one_mul, ← Nat.add_assoc, h, periods h a]

theorem period_gcd {f : Nat → ℤ} {d e : Nat} (hd : ∀ k, f (k + d) = f k) (he : ∀ k, f (k + e) = f k) (he0 : 0 < e) :
    ∀ k, f (k + d.gcd e) = f k := by
  intro k
  rcases Nat.lt_or_ge (d.gcd e) e with h | h
  · obtain ⟨m, -, hm⟩ := Nat.exists_mul_mod_eq_gcd h
    have := Nat.div_add_mod (d * m) e
    rw [hm] at this
    rw [← periods he (d * m / e), Nat.add_assoc, Nat.add_comm (d.gcd e), Nat.mul_comm (d * m / e), this, Nat.mul_comm d, periods hd]
  · have h1 := Nat.gcd_le_right d he0
    rw [show d.gcd e = e by omega, he]

/-- a number dividing 126990 other than itself divides one of its quotients by a prime -/
theorem proper {g n : Nat} (hn : 0 < n) (h : g ∣ n) (hlt : g ≠ n) : ∃ p, p.Prime ∧ p ∣ n ∧ g ∣ n / p := by
  obtain ⟨c, rfl⟩ := h
  have hc : c ≠ 1 := by rintro rfl; simp at hlt
  obtain ⟨p, hp, e, rfl⟩ := Nat.exists_prime_and_dvd hc
  refine ⟨p, hp, ⟨g * e, by ring⟩, ?_⟩
  rw [show g * (p * e) = p * (g * e) by ring, Nat.mul_div_cancel_left _ hp.pos]
  exact ⟨e, rfl⟩

theorem primes_dvd {p : Nat} (hp : p.Prime) (h : p ∣ 126990) : p = 2 ∨ p = 3 ∨ p = 5 ∨ p = 17 ∨ p = 83 := by
  rw [show (126990 : Nat) = 2 * 3 * 3 * 5 * 17 * 83 by norm_num] at h
  have two := (Nat.prime_dvd_prime_iff_eq hp (show Nat.Prime 2 by norm_num))
  have three := (Nat.prime_dvd_prime_iff_eq hp (show Nat.Prime 3 by norm_num))
  have five := (Nat.prime_dvd_prime_iff_eq hp (show Nat.Prime 5 by norm_num))
  have seventeen := (Nat.prime_dvd_prime_iff_eq hp (show Nat.Prime 17 by norm_num))
  have eighty := (Nat.prime_dvd_prime_iff_eq hp (show Nat.Prime 83 by norm_num))
  simp only [hp.dvd_mul, two, three, five, seventeen, eighty] at h
  tauto

theorem steps_closed (k : Nat) : steps k =
    (((1000003 ^ (2 * k + 2) * 52590 + 455685) % 507961 % 16384 : Nat) : ℤ) - (((1000003 ^ (2 * k + 1) * 52590 + 455685) % 507961 % 16384 : Nat) : ℤ) := by
  unfold steps
  rw [draw_closed, draw_closed]

theorem steps_proper (p : Nat) (h : p = 2 ∨ p = 3 ∨ p = 5 ∨ p = 17 ∨ p = 83) : steps (0 + 126990 / p) ≠ steps 0 := by
  rw [steps_closed, steps_closed]
  rcases h with rfl | rfl | rfl | rfl | rfl <;> decide +kernel

theorem steps_period_iff (d : Nat) : (∀ k, steps (k + d) = steps k) ↔ 126990 ∣ d := by
  constructor
  · intro h
    have hg := period_gcd h steps_period (by norm_num)
    by_contra hd
    obtain ⟨p, hp, hpn, e, he⟩ := proper (by norm_num) (Nat.gcd_dvd_right d 126990) (fun h => hd (h ▸ Nat.gcd_dvd_left d 126990))
    refine steps_proper p (primes_dvd hp hpn) ?_
    rw [he, Nat.mul_comm, periods hg]
  · rintro ⟨a, rfl⟩ k
    rw [Nat.mul_comm, periods steps_period]

/-! ## from the packed tallies to the counts -/

/-- digits are determined by the number they make up -/
theorem digits_unique {B : Nat} : ∀ (m : Nat) (c e : Nat → Nat), (∀ j < m, c j < B) → (∀ j < m, e j < B) →
    ∑ j ∈ Finset.range m, c j * B ^ j = ∑ j ∈ Finset.range m, e j * B ^ j → ∀ j < m, c j = e j
  | 0, _, _, _, _, _, _, h => by omega
  | m + 1, c, e, hc, he, h, j, hj => by
    have up : ∀ c : Nat → Nat, ∑ j ∈ Finset.range (m + 1), c j * B ^ j = B * (∑ j ∈ Finset.range m, c (j + 1) * B ^ j) + c 0 := by
      intro c
      rw [Finset.sum_range_succ', Finset.mul_sum, pow_zero, Nat.mul_one]
      congr 1
      exact Finset.sum_congr rfl fun j _ => by ring
    rw [up, up] at h
    have h0 := hc 0 (by omega)
    have h1 := he 0 (by omega)
    have e0 : c 0 = e 0 := by
      have := congrArg (· % B) h
      simpa [Nat.add_mod, Nat.mod_eq_of_lt h0, Nat.mod_eq_of_lt h1] using this
    have er : ∑ j ∈ Finset.range m, c (j + 1) * B ^ j = ∑ j ∈ Finset.range m, e (j + 1) * B ^ j := by
      have hB : 0 < B := by omega
      exact Nat.eq_of_mul_eq_mul_left hB (by omega)
    cases j with
    | zero => exact e0
    | succ j => exact digits_unique m _ _ (fun j hj => hc _ (by omega)) (fun j hj => he _ (by omega)) er j (by omega)

theorem part_eq (k : Nat) : part k = (draw (2 * k + 2) % 16384 + 16384 - draw (2 * k + 1) % 16384) * 20 / 32768 := by
  unfold part steps
  have h1 := Nat.mod_lt (draw (2 * k + 1)) (show 16384 > 0 by norm_num)
  have h2 := Nat.mod_lt (draw (2 * k + 2)) (show 16384 > 0 by norm_num)
  generalize draw (2 * k + 1) % 16384 = y at h1 ⊢
  generalize draw (2 * k + 2) % 16384 = z at h2 ⊢
  omega

theorem part_lt (k : Nat) : part k < 20 := by
  rw [part_eq]
  have h1 := Nat.mod_lt (draw (2 * k + 1)) (show 16384 > 0 by norm_num)
  have h2 := Nat.mod_lt (draw (2 * k + 2)) (show 16384 > 0 by norm_num)
  omega

theorem packed (f : Nat → Nat) (hf : ∀ k, f k < 20) (B n : Nat) :
    ∑ i ∈ Finset.range n, B ^ f i = ∑ j ∈ Finset.range 20, (∑ i ∈ Finset.range n, if f i = j then 1 else 0) * B ^ j := by
  simp only [Finset.sum_mul]
  rw [Finset.sum_comm]
  refine Finset.sum_congr rfl fun i _ => ?_
  rw [Finset.sum_eq_single (f i)]
  · simp
  · intro j _ hj
    rw [if_neg (fun h => hj h.symm), Nat.zero_mul]
  · intro h
    exact absurd (Finset.mem_range.2 (hf i)) h

theorem part_count (j : Nat) (hj : j < 20) : (∑ i ∈ Finset.range 126990, if part i = j then 1 else 0) = tallies.getD j 0 := by
  refine digits_unique (B := 1048576) 20 (fun j => ∑ i ∈ Finset.range 126990, if part i = j then 1 else 0) (fun j => tallies.getD j 0)
    (fun j _ => ?_) (by decide) ?_ j hj
  · have h := Finset.sum_le_card_nsmul (Finset.range 126990) (fun i => if part i = j then 1 else 0) 1 (fun i _ => by split <;> omega)
    rw [Finset.card_range, nsmul_eq_mul] at h
    simp only [Nat.cast_id] at h
    omega
  · rw [← packed part part_lt, ← total_parts]
    exact Finset.sum_congr rfl fun i _ => by rw [weight, part_eq]

theorem part_period (k : Nat) : part (k + 126990) = part k := by rw [part, steps_period, part]

/-! ## whole periods, from anywhere -/

theorem sum_from {f : Nat → ℤ} {d : Nat} (h : ∀ k, f (k + d) = f k) : ∀ s, ∑ i ∈ Finset.range d, f (s + i) = ∑ i ∈ Finset.range d, f i
  | 0 => by simp
  | s + 1 => by
    rw [← sum_from h s]
    have a := Finset.sum_range_succ (fun i => f (s + i)) d
    have b := Finset.sum_range_succ' (fun i => f (s + i)) d
    have e : ∑ i ∈ Finset.range d, f (s + 1 + i) = ∑ i ∈ Finset.range d, f (s + (i + 1)) :=
      Finset.sum_congr rfl fun i _ => by rw [Nat.add_assoc, Nat.add_comm 1]
    rw [e]
    rw [a] at b
    have := h s
    simp only [Nat.add_zero] at b
    omega

theorem sum_whole {f : Nat → ℤ} {d : Nat} (h : ∀ k, f (k + d) = f k) (s : Nat) :
    ∀ q : Nat, ∑ i ∈ Finset.range (d * q), f (s + i) = q * ∑ i ∈ Finset.range d, f i
  | 0 => by simp
  | q + 1 => by
    rw [Nat.mul_add, Nat.mul_one, Finset.sum_range_add, sum_whole h s q]
    have : ∑ i ∈ Finset.range d, f (s + (d * q + i)) = ∑ i ∈ Finset.range d, f i := by
      rw [← sum_from h (s + d * q)]
      exact Finset.sum_congr rfl fun i _ => by rw [Nat.add_assoc]
    rw [this]
    push_cast
    ring

theorem steps_weight (k : Nat) : ((weight (fun y z => z + 16384 - y) k : Nat) : ℤ) = steps k + 16384 := by
  unfold weight steps
  have h1 := Nat.mod_lt (draw (2 * k + 1)) (show 16384 > 0 by norm_num)
  have h2 := Nat.mod_lt (draw (2 * k + 2)) (show 16384 > 0 by norm_num)
  dsimp only
  omega

theorem steps_total {P t : Nat} (h : ∑ i ∈ Finset.range P, weight (fun y z => z + 16384 - y) i = t) :
    ∑ i ∈ Finset.range P, steps i = t - P * 16384 := by
  rw [← h, Nat.cast_sum]
  simp only [steps_weight]
  rw [Finset.sum_add_distrib, Finset.sum_const, Finset.card_range, nsmul_eq_mul]
  ring

theorem steps_sum (s q : Nat) : ∑ i ∈ Finset.range (126990 * q), steps (s + i) = q * -745488 := by
  rw [sum_whole steps_period, steps_total total_steps]
  norm_num

theorem parts_sum (s q j : Nat) (hj : j < 20) :
    ∑ i ∈ Finset.range (126990 * q), (if part (s + i) = j then 1 else 0 : ℤ) = q * tallies.getD j 0 := by
  rw [sum_whole (f := fun i => if part i = j then 1 else 0) (fun k => by simp only [part_period]), ← part_count j hj, Nat.cast_sum]
  simp only [Nat.cast_ite, Nat.cast_one, Nat.cast_zero]

theorem part_iff (k j : Nat) : part k = j ↔ (j : ℚ) / 10 - 1 ≤ (steps k : ℚ) / 16384 ∧ (steps k : ℚ) / 16384 < ((j : ℚ) + 1) / 10 - 1 := by
  have e : part k = j ↔ (j : ℤ) * 32768 ≤ (steps k + 16384) * 20 ∧ (steps k + 16384) * 20 < ((j : ℤ) + 1) * 32768 := by
    have : 0 ≤ steps k + 16384 := by
      unfold steps
      have h1 := Nat.mod_lt (draw (2 * k + 1)) (show 16384 > 0 by norm_num)
      omega
    unfold part
    omega
  rw [e]
  constructor
  · rintro ⟨h1, h2⟩
    have h1 : (j : ℚ) * 32768 ≤ (steps k + 16384) * 20 := by exact_mod_cast h1
    have h2 : ((steps k : ℚ) + 16384) * 20 < ((j : ℚ) + 1) * 32768 := by exact_mod_cast h2
    constructor <;> linarith
  · rintro ⟨h1, h2⟩
    have h1 : (j : ℚ) * 32768 ≤ (steps k + 16384) * 20 := by linarith
    have h2 : ((steps k : ℚ) + 16384) * 20 < ((j : ℚ) + 1) * 32768 := by linarith
    exact ⟨by exact_mod_cast h1, by exact_mod_cast h2⟩

theorem countP_range (p : Nat → Bool) : ∀ n, (((List.range n).countP p : Nat) : ℤ) = ∑ i ∈ Finset.range n, (if p i then 1 else 0 : ℤ)
  | 0 => by simp
  | n + 1 => by
    rw [List.range_succ, List.countP_append, Finset.sum_range_succ, ← countP_range p n, List.countP_singleton]
    push_cast
    rfl

theorem listSum_range (f : Nat → ℚ) : ∀ n, ((List.range n).map f).sum = ∑ i ∈ Finset.range n, f i
  | 0 => by simp
  | n + 1 => by rw [List.range_succ, List.map_append, List.sum_append, Finset.sum_range_succ, ← listSum_range f n]; simp

theorem series_tail (b : Build) (s n : Nat) : ∃ g xs, series b (s + n) (PseudoRandom.new 314) = .ok (g, xs) ∧
    List.Forall₂ Is (xs.drop s) ((List.range n).map fun i => (steps (s + i) : ℚ) / 16384) := by
  have hs := series_spec b (s + n) 0
  refine ⟨_, _, hs, ?_⟩
  rw [List.range_add, List.map_append, List.drop_append_of_le_length (by simp), List.drop_of_length_le (by simp), List.nil_append, List.map_map]
  rw [List.forall₂_map_left_iff, List.forall₂_map_right_iff, List.forall₂_same]
  intro i _
  rw [Function.comp_apply, Nat.zero_add]
  exact noise_steps (s + i)

theorem part_share {n j c : Nat} (s : Nat) (h : ∑ i ∈ Finset.range n, (if part (s + i) = j then 1 else 0 : ℤ) = c) :
    ((List.range n).map fun i => (steps (s + i) : ℚ) / 16384).countP (fun v => (j : ℚ) / 10 - 1 ≤ v ∧ v < ((j : ℚ) + 1) / 10 - 1) = c := by
  have e := countP_range (fun i => decide (part (s + i) = j)) n
  simp only [decide_eq_true_eq] at e
  rw [h, Nat.cast_inj] at e
  rw [List.countP_map, ← e]
  refine List.countP_congr fun i _ => ?_
  rw [Function.comp_apply, decide_eq_true_eq, decide_eq_true_eq, part_iff]

theorem shares (b : Build) {P : Nat} {S : ℤ} {c : Nat → Nat} (s q : Nat) (hP : 0 < P) (hq : 0 < q)
    (h1 : ∑ i ∈ Finset.range (P * q), steps (s + i) = q * S)
    (h2 : ∀ j < 20, ∑ i ∈ Finset.range (P * q), (if part (s + i) = j then 1 else 0 : ℤ) = q * c j) :
    ∃ g xs vs, series b (s + P * q) (PseudoRandom.new 314) = .ok (g, xs) ∧ List.Forall₂ Is (xs.drop s) vs ∧ vs.length = P * q ∧
      vs.sum / vs.length = S / (P * 16384) ∧
      (∀ j : Nat, j < 20 → ((vs.countP fun v => (j : ℚ) / 10 - 1 ≤ v ∧ v < ((j : ℚ) + 1) / 10 - 1) : ℚ) / vs.length = c j / P) := by
  obtain ⟨g, xs, hs, hv⟩ := series_tail b s (P * q)
  have hP' : (0 : ℚ) < P := by exact_mod_cast hP
  have hq' : (0 : ℚ) < q := by exact_mod_cast hq
  refine ⟨g, xs, _, hs, hv, by rw [List.length_map, List.length_range], ?_, ?_⟩
  · rw [listSum_range, List.length_map, List.length_range, ← Finset.sum_div]
    have h := congrArg (Int.cast (R := ℚ)) h1
    rw [Int.cast_sum, Int.cast_mul, Int.cast_natCast] at h
    rw [h, Nat.cast_mul]
    generalize (16384 : ℚ) = m
    rw [div_div, mul_comm m, mul_comm (P : ℚ), mul_assoc, mul_div_mul_left _ _ hq'.ne']
  · intro j hj
    rw [List.length_map, List.length_range, part_share s (c := q * c j) (by rw [h2 j hj, Nat.cast_mul]), Nat.cast_mul, Nat.cast_mul,
      mul_comm (P : ℚ), mul_div_mul_left _ _ hq'.ne']

/-! ## C82 -/

/-- the share of a triangular distribution on (-1, 1) that lies in the `j`th of twenty equal parts -/
def Spec.triangular (j : Nat) : ℚ := (2 * min j (19 - j) + 1 : Nat) / 200

/-- the shares are those of the density 1 - |x|: its integral from -1 to `x` is (1 + x)²/2 for `x` up to 0 and 1 - (1 - x)²/2 from there -/
theorem triangular_spec (j : Nat) (hj : j < 20) :
    let F : ℚ → ℚ := fun x => if x ≤ 0 then (1 + x) ^ 2 / 2 else 1 - (1 - x) ^ 2 / 2
    triangular j = F (((j : ℚ) + 1) / 10 - 1) - F ((j : ℚ) / 10 - 1) := by
  interval_cases j <;> norm_num [triangular]

/-- **C82**, the period: the noise values repeat with distance `d` throughout exactly when `d` is a multiple of 126990. -/
theorem C82_period (b : Build) (d : Nat) :
    (∀ n g xs, series b n (PseudoRandom.new 314) = .ok (g, xs) → ∀ k, k + d < n → xs[k + d]? = xs[k]?) ↔ 126990 ∣ d := by
  rw [← steps_period_iff]
  have hs := fun n => series_spec b n 0
  rw [show ({ sequence := draw (2 * 0) } : PseudoRandom) = PseudoRandom.new 314 from rfl] at hs
  constructor
  · intro h k
    have := h (k + d + 1) _ _ (hs _) k (by omega)
    rw [List.getElem?_map, List.getElem?_map, List.getElem?_range (by omega), List.getElem?_range (by omega)] at this
    simp only [Option.map_some, Option.some.injEq, Nat.zero_add] at this
    exact (noise_eq_iff _ _).1 this
  · intro h n g xs e k hk
    rw [hs] at e
    cases e
    rw [List.getElem?_map, List.getElem?_map, List.getElem?_range (by omega), List.getElem?_range (by omega)]
    simp only [Option.map_some, Option.some.injEq, Nat.zero_add]
    exact (noise_eq_iff _ _).2 (h k)

/-- **C82**, the distribution: over any stretch of `q` whole periods, wherever it starts, the noise values are numbers whose mean is
-745488 / (126990 · 16384), less than 0.0004 below zero, and the share of them in each tenth-wide part of [-1, 1) is within 0.0016 of the
share of a triangular distribution. -/
theorem C82_triangular (b : Build) (s q : Nat) (hq : 0 < q) :
    ∃ g xs vs, series b (s + 126990 * q) (PseudoRandom.new 314) = .ok (g, xs) ∧ List.Forall₂ Is (xs.drop s) vs ∧ vs.length = 126990 * q ∧
      vs.sum / vs.length = -745488 / (126990 * 16384) ∧
      (∀ j : Nat, j < 20 → |((vs.countP fun v => (j : ℚ) / 10 - 1 ≤ v ∧ v < ((j : ℚ) + 1) / 10 - 1) : ℚ) / vs.length - triangular j| ≤ 16 / 10000) := by
  obtain ⟨g, xs, vs, h1, h2, h3, h4, h5⟩ := shares b s q (by norm_num) hq (steps_sum s q) (parts_sum s q)
  refine ⟨g, xs, vs, h1, h2, h3, ?_, fun j hj => ?_⟩
  · rw [h4]; norm_num
  · rw [h5 j hj, abs_le]
    interval_cases j <;> norm_num [tallies, triangular]

/-- the first values are not those of a shorter period: 8760, 6811 at the start, and other values half a period on -/
example : steps 0 = 8760 ∧ steps 1 = 6811 ∧ steps 63495 ≠ 8760 := by
  refine ⟨by decide, by decide, ?_⟩
  rw [steps_closed]
  decide +kernel

example : triangular 0 = 1 / 200 ∧ triangular 9 = 19 / 200 ∧ triangular 10 = 19 / 200 := by norm_num [triangular]

end Adhoc
