import Verif.Model.Tools
import Verif.Props.Noise
import Mathlib.RingTheory.RootsOfUnity.PrimitiveRoots
import Mathlib.FieldTheory.Finite.Basic

/-! # C101: the random generator with other seeds -/

namespace Adhoc
open Spec F32 NoiseDistribution

namespace Spec

/-- the first number that is drawn with a seed, in 64-bit arithmetic -/
def first (seed : Nat) : Nat := (1000003 * seed + 314159) % 2 ^ 64 % 507961

/-- the numbers from `w` on -/
def lcg (w : Nat) : Nat → Nat
  | 0 => w
  | k + 1 => (1000003 * lcg w k + 314159) % 507961

/-- the seeds that a debug build accepts -/
def Fits (b : Build) (seed : Nat) : Prop := b = .debug → 1000003 * seed + 314159 < 2 ^ 64

/-- the `k`th uniform value: one of the 1024 numbers -1, -1 + 1/512, ..., 1 - 1/512 -/
def evenly (w k : Nat) : ℚ := (lcg w k % 1024 : Nat) / 512 - 1

/-- the `k`th triangular value, from two numbers -/
def tent (w k : Nat) : ℚ := ((lcg w (2 * k + 1) % 16384 : Nat) - (lcg w (2 * k) % 16384 : Nat)) / 16384

end Spec

/-! ## every seed is as good as one below 507961 -/

/-- the seed below 507961 with the same numbers -/
def small (w : Nat) : Nat := (w + 193802) * 254156 % 507961

theorem rand_any {b : Build} {seed : Nat} (h : Fits b seed) : (PseudoRandom.new seed).rand b = .ok (⟨first seed⟩, first seed) := by
  unfold PseudoRandom.rand PseudoRandom.new first
  dsimp only
  cases b with
  | debug =>
    have h := h rfl
    have h1 : (1000003 * (seed : ℤ)) = ((1000003 * seed : ℕ) : ℤ) := by push_cast; rfl
    have h2 : (((1000003 * seed : ℕ) : ℤ) + 314159) = ((1000003 * seed + 314159 : ℕ) : ℤ) := by push_cast; rfl
    rw [h1, chkU_nat (by omega), bind_ok, h2, chkU_nat (by omega), bind_ok, Nat.mod_eq_of_lt h]
    rfl
  | release =>
    have hc : ∀ x : Nat, chkU .release 64 (x : ℤ) = .ok (x % 2 ^ 64) := by
      intro x
      unfold chkU
      split
      · rw [Int.toNat_natCast, Nat.mod_eq_of_lt (by omega)]
      · dsimp only
        congr 1
    have h1 : (1000003 * (seed : ℤ)) = ((1000003 * seed : ℕ) : ℤ) := by push_cast; rfl
    have h2 : (((1000003 * seed % 2 ^ 64 : ℕ) : ℤ) + 314159) = ((1000003 * seed % 2 ^ 64 + 314159 : ℕ) : ℤ) := by push_cast; rfl
    rw [h1, hc, bind_ok, h2, hc, bind_ok]
    rw [show (1000003 * seed % 2 ^ 64 + 314159) % 2 ^ 64 = (1000003 * seed + 314159) % 2 ^ 64 by omega]
    rfl

theorem rand_refused {seed : Nat} (h : ¬ Fits .debug seed) : (PseudoRandom.new seed).rand .debug = .error .overflow := by
  have h : 2 ^ 64 ≤ 1000003 * seed + 314159 := by
    by_contra hc
    exact h fun _ => by omega
  unfold PseudoRandom.rand PseudoRandom.new
  dsimp only
  have h1 : (1000003 * (seed : ℤ)) = ((1000003 * seed : ℕ) : ℤ) := by push_cast; rfl
  rcases Nat.lt_or_ge (1000003 * seed) (2 ^ 64) with h2 | h2
  · rw [h1, chkU_nat h2, bind_ok]
    have : chkU .debug 64 (((1000003 * seed : ℕ) : ℤ) + 314159) = .error .overflow := by
      unfold chkU
      rw [if_neg (by omega)]
    rw [this]
    rfl
  · have : chkU .debug 64 (1000003 * (seed : ℤ)) = .error .overflow := by
      unfold chkU
      rw [if_neg (by omega)]
    rw [this]
    rfl

theorem first_lt (seed : Nat) : first seed < 507961 := Nat.mod_lt _ (by norm_num)

theorem small_lt (w : Nat) : small w < 507961 := Nat.mod_lt _ (by norm_num)

theorem small_next {w : Nat} (h : w < 507961) : (1000003 * small w + 314159) % 507961 = w := by
  unfold small
  rw [Nat.add_mod, Nat.mul_mod, Nat.mod_mod, ← Nat.mul_mod]
  omega

theorem rand_small {b : Build} {seed : Nat} (h : Fits b seed) : (PseudoRandom.new seed).rand b = (PseudoRandom.new (small (first seed))).rand b := by
  rw [rand_any h]
  obtain ⟨r, -, hx, e⟩ := rand_ok (b := b) (s := PseudoRandom.new (small (first seed))) (small_lt _)
  rw [e, hx]
  show _ = Except.ok (({ sequence := (1000003 * small (first seed) + 314159) % 507961 } : PseudoRandom), (1000003 * small (first seed) + 314159) % 507961)
  rw [small_next (first_lt seed)]

theorem uniform_small {b : Build} {seed : Nat} (h : Fits b seed) : (PseudoRandom.new seed).uniform b = (PseudoRandom.new (small (first seed))).uniform b := by
  unfold PseudoRandom.uniform
  rw [rand_small h]

theorem triangle_small {b : Build} {seed : Nat} (h : Fits b seed) : (PseudoRandom.new seed).triangle b = (PseudoRandom.new (small (first seed))).triangle b := by
  unfold PseudoRandom.triangle
  rw [rand_small h]

theorem fill_congr {next : PseudoRandom → R (PseudoRandom × F32)} {s t : PseudoRandom} (h : next s = next t) (n : Nat) : fill next n s = fill next n t := by
  cases n with
  | zero => rfl
  | succ n => rw [fill, fill, h]

/-! ## the values -/

theorem uniform_value {m : Nat} (hm : m < 1024) : Is (ofInt (m : ℤ) / ofInt 1024 * ofInt 2 - ofInt 1) ((m : ℚ) / 512 - 1) := by
  have hq : (m : ℚ) ≤ 1023 := by exact_mod_cast Nat.le_of_lt_succ hm
  have h0 : (0 : ℚ) ≤ m := Nat.cast_nonneg m
  have g : ∀ (k : ℤ) (e : ℤ), |k| ≤ 1024 → -149 ≤ e → Grid ((k : ℚ) * 2 ^ e) := fun k e hk he => grid_of (by omega) (by omega)
  have i1 : Is (ofInt (m : ℤ) / ofInt 1024) ((m : ℚ) / 1024) := by
    have := Is.div (is_int (n := (m : ℤ)) (by rw [abs_of_nonneg (by omega)]; omega)) (is_int (n := 1024) (by norm_num)) (by norm_num) rep_one (by
      push_cast
      rw [abs_of_nonneg (by positivity), div_le_one (by norm_num)]
      linarith)
    have hg := g m (-10) (by rw [abs_of_nonneg (by omega)]; omega) (by norm_num)
    rw [show ((m : ℤ) : ℚ) * 2 ^ (-10 : ℤ) = (m : ℚ) / 1024 by rw [zpow_neg]; push_cast; norm_num; ring] at hg
    push_cast at this
    rwa [roundQ_grid hg] at this
  have i2 : Is (ofInt (m : ℤ) / ofInt 1024 * ofInt 2) ((m : ℚ) / 512) := by
    have := i1.mul (is_int (n := 2) (by norm_num)) (B := 2) (by simpa using rep_int (n := 2) (by norm_num)) (by
      push_cast
      rw [abs_of_nonneg (by positivity)]
      linarith)
    have hg := g m (-9) (by rw [abs_of_nonneg (by omega)]; omega) (by norm_num)
    rw [show ((m : ℤ) : ℚ) * 2 ^ (-9 : ℤ) = (m : ℚ) / 512 by rw [zpow_neg]; push_cast; norm_num; ring] at hg
    push_cast at this
    rw [show (m : ℚ) / 1024 * 2 = (m : ℚ) / 512 by ring] at this
    rwa [roundQ_grid hg] at this
  have i3 := i2.sub (is_int (n := 1) (by norm_num)) rep_one (by
    push_cast
    rw [abs_le]
    constructor <;> linarith)
  have hg := g (m - 512) (-9) (by rw [abs_le]; omega) (by norm_num)
  rw [show ((m - 512 : ℤ) : ℚ) * 2 ^ (-9 : ℤ) = (m : ℚ) / 512 - 1 by rw [zpow_neg]; push_cast; norm_num; ring] at hg
  push_cast at i3
  rwa [roundQ_grid hg] at i3

theorem uniform_ok {b : Build} {s : PseudoRandom} (h : s.sequence < 507961) :
    ∃ x, s.uniform b = .ok (⟨(1000003 * s.sequence + 314159) % 507961⟩, x) ∧
      Is x (((1000003 * s.sequence + 314159) % 507961 % 1024 : Nat) / 512 - 1) := by
  obtain ⟨r, -, hx, e⟩ := rand_ok (b := b) h
  rw [← hx]
  refine ⟨_, by unfold PseudoRandom.uniform; rw [e, bind_ok]; rfl, ?_⟩
  have hm := Nat.mod_lt r (show 0 < 1024 by norm_num)
  rw [show (r &&& 1023 : Nat) = r % 1024 by rw [show (1023 : ℕ) = 2 ^ 10 - 1 by norm_num, Nat.and_two_pow_sub_one_eq_mod]]
  exact uniform_value hm

theorem lcg_zero (w : Nat) : lcg w 0 = w := rfl

theorem lcg_next (w k : Nat) : lcg w (k + 1) = (1000003 * lcg w k + 314159) % 507961 := rfl

theorem lcg_succ (w k : Nat) : lcg w (k + 1) = lcg ((1000003 * w + 314159) % 507961) k := by
  induction k with
  | zero => rw [lcg_next, lcg_zero, lcg_zero]
  | succ k ih => rw [lcg_next, ih, ← lcg_next]

theorem lcg_lt {w : Nat} (h : w < 507961) : ∀ k, lcg w k < 507961
  | 0 => h
  | _ + 1 => Nat.mod_lt _ (by norm_num)

theorem fill_uniform (b : Build) : ∀ (n : Nat) {s : Nat} (_ : s < 507961), ∃ xs, fill (PseudoRandom.uniform b) n ⟨s⟩ = .ok xs ∧ xs.length = n ∧
    ∀ k (h : k < xs.length), Is xs[k] (evenly ((1000003 * s + 314159) % 507961) k)
  | 0, _, _ => ⟨[], rfl, rfl, fun _ h => by simp at h⟩
  | n + 1, s, hs => by
    obtain ⟨x, e, hx⟩ := uniform_ok (b := b) (s := ⟨s⟩) hs
    obtain ⟨xs, e', hl, h⟩ := fill_uniform b n (s := (1000003 * s + 314159) % 507961) (Nat.mod_lt _ (by norm_num))
    refine ⟨x :: xs, ?_, by simp [hl], ?_⟩
    · rw [fill, e, bind_ok]
      dsimp only
      rw [e', bind_ok]
      rfl
    · intro k hk
      cases k with
      | zero => exact hx
      | succ k =>
        have := h k (by simpa using hk)
        rw [evenly, lcg_succ]
        exact this

theorem fill_triangle (b : Build) : ∀ (n : Nat) {s : Nat} (_ : s < 507961), ∃ xs, fill (PseudoRandom.triangle b) n ⟨s⟩ = .ok xs ∧ xs.length = n ∧
    ∀ k (h : k < xs.length), Is xs[k] (tent ((1000003 * s + 314159) % 507961) k)
  | 0, _, _ => ⟨[], rfl, rfl, fun _ h => by simp at h⟩
  | n + 1, s, hs => by
    obtain ⟨r1, r, x, m, e, hr, -, hx, h1, h2, h3⟩ := triangle_ok (b := b) (s := ⟨s⟩) hs
    obtain ⟨xs, e', hl, h⟩ := fill_triangle b n (s := r) hr
    dsimp only at h1
    refine ⟨x :: xs, ?_, by simp [hl], ?_⟩
    · rw [fill, e, bind_ok]
      dsimp only
      rw [e', bind_ok]
      rfl
    · intro k hk
      cases k with
      | zero =>
        rw [h3] at hx
        rw [tent, ← h1]
        rw [show 2 * 0 + 1 = 0 + 1 by rfl, lcg_next, show lcg r1 0 = r1 from rfl, ← h2]
        push_cast at hx
        exact hx
      | succ k =>
        have := h k (by simpa using hk)
        have e1 : lcg r1 (2 * (k + 1) + 1) = lcg ((1000003 * r + 314159) % 507961) (2 * k + 1) := by
          rw [show 2 * (k + 1) + 1 = 2 * k + 1 + 1 + 1 by ring, lcg_succ, ← h2, lcg_succ]
        have e2 : lcg r1 (2 * (k + 1)) = lcg ((1000003 * r + 314159) % 507961) (2 * k) := by
          rw [show 2 * (k + 1) = 2 * k + 1 + 1 by ring, lcg_succ, ← h2, lcg_succ]
        rw [← h1, tent, e1, e2]
        exact this

/-! ## the period -/

theorem prime_modulus : Nat.Prime 507961 := by norm_num

instance : Fact (Nat.Prime 507961) := ⟨prime_modulus⟩

theorem pow_cast (a n : Nat) : ((a : ZMod 507961)) ^ n = ((a ^ n % 507961 : Nat) : ZMod 507961) := by
  rw [ZMod.natCast_mod, Nat.cast_pow]

theorem cast_ne {x y : Nat} (hx : x < 507961) (hy : y < 507961) (h : x ≠ y) : (x : ZMod 507961) ≠ (y : ZMod 507961) := by
  intro e
  rw [ZMod.natCast_eq_natCast_iff', Nat.mod_eq_of_lt hx, Nat.mod_eq_of_lt hy] at e
  exact h e

theorem primes_dvd' {p : Nat} (hp : p.Prime) (h : p ∣ 253980) : p = 2 ∨ p = 3 ∨ p = 5 ∨ p = 17 ∨ p = 83 := by
  rw [show 253980 = 2 * 126990 by norm_num, hp.dvd_mul] at h
  rcases h with h | h
  · exact .inl ((Nat.prime_dvd_prime_iff_eq hp Nat.prime_two).1 h)
  · exact primes_dvd hp h

theorem primitive : IsPrimitiveRoot ((1000003 : Nat) : ZMod 507961) 253980 := by
  have : orderOf ((1000003 : Nat) : ZMod 507961) = 253980 := by
    refine orderOf_eq_of_pow_and_pow_div_prime (by norm_num) ?_ ?_
    · rw [pow_cast, show 1000003 ^ 253980 % 507961 = 1 by decide +kernel, Nat.cast_one]
    · intro p hp hd
      rw [pow_cast, ← Nat.cast_one]
      refine cast_ne (Nat.mod_lt _ (by norm_num)) (by norm_num) ?_
      rcases primes_dvd' hp hd with rfl | rfl | rfl | rfl | rfl <;> decide +kernel
  rw [← this]
  exact IsPrimitiveRoot.orderOf _

/-- every number but 0 is a power of 1000003 or seven times one -/
theorem orbit {u : ZMod 507961} (hu : u ≠ 0) : ∃ t, u = ((1000003 : Nat) : ZMod 507961) ^ t ∨ u = ((1000003 : Nat) : ZMod 507961) ^ t * ((7 : Nat) : ZMod 507961) := by
  have h7 : ((7 : Nat) : ZMod 507961) ≠ 0 := by
    rw [← Nat.cast_zero]
    exact cast_ne (by norm_num) (by norm_num) (by norm_num)
  have hsq : ∀ v : ZMod 507961, v ≠ 0 → v ^ 253980 = 1 ∨ v ^ 253980 = -1 := by
    intro v hv
    have := ZMod.pow_card_sub_one_eq_one hv
    rw [show 507961 - 1 = 253980 * 2 by norm_num, pow_mul] at this
    rw [sq] at this
    exact mul_self_eq_one_iff.1 this
  have hn7 : ((7 : Nat) : ZMod 507961) ^ 253980 = -1 := by
    refine (hsq _ h7).resolve_left ?_
    rw [pow_cast, ← Nat.cast_one]
    exact cast_ne (Nat.mod_lt _ (by norm_num)) (by norm_num) (by decide +kernel)
  have : NeZero 253980 := ⟨by norm_num⟩
  rcases hsq u hu with h | h
  · obtain ⟨t, -, ht⟩ := primitive.eq_pow_of_pow_eq_one h
    exact ⟨t, .inl ht.symm⟩
  · obtain ⟨t, -, ht⟩ := primitive.eq_pow_of_pow_eq_one (ξ := u * ((7 : Nat) : ZMod 507961)⁻¹) (by rw [mul_pow, inv_pow, h, hn7]; simp)
    exact ⟨t, .inr (by rw [ht, mul_assoc, inv_mul_cancel₀ h7, mul_one])⟩

theorem lcg_closed (w k : Nat) (h : w < 507961) : lcg w k = (1000003 ^ k * (w + 52276) + 455685) % 507961 := by
  induction k with
  | zero => rw [lcg_zero]; omega
  | succ k ih =>
    rw [lcg_next, ih, pow_succ]
    generalize 1000003 ^ k = p
    have h1 : (1000003 * ((p * (w + 52276) + 455685) % 507961) + 314159) % 507961 = (1000003 * (p * (w + 52276) + 455685) + 314159) % 507961 := by
      rw [Nat.add_mod, Nat.mul_mod, Nat.mod_mod, ← Nat.mul_mod, ← Nat.add_mod]
    rw [h1]
    have : p * 1000003 * (w + 52276) = 1000003 * (p * (w + 52276)) := by ring
    rw [this]
    omega

theorem lcg_add (w i : Nat) : ∀ j, lcg w (i + j) = lcg (lcg w i) j
  | 0 => rfl
  | j + 1 => by rw [← Nat.add_assoc, lcg_next, lcg_add w i j, ← lcg_next]

theorem lcg_period {w : Nat} (h : w < 507961) (k : Nat) : lcg w (k + 253980) = lcg w k := by
  have h1 : 1000003 ^ 253980 % 507961 = 1 := by decide +kernel
  rw [lcg_closed _ _ h, lcg_closed _ _ h, pow_add]
  generalize 1000003 ^ k = p
  generalize 1000003 ^ 253980 = e at h1
  rw [Nat.add_mod (p * e * (w + 52276)), Nat.mul_mod (p * e), Nat.mul_mod p, h1]
  simp [Nat.add_mod, Nat.mul_mod]

/-- the fixed point -/
theorem lcg_fixed (k : Nat) : lcg 455685 k = 455685 := by
  induction k with
  | zero => rfl
  | succ k ih => rw [lcg_next, ih]

/-- every other number is reached from one of two -/
theorem reached {w : Nat} (h : w < 507961) (hw : w ≠ 455685) : ∃ r t, (r = 455686 ∨ r = 455692) ∧ w = lcg r t := by
  have hu : ((w + 52276 : Nat) : ZMod 507961) ≠ 0 := by
    intro e
    rw [ZMod.natCast_eq_zero_iff] at e
    omega
  have back : ∀ t d, d < 52276 → ((w + 52276 : Nat) : ZMod 507961) = ((1000003 : Nat) : ZMod 507961) ^ t * ((d : Nat) : ZMod 507961) → w = lcg (455685 + d) t := by
    intro t d hd e
    rw [← Nat.cast_pow, ← Nat.cast_mul, ZMod.natCast_eq_natCast_iff'] at e
    rw [lcg_closed _ _ (by omega), show 455685 + d + 52276 = d + 507961 by ring, Nat.mul_add]
    generalize 1000003 ^ t * d = z at *
    generalize 1000003 ^ t = y at *
    omega
  obtain ⟨t, e | e⟩ := orbit hu
  · exact ⟨_, t, .inl rfl, back t 1 (by norm_num) (by rw [e, Nat.cast_one, mul_one])⟩
  · exact ⟨_, t, .inr rfl, back t 7 (by norm_num) e⟩

/-- every other number is reached from one of four in an even number of steps -/
theorem reached_even {w : Nat} (h : w < 507961) (hw : w ≠ 455685) :
    ∃ r s, (r = 455686 ∨ r = 455692 ∨ r = lcg 455686 1 ∨ r = lcg 455692 1) ∧ w = lcg r (2 * s) := by
  obtain ⟨r, t, hr, rfl⟩ := reached h hw
  rcases Nat.even_or_odd' t with ⟨s, rfl | rfl⟩
  · exact ⟨r, s, by tauto, rfl⟩
  · refine ⟨lcg r 1, s, ?_, by rw [← lcg_add, Nat.add_comm]⟩
    rcases hr with rfl | rfl <;> simp

/-- a sequence with period `P` has the period `d` only for multiples of `P` if none of the quotients of `P` by a prime is a period of what is
`s` places before -/
theorem only_multiples {f g : Nat → ℤ} {P d s : Nat} (hP : 0 < P) (hg : ∀ k, g (k + P) = g k) (hf : ∀ k, f k = g (k + s))
    (hq : ∀ p, p.Prime → p ∣ P → g (0 + P / p) ≠ g 0) (h : ∀ k, f (k + d) = f k) : P ∣ d := by
  have hfP : ∀ k, f (k + P) = f k := fun k => by rw [hf, hf, Nat.add_right_comm, hg]
  have hgcd := period_gcd h hfP hP
  by_contra hd
  obtain ⟨p, hp, hpn, e, he⟩ := proper hP (Nat.gcd_dvd_right d P) (fun h => hd (h ▸ Nat.gcd_dvd_left d P))
  refine hq p hp hpn ?_
  have h1 : f (P * s - s + P / p) = f (P * s - s) := by rw [he, Nat.mul_comm (d.gcd P), periods hgcd]
  have hle : s ≤ P * s := Nat.le_mul_of_pos_left _ hP
  rw [hf, hf, show P * s - s + P / p + s = P / p + s * P by rw [Nat.mul_comm s]; omega, show P * s - s + s = 0 + s * P by rw [Nat.mul_comm s]; omega,
    periods hg, periods hg] at h1
  rw [Nat.zero_add]
  exact h1

/-- the residues that make the values -/
def flatSteps (w k : Nat) : ℤ := (lcg w k % 1024 : Nat)

def tentSteps (w k : Nat) : ℤ := (lcg w (2 * k + 1) % 16384 : Nat) - (lcg w (2 * k) % 16384 : Nat)

theorem flatSteps_period {w : Nat} (h : w < 507961) (k : Nat) : flatSteps w (k + 253980) = flatSteps w k := by
  rw [flatSteps, lcg_period h, ← flatSteps]

theorem tentSteps_period {w : Nat} (h : w < 507961) (k : Nat) : tentSteps w (k + 126990) = tentSteps w k := by
  rw [tentSteps, show 2 * (k + 126990) + 1 = 2 * k + 1 + 253980 by ring, show 2 * (k + 126990) = 2 * k + 253980 by ring, lcg_period h, lcg_period h, ← tentSteps]

theorem flatSteps_iff {w : Nat} (h : w < 507961) (hw : w ≠ 455685) (d : Nat) : (∀ k, flatSteps w (k + d) = flatSteps w k) ↔ 253980 ∣ d := by
  constructor
  · intro hd
    obtain ⟨r, t, hr, rfl⟩ := reached h hw
    have hr' : r < 507961 := by omega
    refine only_multiples (g := flatSteps r) (s := t) (by norm_num) (flatSteps_period hr') (fun k => by rw [flatSteps, ← lcg_add, Nat.add_comm t, ← flatSteps]) ?_ hd
    intro p hp hpd
    unfold flatSteps
    rw [lcg_closed _ _ hr', lcg_closed _ _ hr']
    rcases hr with rfl | rfl <;> rcases primes_dvd' hp hpd with rfl | rfl | rfl | rfl | rfl <;> decide +kernel
  · rintro ⟨a, rfl⟩ k
    rw [Nat.mul_comm, periods (flatSteps_period h)]

theorem tentSteps_iff {w : Nat} (h : w < 507961) (hw : w ≠ 455685) (d : Nat) : (∀ k, tentSteps w (k + d) = tentSteps w k) ↔ 126990 ∣ d := by
  constructor
  · intro hd
    obtain ⟨r, s, hr, rfl⟩ := reached_even h hw
    have hr' : r < 507961 := by
      rcases hr with rfl | rfl | rfl | rfl
      · norm_num
      · norm_num
      · exact lcg_lt (by norm_num) _
      · exact lcg_lt (by norm_num) _
    refine only_multiples (g := tentSteps r) (s := s) (by norm_num) (tentSteps_period hr') (fun k => by
      rw [tentSteps, ← lcg_add, ← lcg_add, show 2 * s + (2 * k + 1) = 2 * (k + s) + 1 by ring, show 2 * s + 2 * k = 2 * (k + s) by ring, ← tentSteps]) ?_ hd
    intro p hp hpd
    unfold tentSteps
    rw [lcg_closed _ _ hr', lcg_closed _ _ hr', lcg_closed _ _ hr', lcg_closed _ _ hr']
    rcases hr with rfl | rfl | rfl | rfl <;> rcases primes_dvd hp hpd with rfl | rfl | rfl | rfl | rfl <;> decide +kernel
  · rintro ⟨a, rfl⟩ k
    rw [Nat.mul_comm, periods (tentSteps_period h)]

/-! ## C101 -/

theorem getElem?_is {xs : List F32} {f : Nat → ℚ} (h : ∀ k (hk : k < xs.length), Is xs[k] (f k)) {i j : Nat} (hi : i < xs.length) (hj : j < xs.length) :
    xs[i]? = xs[j]? ↔ f i = f j := by
  have h1 := h i hi
  have h2 := h j hj
  rw [List.getElem?_eq_getElem hi, List.getElem?_eq_getElem hj, Option.some.injEq]
  constructor
  · intro e
    rw [e] at h1
    exact h1.unique h2
  · intro e
    rw [e] at h1
    exact h1.eq h2

/-- C101, the true part: for every seed that fits, and for every seed in a release build, every number of values is drawn without panic, and
which values they are. The uniform ones lie in [-1, 1) and the triangular ones in (-1, 1). -/
theorem C101_values_partial (b : Build) (seed n : Nat) (h : Fits b seed) :
    (∃ xs, fill (PseudoRandom.uniform b) n (PseudoRandom.new seed) = .ok xs ∧ xs.length = n ∧
      ∀ k (hk : k < xs.length), Is xs[k] (evenly (first seed) k) ∧ -1 ≤ evenly (first seed) k ∧ evenly (first seed) k < 1) ∧
    (∃ xs, fill (PseudoRandom.triangle b) n (PseudoRandom.new seed) = .ok xs ∧ xs.length = n ∧
      ∀ k (hk : k < xs.length), Is xs[k] (tent (first seed) k) ∧ -1 < tent (first seed) k ∧ tent (first seed) k < 1) := by
  constructor
  · rw [fill_congr (uniform_small h)]
    obtain ⟨xs, e, hl, hx⟩ := fill_uniform b n (small_lt (first seed))
    rw [small_next (first_lt seed)] at hx
    refine ⟨xs, e, hl, fun k hk => ⟨hx k hk, ?_⟩⟩
    unfold evenly
    have := Nat.mod_lt (lcg (first seed) k) (show 0 < 1024 by norm_num)
    generalize lcg (first seed) k % 1024 = m at *
    have h1 : (m : ℚ) < 1024 := by exact_mod_cast this
    have h0 : (0 : ℚ) ≤ m := Nat.cast_nonneg m
    constructor <;> linarith
  · rw [fill_congr (triangle_small h)]
    obtain ⟨xs, e, hl, hx⟩ := fill_triangle b n (small_lt (first seed))
    rw [small_next (first_lt seed)] at hx
    refine ⟨xs, e, hl, fun k hk => ⟨hx k hk, ?_⟩⟩
    unfold tent
    have h1 := Nat.mod_lt (lcg (first seed) (2 * k + 1)) (show 0 < 16384 by norm_num)
    have h2 := Nat.mod_lt (lcg (first seed) (2 * k)) (show 0 < 16384 by norm_num)
    generalize lcg (first seed) (2 * k + 1) % 16384 = m1 at *
    generalize lcg (first seed) (2 * k) % 16384 = m2 at *
    have h1 : (m1 : ℚ) < 16384 := by exact_mod_cast h1
    have h2 : (m2 : ℚ) < 16384 := by exact_mod_cast h2
    have h3 : (0 : ℚ) ≤ m1 := Nat.cast_nonneg m1
    have h4 : (0 : ℚ) ≤ m2 := Nat.cast_nonneg m2
    constructor <;> linarith

/-- C101, the true part: with any other seed a debug build panics at the first value. -/
theorem C101_refused_partial (seed n : Nat) (h : ¬ Fits .debug seed) :
    fill (PseudoRandom.uniform .debug) (n + 1) (PseudoRandom.new seed) = .error .overflow ∧
    fill (PseudoRandom.triangle .debug) (n + 1) (PseudoRandom.new seed) = .error .overflow := by
  constructor
  · rw [fill, PseudoRandom.uniform, rand_refused h]; rfl
  · rw [fill, PseudoRandom.triangle, rand_refused h]; rfl

/-- C101, the true part: a seed is stuck exactly when its first number is 455685. All uniform values are then -507/512 and all triangular ones 0;
with any other seed the uniform values repeat throughout with distance `d` exactly for the multiples of 253980, and the triangular ones
exactly for those of 126990. -/
theorem C101_period_partial (b : Build) (seed : Nat) (h : Fits b seed) :
    (first seed = 455685 → ∀ n, fill (PseudoRandom.uniform b) n (PseudoRandom.new seed) = .ok (List.replicate n (ofRat (-507 / 512))) ∧
      fill (PseudoRandom.triangle b) n (PseudoRandom.new seed) = .ok (List.replicate n (ofInt 0))) ∧
    (first seed ≠ 455685 → ∀ d,
      ((∀ n xs, fill (PseudoRandom.uniform b) n (PseudoRandom.new seed) = .ok xs → ∀ k, k + d < n → xs[k + d]? = xs[k]?) ↔ 253980 ∣ d) ∧
      ((∀ n xs, fill (PseudoRandom.triangle b) n (PseudoRandom.new seed) = .ok xs → ∀ k, k + d < n → xs[k + d]? = xs[k]?) ↔ 126990 ∣ d)) := by
  constructor
  · intro hf n
    obtain ⟨⟨xs, e1, l1, h1⟩, ys, e2, l2, h2⟩ := C101_values_partial b seed n h
    rw [hf] at h1 h2
    rw [e1, e2]
    refine ⟨congrArg _ ?_, congrArg _ ?_⟩
    · refine List.ext_getElem (by simp [l1]) fun k hk hk' => ?_
      rw [List.getElem_replicate]
      have i := (h1 k hk).1
      rw [evenly, lcg_fixed] at i
      have : Is (ofRat (-507 / 512)) (-507 / 512) :=
        ⟨(grid_half (n := -507) (e := -9) (by norm_num) (by norm_num) (by rw [zpow_neg]; norm_num)).rep (by norm_num [abs_div]), ofRat_rep _⟩
      exact i.eq (by convert this using 1; norm_num)
    · refine List.ext_getElem (by simp [l2]) fun k hk hk' => ?_
      rw [List.getElem_replicate]
      have i := (h2 k hk).1
      rw [tent, lcg_fixed, lcg_fixed] at i
      exact i.eq (by simpa using is_int (n := 0) (by norm_num))
  · intro hf d
    constructor
    · rw [← flatSteps_iff (first_lt seed) hf]
      have key : ∀ i j, evenly (first seed) i = evenly (first seed) j ↔ flatSteps (first seed) i = flatSteps (first seed) j := by
        intro i j
        unfold evenly flatSteps
        constructor
        · intro e
          have : ((lcg (first seed) i % 1024 : Nat) : ℚ) = (lcg (first seed) j % 1024 : Nat) := by linarith
          exact_mod_cast this
        · intro e
          have : lcg (first seed) i % 1024 = lcg (first seed) j % 1024 := by exact_mod_cast e
          rw [this]
      constructor
      · intro hd k
        obtain ⟨⟨xs, e, l, hx⟩, -⟩ := C101_values_partial b seed (k + d + 1) h
        have := hd _ xs e k (by omega)
        rw [← key]
        exact (getElem?_is (fun k hk => (hx k hk).1) (by omega) (by omega)).1 this
      · intro hd n xs e k hk
        obtain ⟨⟨ys, e', l, hx⟩, -⟩ := C101_values_partial b seed n h
        rw [e] at e'
        cases e'
        exact (getElem?_is (fun k hk => (hx k hk).1) (by omega) (by omega)).2 ((key _ _).2 (hd k))
    · rw [← tentSteps_iff (first_lt seed) hf]
      have key : ∀ i j, tent (first seed) i = tent (first seed) j ↔ tentSteps (first seed) i = tentSteps (first seed) j := by
        have hc : ∀ i, tent (first seed) i = (tentSteps (first seed) i : ℚ) / 16384 := by
          intro i
          unfold tent tentSteps
          push_cast
          rfl
        intro i j
        rw [hc, hc]
        constructor
        · intro e
          have : ((tentSteps (first seed) i : ℤ) : ℚ) = (tentSteps (first seed) j : ℤ) := by linarith
          exact_mod_cast this
        · intro e
          rw [e]
      constructor
      · intro hd k
        obtain ⟨-, xs, e, l, hx⟩ := C101_values_partial b seed (k + d + 1) h
        have := hd _ xs e k (by omega)
        rw [← key]
        exact (getElem?_is (fun k hk => (hx k hk).1) (by omega) (by omega)).1 this
      · intro hd n xs e k hk
        obtain ⟨-, ys, e', l, hx⟩ := C101_values_partial b seed n h
        rw [e] at e'
        cases e'
        exact (getElem?_is (fun k hk => (hx k hk).1) (by omega) (by omega)).2 ((key _ _).2 (hd k))

/-- C101 is false: with the seed 455685 all triangular values are 0, in both builds, and with the largest seed a debug build panics. -/
theorem C101_false : (∀ b n, fill (PseudoRandom.triangle b) n (PseudoRandom.new 455685) = .ok (List.replicate n (ofInt 0))) ∧
    fill (PseudoRandom.triangle .debug) 1 (PseudoRandom.new (2 ^ 64 - 1)) = .error .overflow :=
  ⟨fun b n => ((C101_period_partial b 455685 (fun _ => by norm_num)).1 (by decide) n).2,
    (C101_refused_partial _ 0 (fun h => by have := h rfl; norm_num at this)).2⟩

/-- the seeds of the project, 314 and 123, fit and are not stuck; the largest that fits -/
example : (∀ b, Fits b 314) ∧ first 314 ≠ 455685 ∧ (∀ b, Fits b 123) ∧ first 123 ≠ 455685 ∧ Fits .debug 18446688733643 ∧ ¬ Fits .debug 18446688733644 := by
  refine ⟨fun b _ => by norm_num, by decide, fun b _ => by norm_num, by decide, fun _ => by norm_num, fun h => ?_⟩
  have := h rfl
  norm_num at this

/-- the first values with the seed 123 -/
example : ((fill (PseudoRandom.uniform .debug) 2 (PseudoRandom.new 123)).toOption.map (·.map (·.lt (ofInt 1)))) = some [true, true] ∧
    evenly (first 123) 0 = 191 / 256 := by
  constructor
  · decide +kernel
  · rw [evenly, show lcg (first 123) 0 % 1024 = 894 by decide]
    norm_num
