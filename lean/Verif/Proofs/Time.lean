import Verif.Proofs.F32
import Mathlib.Algebra.Order.Group.MinMax

/-! The seek position: `sample_rate as f32 / 1000.0 * dt as f32`. -/

namespace Adhoc
open F32

theorem rep_pow {k : ℕ} (h : k < 128) : Rep ((2 : ℚ) ^ k) := by
  refine Grid.rep ⟨1, k, by norm_num, by omega, by rw [zpow_natCast]; push_cast; ring⟩ ?_
  rw [abs_of_pos (by positivity)]
  exact pow_lt_pow_right₀ (by norm_num) h

/-- rounding something of at least 1/1000 -/
theorem round_rel {q d : ℚ} (hq : d ≤ |q|) (hd : 1 / 2 ^ 100 ≤ d) : |roundQ q - q| ≤ |q| * (1 / 2 ^ 24 + 1 / 2 ^ 50) := by
  have h := roundQ_err q
  have h1 : (1 : ℚ) / 2 ^ 150 ≤ |q| * (1 / 2 ^ 50) := by
    have : (1 : ℚ) / 2 ^ 150 = 1 / 2 ^ 100 * (1 / 2 ^ 50) := by norm_num
    rw [this]
    gcongr
    linarith
  have : |q| / 2 ^ 24 = |q| * (1 / 2 ^ 24) := by ring
  rw [mul_add]
  linarith

/-- the exact value of the float product, as a function of the milliseconds -/
theorem time_eq {R : ℕ} (hR : R < 2 ^ 32) {s : ℚ} (hsd : s = roundQ (roundQ (R : ℚ) / 1000)) : 0 ≤ s ∧ s ≤ 2 ^ 32 ∧ (∀ T : ℤ, |T| ≤ 2 ^ 64 →
      Is (ofInt R / ofInt 1000 * ofInt T) (roundQ (s * roundQ T))) ∧
    |s - R / 1000| ≤ R / 1000 * (1 / 2 ^ 23 + 1 / 2 ^ 44) := by
  have hRq : (R : ℚ) ≤ 2 ^ 32 := by exact_mod_cast hR.le
  have hR0 : (0 : ℚ) ≤ R := by positivity
  have h0 : ∀ {q : ℚ}, 0 ≤ q → 0 ≤ roundQ q := fun h => le_roundQ (by simpa using grid_int (n := 0) (by norm_num)) h
  have hr : Is (ofInt R) (roundQ R) := by
    have := is_ofRat (q := R) (rep_pow (k := 32) (by norm_num)) (by rw [abs_of_nonneg hR0]; exact hRq)
    exact this
  have hrle : roundQ (R : ℚ) ≤ 2 ^ 32 := roundQ_le (rep_pow (k := 32) (by norm_num)).grid hRq
  have hr0 := h0 hR0
  have hk : Is (ofInt 1000) 1000 := by simpa using is_int (n := 1000) (by norm_num)
  have hs := hr.div hk (by norm_num) (rep_pow (k := 32) (by norm_num)) (by
    rw [abs_of_nonneg (by positivity)]
    have : roundQ (R : ℚ) / 1000 ≤ roundQ (R : ℚ) := div_le_self hr0 (by norm_num)
    linarith)
  rw [← hsd] at hs
  have hs0 : 0 ≤ s := by rw [hsd]; exact h0 (by positivity)
  have hsle : s ≤ 2 ^ 32 := by
    rw [hsd]
    refine roundQ_le (rep_pow (k := 32) (by norm_num)).grid ?_
    have : roundQ (R : ℚ) / 1000 ≤ roundQ (R : ℚ) := div_le_self hr0 (by norm_num)
    linarith
  refine ⟨hs0, hsle, ?_, ?_⟩
  · intro T hT
    have hTq : |(T : ℚ)| ≤ 2 ^ 64 := by exact_mod_cast hT
    have ht : Is (ofInt T) (roundQ T) := is_ofRat (rep_pow (k := 64) (by norm_num)) hTq
    have htl : |roundQ (T : ℚ)| ≤ 2 ^ 64 := roundQ_abs_le (rep_pow (k := 64) (by norm_num)).grid hTq
    refine hs.mul ht (rep_pow (k := 96) (by norm_num)) ?_
    rw [abs_mul, abs_of_nonneg hs0]
    calc s * |roundQ (T : ℚ)| ≤ 2 ^ 32 * 2 ^ 64 := by gcongr
      _ = 2 ^ 96 := by norm_num
  · rcases Nat.eq_zero_or_pos R with rfl | hpos
    · rw [hsd]; simp [roundQ_zero]
    · have hR1 : (1 : ℚ) ≤ R := by exact_mod_cast hpos
      have e1 := round_rel (q := R) (d := 1) (by rw [abs_of_nonneg hR0]; exact hR1) (by norm_num)
      rw [abs_of_nonneg hR0] at e1
      have hr1 : 1 ≤ roundQ (R : ℚ) := le_roundQ (by simpa using grid_int (n := 1) (by norm_num)) hR1
      have e2 := round_rel (q := roundQ (R : ℚ) / 1000) (d := 1 / 1000) (by
        rw [abs_of_nonneg (by positivity)]; gcongr) (by norm_num)
      rw [abs_of_nonneg (show (0 : ℚ) ≤ roundQ (R : ℚ) / 1000 by positivity), ← hsd] at e2
      rw [abs_le] at e1 e2 ⊢
      constructor <;> norm_num at * <;> linarith

theorem time_is {R : ℕ} (hR : R < 2 ^ 32) : ∃ s : ℚ, 0 ≤ s ∧ s ≤ 2 ^ 32 ∧ (∀ T : ℤ, |T| ≤ 2 ^ 64 →
      Is (ofInt R / ofInt 1000 * ofInt T) (roundQ (s * roundQ T))) ∧
    |s - R / 1000| ≤ R / 1000 * (1 / 2 ^ 23 + 1 / 2 ^ 44) := ⟨_, time_eq hR rfl⟩

/-- the float product is close to the exact one -/
theorem time_close {R : ℕ} {T : ℤ} {s : ℚ} (hs0 : 0 ≤ s) (hT : 0 ≤ T)
    (hs : |s - R / 1000| ≤ R / 1000 * (1 / 2 ^ 23 + 1 / 2 ^ 44)) :
    0 ≤ roundQ (s * roundQ T) ∧ |roundQ (s * roundQ T) - R * T / 1000| ≤ R * T / 1000 * (1 / 2 ^ 22 + 1 / 2 ^ 40) := by
  have hz : Grid 0 := by simpa using grid_int (n := 0) (by norm_num)
  have h0 : ∀ {q : ℚ}, 0 ≤ q → 0 ≤ roundQ q := fun h => le_roundQ hz h
  have hTq : (0 : ℚ) ≤ T := by exact_mod_cast hT
  have ht0 := h0 hTq
  refine ⟨h0 (by positivity), ?_⟩
  rcases Nat.eq_zero_or_pos R with rfl | hpos
  · have : s = 0 := by
      rw [abs_le] at hs
      norm_num at hs
      linarith
    rw [this, zero_mul, roundQ_zero]; norm_num
  rcases hT.eq_or_lt with rfl | hTpos
  · simp [roundQ_zero]
  have hR1 : (1 : ℚ) ≤ R := by exact_mod_cast hpos
  have hT1 : (1 : ℚ) ≤ T := by exact_mod_cast hTpos
  have e1 := round_rel (q := (T : ℚ)) (d := 1) (by rw [abs_of_nonneg hTq]; exact hT1) (by norm_num)
  rw [abs_of_nonneg hTq] at e1
  have ht1 : 1 ≤ roundQ (T : ℚ) := le_roundQ (by simpa using grid_int (n := 1) (by norm_num)) hT1
  obtain ⟨S, hS⟩ : ∃ S : ℚ, S = R / 1000 := ⟨_, rfl⟩
  rw [← hS] at hs
  have hS0 : 1 / 1000 ≤ S := by rw [hS]; gcongr
  rw [show (R : ℚ) * T / 1000 = S * T by rw [hS]; ring]
  have hsl : 1 / 2000 ≤ s := by
    rw [abs_le] at hs
    norm_num at hs
    linarith
  have e3 := round_rel (q := s * roundQ (T : ℚ)) (d := 1 / 2000) (by
    rw [abs_of_nonneg (by positivity)]
    calc (1 : ℚ) / 2000 = 1 / 2000 * 1 := by norm_num
      _ ≤ s * roundQ (T : ℚ) := by gcongr) (by norm_num)
  rw [abs_of_nonneg (show (0 : ℚ) ≤ s * roundQ (T : ℚ) by positivity)] at e3
  obtain ⟨t, htd⟩ : ∃ t, t = roundQ (T : ℚ) := ⟨_, rfl⟩
  obtain ⟨v, hvd⟩ : ∃ v, v = roundQ (s * roundQ (T : ℚ)) := ⟨_, rfl⟩
  obtain ⟨U, hU⟩ : ∃ U : ℚ, U = T := ⟨_, rfl⟩
  rw [← hvd, ← htd] at e3
  rw [← hvd]
  rw [← htd] at e1 ht0
  rw [← hU] at e1 hTq ⊢
  rw [abs_le] at hs e1 e3
  have u1 : s ≤ S * (1 + (1 / 2 ^ 23 + 1 / 2 ^ 44)) := by linarith [hs.2]
  have u2 : t ≤ U * (1 + (1 / 2 ^ 24 + 1 / 2 ^ 50)) := by linarith [e1.2]
  have l1 : S * (1 - (1 / 2 ^ 23 + 1 / 2 ^ 44)) ≤ s := by linarith [hs.1]
  have l2 : U * (1 - (1 / 2 ^ 24 + 1 / 2 ^ 50)) ≤ t := by linarith [e1.1]
  have p1 : s * t ≤ (S * (1 + (1 / 2 ^ 23 + 1 / 2 ^ 44))) * (U * (1 + (1 / 2 ^ 24 + 1 / 2 ^ 50))) := by gcongr
  have p2 : (S * (1 - (1 / 2 ^ 23 + 1 / 2 ^ 44))) * (U * (1 - (1 / 2 ^ 24 + 1 / 2 ^ 50))) ≤ s * t := by
    have : (0 : ℚ) ≤ U * (1 - (1 / 2 ^ 24 + 1 / 2 ^ 50)) := mul_nonneg hTq (by norm_num)
    gcongr
  obtain ⟨w, hw⟩ : ∃ w, w = S * U := ⟨_, rfl⟩
  have hw0 : 0 ≤ w := by rw [hw]; positivity
  have q1 : s * t ≤ w * ((1 + (1 / 2 ^ 23 + 1 / 2 ^ 44)) * (1 + (1 / 2 ^ 24 + 1 / 2 ^ 50))) := by rw [hw]; linarith
  have q2 : w * ((1 - (1 / 2 ^ 23 + 1 / 2 ^ 44)) * (1 - (1 / 2 ^ 24 + 1 / 2 ^ 50))) ≤ s * t := by rw [hw]; linarith
  rw [← hw]
  rw [abs_le]
  constructor <;> norm_num at * <;> linarith

/-- truncating and saturating it -/
theorem time_sat {v x : ℚ} {hi : ℤ} (hhi : 0 ≤ hi) (hv : 0 ≤ v) (hx : 0 ≤ x) (h : |v - x| ≤ x * (1 / 2 ^ 22 + 1 / 2 ^ 40)) :
    |((min hi (truncQ v) : ℤ) : ℚ) - min (hi : ℚ) x| ≤ 1 + x / 2 ^ 21 := by
  have ht := truncQ_err v
  rw [abs_lt] at ht
  rw [abs_le] at h
  push_cast
  have key : |min (hi : ℚ) (truncQ v) - min (hi : ℚ) x| ≤ |(truncQ v : ℚ) - x| := by
    have := abs_min_sub_min_le_max (hi : ℚ) (truncQ v : ℚ) hi x
    simpa using this
  refine key.trans ?_
  rw [abs_le]
  constructor <;> norm_num at * <;> linarith

end Adhoc
