import Verif.Props.Tools

/-! # C88: where the coefficients of the Gaussian filter are taken -/

namespace Adhoc
open Spec F32

namespace Gaussian

/-- the place in exact terms of the four roundings -/
theorem is_place {n k : Nat} (h2 : 2 ≤ n) (hn : n ≤ 2 ^ 24) (hk : k < n) {r : F32} {q : ℚ} (hr : Is r q) (h0 : 0 ≤ q) (hq : q < 2 ^ 127) :
    Is (place n r k) (roundQ (roundQ (roundQ (roundQ ((k : ℚ) / (n - 1)) * 2) * q) - q)) ∧
      0 ≤ roundQ ((k : ℚ) / (n - 1)) ∧ roundQ ((k : ℚ) / (n - 1)) ≤ 1 ∧
      0 ≤ roundQ (roundQ ((k : ℚ) / (n - 1)) * 2) ∧ roundQ (roundQ ((k : ℚ) / (n - 1)) * 2) ≤ 2 ∧
      0 ≤ roundQ (roundQ (roundQ ((k : ℚ) / (n - 1)) * 2) * q) ∧ roundQ (roundQ (roundQ ((k : ℚ) / (n - 1)) * 2) * q) ≤ 2 * q := by
  have hn1 : |((n : ℤ) - 1)| ≤ 2 ^ 24 := by rw [abs_of_nonneg (by omega)]; omega
  have hpos : (0 : ℚ) < (n : ℚ) - 1 := by
    have : (2 : ℚ) ≤ n := by exact_mod_cast h2
    linarith
  have hkn : (k : ℚ) ≤ (n : ℚ) - 1 := by
    have : (k : ℚ) + 1 ≤ n := by exact_mod_cast hk
    linarith
  have hx0 : 0 ≤ (k : ℚ) / (n - 1) := div_nonneg (by positivity) hpos.le
  have hx1 : (k : ℚ) / (n - 1) ≤ 1 := (div_le_one hpos).2 hkn
  have rep2 : Rep 2 := by simpa using rep_int (n := 2) (by norm_num)
  have rep0 : Rep 0 := by simpa using rep_int (n := 0) (by norm_num)
  obtain ⟨hq', -⟩ := id hr
  have g2 : Rep (2 * q) := by
    obtain ⟨a, e, h1, h2, h3⟩ := hq'.grid
    refine Grid.rep ⟨a, e + 1, h1, by omega, ?_⟩ ?_
    · rw [h3, zpow_add₀ (by norm_num)]; ring
    · rw [abs_of_nonneg (by linarith)]; norm_num at hq ⊢; linarith
  have d := Is.div (is_int (n := (k : ℤ)) (by rw [abs_of_nonneg (by omega)]; omega)) (is_int hn1) (by push_cast; exact ne_of_gt hpos) rep_one
    (by push_cast; rw [abs_of_nonneg hx0]; exact hx1)
  push_cast at d
  have a0 := le_roundQ rep0.grid hx0
  have a1 := roundQ_le rep_one.grid hx1
  obtain ⟨a, ha⟩ : ∃ a, a = roundQ ((k : ℚ) / (n - 1)) := ⟨_, rfl⟩
  rw [← ha] at d a0 a1 ⊢
  have m := Is.mul d (is_int (n := 2) (by norm_num)) rep2 (by push_cast; rw [abs_of_nonneg (by linarith)]; linarith)
  push_cast at m
  have b0 := le_roundQ rep0.grid (show 0 ≤ a * 2 by linarith)
  have b1 := roundQ_le rep2.grid (show a * 2 ≤ 2 by linarith)
  obtain ⟨b, hb⟩ : ∃ b, b = roundQ (a * 2) := ⟨_, rfl⟩
  rw [← hb] at m b0 b1 ⊢
  have hbq0 : 0 ≤ b * q := mul_nonneg b0 h0
  have hbq1 : b * q ≤ 2 * q := mul_le_mul_of_nonneg_right b1 h0
  have m2 := Is.mul m hr g2 (by rw [abs_of_nonneg hbq0]; exact hbq1)
  have c0 := le_roundQ rep0.grid hbq0
  have c1 := roundQ_le g2.grid hbq1
  obtain ⟨c, hc⟩ : ∃ c, c = roundQ (b * q) := ⟨_, rfl⟩
  rw [← hc] at m2 c0 c1 ⊢
  exact ⟨Is.sub m2 hr hq' (abs_le.2 ⟨by linarith, by linarith⟩), a0, a1, b0, b1, c0, c1⟩

end Gaussian

/-- C88, where the coefficients are taken. For any radius of at least 0 (below 2^127) and any number of coefficients from 2 to 2^24: all places are
finite and in [-r, r]; each is within r / 2^21 (and a tiny rest) of the place it should be; two mirrored ones miss each other by at most twice as
much; they never go back from one coefficient to the next; and with an odd number of coefficients the middle one is taken at 0. -/
theorem C88_places_partial (n : Nat) (h2 : 2 ≤ n) (hn : n ≤ 2 ^ 24) (r : F32) {q : ℚ} (hr : Is r q) (h0 : 0 ≤ q) (hq : q < 2 ^ 127) :
    ∃ p : Nat → ℚ, (∀ k < n, Is (Gaussian.place n r k) (p k) ∧ |p k| ≤ q ∧ |p k - (2 * k / (n - 1) - 1) * q| ≤ q / 2 ^ 21 + 1 / 2 ^ 148) ∧
      (∀ k < n, |p k + p (n - 1 - k)| ≤ q / 2 ^ 20 + 1 / 2 ^ 147) ∧
      (∀ k k', k ≤ k' → k' < n → p k ≤ p k') ∧
      (n % 2 = 1 → p (n / 2) = 0) := by
  have hpos : (0 : ℚ) < (n : ℚ) - 1 := by
    have : (2 : ℚ) ≤ n := by exact_mod_cast h2
    linarith
  obtain ⟨hq', -⟩ := id hr
  have key : ∀ k < n, |roundQ (roundQ (roundQ (roundQ ((k : ℚ) / (n - 1)) * 2) * q) - q) - (2 * k / (n - 1) - 1) * q| ≤ q / 2 ^ 21 + 1 / 2 ^ 148 := by
    intro k hk
    obtain ⟨-, a0, a1, b0, b1, c0, c1⟩ := Gaussian.is_place h2 hn hk hr h0 hq
    have hkn : (k : ℚ) ≤ (n : ℚ) - 1 := by
      have : (k : ℚ) + 1 ≤ n := by exact_mod_cast hk
      linarith
    have hx0 : 0 ≤ (k : ℚ) / (n - 1) := div_nonneg (by positivity) hpos.le
    have hx1 : (k : ℚ) / (n - 1) ≤ 1 := (div_le_one hpos).2 hkn
    have ea := roundQ_err ((k : ℚ) / (n - 1))
    rw [show 2 * (k : ℚ) / (n - 1) = 2 * (k / (n - 1)) by ring]
    obtain ⟨x, hx⟩ : ∃ x, x = (k : ℚ) / (n - 1) := ⟨_, rfl⟩
    rw [← hx] at ea a0 a1 b0 b1 c0 c1 hx0 hx1 ⊢
    have eb := roundQ_err (roundQ x * 2)
    have ec := roundQ_err (roundQ (roundQ x * 2) * q)
    have ed := roundQ_err (roundQ (roundQ (roundQ x * 2) * q) - q)
    generalize roundQ x = a at *
    generalize roundQ (a * 2) = b at *
    have hbq0 : 0 ≤ b * q := mul_nonneg b0 h0
    have hbq1 : b * q ≤ 2 * q := mul_le_mul_of_nonneg_right b1 h0
    generalize roundQ (b * q) = c at *
    generalize roundQ (c - q) = d at *
    rw [abs_of_nonneg hx0] at ea
    rw [abs_of_nonneg (show 0 ≤ a * 2 by linarith)] at eb
    rw [abs_of_nonneg hbq0] at ec
    have hcd : |c - q| ≤ q := abs_le.2 ⟨by linarith, by linarith⟩
    have e1 : |b - 2 * x| ≤ 4 / 2 ^ 24 + 3 / 2 ^ 150 := by
      rw [abs_le] at ea eb ⊢
      constructor <;> linarith
    have e2 : |b * q - 2 * x * q| ≤ (4 / 2 ^ 24 + 3 / 2 ^ 150) * q := by
      rw [← sub_mul, abs_mul, abs_of_nonneg h0]
      exact mul_le_mul_of_nonneg_right e1 h0
    rw [abs_le] at e2 ec ed ⊢
    constructor <;> norm_num at * <;> linarith
  refine ⟨fun k => roundQ (roundQ (roundQ (roundQ ((k : ℚ) / (n - 1)) * 2) * q) - q), ?_, ?_, ?_, ?_⟩
  · intro k hk
    obtain ⟨i, -, -, -, -, c0, c1⟩ := Gaussian.is_place h2 hn hk hr h0 hq
    exact ⟨i, roundQ_abs_le hq'.grid (abs_le.2 ⟨by linarith, by linarith⟩), key k hk⟩
  · intro k hk
    have h1 := key k hk
    have h2 := key (n - 1 - k) (by omega)
    have e : ((n - 1 - k : Nat) : ℚ) = (n : ℚ) - 1 - k := by
      rw [Nat.sub_sub, Nat.cast_sub (by omega)]
      push_cast
      ring
    have e2 : (2 * ((n - 1 - k : Nat) : ℚ) / (n - 1) - 1) * q = -((2 * (k : ℚ) / (n - 1) - 1) * q) := by
      rw [e]
      field_simp
      ring
    rw [e2] at h2
    show |roundQ _ + roundQ _| ≤ _
    rw [abs_le] at h1 h2 ⊢
    constructor <;> norm_num at * <;> linarith
  · intro k k' hkk hk'
    have mono2 : ∀ {a b : ℚ}, a ≤ b → roundQ (a * 2) ≤ roundQ (b * 2) := fun h => roundQ_mono (by linarith)
    refine roundQ_mono (sub_le_sub_right (roundQ_mono (mul_le_mul_of_nonneg_right (mono2 (roundQ_mono ?_)) h0)) _)
    exact div_le_div_of_nonneg_right (by exact_mod_cast hkk) hpos.le
  · intro hodd
    have e : ((n / 2 : Nat) : ℚ) / (n - 1) = 1 / 2 := by
      rw [div_eq_div_iff (ne_of_gt hpos) (by norm_num)]
      have : n / 2 * 2 = n - 1 := by omega
      have h : ((n / 2 : Nat) : ℚ) * 2 = ((n - 1 : Nat) : ℚ) := by exact_mod_cast this
      rw [h, Nat.cast_sub (by omega)]
      push_cast
      ring
    have half : roundQ (1 / 2) = 1 / 2 := roundQ_grid ⟨1, -1, by norm_num, by norm_num, by norm_num⟩
    have one : roundQ (1 / 2 * 2) = 1 := by
      rw [show (1 : ℚ) / 2 * 2 = 1 by norm_num]
      exact roundQ_grid rep_one.grid
    show roundQ (roundQ (roundQ (roundQ (((n / 2 : Nat) : ℚ) / (n - 1)) * 2) * q) - q) = 0
    rw [e, half, one, one_mul, roundQ_grid hq'.grid, sub_self, roundQ_zero]

/-- five coefficients within the radius 1 are taken at -1, -1/2, 0, 1/2 and 1; of four the inner two miss each other by 2^-24 -/
example : (List.range 5).map (Gaussian.place 5 (ofInt 1)) = [ofInt (-1), ofRat (-1 / 2), ofInt 0, ofRat (1 / 2), ofInt 1] ∧
    Gaussian.place 4 (ofInt 1) 1 + Gaussian.place 4 (ofInt 1) 2 ≠ ofInt 0 := by decide +kernel

end Adhoc
