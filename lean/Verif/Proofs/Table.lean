import Verif.Proofs.Float
import Mathlib.Tactic.IntervalCases

/-! # The conversion of all 65536 codes, in whole numbers

`there i` is `truncate_sample (normalize_sample i)` for `0 ≤ i ≤ 32768`, calculated without rationals so that the kernel can run it on
all values.
-/

namespace Adhoc
open F32

/-! ## rounding is determined and symmetric -/

theorem rne_spec (q : ℚ) : |(rne q : ℚ) - q| ≤ 1 / 2 ∧ (|(rne q : ℚ) - q| = 1 / 2 → rne q % 2 = 0) := by
  refine ⟨rne_bound q, ?_⟩
  have h1 := Int.floor_le q
  have h2 := Int.lt_floor_add_one q
  have hf : q.floor = ⌊q⌋ := rfl
  unfold rne
  simp only [hf]
  split_ifs with a b c
  · intro h
    rw [abs_of_nonpos (by linarith)] at h
    linarith
  · intro h
    push_cast at h
    rw [abs_of_pos (by linarith)] at h
    linarith
  · intro _; exact c
  · intro _; omega

theorem rne_unique {q : ℚ} {r : ℤ} (h : |(r : ℚ) - q| ≤ 1 / 2) (he : |(r : ℚ) - q| = 1 / 2 → r % 2 = 0) : rne q = r := by
  obtain ⟨h1, h2⟩ := rne_spec q
  have hd : |((rne q - r : ℤ) : ℚ)| ≤ 1 := by
    push_cast
    rw [abs_le] at *
    constructor <;> linarith [h.1, h.2, h1.1, h1.2]
  have hd' : |rne q - r| ≤ 1 := by exact_mod_cast hd
  rw [abs_le] at hd'
  rcases (show rne q = r ∨ rne q = r + 1 ∨ rne q = r - 1 by omega) with e | e | e
  · exact e
  · exfalso
    rw [e] at h1 h2
    push_cast at h1 h2
    rw [abs_le] at h h1
    have e1 : (r : ℚ) - q = -(1 / 2) := by linarith [h.1, h.2, h1.1, h1.2]
    have := he (by rw [e1]; norm_num)
    have e2 : (r : ℚ) + 1 - q = 1 / 2 := by linarith
    have := h2 (by rw [e2]; norm_num)
    omega
  · exfalso
    rw [e] at h1 h2
    push_cast at h1 h2
    rw [abs_le] at h h1
    have e1 : (r : ℚ) - q = 1 / 2 := by linarith [h.1, h.2, h1.1, h1.2]
    have := he (by rw [e1]; norm_num)
    have e2 : (r : ℚ) - 1 - q = -(1 / 2) := by linarith
    have := h2 (by rw [e2]; norm_num)
    omega

theorem rne_neg (q : ℚ) : rne (-q) = -rne q := by
  obtain ⟨h1, h2⟩ := rne_spec q
  have e : |((-rne q : ℤ) : ℚ) - -q| = |(rne q : ℚ) - q| := by
    push_cast
    rw [← abs_neg]
    congr 1
    ring
  apply rne_unique
  · rw [e]; exact h1
  · rw [e]; intro h; have := h2 h; omega

theorem ulpExp_neg (q : ℚ) : ulpExp (-q) = ulpExp q := by
  unfold ulpExp ilog2
  simp

theorem roundQ_neg (q : ℚ) : roundQ (-q) = -roundQ q := by
  unfold roundQ
  by_cases h : q = 0
  · simp [h]
  · rw [if_neg h, if_neg (by simpa using h), ulpExp_neg, neg_div, rne_neg]
    push_cast
    ring

theorem truncQ_neg (q : ℚ) : truncQ (-q) = -truncQ q := by
  unfold truncQ
  rcases lt_trichotomy q 0 with h | h | h
  · rw [if_neg (by linarith), if_pos h, neg_neg]
  · subst h
    have h0 : (0 : ℚ).floor = 0 := by decide +kernel
    simp [h0]
  · rw [if_pos (by linarith), if_neg (by linarith), neg_neg]

theorem ilog2_unique {q : ℚ} {k : ℤ} (h1 : (2 : ℚ) ^ k ≤ |q|) (h2 : |q| < (2 : ℚ) ^ (k + 1)) : ilog2 q = k := by
  have hq : q ≠ 0 := by
    rintro rfl
    have : (0 : ℚ) < 2 ^ k := by positivity
    simp at h1
    linarith
  obtain ⟨g1, g2⟩ := ilog2_spec hq
  have a := lt_of_le_of_lt h1 g2
  have b := lt_of_le_of_lt g1 h2
  rw [zpow_lt_zpow_iff_right₀ (by norm_num)] at a b
  omega

/-! ## rounding of `m / 2^e` in whole numbers -/

/-- `m / 2^k` to the nearest whole number, ties to even -/
def rneN (m k : Nat) : Nat :=
  let q := m >>> k
  let r := m % 2 ^ k
  if 2 * r < 2 ^ k then q else if 2 ^ k < 2 * r then q + 1 else if q % 2 = 0 then q else q + 1

theorem rneN_spec (m k : Nat) : rne ((m : ℚ) / 2 ^ k) = rneN m k := by
  have hp : (0 : ℚ) < 2 ^ k := by positivity
  have hdiv : m = 2 ^ k * (m >>> k) + m % 2 ^ k := by
    rw [Nat.shiftRight_eq_div_pow]; exact (Nat.div_add_mod m (2 ^ k)).symm
  have hlt : m % 2 ^ k < 2 ^ k := Nat.mod_lt _ (by positivity)
  unfold rneN
  simp only
  generalize m >>> k = q at *
  generalize m % 2 ^ k = r at *
  have hm : (m : ℚ) / 2 ^ k = q + (r : ℚ) / 2 ^ k := by
    rw [hdiv]; push_cast; field_simp
  rw [hm]
  have h0 : (0 : ℚ) ≤ (r : ℚ) / 2 ^ k := by positivity
  apply rne_unique
  · split_ifs with a b c
    · have : (r : ℚ) / 2 ^ k ≤ 1 / 2 := by
        rw [div_le_div_iff₀ hp (by norm_num)]
        have : ((2 * r : ℕ) : ℚ) ≤ ((2 ^ k : ℕ) : ℚ) := by exact_mod_cast a.le
        push_cast at this
        linarith
      push_cast
      rw [abs_le]; constructor <;> linarith
    · have : 1 / 2 ≤ (r : ℚ) / 2 ^ k := by
        rw [div_le_div_iff₀ (by norm_num) hp]
        have : ((2 ^ k : ℕ) : ℚ) ≤ ((2 * r : ℕ) : ℚ) := by exact_mod_cast b.le
        push_cast at this
        linarith
      have : (r : ℚ) / 2 ^ k ≤ 1 := by
        rw [div_le_one hp]
        exact_mod_cast hlt.le
      push_cast
      rw [abs_le]; constructor <;> linarith
    all_goals
      have : (r : ℚ) / 2 ^ k = 1 / 2 := by
        rw [div_eq_div_iff hp.ne' (by norm_num)]
        have : ((2 ^ k : ℕ) : ℚ) = ((2 * r : ℕ) : ℚ) := by exact_mod_cast (by omega : 2 ^ k = 2 * r)
        push_cast at this
        linarith
      push_cast
      rw [this, abs_le]; constructor <;> linarith
  · split_ifs with a b c
    · intro h
      have : (r : ℚ) / 2 ^ k < 1 / 2 := by
        rw [div_lt_div_iff₀ hp (by norm_num)]
        have : ((2 * r : ℕ) : ℚ) < ((2 ^ k : ℕ) : ℚ) := by exact_mod_cast a
        push_cast at this
        linarith
      push_cast at h
      rw [abs_of_nonpos (by linarith)] at h
      linarith
    · intro h
      have : 1 / 2 < (r : ℚ) / 2 ^ k := by
        rw [div_lt_div_iff₀ (by norm_num) hp]
        have : ((2 ^ k : ℕ) : ℚ) < ((2 * r : ℕ) : ℚ) := by exact_mod_cast b
        push_cast at this
        linarith
      have : (r : ℚ) / 2 ^ k < 1 := by
        rw [div_lt_one hp]
        exact_mod_cast hlt
      push_cast at h
      rw [abs_of_pos (by linarith)] at h
      linarith
    · intro _; push_cast; omega
    · intro _; push_cast; omega

/-- how many bits of `m` are dropped -/
def cut (m : Nat) : Nat := Nat.log2 m - 23

/-- the significand of `m` rounded to 24 bits -/
def sig (m : Nat) : Nat := rneN m (cut m)

theorem rneN_zero (m : Nat) : rneN m 0 = m := by simp [rneN, Nat.mod_one]

theorem roundQ_nat (m : Nat) (e : Nat) (he : e ≤ 100) : roundQ ((m : ℚ) / 2 ^ e) = (sig m : ℚ) * 2 ^ cut m / 2 ^ e := by
  have hpe : (0 : ℚ) < 2 ^ e := by positivity
  by_cases hm : m = 0
  · subst hm
    simp [roundQ_zero, sig, cut, rneN]
  · have l1 : (2 : ℚ) ^ (Nat.log2 m) ≤ m := by exact_mod_cast Nat.log2_self_le hm
    have l2 : (m : ℚ) < (2 : ℚ) ^ (Nat.log2 m + 1) := by exact_mod_cast (Nat.log2_lt hm).1 (Nat.lt_succ_self _)
    by_cases hs : Nat.log2 m < 24
    · have hc : cut m = 0 := by unfold cut; omega
      have hsig : sig m = m := by unfold sig; rw [hc, rneN_zero]
      rw [hsig, hc, pow_zero, mul_one]
      apply roundQ_grid
      refine ⟨m, -(e : ℤ), ?_, by omega, ?_⟩
      · have : (2 : ℚ) ^ (Nat.log2 m + 1) ≤ 2 ^ 24 := pow_le_pow_right₀ (by norm_num) (by omega)
        have : (m : ℚ) ≤ 2 ^ 24 := by linarith
        rw [abs_of_nonneg (by omega)]
        exact_mod_cast this
      · rw [zpow_neg, zpow_natCast]; push_cast; field_simp
    · have hq : (m : ℚ) / 2 ^ e ≠ 0 := by positivity
      have habs : |(m : ℚ) / 2 ^ e| = (m : ℚ) / 2 ^ e := abs_of_pos (by positivity)
      have hlog : ilog2 ((m : ℚ) / 2 ^ e) = (Nat.log2 m : ℤ) - e := by
        apply ilog2_unique
        · rw [habs, le_div_iff₀ hpe, zpow_sub₀ (by norm_num), zpow_natCast, zpow_natCast]
          rw [div_mul_cancel₀ _ hpe.ne']
          exact l1
        · rw [habs, div_lt_iff₀ hpe, show (Nat.log2 m : ℤ) - e + 1 = ((Nat.log2 m + 1 : ℕ) : ℤ) - e by push_cast; ring,
            zpow_sub₀ (by norm_num), zpow_natCast, zpow_natCast, div_mul_cancel₀ _ hpe.ne']
          exact l2
      have hulp : ulpExp ((m : ℚ) / 2 ^ e) = (cut m : ℤ) - e := by
        unfold ulpExp cut
        rw [hlog]
        omega
      rw [roundQ_of_ne hq, hulp, zpow_sub₀ (by norm_num), zpow_natCast, zpow_natCast]
      have : (m : ℚ) / 2 ^ e / (2 ^ cut m / 2 ^ e) = (m : ℚ) / 2 ^ cut m := by field_simp
      rw [this, rneN_spec]
      unfold sig
      push_cast
      ring

/-! ## the conversion -/

/-- `normalize_sample`: the significand, in units of `2^(cut - 30)` -/
def there (i : Nat) : Nat :=
  let m := i * 32769
  let r := min (sig m * 2 ^ cut m) (2 ^ 30)
  let m' := r * 32767
  (sig m' * 2 ^ cut m') >>> 30

/-- a code, converted to a sample and back -/
def again (i : ℤ) : ℤ := truncateSample (normalizeSample i)

theorem truncQ_nat (m k : Nat) : truncQ ((m : ℚ) / 2 ^ k) = (m >>> k : Nat) := by
  unfold truncQ
  rw [if_neg (by push Not; positivity)]
  have : ((m : ℚ) / 2 ^ k).floor = ⌊((m : ℤ) : ℚ) / ((2 ^ k : ℕ) : ℚ)⌋ := by push_cast; rfl
  rw [this, Nat.shiftRight_eq_div_pow, Rat.floor_intCast_div_natCast]
  norm_cast

theorem again_nat {i : Nat} (h : i ≤ 32768) : again i = there i := by
  have hi : |(i : ℤ)| ≤ 32768 := by rw [abs_of_nonneg (by omega)]; omega
  have hn := is_normalize hi
  rw [show (((i : ℤ) : ℚ)) * (32769 / 2 ^ 30) = ((i * 32769 : ℕ) : ℚ) / 2 ^ 30 by push_cast; ring, roundQ_nat _ _ (by norm_num)] at hn
  unfold again there
  dsimp only
  rw [truncateSample_eq, Is.unit hn]
  have e1 : max (-1) (min 1 ((sig (i * 32769) : ℚ) * 2 ^ cut (i * 32769) / 2 ^ 30)) =
      ((min (sig (i * 32769) * 2 ^ cut (i * 32769)) (2 ^ 30) : ℕ) : ℚ) / 2 ^ 30 := by
    push_cast
    rw [← min_div_div_right (by positivity), show (1073741824 : ℚ) / 2 ^ 30 = 1 by norm_num, min_comm, max_eq_right]
    have : (0 : ℚ) ≤ (sig (i * 32769) : ℚ) * 2 ^ cut (i * 32769) / 2 ^ 30 := by positivity
    exact le_min (by linarith) (by norm_num)
  rw [e1]
  generalize min (sig (i * 32769) * 2 ^ cut (i * 32769)) (2 ^ 30) = r
  rw [show ((r : ℕ) : ℚ) / 2 ^ 30 * 32767 = ((r * 32767 : ℕ) : ℚ) / 2 ^ 30 by push_cast; ring, roundQ_nat _ _ (by norm_num),
    show (sig (r * 32767) : ℚ) * 2 ^ cut (r * 32767) = ((sig (r * 32767) * 2 ^ cut (r * 32767) : ℕ) : ℚ) by push_cast; rfl, truncQ_nat]

theorem again_neg {i : ℤ} (h : |i| ≤ 32768) : again (-i) = -again i := by
  have h1 := is_normalize h
  have h2 := is_normalize (i := -i) (by rwa [abs_neg])
  rw [show ((-i : ℤ) : ℚ) * (32769 / 2 ^ 30) = -((i : ℚ) * (32769 / 2 ^ 30)) by push_cast; ring, roundQ_neg] at h2
  unfold again
  rw [truncateSample_eq, truncateSample_eq, Is.unit h1, Is.unit h2]
  have : max (-1) (min 1 (-roundQ ((i : ℚ) * (32769 / 2 ^ 30)))) = -max (-1) (min 1 (roundQ ((i : ℚ) * (32769 / 2 ^ 30)))) := by
    generalize roundQ ((i : ℚ) * (32769 / 2 ^ 30)) = v
    rcases max_cases (-1 : ℚ) (min 1 (-v)) with ⟨e1, c1⟩ | ⟨e1, c1⟩ <;> rcases max_cases (-1 : ℚ) (min 1 v) with ⟨e2, c2⟩ | ⟨e2, c2⟩ <;>
    rcases min_cases (1 : ℚ) (-v) with ⟨e3, c3⟩ | ⟨e3, c3⟩ <;> rcases min_cases (1 : ℚ) v with ⟨e4, c4⟩ | ⟨e4, c4⟩ <;>
    rw [e1, e2] <;> linarith
  rw [this, neg_mul, roundQ_neg, truncQ_neg]

/-! ## a closed form -/

theorem log2_of {m L : Nat} (h1 : 2 ^ L ≤ m) (h2 : m < 2 ^ (L + 1)) : Nat.log2 m = L := by
  have hm : m ≠ 0 := by have : 0 < 2 ^ L := by positivity
                        omega
  exact (Nat.log2_eq_iff hm).2 ⟨h1, h2⟩

/-- rounding is to the nearest, and to the even one of two nearest -/
theorem rneN_facts (m k : Nat) : 2 * m ≤ 2 * (rneN m k * 2 ^ k) + 2 ^ k ∧ 2 * (rneN m k * 2 ^ k) ≤ 2 * m + 2 ^ k ∧
    (2 * m = 2 * (rneN m k * 2 ^ k) + 2 ^ k → rneN m k % 2 = 0) ∧ (2 * (rneN m k * 2 ^ k) = 2 * m + 2 ^ k → rneN m k % 2 = 0) := by
  have hdiv : m = 2 ^ k * (m >>> k) + m % 2 ^ k := by
    rw [Nat.shiftRight_eq_div_pow]; exact (Nat.div_add_mod m (2 ^ k)).symm
  have hlt : m % 2 ^ k < 2 ^ k := Nat.mod_lt _ (by positivity)
  unfold rneN
  simp only
  generalize m >>> k = q at *
  generalize m % 2 ^ k = r at *
  generalize 2 ^ k = P at *
  have e1 : (q + 1) * P = P * q + P := by ring
  have e2 : q * P = P * q := by ring
  generalize P * q = z at *
  split_ifs
  · rw [e2]; omega
  · rw [e1]; omega
  · rw [e2]; omega
  · rw [e1]; omega

/-- the first rounding; `P` is what the last bit stands for -/
theorem first_rounding {P i s : Nat} (hP : P = 2 ∨ P = 4 ∨ P = 8 ∨ P = 16 ∨ P = 32 ∨ P = 64) (h1 : 2 * (i * 32769) ≤ 2 * (s * P) + P)
    (h2 : 2 * (s * P) ≤ 2 * (i * 32769) + P) (h3 : 2 * (i * 32769) = 2 * (s * P) + P → s % 2 = 0) (h4 : 2 * (s * P) = 2 * (i * 32769) + P → s % 2 = 0) :
    (2 * (i % (2 * P)) = P → 2 * (s * P) + P = 2 * (i * 32769)) ∧ (2 * (i % (2 * P)) ≠ P → 2 * (i * 32769) < 2 * (s * P) + P) := by
  have hc : ∃ p c, P = 2 * p ∧ 0 < p ∧ 32768 = 4 * p * (2 * c) := by
    rcases hP with rfl | rfl | rfl | rfl | rfl | rfl
    · exact ⟨1, 4096, by norm_num⟩
    · exact ⟨2, 2048, by norm_num⟩
    · exact ⟨4, 1024, by norm_num⟩
    · exact ⟨8, 512, by norm_num⟩
    · exact ⟨16, 256, by norm_num⟩
    · exact ⟨32, 128, by norm_num⟩
  clear hP
  obtain ⟨p, c, rfl, hp, hc⟩ := hc
  have hm : i * 32769 = 4 * p * (2 * c * i) + i := by
    calc i * 32769 = 32768 * i + i := by ring
      _ = _ := by rw [hc]; ring
  have hi := Nat.div_add_mod i (4 * p)
  have hlt := Nat.mod_lt i (show 0 < 4 * p by omega)
  rw [show 2 * (2 * p) = 4 * p by ring]
  generalize i % (4 * p) = u at *
  obtain ⟨t, ht⟩ : ∃ t, t = 2 * c * i + i / (4 * p) := ⟨_, rfl⟩
  have hm' : i * 32769 = 4 * (p * t) + u := by
    rw [hm, ht]
    calc 4 * p * (2 * c * i) + i = 4 * p * (2 * c * i) + (4 * p * (i / (4 * p)) + u) := by rw [hi]
      _ = _ := by ring
  rw [hm'] at h1 h2 h3 h4 ⊢
  clear hm hi ht hm' hc
  constructor
  · intro hu
    have hu' : u = p := by omega
    subst hu'
    have a1 : s < 2 * t + 2 := by
      by_contra hcon
      push Not at hcon
      have := Nat.mul_le_mul_right (2 * u) hcon
      nlinarith
    have a2 : 2 * t ≤ s := by
      by_contra hcon
      push Not at hcon
      have : (s + 1) * (2 * u) ≤ (2 * t) * (2 * u) := Nat.mul_le_mul_right (2 * u) hcon
      nlinarith
    rcases (show s = 2 * t ∨ s = 2 * t + 1 by omega) with e | e
    · subst e; ring
    · exfalso
      have := h4 (by subst e; ring)
      omega
  · intro hu
    rcases Nat.lt_or_ge (2 * (4 * (p * t) + u)) (2 * (s * (2 * p)) + 2 * p) with h | h
    · exact h
    · exfalso
      have e := le_antisymm h1 h
      have h0 := h3 e
      obtain ⟨v, rfl⟩ : ∃ v, s = 2 * v := ⟨s / 2, by omega⟩
      have e' : 4 * (p * t) + u = 4 * (p * v) + p := by nlinarith
      rcases lt_trichotomy t v with c | c | c
      · have := Nat.mul_le_mul_left p (show t + 1 ≤ v from c)
        nlinarith
      · subst c; omega
      · have := Nat.mul_le_mul_left p (show v + 1 ≤ t from c)
        nlinarith

/-- the second rounding; `Q` is what the last bit stands for -/
theorem second_rounding {P i r s : Nat} (hP : P = 2 ∨ P = 4 ∨ P = 8 ∨ P = 16 ∨ P = 32 ∨ P = 64) (hi : 256 * P < i) (hi2 : i < 512 * P)
    (hr : 2 * r ≤ 2 * (i * 32769) + P)
    (h1 : 2 * (r * 32767) ≤ 2 * (s * (32768 * P)) + 32768 * P) (h2 : 2 * (s * (32768 * P)) ≤ 2 * (r * 32767) + 32768 * P) :
    (2 * r + P = 2 * (i * 32769) → s * (32768 * P) / 1073741824 = i - 1) ∧ (2 * (i * 32769) < 2 * r + P → s * (32768 * P) / 1073741824 = i) := by
  have hc : ∃ c, 1073741824 = 32768 * P * c := by
    rcases hP with rfl | rfl | rfl | rfl | rfl | rfl
    · exact ⟨16384, by norm_num⟩
    · exact ⟨8192, by norm_num⟩
    · exact ⟨4096, by norm_num⟩
    · exact ⟨2048, by norm_num⟩
    · exact ⟨1024, by norm_num⟩
    · exact ⟨512, by norm_num⟩
  have hP64 : 2 ≤ P ∧ P ≤ 64 ∧ P % 2 = 0 := by omega
  clear hP
  obtain ⟨c, hc⟩ := hc
  constructor
  · intro h
    clear hc
    generalize s * (32768 * P) = z at *
    omega
  · intro h
    have hz : 1073741824 * i < s * (32768 * P) + 32768 * P := by
      clear hc
      generalize s * (32768 * P) = z at *
      omega
    have hs : c * i ≤ s := by
      have : (c * i) * (32768 * P) < (s + 1) * (32768 * P) := by
        calc (c * i) * (32768 * P) = (32768 * P * c) * i := by ring
          _ < (s + 1) * (32768 * P) := by rw [← hc]; linarith
      have := Nat.lt_of_mul_lt_mul_right this
      omega
    have hz2 : 1073741824 * i ≤ s * (32768 * P) := by
      calc 1073741824 * i = (c * i) * (32768 * P) := by rw [hc]; ring
        _ ≤ s * (32768 * P) := Nat.mul_le_mul_right _ hs
    clear hc hs
    generalize s * (32768 * P) = z at *
    omega

theorem there_steps {i r k k' : Nat} (hc : cut (i * 32769) = k) (hr : min (rneN (i * 32769) k * 2 ^ k) (2 ^ 30) = r)
    (hc' : cut (r * 32767) = k') : there i = (rneN (r * 32767) k' * 2 ^ k') / 2 ^ 30 := by
  subst hc
  subst hr
  subst hc'
  rw [← Nat.shiftRight_eq_div_pow]
  rfl

theorem there_eq {i k : Nat} (hk1 : 1 ≤ k) (hk6 : k ≤ 6) (h1 : 2 ^ (k + 8) < i) (h2 : i < 2 ^ (k + 9)) :
    there i = if 2 * (i % (2 * 2 ^ k)) = 2 ^ k then i - 1 else i := by
  have hP : (2 ^ k = 2 ∨ 2 ^ k = 4 ∨ 2 ^ k = 8 ∨ 2 ^ k = 16 ∨ 2 ^ k = 32 ∨ 2 ^ k = 64) := by
    interval_cases k <;> simp
  have hd : ∃ c, 1073741824 = 2 ^ k * c := by
    rcases hP with e | e | e | e | e | e <;> rw [e]
    · exact ⟨536870912, by norm_num⟩
    · exact ⟨268435456, by norm_num⟩
    · exact ⟨134217728, by norm_num⟩
    · exact ⟨67108864, by norm_num⟩
    · exact ⟨33554432, by norm_num⟩
    · exact ⟨16777216, by norm_num⟩
  have hP64 : 2 ≤ 2 ^ k ∧ 2 ^ k ≤ 64 := by omega
  have hA : (2 : Nat) ^ (k + 8) = 256 * 2 ^ k := by rw [pow_add]; ring
  have hB : (2 : Nat) ^ (k + 9) = 512 * 2 ^ k := by rw [pow_add]; ring
  have hl : Nat.log2 (i * 32769) = k + 23 := by
    apply log2_of
    · rw [show k + 23 = (k + 8) + 15 by omega, pow_add _ _ 15, show (2 : Nat) ^ 15 = 32768 by norm_num]
      omega
    · rw [show k + 23 + 1 = (k + 9) + 15 by omega, pow_add _ _ 15, show (2 : Nat) ^ 15 = 32768 by norm_num]
      omega
  have hc : cut (i * 32769) = k := by unfold cut; omega
  obtain ⟨f1, f2, f3, f4⟩ := rneN_facts (i * 32769) k
  obtain ⟨s, hs⟩ : ∃ s, s = rneN (i * 32769) k := ⟨_, rfl⟩
  rw [← hs] at f1 f2 f3 f4
  obtain ⟨g1, g2⟩ := first_rounding hP f1 f2 f3 f4
  have hle : s * 2 ^ k ≤ 1073741824 := by
    obtain ⟨c, hc⟩ := hd
    rw [hc, Nat.mul_comm s]
    refine Nat.mul_le_mul_left _ ?_
    have : s * 2 ^ k < (c + 1) * 2 ^ k := by
      calc s * 2 ^ k < 1073741824 + 2 ^ k := by omega
        _ = (c + 1) * 2 ^ k := by rw [hc]; ring
    have := Nat.lt_of_mul_lt_mul_right this
    omega
  have hr : min (rneN (i * 32769) k * 2 ^ k) (2 ^ 30) = s * 2 ^ k := by
    rw [← hs, show (2 : Nat) ^ 30 = 1073741824 by norm_num]
    exact Nat.min_eq_left hle
  obtain ⟨r, hr'⟩ : ∃ r, r = s * 2 ^ k := ⟨_, rfl⟩
  rw [← hr'] at f1 f2 f3 f4 g1 g2 hle hr
  have hl2 : Nat.log2 (r * 32767) = k + 38 := by
    apply log2_of
    · rw [show k + 38 = (k + 8) + 30 by omega, pow_add _ _ 30, show (2 : Nat) ^ 30 = 1073741824 by norm_num]
      omega
    · rw [show k + 38 + 1 = (k + 9) + 30 by omega, pow_add _ _ 30, show (2 : Nat) ^ 30 = 1073741824 by norm_num]
      omega
  have hc2 : cut (r * 32767) = k + 15 := by unfold cut; omega
  rw [there_steps hc hr hc2, show (2 : Nat) ^ 30 = 1073741824 by norm_num]
  obtain ⟨e1, e2, -, -⟩ := rneN_facts (r * 32767) (k + 15)
  have hq : (2 : Nat) ^ (k + 15) = 32768 * 2 ^ k := by rw [pow_add]; ring
  rw [hq] at e1 e2 ⊢
  obtain ⟨s', hs'⟩ : ∃ s, s = rneN (r * 32767) (k + 15) := ⟨_, rfl⟩
  rw [← hs'] at e1 e2 ⊢
  obtain ⟨w1, w2⟩ := second_rounding hP (by omega) (by omega) f2 e1 e2
  split_ifs with h
  · exact w1 (g1 h)
  · exact w2 (g2 h)

/-- the values below 513, and the powers of two -/
theorem there_small : ∀ i ≤ 512, there i = i := by decide +kernel

theorem there_powers : there 1024 = 1024 ∧ there 2048 = 2048 ∧ there 4096 = 4096 ∧ there 8192 = 8192 ∧ there 16384 = 16384 ∧ there 32768 = 32767 := by
  decide +kernel

/-- does the code `i` lose one on the way there and back? The last two of the bits below the leading nine are 01, and the rest is 0. -/
def loses (i : Nat) : Bool :=
  (512 < i && i < 1024 && i % 4 == 1) || (1024 < i && i < 2048 && i % 8 == 2) || (2048 < i && i < 4096 && i % 16 == 4) ||
  (4096 < i && i < 8192 && i % 32 == 8) || (8192 < i && i < 16384 && i % 64 == 16) || (16384 < i && i < 32768 && i % 128 == 32) || i == 32768

theorem loses_iff (i : Nat) : loses i = true ↔ (512 < i ∧ i < 1024 ∧ i % 4 = 1) ∨ (1024 < i ∧ i < 2048 ∧ i % 8 = 2) ∨ (2048 < i ∧ i < 4096 ∧ i % 16 = 4) ∨
    (4096 < i ∧ i < 8192 ∧ i % 32 = 8) ∨ (8192 < i ∧ i < 16384 ∧ i % 64 = 16) ∨ (16384 < i ∧ i < 32768 ∧ i % 128 = 32) ∨ i = 32768 := by
  simp only [loses, Bool.or_eq_true, Bool.and_eq_true, decide_eq_true_eq, beq_iff_eq, and_assoc, or_assoc]

theorem there_loses {i : Nat} (h : i ≤ 32768) : there i = if loses i then i - 1 else i := by
  obtain ⟨p1, p2, p3, p4, p5, p6⟩ := there_powers
  have key : ∀ k, 1 ≤ k → k ≤ 6 → 2 ^ (k + 8) < i → i < 2 ^ (k + 9) → there i = if 2 * (i % (2 * 2 ^ k)) = 2 ^ k then i - 1 else i :=
    fun k a b c d => there_eq a b c d
  have l := loses_iff i
  by_cases hs : i ≤ 512
  · rw [there_small i hs, if_neg]
    rw [l]; omega
  · by_cases c1 : i < 1024
    · rw [key 1 (by omega) (by omega) (by omega) (by omega)]
      norm_num
      by_cases hl : loses i = true
      · rw [if_pos hl, if_pos]; rw [l] at hl; omega
      · rw [if_neg hl, if_neg]; rw [l] at hl; omega
    · by_cases c2 : i < 2048
      · by_cases e : i = 1024
        · subst e; rw [p1]; rfl
        rw [key 2 (by omega) (by omega) (by omega) (by omega)]
        norm_num
        by_cases hl : loses i = true
        · rw [if_pos hl, if_pos]; rw [l] at hl; omega
        · rw [if_neg hl, if_neg]; rw [l] at hl; omega
      · by_cases c3 : i < 4096
        · by_cases e : i = 2048
          · subst e; rw [p2]; rfl
          rw [key 3 (by omega) (by omega) (by omega) (by omega)]
          norm_num
          by_cases hl : loses i = true
          · rw [if_pos hl, if_pos]; rw [l] at hl; omega
          · rw [if_neg hl, if_neg]; rw [l] at hl; omega
        · by_cases c4 : i < 8192
          · by_cases e : i = 4096
            · subst e; rw [p3]; rfl
            rw [key 4 (by omega) (by omega) (by omega) (by omega)]
            norm_num
            by_cases hl : loses i = true
            · rw [if_pos hl, if_pos]; rw [l] at hl; omega
            · rw [if_neg hl, if_neg]; rw [l] at hl; omega
          · by_cases c5 : i < 16384
            · by_cases e : i = 8192
              · subst e; rw [p4]; rfl
              rw [key 5 (by omega) (by omega) (by omega) (by omega)]
              norm_num
              by_cases hl : loses i = true
              · rw [if_pos hl, if_pos]; rw [l] at hl; omega
              · rw [if_neg hl, if_neg]; rw [l] at hl; omega
            · by_cases c6 : i < 32768
              · by_cases e : i = 16384
                · subst e; rw [p5]; rfl
                rw [key 6 (by omega) (by omega) (by omega) (by omega)]
                norm_num
                by_cases hl : loses i = true
                · rw [if_pos hl, if_pos]; rw [l] at hl; omega
                · rw [if_neg hl, if_neg]; rw [l] at hl; omega
              · obtain rfl : i = 32768 := by omega
                rw [p6]; rfl

/-- **there and back** -/
theorem again_eq {i : ℤ} (h : |i| ≤ 32768) : again i = if loses i.natAbs then i - i.sign else i := by
  rcases le_or_gt 0 i with h0 | h0
  · obtain ⟨n, rfl⟩ := Int.eq_ofNat_of_zero_le h0
    have hn : n ≤ 32768 := by rw [abs_of_nonneg h0] at h; omega
    rw [again_nat hn, there_loses hn, Int.natAbs_natCast]
    by_cases hl : loses n = true
    · rw [if_pos hl, if_pos hl]
      have : 0 < n := by rw [loses_iff] at hl; omega
      rw [Int.sign_eq_one_of_pos (by omega)]
      omega
    · rw [if_neg hl, if_neg hl]
  · obtain ⟨n, hn⟩ := Int.eq_ofNat_of_zero_le (show 0 ≤ -i by omega)
    obtain rfl : i = -(n : ℤ) := by omega
    have hn' : n ≤ 32768 := by rw [abs_neg, abs_of_nonneg (by omega)] at h; omega
    rw [again_neg (by rw [abs_of_nonneg (by omega)]; omega), again_nat hn', there_loses hn', Int.natAbs_neg, Int.natAbs_natCast]
    by_cases hl : loses n = true
    · rw [if_pos hl, if_pos hl]
      rw [Int.sign_eq_neg_one_of_neg h0]
      omega
    · rw [if_neg hl, if_neg hl]

/-- a code that has lost one does not lose another -/
theorem loses_pred {n : Nat} (h : loses n = true) : loses (n - 1) = false := by
  rw [← Bool.not_eq_true, loses_iff]
  rw [loses_iff] at h
  omega

theorem again_again {i : ℤ} (h : |i| ≤ 32768) : again (again i) = again i := by
  rw [again_eq h]
  by_cases hl : loses i.natAbs = true
  · rw [if_pos hl]
    have h1 : |i - i.sign| ≤ 32768 ∧ (i - i.sign).natAbs = i.natAbs - 1 := by
      rcases lt_trichotomy i 0 with c | c | c
      · rw [Int.sign_eq_neg_one_of_neg c, abs_le] at *; omega
      · subst c; simp
      · rw [Int.sign_eq_one_of_pos c, abs_le] at *; omega
    rw [again_eq h1.1, h1.2, loses_pred hl]
    rfl
  · rw [if_neg hl, again_eq h, if_neg hl]

end Adhoc
