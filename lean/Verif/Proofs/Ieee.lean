import Verif.Proofs.F32
import Mathlib.Tactic.IntervalCases

/-!
# The float model is IEEE 754 binary32

Checks of `Model/F32.lean` against the standard's own description by bit patterns: the finite values of the model are the values of the bit patterns,
rounding takes the nearest of them and of two nearest the one whose pattern is even, and overflows exactly from 2^128 - 2^103 on.
-/

namespace Adhoc
namespace Spec

/-- IEEE 754, 3.4: the number with sign bit `s`, exponent field `e < 255` and fraction field `m` -/
def ieee (s : Bool) (e m : Nat) : ℚ :=
  (if s then -1 else 1) * if e = 0 then (2 : ℚ) ^ (-126 : ℤ) * (m / 2 ^ 23) else (2 : ℚ) ^ ((e : ℤ) - 127) * (1 + m / 2 ^ 23)

/-- the bit pattern of these fields -/
def pattern (s : Bool) (e m : Nat) : BitVec 32 := BitVec.ofNat 32 ((if s then 2 ^ 31 else 0) + e * 2 ^ 23 + m)

end Spec
open Spec F32

theorem pattern_toNat {s : Bool} {e m : Nat} (he : e < 256) (hm : m < 2 ^ 23) :
    (pattern s e m).toNat = (if s then 2 ^ 31 else 0) + e * 2 ^ 23 + m := by
  unfold pattern
  rw [BitVec.toNat_ofNat, Nat.mod_eq_of_lt]
  norm_num at hm ⊢
  split <;> omega

/-- every 32-bit pattern has such fields -/
theorem pattern_onto (v : BitVec 32) : ∃ s e m, e < 256 ∧ m < 2 ^ 23 ∧ v = pattern s e m := by
  have hv := v.isLt
  refine ⟨decide (v.toNat / 2 ^ 31 = 1), v.toNat / 2 ^ 23 % 2 ^ 8, v.toNat % 2 ^ 23, ?_, ?_, ?_⟩
  · norm_num; omega
  · norm_num; omega
  · apply BitVec.eq_of_toNat_eq
    rw [pattern_toNat (by norm_num; omega) (by norm_num; omega)]
    norm_num at hv ⊢
    split <;> omega

theorem ieee_eq (s : Bool) (e m : Nat) : ieee s e m = (if s then -1 else 1) *
    if e = 0 then (m : ℚ) * 2 ^ (-149 : ℤ) else ((2 ^ 23 + m : Nat) : ℚ) * 2 ^ ((e : ℤ) - 150) := by
  unfold ieee
  congr 1
  split
  · rw [show (-149 : ℤ) = -126 - 23 by norm_num, zpow_sub₀ (by norm_num)]
    norm_num
    ring
  · rw [show (2 : ℚ) ^ ((e : ℤ) - 127) = 2 ^ ((e : ℤ) - 150) * 2 ^ (23 : ℤ) by rw [← zpow_add₀ (by norm_num)]; congr 1; ring]
    generalize (2 : ℚ) ^ ((e : ℤ) - 150) = u
    push_cast
    norm_num
    ring

theorem ieee_grid (s : Bool) {e m : Nat} (hm : m < 2 ^ 23) : Grid (ieee s e m) := by
  rw [ieee_eq]
  have hm' : (m : ℤ) < 2 ^ 23 := by exact_mod_cast hm
  split_ifs with h1 h2 h2
  · exact ⟨-m, -149, by norm_num at *; omega, le_rfl, by push_cast; ring⟩
  · exact ⟨-(2 ^ 23 + m), (e : ℤ) - 150, by rw [abs_neg]; rw [abs_of_nonneg (by omega)]; norm_num at *; omega, by omega, by push_cast; ring⟩
  · exact ⟨m, -149, by norm_num at *; omega, le_rfl, by push_cast; ring⟩
  · exact ⟨2 ^ 23 + m, (e : ℤ) - 150, by rw [abs_of_nonneg (by omega)]; norm_num at *; omega, by omega, by push_cast; ring⟩

theorem ieee_lt (s : Bool) {e m : Nat} (he : e < 255) (hm : m < 2 ^ 23) : |ieee s e m| < 2 ^ 128 := by
  rw [ieee_eq, abs_mul]
  have h1 : |(if s then (-1 : ℚ) else 1)| = 1 := by split <;> simp
  rw [h1, one_mul]
  have hm' : (m : ℚ) < 2 ^ 23 := by exact_mod_cast hm
  split_ifs with h
  · rw [abs_of_nonneg (by positivity)]
    calc (m : ℚ) * 2 ^ (-149 : ℤ) ≤ 2 ^ 23 * 2 ^ (-149 : ℤ) := by gcongr
      _ < 2 ^ 128 := by norm_num
  · rw [abs_of_nonneg (by positivity)]
    have h2 : (2 : ℚ) ^ ((e : ℤ) - 150) ≤ 2 ^ (104 : ℤ) := zpow_le_zpow_right₀ (by norm_num) (by omega)
    calc ((2 ^ 23 + m : Nat) : ℚ) * 2 ^ ((e : ℤ) - 150) < (2 ^ 24) * 2 ^ ((e : ℤ) - 150) := by
          gcongr
          push_cast
          linarith
      _ ≤ 2 ^ 24 * 2 ^ (104 : ℤ) := by gcongr
      _ = 2 ^ 128 := by norm_num

/-- `from_bits` gives a finite pattern its value, exactly, and the others their meaning. -/
theorem F32_fromBits (s : Bool) (e m : Nat) (he : e < 256) (hm : m < 2 ^ 23) :
    fromBits (pattern s e m) = if h : e < 255 then fin (ieee s e m) ((ieee_grid s hm).rep (ieee_lt s h hm)) else if m = 0 then inf s else nan := by
  have ht := pattern_toNat (s := s) he hm
  have h1 : (pattern s e m).toNat / 2 ^ 31 = if s then 1 else 0 := by
    rw [ht]; norm_num at hm ⊢; split <;> omega
  have h2 : (pattern s e m).toNat / 2 ^ 23 % 2 ^ 8 = e := by
    rw [ht]; norm_num at hm ⊢; split <;> omega
  have h3 : (pattern s e m).toNat % 2 ^ 23 = m := by
    rw [ht]; norm_num at hm ⊢; split <;> omega
  unfold fromBits
  simp only [h1, h2, h3]
  by_cases h : e < 255
  · rw [dif_pos h, if_neg (by omega)]
    rw [← ofRat_rep]
    congr 1
    rw [ieee_eq]
    cases s
    · simp
    · simp only [if_true]
      ring
  · rw [dif_neg h, if_pos (by omega)]
    cases s <;> simp

theorem ilog2_unique {q : ℚ} {k : ℤ} (h1 : (2 : ℚ) ^ k ≤ |q|) (h2 : |q| < (2 : ℚ) ^ (k + 1)) : ilog2 q = k := by
  have hq : q ≠ 0 := by
    rintro rfl
    rw [abs_zero] at h1
    exact absurd h1 (not_le.2 (by positivity))
  obtain ⟨h3, h4⟩ := ilog2_spec hq
  have a := (zpow_lt_zpow_iff_right₀ (by norm_num : (1 : ℚ) < 2)).1 (h1.trans_lt h4)
  have b := (zpow_lt_zpow_iff_right₀ (by norm_num : (1 : ℚ) < 2)).1 (h3.trans_lt h2)
  omega

/-- the whole significand of the fields -/
def significand (e m : Nat) : Nat := if e = 0 then m else 2 ^ 23 + m

theorem abs_ieee (s : Bool) (e m : Nat) : |ieee s e m| = (significand e m : ℚ) * 2 ^ (max (e : ℤ) 1 - 150) := by
  rw [ieee_eq, abs_mul, show |(if s then (-1 : ℚ) else 1)| = 1 by split <;> simp, one_mul]
  unfold significand
  split_ifs with h
  · subst h
    rw [abs_of_nonneg (by positivity)]
    norm_num
  · rw [abs_of_nonneg (by positivity), max_eq_left (by omega)]

theorem ulpExp_ieee (s : Bool) {e m : Nat} (hm : m < 2 ^ 23) (h0 : ieee s e m ≠ 0) : ulpExp (ieee s e m) = max (e : ℤ) 1 - 150 := by
  have ha := abs_ieee s e m
  have hs := ilog2_spec h0
  unfold ulpExp
  by_cases he : e = 0
  · subst he
    have h1 : |ieee s 0 m| < (2 : ℚ) ^ (-126 : ℤ) := by
      rw [ha]
      have : (significand 0 m : ℚ) < 2 ^ 23 := by unfold significand; rw [if_pos rfl]; exact_mod_cast hm
      calc (significand 0 m : ℚ) * 2 ^ (max ((0 : Nat) : ℤ) 1 - 150) < 2 ^ 23 * 2 ^ (max ((0 : Nat) : ℤ) 1 - 150) := by gcongr
        _ = _ := by norm_num
    have := (zpow_lt_zpow_iff_right₀ (by norm_num : (1 : ℚ) < 2)).1 (hs.1.trans_lt h1)
    norm_num
    omega
  · have hsig : significand e m = 2 ^ 23 + m := by unfold significand; rw [if_neg he]
    have hm' : (m : ℚ) < 2 ^ 23 := by exact_mod_cast hm
    have : ilog2 (ieee s e m) = (e : ℤ) - 127 := by
      apply ilog2_unique
      · rw [ha, hsig, max_eq_left (by omega), show (2 : ℚ) ^ ((e : ℤ) - 127) = 2 ^ 23 * 2 ^ ((e : ℤ) - 150) by
          rw [← zpow_natCast, ← zpow_add₀ (by norm_num)]; congr 1; push_cast; ring]
        gcongr
        push_cast
        linarith [Nat.cast_nonneg (α := ℚ) m]
      · rw [ha, hsig, max_eq_left (by omega), show (2 : ℚ) ^ ((e : ℤ) - 127 + 1) = 2 ^ 24 * 2 ^ ((e : ℤ) - 150) by
          rw [← zpow_natCast, ← zpow_add₀ (by norm_num)]; congr 1; push_cast; ring]
        gcongr
        push_cast
        linarith
    rw [this]
    omega

/-- every finite value of the model is the value of a finite bit pattern -/
theorem grid_ieee {q : ℚ} (hg : Grid q) (hl : |q| < 2 ^ 128) : ∃ s e m, e < 255 ∧ m < 2 ^ 23 ∧ q = ieee s e m := by
  by_cases h0 : q = 0
  · exact ⟨false, 0, 0, by norm_num, by norm_num, by rw [h0]; simp [ieee]⟩
  obtain ⟨h1, h2⟩ := ilog2_spec h0
  have hr := (roundQ_of_ne h0).symm.trans (roundQ_grid hg)
  set M := rne (q / 2 ^ ulpExp q) with hM
  clear_value M
  have hk : ilog2 q < 128 := by
    have := h1.trans_lt hl
    rw [show (2 : ℚ) ^ 128 = 2 ^ (128 : ℤ) by norm_num] at this
    exact (zpow_lt_zpow_iff_right₀ (by norm_num : (1 : ℚ) < 2)).1 this
  have habs : |q| = (M.natAbs : ℚ) * 2 ^ ulpExp q := by
    rw [← hr, abs_mul, abs_of_pos (ulp_pos _), Nat.cast_natAbs, Int.cast_abs]
    rw [hr]
  have hsign : ∀ x : ℚ, |q| = x → q = (if decide (q < 0) then -1 else 1) * x := by
    rintro x rfl
    by_cases hn : q < 0
    · simp [hn, abs_of_neg hn]
    · simp [hn, abs_of_nonneg (not_lt.1 hn)]
  by_cases hn : -126 ≤ ilog2 q
  · have hu : ulpExp q = ilog2 q - 23 := by unfold ulpExp; omega
    have hlo : 2 ^ 23 ≤ M.natAbs := by
      rw [habs, hu, show (2 : ℚ) ^ ilog2 q = 2 ^ 23 * 2 ^ (ilog2 q - 23) by
        rw [← zpow_natCast, ← zpow_add₀ (by norm_num)]; congr 1; push_cast; ring] at h1
      exact_mod_cast le_of_mul_le_mul_right h1 (by positivity)
    have hhi : M.natAbs < 2 ^ 24 := by
      rw [habs, hu, show (2 : ℚ) ^ (ilog2 q + 1) = 2 ^ 24 * 2 ^ (ilog2 q - 23) by
        rw [← zpow_natCast, ← zpow_add₀ (by norm_num)]; congr 1; push_cast; ring] at h2
      exact_mod_cast lt_of_mul_lt_mul_right h2 (by positivity)
    refine ⟨decide (q < 0), (ilog2 q + 127).toNat, M.natAbs - 2 ^ 23, by omega, by omega, ?_⟩
    rw [ieee_eq, if_neg (show ¬ (ilog2 q + 127).toNat = 0 by omega)]
    apply hsign
    rw [habs, hu]
    rw [show 2 ^ 23 + (M.natAbs - 2 ^ 23) = M.natAbs by omega, show (((ilog2 q + 127).toNat : ℤ) - 150) = ilog2 q - 23 by omega]
  · have hu : ulpExp q = -149 := by unfold ulpExp; omega
    have hhi : M.natAbs < 2 ^ 23 := by
      have h3 : (2 : ℚ) ^ (ilog2 q + 1) ≤ 2 ^ 23 * 2 ^ (-149 : ℤ) := by
        rw [show (2 : ℚ) ^ 23 * 2 ^ (-149 : ℤ) = 2 ^ (-126 : ℤ) by norm_num]
        exact zpow_le_zpow_right₀ (by norm_num) (by omega)
      have h4 := h2.trans_le h3
      rw [habs, hu] at h4
      exact_mod_cast lt_of_mul_lt_mul_right h4 (by positivity)
    refine ⟨decide (q < 0), 0, M.natAbs, by norm_num, hhi, ?_⟩
    rw [ieee_eq, if_pos rfl]
    apply hsign
    rw [habs, hu]

/-- Every value of the model is the value of a bit pattern. -/
theorem F32_onto (x : F32) : ∃ v, fromBits v = x := by
  rcases x with _ | s | ⟨q, h⟩
  · exact ⟨pattern false 255 1, by rw [F32_fromBits _ _ _ (by norm_num) (by norm_num)]; simp⟩
  · exact ⟨pattern s 255 0, by rw [F32_fromBits _ _ _ (by norm_num) (by norm_num)]; simp⟩
  · obtain ⟨s, e, m, he, hm, hq⟩ := grid_ieee h.grid h.lt
    refine ⟨pattern s e m, ?_⟩
    rw [F32_fromBits _ _ _ (by omega) hm, dif_pos he]
    exact fin_ext _ _ hq.symm

/-- Rounding takes a nearest finite value. -/
theorem F32_nearest {q r : ℚ} {hr : Rep r} (h : ofRat q = fin r hr) (s : Bool) {e m : Nat} (hm : m < 2 ^ 23) :
    |r - q| ≤ |ieee s e m - q| := by
  have : r = roundQ q := by
    unfold ofRat at h
    split at h
    · exact (F32.fin.inj h).symm
    · cases h
  rw [this]
  exact roundQ_nearest (ieee_grid s hm)

theorem rne_tie {x : ℚ} (h : |(rne x : ℚ) - x| = 1 / 2) : rne x % 2 = 0 := by
  have h1 := Int.floor_le x
  have h2 := Int.lt_floor_add_one x
  have hf : x.floor = ⌊x⌋ := rfl
  unfold rne at h ⊢
  simp only [hf] at h ⊢
  split_ifs at h ⊢ with a b c
  · exfalso
    rw [abs_sub_comm, abs_of_nonneg (by linarith)] at h
    linarith
  · exfalso
    push_cast at h
    rw [abs_of_nonneg (by linarith)] at h
    linarith
  · exact c
  · omega

/-- Of two nearest finite values, rounding takes the one whose bit pattern is even. -/
theorem F32_ties {q r : ℚ} {hr : Rep r} (h : ofRat q = fin r hr) {g : ℚ} (hg : Rep g) (hne : g ≠ r) (heq : |g - q| = |r - q|)
    (v : BitVec 32) (hv : fromBits v = fin r hr) : v.getLsbD 0 = false := by
  have hrq : r = roundQ q := by
    unfold ofRat at h
    split at h
    · exact (F32.fin.inj h).symm
    · cases h
  have hq : q ≠ 0 := by
    rintro rfl
    rw [hrq, roundQ_zero] at heq hne
    simp at heq
    exact hne heq
  have hu := ulp_pos q
  obtain ⟨u, hud⟩ : ∃ u, u = ulpExp q := ⟨_, rfl⟩
  obtain ⟨x, hx⟩ : ∃ x, x = q / 2 ^ u := ⟨_, rfl⟩
  have hR : r = (rne x : ℚ) * 2 ^ u := by rw [hrq, roundQ_of_ne hq, hx, hud]
  rw [← hud] at hu
  have hqx : q = x * 2 ^ u := by rw [hx]; field_simp
  -- the other value is on the other side
  have hg2 : g = 2 * q - r := by
    rcases abs_eq_abs.1 heq with h | h
    · exact absurd (by linarith) hne
    · linarith
  obtain ⟨y, hy⟩ : ∃ y, y = 2 * x - rne x := ⟨_, rfl⟩
  have hgy : g = y * 2 ^ u := by rw [hg2, hy, hR, hqx]; ring
  have hyne : y ≠ rne x := by
    intro h
    exact hne (by rw [hgy, hR, h])
  have hd : |y - x| = |(rne x : ℚ) - x| := by rw [hy, abs_sub_comm]; congr 1; ring
  have notint : |(rne x : ℚ) - x| < 1 / 2 → ∀ z : ℤ, y ≠ z := by
    rintro hlt z rfl
    have h1 : |(z : ℚ) - rne x| < 1 := by
      have := abs_sub_le (z : ℚ) x (rne x)
      rw [hd, abs_sub_comm x] at this
      linarith
    have h2 : |z - rne x| < 1 := by exact_mod_cast h1
    rw [Int.abs_lt_one_iff] at h2
    exact hyne (by exact_mod_cast (sub_eq_zero.1 h2))
  have hhalf : |(rne x : ℚ) - x| = 1 / 2 := by
    by_contra hc
    have hlt := lt_of_le_of_ne (rne_bound x) hc
    have hni := notint hlt
    obtain ⟨n, e, hn, he, hge⟩ := hg.grid
    by_cases hle : u ≤ e
    · apply hni (n * 2 ^ (e - u).toNat)
      have : g = ((n * 2 ^ (e - u).toNat : ℤ) : ℚ) * (2 : ℚ) ^ u := by
        rw [hge]
        push_cast
        rw [mul_assoc, ← zpow_natCast, ← zpow_add₀ (by norm_num)]
        congr 2
        omega
      rw [hgy] at this
      exact_mod_cast mul_right_cancel₀ hu.ne' this
    · have huk : u = ilog2 q - 23 := by rw [hud] at hle ⊢; unfold ulpExp at hle ⊢; omega
      have hxlo : (2 : ℚ) ^ 23 ≤ |x| := by
        have h1 := (ilog2_spec hq).1
        rw [hqx, abs_mul, abs_of_pos hu, ← hqx, show (2 : ℚ) ^ ilog2 q = 2 ^ 23 * 2 ^ u by
          rw [huk, ← zpow_natCast, ← zpow_add₀ (by norm_num)]; congr 1; push_cast; ring] at h1
        exact le_of_mul_le_mul_right h1 hu
      have hyle : |y| ≤ 2 ^ 23 := by
        have h1 : |g| ≤ 2 ^ 23 * 2 ^ u := by
          rw [hge, abs_mul, abs_of_pos (by positivity : (0 : ℚ) < 2 ^ e)]
          have h2 : |(n : ℚ)| ≤ 2 ^ 24 := by exact_mod_cast hn
          have h3 : (2 : ℚ) ^ e ≤ 2 ^ (u - 1) := zpow_le_zpow_right₀ (by norm_num) (by omega)
          calc |(n : ℚ)| * 2 ^ e ≤ 2 ^ 24 * 2 ^ (u - 1) := by gcongr
            _ = 2 ^ 23 * 2 ^ u := by rw [zpow_sub₀ (by norm_num)]; ring
        rw [hgy, abs_mul, abs_of_pos hu] at h1
        exact le_of_mul_le_mul_right h1 hu
      -- a power of two, which is a whole number, would be nearer
      have key : ∀ t : ℤ, |(rne x : ℚ) - x| ≤ |(t : ℚ) - x| := by
        intro t
        by_cases ht : t = rne x
        · rw [ht]
        · have h1 : (1 : ℚ) ≤ |(t : ℚ) - rne x| := by
            have : (1 : ℤ) ≤ |t - rne x| := Int.one_le_abs (sub_ne_zero.2 ht)
            exact_mod_cast this
          have h3 := abs_sub_le (t : ℚ) x (rne x)
          rw [abs_sub_comm x] at h3
          linarith
      rcases le_total 0 x with hx0 | hx0
      · rw [abs_of_nonneg hx0] at hxlo
        have h1 := key (2 ^ 23)
        have hylt : y < 2 ^ 23 := lt_of_le_of_ne (le_of_abs_le hyle) (by have := hni (2 ^ 23); push_cast at this; exact this)
        rw [← hd, abs_of_nonpos (by linarith)] at h1
        push_cast at h1
        rw [abs_of_nonpos (by linarith)] at h1
        linarith
      · rw [abs_of_nonpos hx0] at hxlo
        have h1 := key (-2 ^ 23)
        have hygt : -2 ^ 23 < y := lt_of_le_of_ne (neg_le_of_abs_le hyle) (by have := (hni (-2 ^ 23)).symm; push_cast at this; exact this)
        rw [← hd, abs_of_nonneg (by linarith)] at h1
        push_cast at h1
        rw [abs_of_nonneg (by linarith)] at h1
        linarith
  have heven := rne_tie hhalf
  -- the pattern
  obtain ⟨s, e, m, he, hm, rfl⟩ := pattern_onto v
  rw [F32_fromBits s e m he hm] at hv
  by_cases h255 : e < 255
  swap
  · rw [dif_neg h255] at hv
    split at hv <;> cases hv
  rw [dif_pos h255] at hv
  have hri := F32.fin.inj hv
  have hlsb : (pattern s e m).getLsbD 0 = decide (m % 2 = 1) := by
    rw [← BitVec.testBit_toNat, pattern_toNat he hm, Nat.testBit_zero]
    norm_num
    split <;> omega
  rw [hlsb, decide_eq_false]
  intro hodd
  have hsig : significand e m % 2 = 1 := by unfold significand; norm_num; split <;> omega
  by_cases h0 : ieee s e m = 0
  · have := abs_ieee s e m
    rw [h0, abs_zero] at this
    have : (significand e m : ℚ) = 0 := by
      rcases mul_eq_zero.1 this.symm with h | h
      · exact h
      · exact absurd h (by positivity)
    have : significand e m = 0 := by exact_mod_cast this
    omega
  have hru := ulpExp_ieee s hm h0
  have hra := abs_ieee s e m
  rw [hri] at hru hra h0
  rw [← hru] at hra
  have hrabs : |r| = ((rne x).natAbs : ℚ) * 2 ^ u := by
    rw [hR, abs_mul, abs_of_pos hu, Nat.cast_natAbs, Int.cast_abs]
  have hrle : (rne x).natAbs ≤ 2 ^ 24 := by
    have := rne_abs_le (q := x) (m := 2 ^ 24) (by rw [hx, hud]; exact abs_div_ulp_le hq)
    rw [abs_le] at this
    omega
  -- rounding does not leave the binade, except to the next power of two
  have hcase : ulpExp r = u ∨ (rne x).natAbs = 2 ^ 24 := by
    by_cases h24 : (rne x).natAbs = 2 ^ 24
    · exact .inr h24
    left
    have h24' : ((rne x).natAbs : ℚ) < 2 ^ 24 := by
      have : (rne x).natAbs < 2 ^ 24 := by omega
      exact_mod_cast this
    have hr2 := ilog2_spec h0
    have hup : |r| < 2 ^ (u + 24) := by
      rw [hrabs, show (2 : ℚ) ^ (u + 24) = 2 ^ 24 * 2 ^ u by rw [zpow_add₀ (by norm_num), mul_comm]; norm_num]
      gcongr
    have hk1 := (zpow_lt_zpow_iff_right₀ (by norm_num : (1 : ℚ) < 2)).1 (hr2.1.trans_lt hup)
    by_cases hsub : u = -149
    · rw [hsub] at hk1 ⊢
      unfold ulpExp
      omega
    · have huk : u = ilog2 q - 23 := by rw [hud] at hsub ⊢; unfold ulpExp at hsub ⊢; omega
      have hxlo : (2 : ℚ) ^ 23 ≤ |x| := by
        have h1 := (ilog2_spec hq).1
        rw [hqx, abs_mul, abs_of_pos hu, ← hqx, show (2 : ℚ) ^ ilog2 q = 2 ^ 23 * 2 ^ u by
          rw [huk, ← zpow_natCast, ← zpow_add₀ (by norm_num)]; congr 1; push_cast; ring] at h1
        exact le_of_mul_le_mul_right h1 hu
      have hRlo : 2 ^ 23 ≤ (rne x).natAbs := by
        rcases le_total 0 x with hx0 | hx0
        · rw [abs_of_nonneg hx0] at hxlo
          have := rne_mono (a := ((2 ^ 23 : ℤ) : ℚ)) (b := x) (by push_cast; exact hxlo)
          rw [rne_int] at this
          omega
        · rw [abs_of_nonpos hx0] at hxlo
          have := rne_mono (a := x) (b := ((-2 ^ 23 : ℤ) : ℚ)) (by push_cast; linarith)
          rw [rne_int] at this
          omega
      have hlo : (2 : ℚ) ^ (u + 23) ≤ |r| := by
        rw [hrabs, show (2 : ℚ) ^ (u + 23) = 2 ^ 23 * 2 ^ u by rw [zpow_add₀ (by norm_num), mul_comm]; norm_num]
        gcongr
        exact_mod_cast hRlo
      have hk2 := (zpow_lt_zpow_iff_right₀ (by norm_num : (1 : ℚ) < 2)).1 (hlo.trans_lt hr2.2)
      have : -149 ≤ u := by rw [hud]; unfold ulpExp; omega
      unfold ulpExp
      omega
  rcases hcase with hc | hc
  · rw [hc, hrabs] at hra
    have := mul_right_cancel₀ hu.ne' hra
    have : (rne x).natAbs = significand e m := by exact_mod_cast this
    omega
  · have hr24 : |r| = 2 ^ (u + 24) := by
      rw [hrabs, hc, zpow_add₀ (by norm_num)]; push_cast; rw [mul_comm]
    have hk : ilog2 r = u + 24 := ilog2_unique hr24.ge (by rw [hr24]; exact zpow_lt_zpow_right₀ (by norm_num) (by omega))
    have hlow : -149 ≤ u := by rw [hud]; unfold ulpExp; omega
    have hur : ulpExp r = u + 1 := by unfold ulpExp; omega
    rw [hur, hr24, show (2 : ℚ) ^ (u + 24) = 2 ^ 23 * 2 ^ (u + 1) by
      rw [← zpow_natCast, ← zpow_add₀ (by norm_num)]; congr 1; push_cast; ring] at hra
    have := mul_right_cancel₀ (by positivity) hra
    have : 2 ^ 23 = significand e m := by exact_mod_cast this
    omega

/-- Rounding overflows exactly from half a unit above the greatest finite value on. -/
theorem F32_overflow (q : ℚ) : (∃ s, ofRat q = inf s) ↔ 2 ^ 128 - 2 ^ 103 ≤ |q| := by
  have hiff : (∃ s, ofRat q = inf s) ↔ ¬ |roundQ q| < 2 ^ 128 := by
    unfold ofRat
    split
    · rename_i h
      exact ⟨(by rintro ⟨s, hs⟩; cases hs), fun h' => absurd h h'⟩
    · rename_i h
      exact ⟨fun _ => h, fun _ => ⟨_, rfl⟩⟩
  have hbig : roundQ (2 ^ 128 - 2 ^ 103) = 2 ^ 128 := by decide +kernel
  have hbig' : roundQ (-(2 ^ 128 - 2 ^ 103)) = -2 ^ 128 := by decide +kernel
  have hmax : Grid (2 ^ 128 - 2 ^ 104 : ℚ) := ⟨2 ^ 24 - 1, 104, by norm_num, by norm_num, by norm_num⟩
  rw [hiff]
  constructor
  · intro h
    by_contra hc
    apply h
    push Not at hc
    by_cases hle : |q| ≤ 2 ^ 128 - 2 ^ 104
    · exact (roundQ_abs_le hmax hle).trans_lt (by norm_num)
    · push Not at hle
      rcases le_total 0 q with h0 | h0
      · rw [abs_of_nonneg h0] at hc hle
        have := roundQ_nearest (q := q) hmax
        rw [abs_of_nonpos (by linarith : (2 ^ 128 - 2 ^ 104 : ℚ) - q ≤ 0)] at this
        rw [abs_lt]
        have h1 := abs_le.1 this
        constructor <;> norm_num at * <;> linarith
      · rw [abs_of_nonpos h0] at hc hle
        have := roundQ_nearest (q := q) hmax.neg
        rw [abs_of_nonneg (by linarith : 0 ≤ -(2 ^ 128 - 2 ^ 104 : ℚ) - q)] at this
        rw [abs_lt]
        have h1 := abs_le.1 this
        constructor <;> norm_num at * <;> linarith
  · intro h hlt
    rcases le_total 0 q with h0 | h0
    · rw [abs_of_nonneg h0] at h
      have := roundQ_mono h
      rw [hbig] at this
      exact absurd hlt (not_lt.2 (this.trans (le_abs_self _)))
    · rw [abs_of_nonpos h0] at h
      have := roundQ_mono (a := q) (b := -(2 ^ 128 - 2 ^ 103)) (by linarith)
      rw [hbig'] at this
      exact absurd hlt (not_lt.2 ((by linarith : (2 : ℚ) ^ 128 ≤ -roundQ q).trans (neg_le_abs _)))

-- 2^24 + 1 lies half way and goes to the even 2^24, 2^24 + 3 to the even 2^24 + 4
example : ofRat (2 ^ 24 + 1) = ofRat (2 ^ 24) ∧ ofRat (2 ^ 24 + 3) = ofRat (2 ^ 24 + 4) := by decide +kernel
example : fromBits 0x3f800000#32 = ofInt 1 ∧ fromBits 0xc0490fdb#32 = ofRat (-13176795 / 4194304) ∧ fromBits 1#32 = ofRat (1 / 2 ^ 149) := by decide +kernel

end Adhoc
