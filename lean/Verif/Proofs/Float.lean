import Verif.Proofs.Sample

/-! # Error analysis of the sample conversion, the predictor and the dithering -/

namespace Adhoc
open F32

/-! ## conversion to 16 bits -/

/-- the value of a float, limited to [-1, 1] -/
def unit : F32 → ℚ
  | .nan => 0
  | .inf true => -1
  | .inf false => 1
  | .fin q _ => max (-1) (min 1 q)

theorem unit_abs (x : F32) : |unit x| ≤ 1 := by
  cases x with
  | nan => simp [unit]
  | inf s => cases s <;> simp [unit]
  | fin q h =>
    unfold unit
    rw [abs_le]
    exact ⟨le_max_left _ _, max_le (by norm_num) (min_le_left _ _)⟩

theorem F32.Is.unit {x : F32} {q : ℚ} (h : Is x q) : Adhoc.unit x = max (-1) (min 1 q) := by
  obtain ⟨_, rfl⟩ := h
  rfl

theorem unit_of_abs {x : F32} {q : ℚ} (h : Is x q) (hq : |q| ≤ 1) : unit x = q := by
  rw [Is.unit h, min_eq_right (le_of_abs_le hq), max_eq_right (neg_le_of_abs_le hq)]

/-- the clamped value, unless it is NaN -/
theorem is_clamp {x : F32} (h : x ≠ .nan) : Is (x.clamp (ofInt (-1)) (ofInt 1)) (unit x) := by
  have h1 : ofInt (-1) = fin ((-1 : ℤ) : ℚ) (rep_int (by norm_num)) := ofInt_fin (by norm_num)
  have h2 : ofInt 1 = fin ((1 : ℤ) : ℚ) (rep_int (by norm_num)) := ofInt_fin (by norm_num)
  have i1 : Is (ofInt (-1)) (-1) := by simpa using is_int (n := -1) (by norm_num)
  have i2 : Is (ofInt 1) 1 := by simpa using is_int (n := 1) (by norm_num)
  cases x with
  | nan => exact absurd rfl h
  | inf s =>
    cases s
    · have : F32.clamp (.inf false) (ofInt (-1)) (ofInt 1) = ofInt 1 := by rw [h1, h2]; simp [clamp, lt]
      rw [this]; exact i2
    · have : F32.clamp (.inf true) (ofInt (-1)) (ofInt 1) = ofInt (-1) := by rw [h1, h2]; simp [clamp, lt]
      rw [this]; exact i1
  | fin q hq =>
    clear h
    have h := hq
    have hl : lt (fin q h) (ofInt (-1)) = decide (q < -1) := by rw [h1]; simp [lt]
    have hr : lt (ofInt 1) (fin q h) = decide (1 < q) := by rw [h2]; simp [lt]
    have hlr : lt (ofInt 1) (ofInt (-1)) = false := by rw [h1, h2]; simp [lt]
    unfold clamp
    simp only
    by_cases c1 : q < -1
    · rw [show lt (fin q hq) (ofInt (-1)) = true by rw [hl]; simpa using c1, if_pos rfl, hlr]
      have : unit (fin q hq) = -1 := by
        show max (-1) (min 1 q) = _; rw [min_eq_right (by linarith), max_eq_left (by linarith)]
      rw [this]
      exact i1
    · rw [show lt (fin q hq) (ofInt (-1)) = false by rw [hl]; simpa using c1, if_neg Bool.false_ne_true]
      by_cases c2 : 1 < q
      · rw [show lt (ofInt 1) (fin q hq) = true by rw [hr]; simpa using c2, if_pos rfl]
        have : unit (fin q hq) = 1 := by
          show max (-1) (min 1 q) = _; rw [min_eq_left (by linarith), max_eq_right (by norm_num)]
        rw [this]
        exact i2
      · rw [show lt (ofInt 1) (fin q hq) = false by rw [hr]; simpa using c2, if_neg Bool.false_ne_true]
        have : unit (fin q hq) = q := by
          show max (-1) (min 1 q) = _; rw [min_eq_right (by linarith), max_eq_right (by linarith)]
        rw [this]
        exact ⟨hq, rfl⟩

theorem rep_32767 : Rep 32767 := by simpa using rep_int (n := 32767) (by norm_num)

/-- the code of a sample -/
theorem truncateSample_eq (x : F32) : truncateSample x = truncQ (roundQ (unit x * 32767)) := by
  by_cases hx : x = .nan
  · subst hx
    unfold truncateSample
    have : (F32.nan.clamp (ofInt (-1)) (ofInt 1) * ofInt 32767) = .nan := by
      have : F32.nan.clamp (ofInt (-1)) (ofInt 1) = .nan := by
        rw [ofInt_fin (n := -1) (by norm_num), ofInt_fin (n := 1) (by norm_num)]; simp [clamp, lt]
      rw [this, mul_def, mul]
    rw [this]
    have h0 := truncQ_int 0
    push_cast at h0
    simp [toIntSat, unit, roundQ_zero, h0]
  · have hb : |unit x * ((32767 : ℤ) : ℚ)| ≤ 32767 := by
      have := unit_abs x
      rw [abs_mul]; push_cast; norm_num; linarith
    obtain ⟨hr, e⟩ := (is_clamp hx).mul (is_int (n := 32767) (by norm_num)) rep_32767 hb
    unfold truncateSample
    rw [e]
    simp only [toIntSat]
    push_cast at hb ⊢
    have h1 : |(truncQ (roundQ (unit x * 32767)) : ℚ)| ≤ 32767 := (truncQ_abs _).trans (roundQ_abs_le rep_32767.grid hb)
    have h2 : |truncQ (roundQ (unit x * 32767))| ≤ 32767 := by exact_mod_cast h1
    rw [abs_le] at h2
    omega

theorem truncateSample_mono {x y : F32} (h : unit x ≤ unit y) : truncateSample x ≤ truncateSample y := by
  rw [truncateSample_eq, truncateSample_eq]
  exact truncQ_mono (roundQ_mono (by linarith))

theorem unit_lt {x y : F32} (h : x.lt y = true) : unit x ≤ unit y := by
  cases x with
  | nan => simp [lt] at h
  | inf s =>
    cases y with
    | nan => simp [lt] at h
    | inf t => cases s <;> cases t <;> simp [lt] at h; simp [unit]
    | fin q hq =>
      cases s
      · simp [lt] at h
      · exact neg_le_of_abs_le (unit_abs _)
  | fin p hp =>
    cases y with
    | nan => simp [lt] at h
    | inf t =>
      cases t
      · exact le_of_abs_le (unit_abs _)
      · simp [lt] at h
    | fin q hq =>
      simp [lt] at h
      unfold unit
      exact max_le_max le_rfl (min_le_min le_rfl h.le)

/-- how far the code is from the sample -/
theorem truncateSample_err (x : F32) : |(truncateSample x : ℚ) - unit x * 32767| < 1 + 1 / 500 := by
  rw [truncateSample_eq]
  have h1 := truncQ_err (roundQ (unit x * 32767))
  have h2 := roundQ_err (unit x * 32767)
  have h3 : |unit x * 32767| ≤ 32767 := by
    have := unit_abs x
    rw [abs_mul]; norm_num; linarith
  have h4 : |unit x * 32767| / 2 ^ 24 ≤ 32767 / 2 ^ 24 := by gcongr
  rw [abs_lt] at h1 ⊢
  rw [abs_le] at h2
  have h5 : (32767 : ℚ) / 2 ^ 24 + 1 / 2 ^ 150 < 1 / 500 := by norm_num
  constructor <;> linarith [h1.1, h1.2, h2.1, h2.2]

/-- how far the sample is from its code -/
theorem normalizeSample_err {i : ℤ} (h : |i| ≤ 32768) : ∃ v, Is (normalizeSample i) v ∧ |v - (i : ℚ) / 32767| ≤ |(i : ℚ)| / 32767 / 2 ^ 23 := by
  refine ⟨_, is_normalize h, ?_⟩
  by_cases h0 : i = 0
  · subst h0; simp [roundQ_zero]
  have h1 := roundQ_err ((i : ℚ) * (32769 / 2 ^ 30))
  have hi : (1 : ℚ) ≤ |(i : ℚ)| := by exact_mod_cast Int.one_le_abs h0
  rw [abs_mul, show |(32769 : ℚ) / 2 ^ 30| = 32769 / 2 ^ 30 by norm_num] at h1
  have h2 : |(i : ℚ) * (32769 / 2 ^ 30) - (i : ℚ) / 32767| = |(i : ℚ)| * (1 / (32767 * 2 ^ 30)) := by
    rw [show (i : ℚ) * (32769 / 2 ^ 30) - (i : ℚ) / 32767 = (i : ℚ) * (-(1 / (32767 * 2 ^ 30))) by ring, abs_mul, abs_neg,
      show |(1 : ℚ) / (32767 * 2 ^ 30)| = 1 / (32767 * 2 ^ 30) by norm_num]
  have h3 := abs_add_le (roundQ ((i : ℚ) * (32769 / 2 ^ 30)) - (i : ℚ) * (32769 / 2 ^ 30)) ((i : ℚ) * (32769 / 2 ^ 30) - (i : ℚ) / 32767)
  rw [sub_add_sub_cancel, h2] at h3
  refine h3.trans ((add_le_add h1 le_rfl).trans ?_)
  generalize |(i : ℚ)| = a at hi
  norm_num
  linarith

theorem code_abs {x : F32} : |truncateSample x| ≤ 32767 := by
  have := truncateSample_range x
  rw [abs_le]
  exact this

/-- a sample and its 16-bit quantisation -/
theorem quantise_err (x : F32) : ∃ v, Is (normalizeSample (truncateSample x)) v ∧ |v - unit x| ≤ 1.01 / 32767 := by
  have hc := code_abs (x := x)
  obtain ⟨v, hv, h1⟩ := normalizeSample_err (i := truncateSample x) (by linarith)
  refine ⟨v, hv, ?_⟩
  have h2 := truncateSample_err x
  have hc' : |(truncateSample x : ℚ)| ≤ 32767 := by exact_mod_cast hc
  have h3 : |(truncateSample x : ℚ)| / 32767 / 2 ^ 23 ≤ 1 / 2 ^ 23 := by
    have : |(truncateSample x : ℚ)| / 32767 ≤ 1 := by rw [div_le_one (by norm_num)]; exact hc'
    gcongr
  have h4 : (truncateSample x : ℚ) / 32767 - unit x = ((truncateSample x : ℚ) - unit x * 32767) / 32767 := by field_simp
  have h5 : |(truncateSample x : ℚ) / 32767 - unit x| ≤ (1 + 1 / 500) / 32767 := by
    rw [h4, abs_div, show |(32767 : ℚ)| = 32767 by norm_num]
    gcongr
  have h6 := abs_add_le (v - (truncateSample x : ℚ) / 32767) ((truncateSample x : ℚ) / 32767 - unit x)
  rw [sub_add_sub_cancel] at h6
  refine h6.trans ((add_le_add (h1.trans h3) h5).trans (by norm_num))

/-! ## the predictor -/

/-- one rounding: the bound is a representable number, the error a fraction of it -/
theorem round_step {q B : ℚ} (hB : Rep B) (h : |q| ≤ B) : |roundQ q| ≤ B ∧ |roundQ q - q| ≤ (B + 1 / 1000) / 2 ^ 24 := by
  refine ⟨roundQ_abs_le hB.grid h, (roundQ_err q).trans ?_⟩
  have : |q| / 2 ^ 24 ≤ B / 2 ^ 24 := by gcongr
  have : (1 : ℚ) / 2 ^ 150 ≤ 1 / 1000 / 2 ^ 24 := by norm_num
  rw [add_div]
  linarith

/-- bounds in units a little larger than 1 -/
theorem rep_bound (n : ℤ) (h : |n * 129| ≤ 2 ^ 24) : Rep ((n : ℚ) * (129 / 128)) := by
  have : (n : ℚ) * (129 / 128) = ((n * 129 : ℤ) : ℚ) * 2 ^ (-7 : ℤ) := by
    push_cast; rw [show ((2 : ℚ) ^ (-7 : ℤ)) = 1 / 128 by norm_num]; ring
  rw [this]
  refine (grid_of h (by norm_num)).rep ?_
  have h' : |((n * 129 : ℤ) : ℚ)| ≤ 2 ^ 24 := by exact_mod_cast h
  rw [abs_mul, show |(2 : ℚ) ^ (-7 : ℤ)| = 1 / 128 by norm_num]
  have : |((n * 129 : ℤ) : ℚ)| * (1 / 128) ≤ 2 ^ 24 * (1 / 128) := by gcongr
  exact lt_of_le_of_lt this (by norm_num)

theorem F32.Is.of_sub {x y : F32} {a b : ℚ} (hx : Is x a) (hy : Is y b) (B : ℤ) (hB : |B * 129| ≤ 2 ^ 24) (h : |a - b| ≤ B * (129 / 128)) :
    ∃ c, Is (x - y) c ∧ |c| ≤ B * (129 / 128) ∧ |c - (a - b)| ≤ (B * (129 / 128) + 1 / 1000) / 2 ^ 24 :=
  ⟨_, hx.sub hy (rep_bound B hB) h, round_step (rep_bound B hB) h⟩

theorem F32.Is.of_add {x y : F32} {a b : ℚ} (hx : Is x a) (hy : Is y b) (B : ℤ) (hB : |B * 129| ≤ 2 ^ 24) (h : |a + b| ≤ B * (129 / 128)) :
    ∃ c, Is (x + y) c ∧ |c| ≤ B * (129 / 128) ∧ |c - (a + b)| ≤ (B * (129 / 128) + 1 / 1000) / 2 ^ 24 :=
  ⟨_, hx.add hy (rep_bound B hB) h, round_step (rep_bound B hB) h⟩

theorem F32.Is.of_mul {x y : F32} {a b : ℚ} (hx : Is x a) (hy : Is y b) (B : ℤ) (hB : |B * 129| ≤ 2 ^ 24) (h : |a * b| ≤ B * (129 / 128)) :
    ∃ c, Is (x * y) c ∧ |c| ≤ B * (129 / 128) ∧ |c - a * b| ≤ (B * (129 / 128) + 1 / 1000) / 2 ^ 24 :=
  ⟨_, hx.mul hy (rep_bound B hB) h, round_step (rep_bound B hB) h⟩

/-- The value of the parabola through three samples, one step on: near the extrapolation. -/
theorem eval_err {x0 x1 x2 : F32} {a b c : ℚ} (h0 : Is x0 a) (h1 : Is x1 b) (h2 : Is x2 c) (ha : |a| ≤ 129 / 128) (hb : |b| ≤ 129 / 128)
    (hc : |c| ≤ 129 / 128) :
    ∃ v, Is ((FixedParabola.fromSamples x0 x1 x2).computeCoefs.eval (F32.ofInt 3)) v ∧ |v - (a - 3 * b + 3 * c)| ≤ 283 / 2 ^ 24 := by
  unfold FixedParabola.eval FixedParabola.computeCoefs FixedParabola.fromSamples
  dsimp only
  have i2 : Is (ofInt 2) 2 := by simpa using is_int (n := 2) (by norm_num)
  have i3 : Is (ofInt 3) 3 := by simpa using is_int (n := 3) (by norm_num)
  have i4 : Is (ofInt 4) 4 := by simpa using is_int (n := 4) (by norm_num)
  have ih : Is (ofRat (1 / 2)) (1 / 2) := by
    have hg : Rep (1 / 2) := (show Grid (1 / 2) from ⟨1, -1, by norm_num, by norm_num, by norm_num⟩).rep (by norm_num)
    exact ⟨hg, ofRat_rep hg⟩
  rw [abs_le] at ha hb hc
  obtain ⟨d, id, hd, ed⟩ := h1.of_sub h0 2 (by norm_num) (by rw [abs_le]; constructor <;> push_cast <;> linarith)
  rw [abs_le] at hd ed
  push_cast at hd ed
  obtain ⟨e, ie, he, ee⟩ := h2.of_sub h0 2 (by norm_num) (by rw [abs_le]; constructor <;> push_cast <;> linarith)
  rw [abs_le] at he ee
  push_cast at he ee
  obtain ⟨p, ip, hp, ep⟩ := i4.of_mul id 8 (by norm_num) (by rw [abs_le]; constructor <;> push_cast <;> linarith)
  rw [abs_le] at hp ep
  push_cast at hp ep
  obtain ⟨r, ir, hr, er⟩ := ip.of_sub ie 10 (by norm_num) (by rw [abs_le]; constructor <;> push_cast <;> linarith)
  rw [abs_le] at hr er
  push_cast at hr er
  obtain ⟨c1, ic1, hc1, ec1⟩ := ir.of_mul ih 5 (by norm_num) (by rw [abs_le]; constructor <;> push_cast <;> linarith)
  rw [abs_le] at hc1 ec1
  push_cast at hc1 ec1
  obtain ⟨s, is, hs, es⟩ := i2.of_mul id 4 (by norm_num) (by rw [abs_le]; constructor <;> push_cast <;> linarith)
  rw [abs_le] at hs es
  push_cast at hs es
  obtain ⟨t, it, ht, et⟩ := ie.of_sub is 6 (by norm_num) (by rw [abs_le]; constructor <;> push_cast <;> linarith)
  rw [abs_le] at ht et
  push_cast at ht et
  obtain ⟨c2, ic2, hc2, ec2⟩ := it.of_mul ih 3 (by norm_num) (by rw [abs_le]; constructor <;> push_cast <;> linarith)
  rw [abs_le] at hc2 ec2
  push_cast at hc2 ec2
  obtain ⟨u, iu, hu, eu⟩ := ic2.of_mul i3 9 (by norm_num) (by rw [abs_le]; constructor <;> push_cast <;> linarith)
  rw [abs_le] at hu eu
  push_cast at hu eu
  obtain ⟨w, iw, hw, ew⟩ := ic1.of_add iu 14 (by norm_num) (by rw [abs_le]; constructor <;> push_cast <;> linarith)
  rw [abs_le] at hw ew
  push_cast at hw ew
  obtain ⟨y, iy, hy, ey⟩ := iw.of_mul i3 42 (by norm_num) (by rw [abs_le]; constructor <;> push_cast <;> linarith)
  rw [abs_le] at hy ey
  push_cast at hy ey
  obtain ⟨v, iv, hv, ev⟩ := h0.of_add iy 43 (by norm_num) (by rw [abs_le]; constructor <;> push_cast <;> linarith)
  rw [abs_le] at hv ev
  push_cast at hv ev
  refine ⟨v, iv, ?_⟩
  rw [abs_le]
  constructor <;> linarith [ed.1, ed.2]

theorem normalize_value {i : ℤ} (h : |i| ≤ 32768) :
    ∃ v, Is (normalizeSample i) v ∧ |v| ≤ 129 / 128 ∧ |v - (i : ℚ) / 32767| ≤ 2 / 2 ^ 23 := by
  obtain ⟨v, hv, h1⟩ := normalizeSample_err h
  have hi : |(i : ℚ)| ≤ 32768 := by exact_mod_cast h
  have h2 : |(i : ℚ)| / 32767 ≤ 32768 / 32767 := by gcongr
  have h3 : |(i : ℚ)| / 32767 / 2 ^ 23 ≤ 32768 / 32767 / 2 ^ 23 := by gcongr
  refine ⟨v, hv, ?_, h1.trans (h3.trans (by norm_num))⟩
  have h4 := abs_add_le (v - (i : ℚ) / 32767) ((i : ℚ) / 32767)
  rw [sub_add_cancel, abs_div, show |(32767 : ℚ)| = 32767 by norm_num] at h4
  refine h4.trans ((add_le_add (h1.trans h3) h2).trans (by norm_num))

/-- limiting to [-1, 1] brings values no further apart -/
theorem limit_near (a b : ℚ) : |max (-1) (min 1 a) - max (-1) (min 1 b)| ≤ |a - b| := by
  rw [abs_le]
  have h1 := le_abs_self (a - b)
  have h2 := neg_abs_le (a - b)
  have h3 := abs_nonneg (a - b)
  rcases max_cases (-1 : ℚ) (min 1 a) with ⟨e1, c1⟩ | ⟨e1, c1⟩ <;> rcases max_cases (-1 : ℚ) (min 1 b) with ⟨e2, c2⟩ | ⟨e2, c2⟩ <;>
  rcases min_cases (1 : ℚ) a with ⟨e3, c3⟩ | ⟨e3, c3⟩ <;> rcases min_cases (1 : ℚ) b with ⟨e4, c4⟩ | ⟨e4, c4⟩ <;>
  rw [e1, e2] <;> constructor <;> linarith

/-- **The predictor**: at most 1 away from the quadratic extrapolation, limited to 16 bits. -/
theorem predict_err {h3 h2 h1 : ℤ} (a3 : |h3| ≤ 32768) (a2 : |h2| ≤ 32768) (a1 : |h1| ≤ 32768) :
    |predict h3 h2 h1 - max (-32767) (min 32767 (h3 - 3 * h2 + 3 * h1))| ≤ 1 := by
  obtain ⟨v3, i3, b3, e3⟩ := normalize_value a3
  obtain ⟨v2, i2, b2, e2⟩ := normalize_value a2
  obtain ⟨v1, i1, b1, e1⟩ := normalize_value a1
  obtain ⟨v, iv, ev⟩ := eval_err i3 i2 i1 b3 b2 b1
  obtain ⟨x, hx⟩ : ∃ x, x = (FixedParabola.fromSamples (normalizeSample h3) (normalizeSample h2) (normalizeSample h1)).computeCoefs.eval (F32.ofInt 3) := ⟨_, rfl⟩
  have hp : predict h3 h2 h1 = truncateSample x := by rw [hx]; rfl
  rw [← hx] at iv
  have h := truncateSample_err x
  rw [Is.unit iv] at h
  have hl := limit_near v (((h3 - 3 * h2 + 3 * h1 : ℤ) : ℚ) / 32767)
  have hd : |v - ((h3 - 3 * h2 + 3 * h1 : ℤ) : ℚ) / 32767| ≤ 283 / 2 ^ 24 + 14 / 2 ^ 23 := by
    rw [abs_le] at ev e3 e2 e1 ⊢
    push_cast
    constructor <;> linarith [ev.1, ev.2, e3.1, e3.2, e2.1, e2.2, e1.1, e1.2]
  have hm : max (-1) (min 1 (((h3 - 3 * h2 + 3 * h1 : ℤ) : ℚ) / 32767)) = ((max (-32767) (min 32767 (h3 - 3 * h2 + 3 * h1)) : ℤ) : ℚ) / 32767 := by
    generalize h3 - 3 * h2 + 3 * h1 = n
    push_cast
    rw [← max_div_div_right (by norm_num), ← min_div_div_right (by norm_num)]
    norm_num
  rw [hm] at hl
  rw [hp]
  generalize max (-32767) (min 32767 (h3 - 3 * h2 + 3 * h1)) = n at hl
  have hl := hl.trans hd
  generalize max (-1) (min 1 v) = w at h hl
  have hq : |(truncateSample x : ℚ) - n| < 2 := by
    rw [abs_le] at hl
    rw [abs_lt] at h ⊢
    constructor <;> linarith [h.1, h.2, hl.1, hl.2]
  have : |truncateSample x - n| < 2 := by exact_mod_cast hq
  omega

/-! ## dithering -/

theorem round_near {q M : ℚ} (h : |q| ≤ M) (h2 : M ≤ 2) : Is (ofRat q) (roundQ q) ∧ |roundQ q - q| ≤ M / 2 ^ 24 + 1 / 2 ^ 150 := by
  refine ⟨is_ofRat rep_two (h.trans h2), (roundQ_err q).trans ?_⟩
  have : |q| / 2 ^ 24 ≤ M / 2 ^ 24 := by gcongr
  linarith

theorem F32.Is.near_mul {x y : F32} {a b : ℚ} (hx : Is x a) (hy : Is y b) (M : ℚ) (h : |a * b| ≤ M) (h2 : M ≤ 2) :
    ∃ c, Is (x * y) c ∧ |c - a * b| ≤ M / 2 ^ 24 + 1 / 2 ^ 150 := by
  obtain ⟨_, rfl⟩ := hx; obtain ⟨_, rfl⟩ := hy
  rw [fin_mul]; exact ⟨_, round_near h h2⟩

theorem F32.Is.near_add {x y : F32} {a b : ℚ} (hx : Is x a) (hy : Is y b) (M : ℚ) (h : |a + b| ≤ M) (h2 : M ≤ 2) :
    ∃ c, Is (x + y) c ∧ |c - (a + b)| ≤ M / 2 ^ 24 + 1 / 2 ^ 150 := by
  obtain ⟨_, rfl⟩ := hx; obtain ⟨_, rfl⟩ := hy
  rw [fin_add]; exact ⟨_, round_near h h2⟩

theorem rep_inv {L : Nat} (hL : L ≤ 10) : Rep (1 - 1 / 2 ^ L) := by
  have : (1 : ℚ) - 1 / 2 ^ L = ((2 ^ L - 1 : ℤ) : ℚ) * 2 ^ (-(L : ℤ)) := by
    push_cast
    rw [zpow_neg, zpow_natCast]
    field_simp
  have hp : (2 : ℤ) ^ L ≤ 2 ^ 10 := pow_le_pow_right₀ (by norm_num) hL
  have hp1 : (1 : ℤ) ≤ 2 ^ L := one_le_pow₀ (by norm_num)
  rw [this]
  refine (grid_of (by rw [abs_le]; constructor <;> norm_num at hp ⊢ <;> linarith) (by omega)).rep ?_
  rw [← this]
  have : (1 : ℚ) / 2 ^ L ≤ 1 := by
    rw [div_le_one (by positivity)]
    exact one_le_pow₀ (by norm_num)
  have : (0 : ℚ) < 1 / 2 ^ L := by positivity
  generalize (1 : ℚ) / 2 ^ L = z at *
  rw [abs_lt]
  constructor
  · linarith [show (-2 ^ 128 : ℚ) < -1 by norm_num]
  · linarith [show (1 : ℚ) < 2 ^ 128 by norm_num]

/-- **Dithering**: the scaled-down sample, scaled up again, is near the sample. -/
theorem dither_err {L : Nat} (hL : L ≤ 10) {inv x y : F32} (hinv : Is inv (1 / 2 ^ L)) {q : ℚ} (hx : Is x q) (hq : |q| ≤ 1.00004) (h : Dithered inv x y) :
    ∃ v, Is y v ∧ |v * 2 ^ L - q| ≤ 0.00101 * (1 - 1 / 2 ^ L) := by
  by_cases h0 : L = 0
  · subst h0
    have : inv = ofInt 1 := hinv.eq (by simpa using is_int (n := 1) (by norm_num))
    subst this
    rw [dithered_one h]
    exact ⟨q, hx, by norm_num⟩
  · obtain ⟨n, m, hm, hn, rfl⟩ := h
    have hmq : |(m : ℚ) / 16384| ≤ 1 := by
      have : |(m : ℚ)| ≤ 16383 := by exact_mod_cast hm
      rw [abs_div, div_le_one (by norm_num)]
      norm_num at this ⊢
      linarith
    have hs : Is (ofInt 1 - inv) (1 - 1 / 2 ^ L) := by
      have i1 : Is (ofInt 1) 1 := by simpa using is_int (n := 1) (by norm_num)
      have hr := rep_inv hL
      have := i1.sub hinv hr (show |(1 : ℚ) - 1 / 2 ^ L| ≤ 1 - 1 / 2 ^ L by
        rw [abs_of_nonneg]
        rw [sub_nonneg, div_le_one (by positivity)]
        exact one_le_pow₀ (by norm_num))
      rwa [roundQ_grid hr.grid] at this
    have hamp := roundQ_err (1 / 1000)
    have iamp := is_amp
    generalize roundQ (1 / 1000) = A at hamp iamp
    generalize (m : ℚ) / 16384 = d at hmq hn
    have hA : |A - 1 / 1000| ≤ 1 / 2 ^ 30 := hamp.trans (by norm_num [abs_div])
    rw [abs_le] at hA
    have hA' : |d * A| ≤ 1001 / 1000000 := by
      rw [abs_mul]
      calc |d| * |A| ≤ 1 * (1001 / 1000000) := by
            have : |A| ≤ 1001 / 1000000 := by rw [abs_le]; constructor <;> linarith [hA.1, hA.2]
            gcongr
        _ = _ := by norm_num
    obtain ⟨p, ip, ep⟩ := hn.near_mul iamp _ hA' (by norm_num)
    have hp : |p| ≤ 1002 / 1000000 := by
      rw [abs_le] at ep hA' ⊢
      constructor <;> linarith [ep.1, ep.2, hA'.1, hA'.2]
    have hs0 : (0 : ℚ) ≤ 1 - 1 / 2 ^ L ∧ (1 : ℚ) - 1 / 2 ^ L ≤ 1 ∧ (1 : ℚ) / 2 ≤ 1 - 1 / 2 ^ L := by
      have h1 : (2 : ℚ) ^ 1 ≤ 2 ^ L := pow_le_pow_right₀ (by norm_num) (by omega)
      have h2 : (1 : ℚ) / 2 ^ L ≤ 1 / 2 := by
        rw [div_le_div_iff₀ (by positivity) (by norm_num)]
        linarith
      have h3 : (0 : ℚ) < 1 / 2 ^ L := by positivity
      refine ⟨?_, ?_, ?_⟩ <;> linarith
    obtain ⟨hs1, hs2, hs3⟩ := hs0
    have hps : |p * (1 - 1 / 2 ^ L)| ≤ 1002 / 1000000 * (1 - 1 / 2 ^ L) := by
      rw [abs_mul, abs_of_nonneg hs1]
      gcongr
    obtain ⟨r, ir, er⟩ := ip.near_mul hs _ hps (by linarith)
    have hr : |r| ≤ 1003 / 1000000 * (1 - 1 / 2 ^ L) := by
      rw [abs_le] at er hps ⊢
      generalize p * (1 - 1 / 2 ^ L) = z at er hps
      generalize (1 : ℚ) - 1 / 2 ^ L = s at *
      constructor <;> linarith [er.1, er.2, hps.1, hps.2]
    rw [abs_le] at hq hr
    obtain ⟨t, it, et⟩ := hx.near_add ir 1.1 (by rw [abs_le]; constructor <;> linarith [hr.1, hr.2]) (by norm_num)
    rw [abs_le] at et
    have ht : |t| ≤ 1.2 := by rw [abs_le]; constructor <;> linarith [hr.1, hr.2, et.1, et.2]
    have hiL : (0 : ℚ) < 1 / 2 ^ L ∧ (1 : ℚ) / 2 ^ L ≤ 1 := ⟨by positivity, by linarith⟩
    have hti : |t * (1 / 2 ^ L)| ≤ 1.2 * (1 / 2 ^ L) := by
      rw [abs_mul, abs_of_pos hiL.1]
      gcongr
    obtain ⟨v, iv, ev⟩ := it.near_mul hinv _ hti (by linarith [hiL.2])
    refine ⟨v, iv, ?_⟩
    have hP : (0 : ℚ) < 2 ^ L := by positivity
    have hP10 : (2 : ℚ) ^ L ≤ 2 ^ 10 := pow_le_pow_right₀ (by norm_num) hL
    have ev' : |v * 2 ^ L - t| ≤ 1.2 / 2 ^ 24 + 1 / 2 ^ 140 := by
      have : v * 2 ^ L - t = (v - t * (1 / 2 ^ L)) * 2 ^ L := by field_simp
      rw [this, abs_mul, abs_of_pos hP]
      calc |v - t * (1 / 2 ^ L)| * 2 ^ L ≤ (1.2 * (1 / 2 ^ L) / 2 ^ 24 + 1 / 2 ^ 150) * 2 ^ L := by gcongr
        _ = 1.2 / 2 ^ 24 + 1 / 2 ^ 150 * 2 ^ L := by field_simp
        _ ≤ 1.2 / 2 ^ 24 + 1 / 2 ^ 150 * 2 ^ 10 := by gcongr
        _ ≤ _ := by norm_num
    rw [abs_le] at ev' ⊢
    generalize v * 2 ^ L = z at *
    generalize (1 : ℚ) - 1 / 2 ^ L = s at *
    constructor <;> linarith [ev'.1, ev'.2, hr.1, hr.2, et.1, et.2]

/-- the code of a dithered sample is small -/
theorem dither_code {L : Nat} (hL : L ≤ 10) {inv x y : F32} (hinv : Is inv (1 / 2 ^ L)) {q : ℚ} (hx : Is x q) (hq : |q| ≤ 1.00004) (h : Dithered inv x y) :
    |truncateSample y| * 2 ^ L ≤ 32802 + 2 * 2 ^ L := by
  obtain ⟨v, iv, ev⟩ := dither_err hL hinv hx hq h
  have hc := truncateSample_err y
  rw [Is.unit iv] at hc
  have hu : |max (-1) (min 1 v)| ≤ |v| := by
    have := limit_near v 0
    simpa using this
  have hP : (1 : ℚ) ≤ 2 ^ L := one_le_pow₀ (by norm_num)
  have hP' : (0 : ℚ) < 1 / 2 ^ L := by positivity
  have hv : |v| * 2 ^ L ≤ 1.00105 := by
    have habs : |v| * 2 ^ L = |v * 2 ^ L| := by rw [abs_mul, abs_of_pos (show (0 : ℚ) < 2 ^ L by positivity)]
    rw [habs]
    rw [abs_le] at ev hq ⊢
    constructor <;> linarith [ev.1, ev.2, hq.1, hq.2]
  have hc' : |(truncateSample y : ℚ)| ≤ |v| * 32767 + 2 := by
    have := abs_add_le ((truncateSample y : ℚ) - max (-1) (min 1 v) * 32767) (max (-1) (min 1 v) * 32767)
    rw [sub_add_cancel, abs_mul _ (32767 : ℚ), show |(32767 : ℚ)| = 32767 by norm_num] at this
    linarith
  have : |(truncateSample y : ℚ)| * 2 ^ L ≤ 32802 + 2 * 2 ^ L := by
    calc |(truncateSample y : ℚ)| * 2 ^ L ≤ (|v| * 32767 + 2) * 2 ^ L := by gcongr
      _ = |v| * 2 ^ L * 32767 + 2 * 2 ^ L := by ring
      _ ≤ _ := by linarith
  exact_mod_cast this

/-- **The quantisation error** of the whole trip, when the codec is in sync. -/
theorem trip_err {L : Nat} (hL : L ≤ 10) {inv scale x y : F32} (hscale : Is scale (2 ^ L)) (hinv : Is inv (1 / 2 ^ L)) {q : ℚ} (hx : Is x q)
    (hq : |q| ≤ 1.00004) (hq2 : |q| ≤ 2 ^ L) (h : Dithered inv x y) :
    ∃ w, Is (normalizeSample (truncateSample y) * scale) w ∧ |w - q| ≤ 2 ^ L * 1.01 / 32767 + 0.00101 * (1 - 1 / 2 ^ L) := by
  obtain ⟨v, iv, ev⟩ := dither_err hL hinv hx hq h
  obtain ⟨u, iu, eu⟩ := quantise_err y
  have hP : (1 : ℚ) ≤ 2 ^ L := one_le_pow₀ (by norm_num)
  have hP10 : (2 : ℚ) ^ L ≤ 2 ^ 10 := pow_le_pow_right₀ (by norm_num) hL
  have hg : Rep (u * 2 ^ L) := by
    have hr := iu.rep
    obtain ⟨n, e, h1, h2, h3⟩ := hr.grid
    refine (show Grid (u * 2 ^ L) from ⟨n, e + L, h1, by omega, ?_⟩).rep ?_
    · rw [h3, zpow_add₀ (by norm_num), zpow_natCast]; ring
    · have : |u| ≤ 2 := by
        have := unit_abs y
        rw [abs_le] at this eu ⊢
        constructor <;> linarith [this.1, this.2, eu.1, eu.2]
      rw [abs_mul, abs_of_pos (show (0 : ℚ) < 2 ^ L by positivity)]
      calc |u| * 2 ^ L ≤ 2 * 2 ^ 10 := by gcongr
        _ < _ := by norm_num
  refine ⟨u * 2 ^ L, ?_, ?_⟩
  · have := iu.mul hscale (B := |u * 2 ^ L|) (by
      rcases abs_choice (u * 2 ^ L) with e | e <;> rw [e]
      · exact hg
      · exact hg.grid.neg.rep (by rw [abs_neg]; exact hg.lt)) le_rfl
    rwa [roundQ_grid hg.grid] at this
  · rw [Is.unit iv] at eu
    -- limiting can only help
    have hlim : |max (-1) (min 1 v) * 2 ^ L - q| ≤ 0.00101 * (1 - 1 / 2 ^ L) := by
      have hinvpos : (0 : ℚ) < 1 / 2 ^ L := by positivity
      rw [abs_le] at hq2 ev ⊢
      rcases max_cases (-1 : ℚ) (min 1 v) with ⟨e1, c1⟩ | ⟨e1, c1⟩ <;> rcases min_cases (1 : ℚ) v with ⟨e2, c2⟩ | ⟨e2, c2⟩ <;> rw [e1]
      · linarith
      · rw [e2] at c1
        have : v * 2 ^ L ≤ -1 * 2 ^ L := by gcongr
        constructor <;> linarith [ev.1, ev.2]
      · rw [e2]
        have : 1 * 2 ^ L ≤ v * 2 ^ L := by gcongr
        constructor <;> linarith [ev.1, ev.2]
      · rw [e2]
        exact ev
    have h1 : |u * 2 ^ L - max (-1) (min 1 v) * 2 ^ L| ≤ 2 ^ L * 1.01 / 32767 := by
      rw [← sub_mul, abs_mul, abs_of_pos (show (0 : ℚ) < 2 ^ L by positivity)]
      calc |u - max (-1) (min 1 v)| * 2 ^ L ≤ (1.01 / 32767 : ℚ) * 2 ^ L := by gcongr
        _ = _ := by ring
    have := abs_add_le (u * 2 ^ L - max (-1) (min 1 v) * 2 ^ L) (max (-1) (min 1 v) * 2 ^ L - q)
    rw [sub_add_sub_cancel] at this
    linarith

end Adhoc
