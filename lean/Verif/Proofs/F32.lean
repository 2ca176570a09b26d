import Verif.Model.F32

/-! Facts about rounding to binary32. -/

namespace Adhoc

/-- the binary32 grid, without the upper bound -/
def Grid (q : ℚ) : Prop := ∃ n e : ℤ, |n| ≤ 2 ^ 24 ∧ -149 ≤ e ∧ q = (n : ℚ) * (2 : ℚ) ^ e

theorem Rep.grid {q : ℚ} (h : Rep q) : Grid q := by
  obtain ⟨n, e, h1, h2, h3, _⟩ := h; exact ⟨n, e, h1, h2, h3⟩

theorem Rep.lt {q : ℚ} (h : Rep q) : |q| < 2 ^ 128 := by
  obtain ⟨n, e, h1, h2, h3, h4⟩ := h; exact h4

theorem Grid.rep {q : ℚ} (h : Grid q) (hl : |q| < 2 ^ 128) : Rep q := by
  obtain ⟨n, e, h1, h2, h3⟩ := h; exact ⟨n, e, h1, h2, h3, hl⟩

theorem roundQ_of_ne {q : ℚ} (h : q ≠ 0) : roundQ q = (rne (q / (2 : ℚ) ^ ulpExp q) : ℚ) * (2 : ℚ) ^ ulpExp q := by
  simp [roundQ, h]

theorem roundQ_zero : roundQ 0 = 0 := by simp [roundQ]

/-- rounding goes to the nearest multiple of the ulp -/
theorem roundQ_nearest_mult {q : ℚ} (hq : q ≠ 0) (m : ℤ) : |roundQ q - q| ≤ |(m : ℚ) * (2 : ℚ) ^ ulpExp q - q| := by
  have hp := ulp_pos q
  rw [roundQ_of_ne hq]
  set u := (2 : ℚ) ^ ulpExp q
  have e : q = q / u * u := by field_simp
  have h1 : (rne (q / u) : ℚ) * u - q = ((rne (q / u) : ℚ) - q / u) * u := by rw [sub_mul, ← e]
  have h2 : (m : ℚ) * u - q = ((m : ℚ) - q / u) * u := by rw [sub_mul, ← e]
  rw [h1, h2, abs_mul, abs_mul]
  apply mul_le_mul_of_nonneg_right _ (abs_nonneg _)
  generalize q / u = x
  have hb := rne_bound x
  by_cases hm : m = rne x
  · rw [hm]
  · have h1 : (1 : ℚ) ≤ |(m : ℚ) - rne x| := by
      have : (1 : ℤ) ≤ |m - rne x| := Int.one_le_abs (sub_ne_zero.2 hm)
      exact_mod_cast this
    have h3 : |(m : ℚ) - rne x| ≤ |(m : ℚ) - x| + |x - rne x| := by
      have := abs_add_le ((m : ℚ) - x) (x - rne x)
      simpa using this
    rw [abs_sub_comm x] at h3
    linarith

/-- rounding goes to the nearest grid value -/
theorem roundQ_nearest {q g : ℚ} (hg : Grid g) : |roundQ q - q| ≤ |g - q| := by
  by_cases hq : q = 0
  · subst hq; rw [roundQ_zero]; simp
  obtain ⟨n, e, hn, he, rfl⟩ := hg
  by_cases hle : ulpExp q ≤ e
  · have h1 : (n : ℚ) * (2 : ℚ) ^ e = ((n * 2 ^ (e - ulpExp q).toNat : ℤ) : ℚ) * (2 : ℚ) ^ ulpExp q := by
      push_cast
      rw [mul_assoc, ← zpow_natCast, ← zpow_add₀ (by norm_num)]
      congr 2
      omega
    rw [h1]
    exact roundQ_nearest_mult hq _
  · have hu : ulpExp q = ilog2 q - 23 := by unfold ulpExp at hle ⊢; omega
    have hil := (ilog2_spec hq).1
    have hng : |(n : ℚ) * (2 : ℚ) ^ e| ≤ (2 : ℚ) ^ ilog2 q := by
      rw [abs_mul, abs_of_pos (show (0 : ℚ) < 2 ^ e by positivity)]
      have : |(n : ℚ)| ≤ 2 ^ 24 := by exact_mod_cast hn
      calc |(n : ℚ)| * 2 ^ e ≤ 2 ^ 24 * 2 ^ e := by gcongr
        _ = (2 : ℚ) ^ (24 + e) := by rw [zpow_add₀ (by norm_num)]; norm_num
        _ ≤ (2 : ℚ) ^ ilog2 q := zpow_le_zpow_right₀ (by norm_num) (by omega)
    have hB : (2 : ℚ) ^ ilog2 q = ((2 ^ 23 : ℤ) : ℚ) * (2 : ℚ) ^ ulpExp q := by
      rw [hu, zpow_sub₀ (by norm_num)]; push_cast; norm_num; ring
    generalize (n : ℚ) * (2 : ℚ) ^ e = g at *
    rcases le_or_gt 0 q with h0 | h0
    · have := roundQ_nearest_mult hq (2 ^ 23)
      rw [← hB] at this
      rw [abs_of_nonneg h0] at hil
      refine this.trans ?_
      rw [abs_of_nonpos (by linarith)]
      have := neg_abs_le (g - q)
      have := le_abs_self g
      linarith
    · have := roundQ_nearest_mult hq (-(2 ^ 23))
      push_cast at this hB
      rw [neg_mul, ← hB] at this
      rw [abs_of_neg h0] at hil
      refine this.trans ?_
      rw [abs_of_nonneg (by linarith)]
      have := le_abs_self (g - q)
      have := neg_abs_le g
      linarith

theorem grid_roundQ (q : ℚ) : Grid (roundQ q) := by
  by_cases hq : q = 0
  · subst hq; exact ⟨0, 0, by norm_num, by norm_num, by simp [roundQ]⟩
  · refine ⟨rne (q / (2 : ℚ) ^ ulpExp q), ulpExp q, rne_abs_le (abs_div_ulp_le hq), ?_, ?_⟩
    · unfold ulpExp; omega
    · simp [roundQ, hq]

theorem roundQ_grid {q : ℚ} (h : Grid q) : roundQ q = q := by
  have := roundQ_nearest (q := q) h
  rw [sub_self, abs_zero] at this
  have := abs_nonpos_iff.1 this
  linarith

theorem roundQ_mono {a b : ℚ} (h : a ≤ b) : roundQ a ≤ roundQ b := by
  rcases h.lt_or_eq with h | h
  · by_contra hc
    push Not at hc
    have h1 := roundQ_nearest (q := a) (grid_roundQ b)
    have h2 := roundQ_nearest (q := b) (grid_roundQ a)
    generalize roundQ a = x at *
    generalize roundQ b = y at *
    rcases abs_cases (x - a) with ⟨e1, _⟩ | ⟨e1, _⟩ <;> rcases abs_cases (y - a) with ⟨e2, _⟩ | ⟨e2, _⟩ <;>
      rcases abs_cases (y - b) with ⟨e3, _⟩ | ⟨e3, _⟩ <;> rcases abs_cases (x - b) with ⟨e4, _⟩ | ⟨e4, _⟩ <;>
      rw [e1, e2] at h1 <;> rw [e3, e4] at h2 <;> linarith
  · rw [h]

theorem roundQ_le {q g : ℚ} (hg : Grid g) (h : q ≤ g) : roundQ q ≤ g := by
  have := roundQ_mono h; rwa [roundQ_grid hg] at this

theorem le_roundQ {q g : ℚ} (hg : Grid g) (h : g ≤ q) : g ≤ roundQ q := by
  have := roundQ_mono h; rwa [roundQ_grid hg] at this

theorem Grid.neg {q : ℚ} (h : Grid q) : Grid (-q) := by
  obtain ⟨n, e, h1, h2, rfl⟩ := h
  exact ⟨-n, e, by rwa [abs_neg], h2, by push_cast; ring⟩

theorem roundQ_abs_le {q g : ℚ} (hg : Grid g) (h : |q| ≤ g) : |roundQ q| ≤ g := by
  rw [abs_le] at h ⊢
  exact ⟨le_roundQ hg.neg h.1, roundQ_le hg h.2⟩

/-- relative error of rounding -/
theorem roundQ_err (q : ℚ) : |roundQ q - q| ≤ |q| / 2 ^ 24 + 1 / 2 ^ 150 := by
  by_cases hq : q = 0
  · subst hq; rw [roundQ_zero]; norm_num
  have hp := ulp_pos q
  have hil := (ilog2_spec hq).1
  have h1 : |roundQ q - q| ≤ (2 : ℚ) ^ ulpExp q / 2 := by
    rw [roundQ_of_ne hq]
    set u := (2 : ℚ) ^ ulpExp q
    have e : q = q / u * u := by field_simp
    have h1 : (rne (q / u) : ℚ) * u - q = ((rne (q / u) : ℚ) - q / u) * u := by rw [sub_mul, ← e]
    rw [h1, abs_mul, abs_of_pos hp]
    have := rne_bound (q / u)
    nlinarith
  have h2 : (2 : ℚ) ^ ulpExp q ≤ |q| / 2 ^ 23 + 1 / 2 ^ 149 := by
    unfold ulpExp
    rcases le_total (ilog2 q - 23) (-149) with h | h
    · rw [max_eq_right h]
      have : (2 : ℚ) ^ (-149 : ℤ) = 1 / 2 ^ 149 := by rw [zpow_neg]; norm_num
      have := abs_nonneg q
      rw [‹(2 : ℚ) ^ (-149 : ℤ) = _›]
      have : 0 ≤ |q| / 2 ^ 23 := by positivity
      linarith
    · rw [max_eq_left h]
      have : (2 : ℚ) ^ (ilog2 q - 23) = 2 ^ ilog2 q / 2 ^ 23 := by rw [zpow_sub₀ (by norm_num)]; norm_num
      rw [this]
      have : (2 : ℚ) ^ ilog2 q / 2 ^ 23 ≤ |q| / 2 ^ 23 := by gcongr
      have : (0 : ℚ) ≤ 1 / 2 ^ 149 := by positivity
      linarith
  have e1 : (|q| / 2 ^ 23 + 1 / 2 ^ 149) / 2 = |q| / 2 ^ 24 + 1 / 2 ^ 150 := by ring
  linarith

theorem grid_int {n : ℤ} (h : |n| ≤ 2 ^ 24) : Grid n := ⟨n, 0, h, by norm_num, by simp⟩

theorem grid_of {n e : ℤ} (h : |n| ≤ 2 ^ 24) (he : -149 ≤ e) : Grid ((n : ℚ) * 2 ^ e) := ⟨n, e, h, he, rfl⟩

/-- scaling by a power of two keeps grid values that do not become too small -/
theorem grid_half {q : ℚ} {n e : ℤ} (h : |n| ≤ 2 ^ 24) (he : -149 ≤ e) (hq : q = (n : ℚ) * 2 ^ e) : Grid q := ⟨n, e, h, he, hq⟩

namespace F32

/-- the finite float nearest to `q` -/
theorem ofRat_fin {q : ℚ} (h : |roundQ q| < 2 ^ 128) : ofRat q = fin (roundQ q) (rep_roundQ h) := by
  unfold ofRat; rw [dif_pos h]

theorem ofRat_rep {q : ℚ} (h : Rep q) : ofRat q = fin q h := by
  have e := roundQ_grid h.grid
  have : |roundQ q| < 2 ^ 128 := by rw [e]; exact h.lt
  rw [ofRat_fin this]
  congr 1

theorem rep_int {n : ℤ} (h : |n| ≤ 2 ^ 24) : Rep n := (grid_int h).rep (by
  have : |(n : ℚ)| ≤ 2 ^ 24 := by exact_mod_cast h
  linarith [show ((2 : ℚ) ^ 24) < 2 ^ 128 by norm_num])

theorem ofInt_fin {n : ℤ} (h : |n| ≤ 2 ^ 24) : ofInt n = fin n (rep_int h) := ofRat_rep _

theorem add_def (x y : F32) : x + y = add x y := rfl
theorem mul_def (x y : F32) : x * y = mul x y := rfl
theorem sub_def (x y : F32) : x - y = add x (neg y) := rfl
theorem div_def (x y : F32) : x / y = div x y := rfl

theorem fin_add {a b : ℚ} (ha : Rep a) (hb : Rep b) : fin a ha + fin b hb = ofRat (a + b) := by
  rw [add_def, add]
theorem fin_mul {a b : ℚ} (ha : Rep a) (hb : Rep b) : fin a ha * fin b hb = ofRat (a * b) := by
  rw [mul_def, mul]
theorem fin_div {a b : ℚ} (ha : Rep a) (hb : Rep b) (h : b ≠ 0) : fin a ha / fin b hb = ofRat (a / b) := by
  rw [div_def, div, if_neg h]

theorem fin_neg {a : ℚ} (ha : Rep a) : neg (fin a ha) = fin (-a) (ha.grid.neg.rep (by rw [abs_neg]; exact ha.lt)) := ofRat_rep _

theorem fin_sub {a b : ℚ} (ha : Rep a) (hb : Rep b) : fin a ha - fin b hb = ofRat (a - b) := by
  rw [sub_def, fin_neg, sub_eq_add_neg, add]

theorem fin_ext {a b : ℚ} (ha : Rep a) (hb : Rep b) (h : a = b) : fin a ha = fin b hb := by subst h; rfl

/-- `x` is the finite value `q` -/
def Is (x : F32) (q : ℚ) : Prop := ∃ h, x = fin q h

theorem is_ofRat {q B : ℚ} (hB : Rep B) (h : |q| ≤ B) : Is (ofRat q) (roundQ q) := by
  have h1 := roundQ_abs_le hB.grid h
  have h2 := hB.lt
  have : |roundQ q| < 2 ^ 128 := lt_of_le_of_lt (h1.trans (le_abs_self B)) h2
  exact ⟨_, ofRat_fin this⟩

theorem is_int {n : ℤ} (h : |n| ≤ 2 ^ 24) : Is (ofInt n) n := ⟨_, ofInt_fin h⟩

theorem Is.rep {x : F32} {q : ℚ} (h : Is x q) : Rep q := by obtain ⟨h, _⟩ := h; exact h

theorem Is.add {x y : F32} {a b B : ℚ} (hx : Is x a) (hy : Is y b) (hB : Rep B) (h : |a + b| ≤ B) : Is (x + y) (roundQ (a + b)) := by
  obtain ⟨ha, rfl⟩ := hx; obtain ⟨hb, rfl⟩ := hy
  rw [fin_add]; exact is_ofRat hB h

theorem Is.sub {x y : F32} {a b B : ℚ} (hx : Is x a) (hy : Is y b) (hB : Rep B) (h : |a - b| ≤ B) : Is (x - y) (roundQ (a - b)) := by
  obtain ⟨ha, rfl⟩ := hx; obtain ⟨hb, rfl⟩ := hy
  rw [fin_sub]; exact is_ofRat hB h

theorem Is.mul {x y : F32} {a b B : ℚ} (hx : Is x a) (hy : Is y b) (hB : Rep B) (h : |a * b| ≤ B) : Is (x * y) (roundQ (a * b)) := by
  obtain ⟨ha, rfl⟩ := hx; obtain ⟨hb, rfl⟩ := hy
  rw [fin_mul]; exact is_ofRat hB h

theorem Is.div {x y : F32} {a b B : ℚ} (hx : Is x a) (hy : Is y b) (hb0 : b ≠ 0) (hB : Rep B) (h : |a / b| ≤ B) : Is (x / y) (roundQ (a / b)) := by
  obtain ⟨ha, rfl⟩ := hx; obtain ⟨hb, rfl⟩ := hy
  rw [fin_div _ _ hb0]; exact is_ofRat hB h

theorem Is.unique {x : F32} {a b : ℚ} (h1 : Is x a) (h2 : Is x b) : a = b := by
  obtain ⟨_, rfl⟩ := h1; obtain ⟨_, e⟩ := h2
  injection e

theorem Is.eq {x y : F32} {a : ℚ} (h1 : Is x a) (h2 : Is y a) : x = y := by
  obtain ⟨_, rfl⟩ := h1; obtain ⟨_, rfl⟩ := h2; rfl

/-- adding zero -/
theorem add_zero' (x : F32) : x + ofInt 0 = x := by
  rw [ofInt_fin (by norm_num)]
  cases x with
  | nan => rfl
  | inf s => rfl
  | fin q h => rw [fin_add]; simp only [Int.cast_zero, _root_.add_zero]; exact ofRat_rep h

/-- multiplying by one -/
theorem mul_one' (x : F32) : x * ofInt 1 = x := by
  rw [ofInt_fin (by norm_num)]
  cases x with
  | nan => rfl
  | inf s =>
    rw [mul_def, mul, if_neg (by norm_num)]
    rw [decide_eq_false (by norm_num)]; simp
  | fin q h => rw [fin_mul]; simp only [Int.cast_one, _root_.mul_one]; exact ofRat_rep h

theorem rep_one : Rep 1 := by simpa using rep_int (n := 1) (by norm_num)

/-- clamping to [-1, 1] -/
theorem clamp_unit (x : F32) : x.clamp (ofInt (-1)) (ofInt 1) = nan ∨ ∃ q, |q| ≤ 1 ∧ Is (x.clamp (ofInt (-1)) (ofInt 1)) q := by
  have h1 : ofInt (-1) = fin ((-1 : ℤ) : ℚ) (rep_int (by norm_num)) := ofInt_fin (by norm_num)
  have h2 : ofInt 1 = fin ((1 : ℤ) : ℚ) (rep_int (by norm_num)) := ofInt_fin (by norm_num)
  rw [h1, h2]
  cases x with
  | nan => left; rfl
  | inf s =>
    right
    cases s
    · exact ⟨1, by norm_num, rep_one, by simp [clamp, lt]⟩
    · refine ⟨-1, by norm_num, rep_one.grid.neg.rep (by norm_num), ?_⟩
      simp [clamp, lt]
  | fin q h =>
    right
    unfold clamp
    simp only [lt, decide_eq_true_eq]
    by_cases hq : q < ((-1 : ℤ) : ℚ)
    · rw [if_pos hq]
      simp only [lt]
      refine ⟨-1, by norm_num, rep_one.grid.neg.rep (by norm_num), ?_⟩
      norm_num
    · rw [if_neg hq]
      simp only [lt, decide_eq_true_eq]
      push_cast at hq
      by_cases hq2 : ((1 : ℤ) : ℚ) < q
      · rw [if_pos hq2]; exact ⟨1, by norm_num, rep_one, fin_ext _ _ (by norm_num)⟩
      · rw [if_neg hq2]; push_cast at hq2; exact ⟨q, by rw [abs_le]; constructor <;> linarith, h, rfl⟩

/-- clamping a value that is already in [-1, 1] -/
theorem clamp_unit_id {x : F32} {q : ℚ} (hx : Is x q) (hq : |q| ≤ 1) : x.clamp (ofInt (-1)) (ofInt 1) = x := by
  obtain ⟨h, rfl⟩ := hx
  have h1 : ofInt (-1) = fin ((-1 : ℤ) : ℚ) (rep_int (by norm_num)) := ofInt_fin (by norm_num)
  have h2 : ofInt 1 = fin ((1 : ℤ) : ℚ) (rep_int (by norm_num)) := ofInt_fin (by norm_num)
  rw [h1, h2]
  rw [abs_le] at hq
  unfold clamp
  have e1 : lt (fin q h) (fin ((-1 : ℤ) : ℚ) (rep_int (by norm_num))) = false := by simp [lt]; linarith
  have e2 : lt (fin ((1 : ℤ) : ℚ) (rep_int (by norm_num))) (fin q h) = false := by simp [lt]; linarith
  simp only [e1, e2, Bool.false_eq_true, if_false]

/-- truncation is monotone and close -/
theorem truncQ_mono {a b : ℚ} (h : a ≤ b) : truncQ a ≤ truncQ b := by
  have hf : ∀ x : ℚ, x.floor = ⌊x⌋ := fun _ => rfl
  unfold truncQ
  simp only [hf]
  split_ifs with h1 h2
  · have : ⌊-b⌋ ≤ ⌊-a⌋ := Int.floor_mono (by linarith)
    omega
  · have h3 : 0 ≤ ⌊-a⌋ := Int.floor_nonneg.2 (by linarith)
    have h4 : 0 ≤ ⌊b⌋ := Int.floor_nonneg.2 (by linarith)
    omega
  · linarith
  · exact Int.floor_mono h

theorem truncQ_int (n : ℤ) : truncQ n = n := by
  have hf : ∀ x : ℚ, x.floor = ⌊x⌋ := fun _ => rfl
  unfold truncQ
  simp only [hf]
  split_ifs
  · rw [show (-(n : ℚ)) = ((-n : ℤ) : ℚ) by push_cast; rfl, Int.floor_intCast]; omega
  · rw [Int.floor_intCast]

theorem truncQ_err (q : ℚ) : |(truncQ q : ℚ) - q| < 1 := by
  have hf : ∀ x : ℚ, x.floor = ⌊x⌋ := fun _ => rfl
  unfold truncQ
  simp only [hf]
  split_ifs
  · have := Int.floor_le (-q); have := Int.lt_floor_add_one (-q)
    rw [abs_lt]; push_cast; constructor <;> linarith
  · have := Int.floor_le q; have := Int.lt_floor_add_one q
    rw [abs_lt]; constructor <;> linarith

theorem truncQ_abs (q : ℚ) : |(truncQ q : ℚ)| ≤ |q| := by
  have hf : ∀ x : ℚ, x.floor = ⌊x⌋ := fun _ => rfl
  unfold truncQ
  simp only [hf]
  split_ifs with h
  · have := Int.floor_le (-q)
    have h3 : (0 : ℚ) ≤ ⌊-q⌋ := by exact_mod_cast Int.floor_nonneg.2 (show 0 ≤ -q by linarith)
    push_cast
    rw [abs_neg, abs_of_nonneg h3, abs_of_neg h]; exact this
  · push Not at h
    have := Int.floor_le q
    have h3 : (0 : ℚ) ≤ ⌊q⌋ := by exact_mod_cast Int.floor_nonneg.2 h
    rw [abs_of_nonneg h3, abs_of_nonneg h]; exact this

end F32
end Adhoc
