import Verif.Proofs.F32
import Verif.Proofs.Basic
import Verif.Model.Adhoc
import Verif.Spec.Dither

/-! Sample conversion, noise and dither. -/

namespace Adhoc
open F32

theorem roundQ_norm : roundQ (1 / 32767) = 32769 / 2 ^ 30 := by decide +kernel

theorem is_norm : Is NORMALIZE_FACTOR (32769 / 2 ^ 30) := by
  unfold NORMALIZE_FACTOR
  have := Is.div (is_int (n := 1) (by norm_num)) (is_int (n := 32767) (by norm_num)) (by norm_num) rep_one (by norm_num)
  rw [show (((1 : ℤ) : ℚ) / ((32767 : ℤ) : ℚ)) = 1 / 32767 by norm_num, roundQ_norm] at this
  exact this

theorem rep_two : Rep 2 := by simpa using rep_int (n := 2) (by norm_num)

theorem is_normalize {i : ℤ} (h : |i| ≤ 32768) : Is (normalizeSample i) (roundQ (i * (32769 / 2 ^ 30))) := by
  unfold normalizeSample
  refine Is.mul (is_int (by linarith)) is_norm rep_two ?_
  have : |(i : ℚ)| ≤ 32768 := by exact_mod_cast h
  rw [abs_mul]
  norm_num
  linarith

theorem normalize_le_one {i : ℤ} (h : |i| ≤ 32767) : |roundQ (i * (32769 / 2 ^ 30))| ≤ 1 := by
  apply roundQ_abs_le rep_one.grid
  have : |(i : ℚ)| ≤ 32767 := by exact_mod_cast h
  rw [abs_mul]
  norm_num
  linarith

/-- a 16-bit code is symmetric -/
theorem truncateSample_range (x : F32) : -32767 ≤ truncateSample x ∧ truncateSample x ≤ 32767 := by
  unfold truncateSample
  rcases clamp_unit x with h | ⟨q, hq, h⟩
  · rw [h, mul_def, ofInt_fin (n := 32767) (by norm_num), mul]
    decide
  · have hb : |q * ((32767 : ℤ) : ℚ)| ≤ 32767 := by
      rw [abs_mul]; push_cast; norm_num; linarith
    have hrep : Rep 32767 := by simpa using rep_int (n := 32767) (by norm_num)
    obtain ⟨hr, e⟩ := h.mul (is_int (n := 32767) (by norm_num)) hrep hb
    rw [e]
    simp only [toIntSat]
    have h1 : |(truncQ (roundQ (q * ((32767 : ℤ) : ℚ))) : ℚ)| ≤ 32767 := (truncQ_abs _).trans (roundQ_abs_le hrep.grid hb)
    have h2 : |truncQ (roundQ (q * ((32767 : ℤ) : ℚ)))| ≤ 32767 := by exact_mod_cast h1
    rw [abs_le] at h2
    omega

theorem predict_range (a b c : Int) : -32767 ≤ predict a b c ∧ predict a b c ≤ 32767 := truncateSample_range _

theorem rand_ok {b : Build} {s : PseudoRandom} (h : s.sequence < 507961) :
    ∃ r, r < 507961 ∧ r = (1000003 * s.sequence + 314159) % 507961 ∧ s.rand b = .ok ({ sequence := r }, r) := by
  refine ⟨(1000003 * s.sequence + 314159) % 507961, Nat.mod_lt _ (by norm_num), rfl, ?_⟩
  unfold PseudoRandom.rand
  have h1 : (1000003 * (s.sequence : ℤ)) = ((1000003 * s.sequence : ℕ) : ℤ) := by push_cast; rfl
  have h2 : (((1000003 * s.sequence : ℕ) : ℤ) + 314159) = ((1000003 * s.sequence + 314159 : ℕ) : ℤ) := by push_cast; rfl
  rw [h1, chkU_nat (by omega), bind_ok, h2, chkU_nat (by omega), bind_ok]
  rfl

theorem rep_dyadic {n : ℤ} (h : |n| ≤ 2 ^ 24) : Rep ((n : ℚ) / 16384) := by
  have : (n : ℚ) / 16384 = (n : ℚ) * 2 ^ (-14 : ℤ) := by rw [zpow_neg]; norm_num; ring
  rw [this]
  refine (grid_of h (by norm_num)).rep ?_
  rw [← this, abs_div]
  have : |(n : ℚ)| ≤ 2 ^ 24 := by exact_mod_cast h
  norm_num at this ⊢
  linarith

/-- one item of the triangular noise: both draws are multiples of 2^-14 -/
theorem triangle_ok {b : Build} {s : PseudoRandom} (h : s.sequence < 507961) :
    ∃ (r1 r : Nat) (x : F32) (m : ℤ), s.triangle b = .ok ({ sequence := r }, x) ∧ r < 507961 ∧ |m| ≤ 16383 ∧ Is x ((m : ℚ) / 16384) ∧
      r1 = (1000003 * s.sequence + 314159) % 507961 ∧ r = (1000003 * r1 + 314159) % 507961 ∧ m = (r % 16384 : Nat) - (r1 % 16384 : Nat) := by
  obtain ⟨r1, hr1, hx1, e1⟩ := rand_ok (b := b) h
  obtain ⟨r2, hr2, hx2, e2⟩ := rand_ok (b := b) (s := { sequence := r1 }) hr1
  have a1 : (r1 &&& 16383) ≤ 16383 := Nat.and_le_right
  have a2 : (r2 &&& 16383) ≤ 16383 := Nat.and_le_right
  obtain ⟨m1, hm1⟩ : ∃ m1 : ℕ, m1 = r1 &&& 16383 := ⟨_, rfl⟩
  obtain ⟨m2, hm2⟩ : ∃ m2 : ℕ, m2 = r2 &&& 16383 := ⟨_, rfl⟩
  rw [← hm1] at a1; rw [← hm2] at a2
  have habs : ∀ m : ℕ, m ≤ 16383 → |((m : ℤ))| ≤ 2 ^ 24 := by
    intro m hm; rw [abs_of_nonneg (by omega)]; omega
  have hle : ∀ m : ℕ, m ≤ 16383 → |(((m : ℤ)) : ℚ) / 16384| ≤ 1 := by
    intro m hm
    have : (m : ℚ) ≤ 16383 := by exact_mod_cast hm
    rw [abs_of_nonneg (div_nonneg (by exact_mod_cast Nat.zero_le m) (by norm_num)), div_le_one (by norm_num)]
    push_cast; linarith
  have hd : ∀ m : ℕ, m ≤ 16383 → Is (ofInt (m : ℤ) / ofInt 16384) ((m : ℤ) / 16384) := by
    intro m hm
    have := Is.div (is_int (habs m hm)) (is_int (n := 16384) (by norm_num)) (by norm_num) rep_one (by have := hle m hm; norm_num at this ⊢; exact this)
    rw [show ((16384 : ℤ) : ℚ) = 16384 by norm_num, roundQ_grid (rep_dyadic (habs m hm)).grid] at this
    exact this
  have hneg : Is (ofInt (m1 : ℤ) / ofInt 16384 * ofInt (-1)) (((-m1 : ℤ) : ℚ) / 16384) := by
    have := (hd m1 a1).mul (is_int (n := -1) (by norm_num)) rep_one (by rw [abs_mul]; have := hle m1 a1; push_cast at *; norm_num at *; linarith)
    rw [show (((m1 : ℤ) : ℚ) / 16384 * ((-1 : ℤ) : ℚ)) = ((-m1 : ℤ) : ℚ) / 16384 by push_cast; ring,
      roundQ_grid (rep_dyadic (by rw [abs_neg]; exact habs m1 a1)).grid] at this
    exact this
  have hpos : Is (ofInt (m2 : ℤ) / ofInt 16384 * ofInt 1) (((m2 : ℤ) : ℚ) / 16384) := by
    rw [mul_one']; exact hd m2 a2
  have hm : |(m2 : ℤ) - m1| ≤ 16383 := by rw [abs_le]; omega
  have hsum : Is (ofInt (m1 : ℤ) / ofInt 16384 * ofInt (-1) + ofInt (m2 : ℤ) / ofInt 16384 * ofInt 1) ((((m2 : ℤ) - m1 : ℤ) : ℚ) / 16384) := by
    have e : (((-m1 : ℤ) : ℚ) / 16384 + ((m2 : ℤ) : ℚ) / 16384) = (((m2 : ℤ) - m1 : ℤ) : ℚ) / 16384 := by push_cast; ring
    have hr : Rep ((((m2 : ℤ) - m1 : ℤ) : ℚ) / 16384) := rep_dyadic (by linarith)
    have := hneg.add hpos (B := 1) rep_one (by
      rw [e, abs_div]
      have : |(((m2 : ℤ) - m1 : ℤ) : ℚ)| ≤ 16383 := by exact_mod_cast hm
      rw [div_le_one (by norm_num)]
      norm_num at this ⊢
      linarith)
    rw [e, roundQ_grid hr.grid] at this
    exact this
  refine ⟨r1, r2, _, (m2 : ℤ) - m1, ?_, hr2, hm, hsum, hx1, hx2, by
    rw [hm1, hm2, show (16383 : ℕ) = 2 ^ 14 - 1 by norm_num, Nat.and_two_pow_sub_one_eq_mod, Nat.and_two_pow_sub_one_eq_mod]⟩
  unfold PseudoRandom.triangle
  rw [e1, bind_ok]
  dsimp only
  rw [e2, bind_ok, hm1, hm2]
  rfl

/-- what dithering does to one sample -/
def Dithered (inv x y : F32) : Prop :=
  ∃ (n : F32) (m : ℤ), |m| ≤ 16383 ∧ Is n ((m : ℚ) / 16384) ∧ y = (x + n * AdhocCodec.DITHER_AMPLITUDE * (ofInt 1 - inv)) * inv

theorem dither_ok {b : Build} {inv : F32} : ∀ (xs : List F32) {s : PseudoRandom} (_ : s.sequence < 507961),
    ∃ s' ys, AdhocCodec.dither b inv s xs = .ok (s', ys) ∧ s'.sequence < 507961 ∧ List.Forall₂ (Dithered inv) xs ys
  | [], s, h => ⟨s, [], rfl, h, .nil⟩
  | x :: xs, s, h => by
    obtain ⟨-, r, n, m, e, hr, hm, hn, -⟩ := triangle_ok (b := b) h
    obtain ⟨s', ys, e', hs', hf⟩ := dither_ok (b := b) (inv := inv) xs (s := { sequence := r }) hr
    refine ⟨s', _ :: ys, ?_, hs', .cons ⟨n, m, hm, hn, rfl⟩ hf⟩
    unfold AdhocCodec.dither
    rw [e, bind_ok]
    dsimp only
    rw [e', bind_ok]
    rfl

theorem draw_lt (k : Nat) : Spec.draw k < 507961 := by
  cases k with
  | zero => decide
  | succ k => exact Nat.mod_lt _ (by norm_num)

/-- the noise is less than 1 -/
theorem noise_spec (k : Nat) : ∃ m : ℤ, |m| ≤ 16383 ∧ m = (Spec.draw (2 * k + 2) % 16384 : Nat) - (Spec.draw (2 * k + 1) % 16384 : Nat) ∧
    Is (Spec.noise k) ((m : ℚ) / 16384) := by
  obtain ⟨m, hm⟩ : ∃ m : ℤ, m = (Spec.draw (2 * k + 2) % 16384 : Nat) - (Spec.draw (2 * k + 1) % 16384 : Nat) := ⟨_, rfl⟩
  have hle : |m| ≤ 16383 := by
    have := Nat.mod_lt (Spec.draw (2 * k + 2)) (show 0 < 16384 by norm_num)
    have := Nat.mod_lt (Spec.draw (2 * k + 1)) (show 0 < 16384 by norm_num)
    rw [abs_le]; omega
  refine ⟨m, hle, hm, ?_⟩
  have e : ((((Spec.draw (2 * k + 2) % 16384 : Nat) : ℚ) - (Spec.draw (2 * k + 1) % 16384 : Nat)) / 16384) = (m : ℚ) / 16384 := by
    rw [hm]; push_cast; rfl
  unfold Spec.noise
  rw [e]
  have hr : Rep ((m : ℚ) / 16384) := rep_dyadic (by linarith)
  have := is_ofRat (q := (m : ℚ) / 16384) rep_one (by
    have : |(m : ℚ)| ≤ 16383 := by exact_mod_cast hle
    rw [abs_div, div_le_one (by norm_num)]
    norm_num at this ⊢
    linarith)
  rwa [roundQ_grid hr.grid] at this

theorem ditherAt_cons (inv : F32) (k : Nat) (x : F32) (xs : List F32) :
    Spec.ditherAt inv k (x :: xs) = (x + Spec.noise k * F32.ofRat (1 / 1000) * (ofInt 1 - inv)) * inv :: Spec.ditherAt inv (k + 1) xs := by
  unfold Spec.ditherAt
  rw [List.mapIdx_cons, Nat.add_zero]
  have : (fun i x => (x + Spec.noise (k + (i + 1)) * F32.ofRat (1 / 1000) * (ofInt 1 - inv)) * inv) =
      fun i x => (x + Spec.noise (k + 1 + i) * F32.ofRat (1 / 1000) * (ofInt 1 - inv)) * inv := by
    funext i x
    rw [show k + (i + 1) = k + 1 + i by omega]
  rw [← this]

@[simp] theorem length_ditherAt (inv : F32) (k : Nat) (xs : List F32) : (Spec.ditherAt inv k xs).length = xs.length := by
  simp [Spec.ditherAt]

theorem ditherAt_append (inv : F32) (k : Nat) (xs ys : List F32) :
    Spec.ditherAt inv k (xs ++ ys) = Spec.ditherAt inv k xs ++ Spec.ditherAt inv (k + xs.length) ys := by
  induction xs generalizing k with
  | nil => simp [Spec.ditherAt]
  | cons x xs ih =>
    rw [List.cons_append, ditherAt_cons, ditherAt_cons, ih, List.cons_append, List.length_cons]
    congr 3
    omega

/-- dithering, exactly -/
theorem dither_exact {b : Build} {inv : F32} : ∀ (xs : List F32) {s : PseudoRandom} {k : Nat} (_ : s.sequence = Spec.draw (2 * k)),
    AdhocCodec.dither b inv s xs = .ok ({ sequence := Spec.draw (2 * (k + xs.length)) }, Spec.ditherAt inv k xs)
  | [], s, k, h => by
    rw [List.length_nil, Nat.add_zero, ← h]
    rfl
  | x :: xs, s, k, h => by
    obtain ⟨r1, r, n, m, e, hr, hm, hn, h1, h2, h3⟩ := triangle_ok (b := b) (s := s) (by rw [h]; exact draw_lt _)
    have g1 : r1 = Spec.draw (2 * k + 1) := by rw [h1, h]; rfl
    have g2 : r = Spec.draw (2 * k + 2) := by rw [h2, g1]; rfl
    have hx : n = Spec.noise k := by
      obtain ⟨m', -, hm', hn'⟩ := noise_spec k
      rw [← g1, ← g2, ← h3] at hm'
      rw [hm'] at hn'
      exact hn.eq hn'
    have ih := dither_exact (b := b) (inv := inv) xs (s := { sequence := r }) (k := k + 1) (by rw [g2]; rfl)
    unfold AdhocCodec.dither
    rw [e, bind_ok]
    dsimp only
    rw [ih, bind_ok, ditherAt_cons, hx, List.length_cons, show k + 1 + xs.length = k + (xs.length + 1) by omega]
    rfl

/-- exact dithering is dithering -/
theorem dithered_ditherAt (inv : F32) : ∀ (k : Nat) (xs : List F32), List.Forall₂ (Dithered inv) xs (Spec.ditherAt inv k xs)
  | _, [] => .nil
  | k, x :: xs => by
    obtain ⟨m, h1, -, h2⟩ := noise_spec k
    rw [ditherAt_cons]
    exact .cons ⟨_, m, h1, h2, rfl⟩ (dithered_ditherAt inv (k + 1) xs)

theorem is_amp : Is AdhocCodec.DITHER_AMPLITUDE (roundQ (1 / 1000)) := is_ofRat rep_one (by norm_num [abs_div])

/-- at level 0 dithering changes nothing -/
theorem dithered_one {x y : F32} (h : Dithered (ofInt 1) x y) : y = x := by
  obtain ⟨n, m, hm, hn, rfl⟩ := h
  have hmq : |(m : ℚ) / 16384| ≤ 1 := by
    have : |(m : ℚ)| ≤ 16383 := by exact_mod_cast hm
    rw [abs_div, div_le_one (by norm_num)]
    norm_num at this ⊢
    linarith
  have hamp : |roundQ (1 / 1000)| ≤ 1 := roundQ_abs_le rep_one.grid (by norm_num [abs_div])
  have h1 := hn.mul is_amp rep_one (by rw [abs_mul]; calc _ ≤ (1 : ℚ) * 1 := by gcongr
    _ = 1 := by norm_num)
  have hz : Is (ofInt 1 - ofInt 1) 0 := by
    have := (is_int (n := 1) (by norm_num)).sub (is_int (n := 1) (by norm_num)) rep_one (by norm_num)
    rwa [sub_self, roundQ_zero] at this
  have h2 := h1.mul hz rep_one (by norm_num)
  rw [mul_zero, roundQ_zero] at h2
  have : n * AdhocCodec.DITHER_AMPLITUDE * (ofInt 1 - ofInt 1) = ofInt 0 :=
    h2.eq (by simpa using is_int (n := 0) (by norm_num))
  rw [this, add_zero', mul_one']

end Adhoc
