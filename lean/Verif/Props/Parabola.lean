import Verif.Proofs.Float

/-! # C104: the parabola goes through its points -/

namespace Adhoc
open F32

namespace Spec

/-- the value at `q` of the quadratic polynomial with the values `a`, `b` and `c` at 0, 1 and 2 -/
def parabola (a b c q : ℚ) : ℚ := a * ((q - 1) * (q - 2) / 2) - b * (q * (q - 2)) + c * (q * (q - 1) / 2)

/-- it has these values -/
example (a b c : ℚ) : parabola a b c 0 = a ∧ parabola a b c 1 = b ∧ parabola a b c 2 = c := by
  unfold parabola
  refine ⟨?_, ?_, ?_⟩ <;> ring

end Spec

open Spec

theorem rep_big : Rep (2 ^ 126) := by
  have : (2 : ℚ) ^ 126 = ((1 : ℤ) : ℚ) * 2 ^ (126 : ℤ) := by norm_num
  rw [this]
  refine (grid_of (by norm_num) (by norm_num)).rep ?_
  rw [← this]
  norm_num

theorem round_big {q K : ℚ} (h : |q| ≤ K) (h2 : K ≤ 2 ^ 126) : Is (ofRat q) (roundQ q) ∧ |roundQ q - q| ≤ K / 2 ^ 24 + 1 / 2 ^ 150 := by
  refine ⟨is_ofRat rep_big (h.trans h2), (roundQ_err q).trans ?_⟩
  have : |q| / 2 ^ 24 ≤ K / 2 ^ 24 := by gcongr
  linarith

theorem F32.Is.big_mul {x y : F32} {a b : ℚ} (hx : Is x a) (hy : Is y b) (K : ℚ) (h : |a * b| ≤ K) (h2 : K ≤ 2 ^ 126) :
    ∃ c, Is (x * y) c ∧ |c - a * b| ≤ K / 2 ^ 24 + 1 / 2 ^ 150 := by
  obtain ⟨_, rfl⟩ := hx; obtain ⟨_, rfl⟩ := hy
  rw [fin_mul]; exact ⟨_, round_big h h2⟩

theorem F32.Is.big_add {x y : F32} {a b : ℚ} (hx : Is x a) (hy : Is y b) (K : ℚ) (h : |a + b| ≤ K) (h2 : K ≤ 2 ^ 126) :
    ∃ c, Is (x + y) c ∧ |c - (a + b)| ≤ K / 2 ^ 24 + 1 / 2 ^ 150 := by
  obtain ⟨_, rfl⟩ := hx; obtain ⟨_, rfl⟩ := hy
  rw [fin_add]; exact ⟨_, round_big h h2⟩

theorem F32.Is.big_sub {x y : F32} {a b : ℚ} (hx : Is x a) (hy : Is y b) (K : ℚ) (h : |a - b| ≤ K) (h2 : K ≤ 2 ^ 126) :
    ∃ c, Is (x - y) c ∧ |c - (a - b)| ≤ K / 2 ^ 24 + 1 / 2 ^ 150 := by
  obtain ⟨_, rfl⟩ := hx; obtain ⟨_, rfl⟩ := hy
  rw [fin_sub]; exact ⟨_, round_big h h2⟩

/-- multiplying with a small power of two -/
theorem F32.Is.times {x y : F32} {a : ℚ} (hx : Is x a) {k : Nat} (hy : Is y (2 ^ k)) (h : |2 ^ k * a| ≤ 2 ^ 126) : Is (y * x) (2 ^ k * a) := by
  have hg : Grid (2 ^ k * a) := by
    obtain ⟨n, e, h1, h2, h3⟩ := hx.rep.grid
    refine ⟨n, e + k, h1, by omega, ?_⟩
    rw [h3, zpow_add₀ (by norm_num), zpow_natCast]
    ring
  have := hy.mul hx rep_big h
  rwa [roundQ_grid hg] at this

/-- C104. For every three samples of at most `M` and every place of at most `X`, the parabola computed from the samples has at the place the
value of the polynomial through the points, up to rounding. -/
theorem C104_parabola (f0 f1 f2 x : F32) (a b c q M X : ℚ) (h0 : Is f0 a) (h1 : Is f1 b) (h2 : Is f2 c) (hx : Is x q) (ha : |a| ≤ M) (hb : |b| ≤ M)
    (hc : |c| ≤ M) (hM : M ≤ 2 ^ 100) (hq : |q| ≤ X) (hX1 : 1 ≤ X) (hX : X ≤ 2 ^ 10) :
    ∃ v, Is ((FixedParabola.fromSamples f0 f1 f2).computeCoefs.eval x) v ∧
      |v - parabola a b c q| ≤ (2 + 28 * X + 16 * X ^ 2) * M / 2 ^ 24 + X ^ 2 / 2 ^ 140 := by
  have hM0 : 0 ≤ M := (abs_nonneg a).trans ha
  have hX0 : 0 < X := by linarith
  have hB1 : M ≤ M * X := le_mul_of_one_le_right hM0 hX1
  have hC1 : M * X ≤ M * X ^ 2 := by
    rw [pow_two, ← mul_assoc]
    exact le_mul_of_one_le_right (by positivity) hX1
  have hC : M * X ^ 2 ≤ 2 ^ 120 := by
    calc M * X ^ 2 ≤ 2 ^ 100 * (2 ^ 10) ^ 2 := by gcongr
      _ = _ := by norm_num
  have hXX : X ≤ X ^ 2 := by
    rw [pow_two]
    exact le_mul_of_one_le_right hX0.le hX1
  have hXX2 : X ^ 2 ≤ 2 ^ 20 := by
    calc X ^ 2 ≤ (2 ^ 10) ^ 2 := by gcongr
      _ = _ := by norm_num
  have i4 : Is (ofInt 4) (2 ^ 2) := by
    rw [show (2 : ℚ) ^ 2 = ((4 : ℤ) : ℚ) by norm_num]
    exact is_int (by norm_num)
  have i2 : Is (ofInt 2) (2 ^ 1) := by simpa using is_int (n := 2) (by norm_num)
  have ih : Is (ofRat (1 / 2)) (1 / 2) := by
    have hr : Rep (1 / 2) := by
      have := rep_inv (L := 1) (by norm_num)
      norm_num at this ⊢
      exact this
    rw [ofRat_rep hr]
    exact ⟨hr, rfl⟩
  rw [abs_le] at ha hb hc
  -- the differences
  obtain ⟨d, id, ed⟩ := h1.big_sub h0 (2 * M) (by rw [abs_le]; constructor <;> linarith [ha.1, ha.2, hb.1, hb.2]) (by linarith)
  obtain ⟨e, ie, ee⟩ := h2.big_sub h0 (2 * M) (by rw [abs_le]; constructor <;> linarith [ha.1, ha.2, hc.1, hc.2]) (by linarith)
  rw [abs_le] at ed ee
  have i4d := id.times i4 (by rw [abs_le]; constructor <;> linarith [ed.1, ed.2, ha.1, ha.2, hb.1, hb.2])
  have i2d := id.times i2 (by rw [abs_le]; constructor <;> linarith [ed.1, ed.2, ha.1, ha.2, hb.1, hb.2])
  -- the coefficients
  obtain ⟨s1, is1, es1⟩ := i4d.big_sub ie (9 * M + 1 / 2 ^ 140)
    (by rw [abs_le]; constructor <;> linarith [ed.1, ed.2, ee.1, ee.2, ha.1, ha.2, hb.1, hb.2, hc.1, hc.2]) (by linarith)
  obtain ⟨s2, is2, es2⟩ := ie.big_sub i2d (4.1 * M + 1 / 2 ^ 140)
    (by rw [abs_le]; constructor <;> linarith [ed.1, ed.2, ee.1, ee.2, ha.1, ha.2, hb.1, hb.2, hc.1, hc.2]) (by linarith)
  rw [abs_le] at es1 es2
  obtain ⟨c1, ic1, ec1⟩ := is1.big_mul ih (5 * M + 1 / 2 ^ 139)
    (by rw [abs_le]; constructor <;> linarith [es1.1, es1.2, ed.1, ed.2, ee.1, ee.2, ha.1, ha.2, hb.1, hb.2, hc.1, hc.2]) (by linarith)
  obtain ⟨c2, ic2, ec2⟩ := is2.big_mul ih (2.1 * M + 1 / 2 ^ 139)
    (by rw [abs_le]; constructor <;> linarith [es2.1, es2.2, ed.1, ed.2, ee.1, ee.2, ha.1, ha.2, hb.1, hb.2, hc.1, hc.2]) (by linarith)
  rw [abs_le] at ec1 ec2
  have hc1 : |c1 - (4 * (b - a) - (c - a)) / 2| ≤ 15 * M / 2 ^ 24 + 1 / 2 ^ 145 := by
    rw [abs_le]
    constructor <;> linarith [ec1.1, ec1.2, es1.1, es1.2, ed.1, ed.2, ee.1, ee.2]
  have hc2 : |c2 - ((c - a) - 2 * (b - a)) / 2| ≤ 7.3 * M / 2 ^ 24 + 1 / 2 ^ 145 := by
    rw [abs_le]
    constructor <;> linarith [ec2.1, ec2.2, es2.1, es2.2, ed.1, ed.2, ee.1, ee.2]
  clear ec1 ec2 es1 es2 ed ee
  have hm1 : |(4 * (b - a) - (c - a)) / 2| ≤ 4 * M := by
    rw [abs_le]
    constructor <;> linarith [ha.1, ha.2, hb.1, hb.2, hc.1, hc.2]
  have hm2 : |((c - a) - 2 * (b - a)) / 2| ≤ 2 * M := by
    rw [abs_le]
    constructor <;> linarith [ha.1, ha.2, hb.1, hb.2, hc.1, hc.2]
  have hP : parabola a b c q = a + ((4 * (b - a) - (c - a)) / 2 + ((c - a) - 2 * (b - a)) / 2 * q) * q := by
    unfold parabola
    ring
  rw [hP]
  generalize (4 * (b - a) - (c - a)) / 2 = g1 at *
  generalize ((c - a) - 2 * (b - a)) / 2 = g2 at *
  -- `c2 * x`
  have m2 : |c2 * q - g2 * q| ≤ 7.3 * (M * X) / 2 ^ 24 + X / 2 ^ 145 := by
    rw [← sub_mul, abs_mul]
    calc |c2 - g2| * |q| ≤ (7.3 * M / 2 ^ 24 + 1 / 2 ^ 145) * X := by gcongr
      _ = _ := by ring
  have n2 : |g2 * q| ≤ 2 * (M * X) := by
    rw [abs_mul]
    calc |g2| * |q| ≤ 2 * M * X := by gcongr
      _ = _ := by ring
  rw [abs_le] at m2 n2
  obtain ⟨p1, ip1, ep1⟩ := ic2.big_mul hx (2.1 * (M * X) + X / 2 ^ 144) (by rw [abs_le]; constructor <;> linarith [m2.1, m2.2, n2.1, n2.2]) (by linarith)
  rw [abs_le] at ep1 hc1 hm1
  -- `c1 + c2 * x`
  obtain ⟨p2, ip2, ep2⟩ := ic1.big_add ip1 (4.1 * M + 2.1 * (M * X) + X / 2 ^ 142)
    (by rw [abs_le]; constructor <;> linarith [m2.1, m2.2, n2.1, n2.2, ep1.1, ep1.2, hc1.1, hc1.2, hm1.1, hm1.2]) (by linarith)
  rw [abs_le] at ep2
  have m3 : |p2 - (g1 + g2 * q)| ≤ 19.2 * M / 2 ^ 24 + 11.6 * (M * X) / 2 ^ 24 + X / 2 ^ 143 := by
    rw [abs_le]
    constructor <;> linarith [m2.1, m2.2, ep1.1, ep1.2, ep2.1, ep2.2, hc1.1, hc1.2]
  have n3 : |g1 + g2 * q| ≤ 4 * M + 2 * (M * X) := by
    rw [abs_le]
    constructor <;> linarith [n2.1, n2.2, hm1.1, hm1.2]
  clear ep1 ep2 m2 hc1
  have m4 : |p2 * q - (g1 + g2 * q) * q| ≤ 19.2 * (M * X) / 2 ^ 24 + 11.6 * (M * X ^ 2) / 2 ^ 24 + X ^ 2 / 2 ^ 143 := by
    rw [← sub_mul, abs_mul]
    calc |p2 - (g1 + g2 * q)| * |q| ≤ (19.2 * M / 2 ^ 24 + 11.6 * (M * X) / 2 ^ 24 + X / 2 ^ 143) * X := by gcongr
      _ = _ := by ring
  have n4 : |(g1 + g2 * q) * q| ≤ 4 * (M * X) + 2 * (M * X ^ 2) := by
    rw [abs_mul]
    calc |g1 + g2 * q| * |q| ≤ (4 * M + 2 * (M * X)) * X := by gcongr
      _ = _ := by ring
  generalize (g1 + g2 * q) * q = g at *
  rw [abs_le] at m4 n4
  obtain ⟨p3, ip3, ep3⟩ := ip2.big_mul hx (4.1 * (M * X) + 2.1 * (M * X ^ 2) + X ^ 2 / 2 ^ 142)
    (by rw [abs_le]; constructor <;> linarith [m4.1, m4.2, n4.1, n4.2]) (by linarith)
  rw [abs_le] at ep3
  obtain ⟨v, iv, ev⟩ := h0.big_add ip3 (M + 4.2 * (M * X) + 2.2 * (M * X ^ 2) + X ^ 2 / 2 ^ 141)
    (by rw [abs_le]; constructor <;> linarith [m4.1, m4.2, n4.1, n4.2, ep3.1, ep3.2, ha.1, ha.2]) (by linarith)
  refine ⟨v, iv, ?_⟩
  rw [abs_le] at ev ⊢
  have hR : (2 + 28 * X + 16 * X ^ 2) * M / 2 ^ 24 = 2 * M / 2 ^ 24 + 28 * (M * X) / 2 ^ 24 + 16 * (M * X ^ 2) / 2 ^ 24 := by ring
  rw [hR]
  constructor <;> linarith [m4.1, m4.2, ep3.1, ep3.2, ev.1, ev.2]

/-- C104 at the points: the first is met exactly, the others up to 122/2^24, less than 1/137000, of the largest sample. -/
theorem C104_points (f0 f1 f2 : F32) (a b c M : ℚ) (h0 : Is f0 a) (h1 : Is f1 b) (h2 : Is f2 c) (ha : |a| ≤ M) (hb : |b| ≤ M) (hc : |c| ≤ M) (hM : M ≤ 2 ^ 100) :
    let p := (FixedParabola.fromSamples f0 f1 f2).computeCoefs
    p.eval (ofInt 0) = f0 ∧
    (∃ v, Is (p.eval (ofInt 1)) v ∧ |v - b| ≤ 46 * M / 2 ^ 24 + 1 / 2 ^ 140) ∧
    ∃ v, Is (p.eval (ofInt 2)) v ∧ |v - c| ≤ 122 * M / 2 ^ 24 + 1 / 2 ^ 138 := by
  intro p
  refine ⟨?_, ?_, ?_⟩
  · have i0 : Is (ofInt 0) 0 := by simpa using is_int (n := 0) (by norm_num)
    obtain ⟨v, iv, -⟩ := C104_parabola f0 f1 f2 (ofInt 0) a b c 0 M 1 h0 h1 h2 i0 ha hb hc hM (by norm_num) le_rfl (by norm_num)
    have e : p.eval (ofInt 0) = f0 + (p.c1 + p.c2 * ofInt 0) * ofInt 0 := rfl
    replace iv : Is (p.eval (ofInt 0)) v := iv
    rw [e] at iv ⊢
    generalize p.c1 + p.c2 * ofInt 0 = w at iv
    obtain ⟨_, hz⟩ := i0
    obtain ⟨hr, rfl⟩ := h0
    rw [hz] at iv ⊢
    match w with
    | .nan => obtain ⟨_, h⟩ := iv; cases h
    | .inf s =>
      have : inf s * fin 0 ‹_› = nan := by rw [mul_def, mul, if_pos rfl]
      rw [this] at iv
      obtain ⟨_, h⟩ := iv
      cases h
    | .fin z _ =>
      rw [fin_mul, mul_zero, ofRat_rep ‹Rep 0›, fin_add, add_zero, ofRat_rep hr]
  · obtain ⟨v, iv, hv⟩ := C104_parabola f0 f1 f2 (ofInt 1) a b c 1 M 1 h0 h1 h2 (by simpa using is_int (n := 1) (by norm_num)) ha hb hc hM (by norm_num) le_rfl
      (by norm_num)
    refine ⟨v, iv, ?_⟩
    rw [show parabola a b c 1 = b by unfold parabola; ring] at hv
    linarith
  · obtain ⟨v, iv, hv⟩ := C104_parabola f0 f1 f2 (ofInt 2) a b c 2 M 2 h0 h1 h2 (by simpa using is_int (n := 2) (by norm_num)) ha hb hc hM (by norm_num) (by norm_num)
      (by norm_num)
    refine ⟨v, iv, ?_⟩
    rw [show parabola a b c 2 = c by unfold parabola; ring] at hv
    linarith

/-- the points of the project's test, 10, 12 and 15, and the value 19 at 3 -/
example : let p := (FixedParabola.fromSamples (ofInt 10) (ofInt 12) (ofInt 15)).computeCoefs
    [p.eval (ofInt 0), p.eval (ofInt 1), p.eval (ofInt 2), p.eval (ofInt 3)] = [ofInt 10, ofInt 12, ofInt 15, ofInt 19] := by decide +kernel

/-- points that are not met exactly -/
example : let p := (FixedParabola.fromSamples (ofRat (1 / 10)) (ofInt 7) (ofRat (-1 / 3))).computeCoefs
    p.eval (ofInt 2) ≠ ofRat (-1 / 3) := by decide +kernel

end Adhoc
