import Mathlib.Data.Rat.Floor
import Mathlib.Algebra.Order.Field.Power
import Mathlib.Tactic.Linarith
import Mathlib.Tactic.Positivity
import Mathlib.Tactic.Ring
import Mathlib.Tactic.FieldSimp
import Mathlib.Tactic.NormNum

/-!
# IEEE 754 binary32 as used by Rust's `f32`

A finite value is a rational together with a proof that binary32 can represent it. Every arithmetic operation is the exact
rational operation followed by rounding to nearest, ties to even. Simplification: `+0.0` and `-0.0` are one value; the code
never divides by a signed zero, never takes a sign bit and never prints a sample.
-/

namespace Adhoc

/-- Round a rational to the nearest integer, ties to even. -/
def rne (q : ℚ) : ℤ :=
  let f := q.floor
  let r := q - f
  if r < 1 / 2 then f
  else if 1 / 2 < r then f + 1
  else if f % 2 = 0 then f else f + 1

/-- `⌊log₂ |q|⌋` for `q ≠ 0`. -/
def ilog2 (q : ℚ) : ℤ :=
  let k : ℤ := (Nat.log2 q.num.natAbs : ℤ) - (Nat.log2 q.den : ℤ)
  if (2 : ℚ) ^ k ≤ |q| then k else k - 1

/-- Exponent of the unit in the last place of `q` in binary32 (24-bit significand, smallest exponent -149). -/
def ulpExp (q : ℚ) : ℤ := max (ilog2 q - 23) (-149)

/-- Round to the binary32 grid (unbounded above). -/
def roundQ (q : ℚ) : ℚ :=
  if q = 0 then 0 else (rne (q / (2 : ℚ) ^ ulpExp q) : ℚ) * (2 : ℚ) ^ ulpExp q

/-- `q` is a finite binary32 value. -/
def Rep (q : ℚ) : Prop :=
  ∃ n e : ℤ, |n| ≤ 2 ^ 24 ∧ -149 ≤ e ∧ q = (n : ℚ) * (2 : ℚ) ^ e ∧ |q| < 2 ^ 128

/-! ### what is needed to show that rounding lands on binary32 values -/

theorem rne_bound (q : ℚ) : |(rne q : ℚ) - q| ≤ 1 / 2 := by
  have h1 := Int.floor_le q
  have h2 := Int.lt_floor_add_one q
  have hf : q.floor = ⌊q⌋ := rfl
  unfold rne
  simp only [hf]
  split_ifs with a b c <;> rw [abs_le] <;> push_cast <;> constructor <;> linarith

theorem rne_int (n : ℤ) : rne (n : ℚ) = n := by
  have hf : ((n : ℚ)).floor = n := by
    have : ((n : ℚ)).floor = ⌊(n : ℚ)⌋ := rfl
    rw [this]; simp
  unfold rne
  simp [hf]

theorem rne_mono {a b : ℚ} (h : a ≤ b) : rne a ≤ rne b := by
  have ha1 := Int.floor_le a
  have ha2 := Int.lt_floor_add_one a
  have hb1 := Int.floor_le b
  have hb2 := Int.lt_floor_add_one b
  have hfa : a.floor = ⌊a⌋ := rfl
  have hfb : b.floor = ⌊b⌋ := rfl
  have hm : ⌊a⌋ ≤ ⌊b⌋ := Int.floor_mono h
  rcases hm.lt_or_eq with hlt | heq
  · unfold rne
    simp only [hfa, hfb]
    split_ifs <;> omega
  · unfold rne
    simp only [hfa, hfb]
    rw [heq] at ha1 ha2 ⊢
    split_ifs <;> first | omega | (exfalso; linarith)

theorem rne_abs_le {q : ℚ} {m : ℤ} (h : |q| ≤ m) : |rne q| ≤ m := by
  rw [abs_le] at h ⊢
  constructor
  · have := rne_mono (a := ((-m : ℤ) : ℚ)) (b := q) (by push_cast; exact h.1)
    rwa [rne_int] at this
  · have := rne_mono (a := q) (b := (m : ℚ)) h.2
    rwa [rne_int] at this

theorem ilog2_spec {q : ℚ} (hq : q ≠ 0) : (2 : ℚ) ^ ilog2 q ≤ |q| ∧ |q| < (2 : ℚ) ^ (ilog2 q + 1) := by
  set n := q.num.natAbs with hn
  set d := q.den with hd
  have hn0 : n ≠ 0 := by simpa [hn] using hq
  have hd0 : d ≠ 0 := q.den_nz
  have hq' : |q| = (n : ℚ) / d := by
    conv_lhs => rw [← Rat.num_div_den q]
    rw [abs_div, hn, Nat.cast_natAbs, Int.cast_abs, Nat.abs_cast]
  have hn1 : (2 : ℚ) ^ (Nat.log2 n) ≤ n := by exact_mod_cast Nat.log2_self_le hn0
  have hn2 : (n : ℚ) < (2 : ℚ) ^ (Nat.log2 n + 1) := by exact_mod_cast (Nat.log2_lt hn0).1 (Nat.lt_succ_self _)
  have hd1 : (2 : ℚ) ^ (Nat.log2 d) ≤ d := by exact_mod_cast Nat.log2_self_le hd0
  have hd2 : (d : ℚ) < (2 : ℚ) ^ (Nat.log2 d + 1) := by exact_mod_cast (Nat.log2_lt hd0).1 (Nat.lt_succ_self _)
  have hdp : (0 : ℚ) < d := by positivity
  have h2 : (2 : ℚ) ≠ 0 := by norm_num
  have up : |q| < (2 : ℚ) ^ ((Nat.log2 n : ℤ) - (Nat.log2 d : ℤ) + 1) := by
    rw [hq', div_lt_iff₀ hdp, show ((Nat.log2 n : ℤ) - (Nat.log2 d : ℤ) + 1) = ((Nat.log2 n + 1 : ℕ) : ℤ) - (Nat.log2 d : ℤ) by
      push_cast; ring, zpow_sub₀ h2, zpow_natCast, zpow_natCast]
    calc (n : ℚ) < 2 ^ (Nat.log2 n + 1) := hn2
      _ = 2 ^ (Nat.log2 n + 1) / 2 ^ Nat.log2 d * 2 ^ Nat.log2 d := by field_simp
      _ ≤ _ := by gcongr
  have lo : (2 : ℚ) ^ ((Nat.log2 n : ℤ) - (Nat.log2 d : ℤ) - 1) ≤ |q| := by
    rw [hq', le_div_iff₀ hdp, show ((Nat.log2 n : ℤ) - (Nat.log2 d : ℤ) - 1) = ((Nat.log2 n : ℤ)) - ((Nat.log2 d + 1 : ℕ) : ℤ) by
      push_cast; ring, zpow_sub₀ h2, zpow_natCast, zpow_natCast]
    calc (2 : ℚ) ^ (Nat.log2 n) / 2 ^ (Nat.log2 d + 1) * d
        ≤ (2 : ℚ) ^ (Nat.log2 n) / 2 ^ (Nat.log2 d + 1) * 2 ^ (Nat.log2 d + 1) := by gcongr
      _ = (2 : ℚ) ^ (Nat.log2 n) := by field_simp
      _ ≤ n := hn1
  unfold ilog2
  simp only [← hn, ← hd]
  split_ifs with h
  · exact ⟨h, up⟩
  · refine ⟨lo, ?_⟩
    simpa using lt_of_not_ge h

theorem ulp_pos (q : ℚ) : (0 : ℚ) < (2 : ℚ) ^ ulpExp q := by positivity

theorem abs_div_ulp_le {q : ℚ} (hq : q ≠ 0) : |q / (2 : ℚ) ^ ulpExp q| ≤ ((2 ^ 24 : ℤ) : ℚ) := by
  rw [abs_div, abs_of_pos (ulp_pos q), div_le_iff₀ (ulp_pos q)]
  have h := (ilog2_spec hq).2
  have hle : ilog2 q + 1 ≤ 24 + ulpExp q := by unfold ulpExp; omega
  have h2 : (2 : ℚ) ^ (ilog2 q + 1) ≤ (2 : ℚ) ^ (24 + ulpExp q) := zpow_le_zpow_right₀ (by norm_num) hle
  have h3 : (2 : ℚ) ^ (24 + ulpExp q) = ((2 ^ 24 : ℤ) : ℚ) * (2 : ℚ) ^ ulpExp q := by
    rw [zpow_add₀ (by norm_num)]; norm_num
  linarith

theorem rep_roundQ {q : ℚ} (h : |roundQ q| < 2 ^ 128) : Rep (roundQ q) := by
  by_cases hq : q = 0
  · subst hq
    exact ⟨0, 0, by norm_num, by norm_num, by simp [roundQ], h⟩
  · refine ⟨rne (q / (2 : ℚ) ^ ulpExp q), ulpExp q, rne_abs_le (abs_div_ulp_le hq), ?_, ?_, h⟩
    · unfold ulpExp; omega
    · simp [roundQ, hq]

/-! ### the type and its operations -/

/-- A binary32 value. -/
inductive F32
  | nan
  | inf (neg : Bool)
  | fin (q : ℚ) (h : Rep q)
  deriving DecidableEq

namespace F32

/-- Round an exact rational result to binary32 (nearest even, overflow to infinity). -/
def ofRat (q : ℚ) : F32 :=
  if h : |roundQ q| < 2 ^ 128 then fin (roundQ q) (rep_roundQ h) else inf (decide (q < 0))

/-- `i as f32` for any integer type. -/
def ofInt (n : ℤ) : F32 := ofRat n

/-- `-x` -/
def neg : F32 → F32
  | nan => nan
  | inf s => inf (!s)
  | fin q _ => ofRat (-q)

/-- `a + b` -/
def add : F32 → F32 → F32
  | nan, _ => nan
  | _, nan => nan
  | inf s, inf t => if s = t then inf s else nan
  | inf s, fin _ _ => inf s
  | fin _ _, inf t => inf t
  | fin a _, fin b _ => ofRat (a + b)

/-- `a - b` -/
def sub (a b : F32) : F32 := add a (neg b)

/-- `a * b` -/
def mul : F32 → F32 → F32
  | nan, _ => nan
  | _, nan => nan
  | inf s, inf t => inf (s != t)
  | inf s, fin q _ => if q = 0 then nan else inf (s != decide (q < 0))
  | fin q _, inf s => if q = 0 then nan else inf (s != decide (q < 0))
  | fin a _, fin b _ => ofRat (a * b)

/-- `a / b` (a zero divisor counts as `+0.0`) -/
def div : F32 → F32 → F32
  | nan, _ => nan
  | _, nan => nan
  | inf _, inf _ => nan
  | inf s, fin q _ => inf (s != decide (q < 0))
  | fin _ _, inf _ => ofRat 0
  | fin a _, fin b _ => if b = 0 then (if a = 0 then nan else inf (decide (a < 0))) else ofRat (a / b)

instance : Add F32 := ⟨add⟩
instance : Sub F32 := ⟨sub⟩
instance : Mul F32 := ⟨mul⟩
instance : Div F32 := ⟨div⟩
instance : Neg F32 := ⟨neg⟩

/-- `a < b` (false on NaN) -/
def lt : F32 → F32 → Bool
  | nan, _ => false
  | _, nan => false
  | inf s, inf t => s && !t
  | inf s, fin _ _ => s
  | fin _ _, inf t => !t
  | fin a _, fin b _ => decide (a < b)

/-- `f32::clamp` for constant, ordered bounds: NaN stays NaN. -/
def clamp (x lo hi : F32) : F32 :=
  let x := if lt x lo then lo else x
  if lt hi x then hi else x

/-- truncation toward zero of a rational -/
def truncQ (q : ℚ) : ℤ := if q < 0 then -(-q).floor else q.floor

/-- `x as iN`/`uN`: truncate toward zero, saturate to `[lo, hi]`, NaN gives 0. -/
def toIntSat (lo hi : ℤ) : F32 → ℤ
  | nan => 0
  | inf s => if s then lo else hi
  | fin q _ => max lo (min hi (truncQ q))

/-- `f32::from_bits`: sign bit, 8 exponent bits, 23 fraction bits -/
def fromBits (v : BitVec 32) : F32 :=
  let s : Nat := v.toNat / 2 ^ 31
  let e : Nat := v.toNat / 2 ^ 23 % 2 ^ 8
  let m : Nat := v.toNat % 2 ^ 23
  if e = 255 then (if m = 0 then inf (decide (s = 1)) else nan)
  else
    let mag : ℚ := if e = 0 then (m : ℚ) * 2 ^ (-149 : ℤ) else ((2 ^ 23 + m : Nat) : ℚ) * 2 ^ ((e : ℤ) - 150)
    ofRat (if s = 1 then -mag else mag)

/-- the rational value of a finite float -/
def val : F32 → Option ℚ
  | fin q _ => some q
  | _ => none

/-- finite? -/
def isFinite : F32 → Bool
  | fin _ _ => true
  | _ => false

end F32

end Adhoc
