import Verif.Proofs.Table
import Verif.Proofs.Float
import Verif.Props.Levels

/-! # C38, C39 (conversion between samples and 16-bit codes) and C56 (dither noise) -/

namespace Adhoc
open Spec F32

namespace Spec

/-- the codes that come back one closer to zero: below the leading nine bits the magnitude has the bits 01, followed by zeros -/
def Slips (i : ℤ) : Prop :=
  (∃ j, 9 ≤ j ∧ j ≤ 14 ∧ 2 ^ j < i.natAbs ∧ i.natAbs < 2 ^ (j + 1) ∧ i.natAbs % 2 ^ (j - 7) = 2 ^ (j - 9)) ∨ i.natAbs = 32768

/-- a code of type `i16` -/
def I16 (i : ℤ) : Prop := -32768 ≤ i ∧ i ≤ 32767

/-- the first `k` values of the noise sequence, and the generator afterwards -/
def series (b : Build) : Nat → PseudoRandom → R (PseudoRandom × List F32)
  | 0, s => pure (s, [])
  | k + 1, s => do
    let (s, x) ← s.triangle b
    let (s, xs) ← series b k s
    pure (s, x :: xs)

end Spec

theorem loses_slips (i : ℤ) : loses i.natAbs = true ↔ Slips i := by
  rw [loses_iff, Slips]
  generalize i.natAbs = n
  constructor
  · rintro (h | h | h | h | h | h | h)
    · exact .inl ⟨9, by norm_num; omega⟩
    · exact .inl ⟨10, by norm_num; omega⟩
    · exact .inl ⟨11, by norm_num; omega⟩
    · exact .inl ⟨12, by norm_num; omega⟩
    · exact .inl ⟨13, by norm_num; omega⟩
    · exact .inl ⟨14, by norm_num; omega⟩
    · exact .inr h
  · rintro (⟨j, h1, h2, h⟩ | h)
    · interval_cases j <;> norm_num at h <;> omega
    · omega

/-! ## C38 -/

/-- **C38** fails: decoding the 16-bit value 32672 and encoding it again gives 32671. -/
theorem C38_false : ¬ ∀ i, I16 i → truncateSample (normalizeSample i) = i := by
  intro h
  have h1 := h 32672 (by constructor <;> norm_num)
  have h2 : truncateSample (normalizeSample 32672) = 32671 := by decide +kernel
  rw [h2] at h1
  norm_num at h1

/-- **C38**, what holds: a 16-bit value comes back unchanged unless it is one of the values described by `Slips`; these come back one
closer to zero. Whatever came back is returned unchanged from then on. -/
theorem C38_codes_partial (i : ℤ) (h : I16 i) :
    (¬ Slips i → truncateSample (normalizeSample i) = i) ∧
    (Slips i → truncateSample (normalizeSample i) = if 0 < i then i - 1 else i + 1) ∧
    truncateSample (normalizeSample (truncateSample (normalizeSample i))) = truncateSample (normalizeSample i) := by
  have ha : |i| ≤ 32768 := by rw [abs_le]; exact ⟨h.1, by have := h.2; omega⟩
  refine ⟨fun hs => ?_, fun hs => ?_, again_again ha⟩
  · show again i = i
    rw [again_eq ha, if_neg (by rw [loses_slips]; exact hs)]
  · show again i = _
    rw [again_eq ha, if_pos ((loses_slips i).2 hs)]
    rcases lt_trichotomy i 0 with c | c | c
    · rw [Int.sign_eq_neg_one_of_neg c, if_neg (by omega)]; omega
    · subst c
      have := (loses_iff 0).1 ((loses_slips 0).2 hs)
      omega
    · rw [Int.sign_eq_one_of_pos c, if_pos c]

example : I16 32672 ∧ Slips 32672 ∧ truncateSample (normalizeSample 32672) = 32671 ∧
    I16 (-513) ∧ Slips (-513) ∧ truncateSample (normalizeSample (-513)) = -512 ∧
    I16 32671 ∧ ¬ Slips 32671 ∧ truncateSample (normalizeSample 32671) = 32671 := by
  refine ⟨by constructor <;> norm_num, .inl ⟨14, by norm_num⟩, by decide +kernel, by constructor <;> norm_num, .inl ⟨9, by norm_num⟩, by decide +kernel, by constructor <;> norm_num, ?_, by decide +kernel⟩
  rw [← loses_slips]
  decide

/-! ## C39 -/

/-- **C39**: the code of a sample (any of the 2^32 values of `f32`) is in [-32767, 32767]; the code of NaN is 0; a larger sample does not
have a smaller code; a sample of [-1, 1] is 1.01/32767 or less from what its code stands for; and a code that was converted to a sample and
back is not changed by doing so again. -/
theorem C39_conversion :
    (∀ x, -32767 ≤ truncateSample x ∧ truncateSample x ≤ 32767) ∧
    truncateSample .nan = 0 ∧
    (∀ x y, F32.lt x y = true → truncateSample x ≤ truncateSample y) ∧
    (∀ x, Unit x → Near (1.01 / 32767) (normalizeSample (truncateSample x)) x) ∧
    (∀ x, let there := truncateSample (normalizeSample (truncateSample x))
      truncateSample (normalizeSample there) = there) := by
  refine ⟨fun x => ?_, ?_, fun x y h => truncateSample_mono (unit_lt h), fun x hx => ?_, fun x => ?_⟩
  · exact abs_le.1 (code_abs (x := x))
  · decide +kernel
  · obtain ⟨q, hq, hu⟩ := hx
    obtain ⟨v, hv, he⟩ := quantise_err x
    rw [unit_of_abs hq hu] at he
    exact ⟨v, q, hv, hq, he⟩
  · exact again_again ((code_abs (x := x)).trans (by norm_num))

/-- samples on both sides of the range and NaN; 0.3 has the code 9830 -/
example : truncateSample (F32.ofRat (3 / 10)) = 9830 ∧ Unit (F32.ofRat (3 / 10)) ∧ truncateSample (.inf true) = -32767 ∧
    truncateSample (ofInt 7) = 32767 ∧ F32.lt (F32.ofRat (3 / 10)) (ofInt 7) = true := by
  refine ⟨by decide +kernel, ⟨_, is_ofRat rep_one (by norm_num [abs_div]), roundQ_abs_le rep_one.grid (by norm_num [abs_div])⟩, by decide +kernel,
    by decide +kernel, by decide +kernel⟩

/-! ## C56 -/

theorem series_spec (b : Build) : ∀ (k j : Nat),
    series b k { sequence := draw (2 * j) } = .ok ({ sequence := draw (2 * (j + k)) }, (List.range k).map fun i => noise (j + i))
  | 0, _ => rfl
  | k + 1, j => by
    obtain ⟨r1, r, n, m, e, hr, hm, hn, h1, h2, h3⟩ := triangle_ok (b := b) (s := { sequence := draw (2 * j) }) (draw_lt _)
    have g1 : r1 = draw (2 * j + 1) := by rw [h1]; rfl
    have g2 : r = draw (2 * j + 2) := by rw [h2, g1]; rfl
    have hx : n = noise j := by
      obtain ⟨m', -, hm', hn'⟩ := noise_spec j
      rw [← g1, ← g2, ← h3] at hm'
      rw [hm'] at hn'
      exact hn.eq hn'
    have ih := series_spec b k (j + 1)
    unfold series
    rw [e, bind_ok]
    dsimp only
    rw [g2, show draw (2 * j + 2) = draw (2 * (j + 1)) from rfl, ih, bind_ok, hx, List.range_succ_eq_map, List.map_cons, List.map_map,
      show j + 1 + k = j + (k + 1) by omega]
    simp only [Function.comp_def, Nat.add_zero, show ∀ i, j + 1 + i = j + i.succ by omega]
    rfl

/-- **C56**: however many values of the dither noise are drawn, in a build with overflow checks as in one without, computing them does
not overflow and each is a number strictly between -1 and 1; and at level 0, where the factor is 1, dithering leaves every sample
unchanged (but for the sign of a zero, which the model does not have), whatever noise came before. -/
theorem C56_dither (b : Build) (k : Nat) :
    (∃ s xs, series b k (PseudoRandom.new 314) = .ok (s, xs) ∧ xs.length = k ∧ s.sequence < 507961 ∧ ∀ x ∈ xs, ∃ q, Is x q ∧ -1 < q ∧ q < 1) ∧
    (∀ s xs pcm, series b k (PseudoRandom.new 314) = .ok (s, xs) → ∃ s', AdhocCodec.dither b (ofInt 1) s pcm = .ok (s', pcm)) := by
  have h0 : PseudoRandom.new 314 = { sequence := draw (2 * 0) } := rfl
  have hs := series_spec b k 0
  rw [← h0] at hs
  refine ⟨⟨_, _, hs, by simp, draw_lt _, ?_⟩, fun s xs pcm h => ?_⟩
  · intro x hx
    obtain ⟨i, -, rfl⟩ := List.mem_map.1 hx
    obtain ⟨m, hm, -, hi⟩ := noise_spec (0 + i)
    have hm' : |(m : ℚ)| ≤ 16383 := by exact_mod_cast hm
    rw [abs_le] at hm'
    refine ⟨_, hi, ?_, ?_⟩
    · rw [lt_div_iff₀ (by norm_num)]; linarith
    · rw [div_lt_one (by norm_num)]; linarith
  · rw [hs] at h
    obtain ⟨rfl, -⟩ := Prod.mk.inj (Except.ok.inj h)
    obtain ⟨s', ys, e, -, hf⟩ := dither_ok (b := b) (inv := ofInt 1) pcm (s := { sequence := draw (2 * (0 + k)) }) (draw_lt _)
    refine ⟨s', ?_⟩
    rw [e]
    have : ys = pcm := by
      clear e
      induction hf with
      | nil => rfl
      | cons h _ ih => rw [dithered_one h, ih]
    rw [this]

/-- the first two values of the noise -/
example : (series .debug 2 (PseudoRandom.new 314)).map Prod.snd = .ok [F32.ofRat (8760 / 16384), F32.ofRat (6811 / 16384)] := by decide +kernel

end Adhoc
