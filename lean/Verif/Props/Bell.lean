import Verif.Props.Places
import Verif.Proofs.Time

/-! # C88: the coefficients of the Gaussian filter form a bell -/

namespace Adhoc
open Spec F32

/-- What is needed of the functions of the platform: the square root of 6.282 is a number from 1 to 4; squares are not negative, not above 2^121 for numbers
up to 2^60, and greater for numbers that are further from 0; the exponential function of a number that is not positive is in [0, 1] and never falls. Nothing is
said about how accurate they are. -/
structure Spec.Platform (root : F32) (sq exp : F32 → F32) : Prop where
  root_num : ∃ ρ, Is root ρ ∧ 1 ≤ ρ ∧ ρ ≤ 4
  sq_num : ∀ x a, Is x a → |a| ≤ 2 ^ 60 → ∃ v, Is (sq x) v ∧ 0 ≤ v ∧ v ≤ 2 ^ 121
  sq_mono : ∀ x y a b v w, Is x a → Is y b → |a| ≤ |b| → |b| ≤ 2 ^ 60 → Is (sq x) v → Is (sq y) w → v ≤ w
  exp_num : ∀ x a, Is x a → -2 ^ 120 ≤ a → a ≤ 0 → ∃ v, Is (exp x) v ∧ 0 ≤ v ∧ v ≤ 1
  exp_mono : ∀ x y a b v w, Is x a → Is y b → -2 ^ 120 ≤ a → a ≤ b → b ≤ 0 → Is (exp x) v → Is (exp y) w → v ≤ w

theorem abs_roundQ (a : ℚ) : |roundQ a| = roundQ |a| := by
  have rep0 : Rep 0 := by simpa using rep_int (n := 0) (by norm_num)
  rcases le_total 0 a with h | h
  · rw [abs_of_nonneg h, abs_of_nonneg (le_roundQ rep0.grid h)]
  · rw [abs_of_nonpos h, abs_of_nonpos (roundQ_le rep0.grid h), roundQ_neg]

/-- C88, the shape: with a deviation `s` from 2^-60 to 2^60 and a radius of at most 2^60 deviations, all coefficients are finite and not negative, and one that is
taken further from 0 is never greater. So they rise to the middle and fall from there on, and with an odd number of coefficients the middle one is the greatest. -/
theorem C88_bell_partial (root : F32) (sq exp : F32 → F32) (hP : Platform root sq exp) (n : Nat) (h2 : 2 ≤ n) (hn : n ≤ 2 ^ 24) (sigma r : F32) {q s : ℚ}
    (hr : Is r q) (h0 : 0 ≤ q) (hq : q < 2 ^ 127) (hsig : Is sigma s) (hs0 : 1 / 2 ^ 60 ≤ s) (hs1 : s ≤ 2 ^ 60) (hqs : q ≤ 2 ^ 60 * s) :
    ∃ p g : Nat → ℚ, (∀ k < n, Is (Gaussian.place n r k) (p k)) ∧
      (∀ k < n, ∃ y, (Gaussian.filter root sq exp n sigma r)[k]? = some y ∧ Is y (g k) ∧ 0 ≤ g k) ∧
      (∀ k k', k < n → k' < n → |p k| ≤ |p k'| → g k' ≤ g k) ∧
      (∀ k k', k ≤ k' → k' < n → p k' ≤ 0 → g k ≤ g k') ∧ (∀ k k', k ≤ k' → k' < n → 0 ≤ p k → g k' ≤ g k) ∧
      (n % 2 = 1 → ∀ k < n, g k ≤ g (n / 2)) := by
  obtain ⟨p, hp, -, hmono, hmid⟩ := C88_places_partial n h2 hn r hr h0 hq
  obtain ⟨ρ, hρ, hρ1, hρ4⟩ := hP.root_num
  have hs : 0 < s := lt_of_lt_of_le (by positivity) hs0
  obtain ⟨hsrep, -⟩ := id hsig
  have rep0 : Rep 0 := by simpa using rep_int (n := 0) (by norm_num)
  -- the factor
  have c1 := Is.mul hsig hρ (rep_pow (k := 62) (by norm_num)) (by
    rw [abs_of_nonneg (by nlinarith)]; norm_num at hs1 ⊢; nlinarith)
  have c1lo : s ≤ roundQ (s * ρ) := le_roundQ hsrep.grid (by nlinarith)
  have c1pos : 0 < roundQ (s * ρ) := lt_of_lt_of_le hs c1lo
  have hinv : 1 / roundQ (s * ρ) ≤ 2 ^ 60 := by
    rw [div_le_iff₀ c1pos]
    rw [div_le_iff₀ (by positivity)] at hs0
    nlinarith
  have c2 := Is.div (is_int (n := 1) (by norm_num)) c1 (ne_of_gt c1pos) (rep_pow (k := 60) (by norm_num)) (by
    push_cast
    rw [abs_of_nonneg (by positivity)]; exact hinv)
  push_cast at c2
  have k0 := le_roundQ rep0.grid (show 0 ≤ 1 / roundQ (s * ρ) by positivity)
  have k1 := roundQ_le (rep_pow (k := 60) (by norm_num)).grid hinv
  obtain ⟨K, hK⟩ : ∃ K, K = roundQ (1 / roundQ (s * ρ)) := ⟨_, rfl⟩
  rw [← hK] at c2 k0 k1
  have half : Is (F32.ofRat (-1 / 2)) (-1 / 2) := by
    have : Rep (-1 / 2) := Grid.rep ⟨-1, -1, by norm_num, by norm_num, by norm_num⟩ (by rw [abs_of_neg (by norm_num)]; norm_num)
    have h := is_ofRat (q := -1 / 2) rep_one (by rw [abs_of_neg (by norm_num)]; norm_num)
    rwa [roundQ_grid this.grid] at h
  -- one coefficient, from its place
  have one : ∀ k < n, ∃ d v a e, Is (Gaussian.place n r k / sigma) d ∧ d = roundQ (p k / s) ∧ |d| ≤ 2 ^ 60 ∧ Is (sq (Gaussian.place n r k / sigma)) v ∧
      0 ≤ v ∧ v ≤ 2 ^ 121 ∧ a = roundQ (-1 / 2 * v) ∧ Is (F32.ofRat (-1 / 2) * sq (Gaussian.place n r k / sigma)) a ∧ -2 ^ 120 ≤ a ∧ a ≤ 0 ∧
      Is (exp (F32.ofRat (-1 / 2) * sq (Gaussian.place n r k / sigma))) e ∧ 0 ≤ e ∧
      Is (F32.ofInt 1 / (sigma * root) * exp (F32.ofRat (-1 / 2) * sq (Gaussian.place n r k / sigma))) (roundQ (K * e)) := by
    intro k hk
    obtain ⟨hpk, hpq, -⟩ := hp k hk
    have hd : |p k / s| ≤ 2 ^ 60 := by
      rw [abs_div, abs_of_pos hs, div_le_iff₀ hs]
      linarith
    have d := Is.div hpk hsig (ne_of_gt hs) (rep_pow (k := 60) (by norm_num)) hd
    have hd' := roundQ_abs_le (rep_pow (k := 60) (by norm_num)).grid hd
    obtain ⟨v, hv, v0, v1⟩ := hP.sq_num _ _ d hd'
    have hav : |(-1 / 2) * v| ≤ 2 ^ 120 := by
      rw [abs_le]
      constructor
      · norm_num at v1 ⊢; linarith
      · norm_num at v1 ⊢; linarith
    have a := Is.mul half hv (rep_pow (k := 120) (by norm_num)) hav
    have ha := abs_le.1 (roundQ_abs_le (rep_pow (k := 120) (by norm_num)).grid hav)
    have ha0 : roundQ (-1 / 2 * v) ≤ 0 := roundQ_le rep0.grid (by linarith)
    obtain ⟨e, he, e0, e1⟩ := hP.exp_num _ _ a ha.1 ha0
    have hKe : K * e ≤ 2 ^ 60 := by nlinarith
    refine ⟨_, v, _, e, d, rfl, hd', hv, v0, v1, rfl, a, ha.1, ha0, he, e0, Is.mul c2 he (rep_pow (k := 60) (by norm_num)) ?_⟩
    rw [abs_of_nonneg (mul_nonneg k0 e0)]
    exact hKe
  choose! d v a e hd hdp hd60 hv v0 v1 hav ha a0 a1 he e0 hg using one
  have shape : ∀ k k', k < n → k' < n → |p k| ≤ |p k'| → roundQ (K * e k') ≤ roundQ (K * e k) := by
    intro k k' hk hk' hle
    have h1 : |d k| ≤ |d k'| := by
      rw [hdp k hk, hdp k' hk', abs_roundQ, abs_roundQ]
      apply roundQ_mono
      rw [abs_div, abs_div]
      exact div_le_div_of_nonneg_right hle (abs_nonneg _)
    have h2 : v k ≤ v k' := hP.sq_mono _ _ _ _ _ _ (hd k hk) (hd k' hk') h1 (hd60 k' hk') (hv k hk) (hv k' hk')
    have h3 : a k' ≤ a k := by
      rw [hav k hk, hav k' hk']
      exact roundQ_mono (by linarith)
    have h4 : e k' ≤ e k := hP.exp_mono _ _ _ _ _ _ (ha k' hk') (ha k hk) (a0 k' hk') h3 (a1 k hk) (he k' hk') (he k hk)
    exact roundQ_mono (mul_le_mul_of_nonneg_left h4 k0)
  refine ⟨p, fun k => roundQ (K * e k), fun k hk => (hp k hk).1, ?_, shape, ?_, ?_, ?_⟩
  · intro k hk
    refine ⟨_, ?_, hg k hk, le_roundQ rep0.grid (mul_nonneg k0 (e0 k hk))⟩
    unfold Gaussian.filter
    simp [hk]
  · intro k k' hkk hk' hz
    have := hmono k k' hkk hk'
    refine shape k' k hk' (by omega) ?_
    rw [abs_of_nonpos hz, abs_of_nonpos (this.trans hz)]
    linarith
  · intro k k' hkk hk' hz
    have := hmono k k' hkk hk'
    refine shape k k' (by omega) hk' ?_
    rw [abs_of_nonneg hz, abs_of_nonneg (hz.trans this)]
    exact this
  · intro hodd k hk
    refine shape (n / 2) k (by omega) hk ?_
    rw [hmid hodd, abs_zero]
    exact abs_nonneg _

/-- such functions: the product of a number with itself, and 1 / (1 - x), which rises to 1 at 0 -/
theorem simple_platform : Platform (F32.ofRat (5 / 2)) (fun x => x * x) (fun x => F32.ofInt 1 / (F32.ofInt 1 - x)) := by
  have rep0 : Rep 0 := by simpa using rep_int (n := 0) (by norm_num)
  have rep4 : Rep 4 := by simpa using rep_int (n := 4) (by norm_num)
  have one := is_int (n := 1) (by norm_num)
  push_cast at one
  have hsq : ∀ x a, Is x a → |a| ≤ 2 ^ 60 → Is (x * x) (roundQ (a * a)) ∧ a * a ≤ 2 ^ 120 := by
    intro x a hx ha
    have h : a * a ≤ 2 ^ 120 := by
      rw [← abs_mul_abs_self]
      have := abs_nonneg a
      nlinarith
    exact ⟨Is.mul hx hx (rep_pow (k := 120) (by norm_num)) (by rw [abs_of_nonneg (mul_self_nonneg a)]; exact h), h⟩
  have hexp : ∀ x a, Is x a → -2 ^ 120 ≤ a → a ≤ 0 → Is (F32.ofInt 1 / (F32.ofInt 1 - x)) (roundQ (1 / roundQ (1 - a))) ∧ 1 ≤ roundQ (1 - a) := by
    intro x a hx h1 h2
    have d := Is.sub one hx (rep_pow (k := 121) (by norm_num)) (by
      rw [abs_of_nonneg (by linarith)]; norm_num at h1 ⊢; linarith)
    have d1 : 1 ≤ roundQ (1 - a) := le_roundQ rep_one.grid (by linarith)
    have dpos : 0 < roundQ (1 - a) := by linarith
    exact ⟨Is.div one d (ne_of_gt dpos) rep_one (by rw [abs_of_nonneg (by positivity)]; exact (div_le_one dpos).2 d1), d1⟩
  refine ⟨⟨_, is_ofRat rep4 (by norm_num), le_roundQ rep_one.grid (by norm_num), roundQ_le rep4.grid (by norm_num)⟩, ?_, ?_, ?_, ?_⟩
  · intro x a hx ha
    obtain ⟨h, h'⟩ := hsq x a hx ha
    exact ⟨_, h, le_roundQ rep0.grid (mul_self_nonneg a), (roundQ_le (rep_pow (k := 120) (by norm_num)).grid h').trans (by norm_num)⟩
  · intro x y a b v w hx hy hab hb hv hw
    rw [hv.unique (hsq x a hx (hab.trans hb)).1, hw.unique (hsq y b hy hb).1]
    refine roundQ_mono ?_
    rw [← abs_mul_abs_self a, ← abs_mul_abs_self b]
    exact mul_self_le_mul_self (abs_nonneg a) hab
  · intro x a hx h1 h2
    obtain ⟨h, h'⟩ := hexp x a hx h1 h2
    have : 0 < roundQ (1 - a) := by linarith
    exact ⟨_, h, le_roundQ rep0.grid (by positivity), roundQ_le rep_one.grid ((div_le_one this).2 h')⟩
  · intro x y a b v w hx hy h1 hab h2 hv hw
    obtain ⟨e1, g1⟩ := hexp x a hx h1 (hab.trans h2)
    obtain ⟨e2, g2⟩ := hexp y b hy (h1.trans hab) h2
    rw [hv.unique e1, hw.unique e2]
    refine roundQ_mono (one_div_le_one_div_of_le (by linarith) (roundQ_mono (by linarith)))

/-- five coefficients with these functions -/
example : ∃ q s : ℚ, Is (F32.ofInt 2) q ∧ Is (F32.ofInt 1) s ∧ 0 ≤ q ∧ q < 2 ^ 127 ∧ 1 / 2 ^ 60 ≤ s ∧ s ≤ 2 ^ 60 ∧ q ≤ 2 ^ 60 * s := by
  refine ⟨2, 1, ?_, ?_, by norm_num, by norm_num, by norm_num, by norm_num, by norm_num⟩
  · simpa using is_int (n := 2) (by norm_num)
  · simpa using is_int (n := 1) (by norm_num)

end Adhoc
