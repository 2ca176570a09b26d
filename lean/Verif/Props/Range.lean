import Verif.Props.Filter
import Verif.Props.Mirror

/-! # C119: resampling keeps the ends and stays within the range of its input -/

namespace Adhoc
open Spec F32

/-- **C119**: the first and the last output sample are the first and the last input sample, and every output sample lies between
the smallest and the largest input sample -/
def C119_statement : Prop :=
  ∀ (b : Build) (input output : List F32) (s : List ℚ) (d : Nat), Values input s → (∀ x ∈ s, |x| ≤ 1) → 2 ≤ input.length → input.length ≤ 2 ^ 23 →
    2 ≤ d → d ≤ 2 ^ 24 → d ≤ output.length →
    ∃ ys, Signal.scaleSignal b input d output = .ok (ys ++ output.drop d) ∧ ys.length = d ∧ ys.head? = input.head? ∧ ys.getLast? = input.getLast? ∧
      ∀ lo hi : ℚ, (∀ x ∈ s, lo ≤ x ∧ x ≤ hi) → ∀ y ∈ ys, ∃ v, Is y v ∧ lo ≤ v ∧ v ≤ hi

/-- C119 is false: stretching a constant 13/16 from two to six samples gives a sample that is one unit in the last place larger -/
theorem C119_false : ¬ C119_statement := by
  intro h
  have h13 : Is (ofRat (13 / 16)) (13 / 16) := ⟨(show Grid (13 / 16) from ⟨13, -4, by norm_num, by norm_num, by norm_num⟩).rep (by norm_num), ofRat_rep _⟩
  obtain ⟨ys, e, hl, -, -, hv⟩ := h .release [ofRat (13 / 16), ofRat (13 / 16)] (List.replicate 6 (ofInt 0)) [13 / 16, 13 / 16] 6
    (.cons h13 (.cons h13 .nil)) (by simp; norm_num [abs_le]) (by simp) (by simp) (by norm_num) (by norm_num) (by simp)
  have e2 : (Signal.scaleSignal .release [ofRat (13 / 16), ofRat (13 / 16)] 6 (List.replicate 6 (ofInt 0))).toOption.bind (·[1]?) =
    some (ofRat (13 / 16 + 1 / 2 ^ 24)) := by decide +kernel
  rw [e, show (List.replicate 6 (ofInt 0)).drop 6 = [] from rfl, List.append_nil] at e2
  have hm : ofRat (13 / 16 + 1 / 2 ^ 24) ∈ ys := List.mem_of_getElem? (show ys[1]? = _ from e2)
  obtain ⟨v, hv, -, h2⟩ := hv (13 / 16) (13 / 16) (by simp) _ hm
  have hg : Rep (13 / 16 + 1 / 2 ^ 24) := (show Grid (13 / 16 + 1 / 2 ^ 24) from ⟨13631489, -24, by norm_num, by norm_num, by norm_num⟩).rep (by norm_num)
  have := hv.unique ⟨hg, ofRat_rep hg⟩
  rw [this] at h2
  norm_num at h2

/-- the last sample is not kept either: two samples stretched to 42 -/
theorem C119_last_false : ∃ ys, Signal.scaleSignal .release [ofInt 0, ofInt 1] 42 (List.replicate 42 (ofInt 0)) = .ok ys ∧
    ys.getLast? = some (ofRat (1 - 1 / 2 ^ 24)) := by
  cases e : Signal.scaleSignal .release [ofInt 0, ofInt 1] 42 (List.replicate 42 (ofInt 0)) with
  | error x =>
    have : (Signal.scaleSignal .release [ofInt 0, ofInt 1] 42 (List.replicate 42 (ofInt 0))).toOption.isSome = true := by decide +kernel
    rw [e] at this
    cases this
  | ok ys =>
    refine ⟨ys, rfl, ?_⟩
    have : (Signal.scaleSignal .release [ofInt 0, ofInt 1] 42 (List.replicate 42 (ofInt 0))).toOption.bind (·.getLast?) = some (ofRat (1 - 1 / 2 ^ 24)) := by decide +kernel
    rwa [e] at this

/-- there is no number between 1 and 1 + 2^-23 -/
theorem roundQ_unit {q : ℚ} (h : q < 1 + 1 / 2 ^ 24) : roundQ q ≤ 1 := by
  by_contra hc
  push Not at hc
  have h1 : 1 < q := by
    by_contra h1
    exact absurd (roundQ_le rep_one.grid (not_lt.1 h1)) (not_le.2 hc)
  have hn := roundQ_nearest (q := q) rep_one.grid
  rw [abs_of_neg (by linarith : 1 - q < 0)] at hn
  have hr : roundQ q < 1 + 1 / 2 ^ 23 := by
    have := (abs_le.1 hn).2
    norm_num at h ⊢
    linarith
  obtain ⟨n, e, hn1, he, hq⟩ := grid_roundQ q
  rw [hq] at hc hr
  have hp : (0 : ℚ) < 2 ^ e := by positivity
  have hn2 : (n : ℚ) ≤ 2 ^ 24 := by exact_mod_cast (abs_le.1 hn1).2
  have he2 : -23 ≤ e := by
    by_contra hlt
    have : (2 : ℚ) ^ e ≤ 2 ^ (-24 : ℤ) := zpow_le_zpow_right₀ (by norm_num) (by omega)
    have h3 : (n : ℚ) * 2 ^ e ≤ 2 ^ 24 * 2 ^ (-24 : ℤ) := mul_le_mul hn2 this hp.le (by positivity)
    norm_num at h3
    linarith
  obtain ⟨k, hk⟩ := Int.eq_ofNat_of_zero_le (show 0 ≤ e + 23 by omega)
  have hz : (n : ℚ) * 2 ^ e = ((n * 2 ^ k : ℤ) : ℚ) / 2 ^ 23 := by
    rw [show e = (k : ℤ) - 23 by omega, zpow_sub₀ (by norm_num), zpow_natCast]
    push_cast
    ring
  rw [hz] at hc hr
  rw [lt_div_iff₀ (by norm_num)] at hc
  rw [div_lt_iff₀ (by norm_num)] at hr
  norm_num at hc hr
  have c1 : (8388608 : ℤ) < n * 2 ^ k := by exact_mod_cast hc
  have c2 : n * 2 ^ k < (8388609 : ℤ) := by exact_mod_cast hr
  omega

theorem roundQ_unit_abs {q : ℚ} (h : |q| < 1 + 1 / 2 ^ 24) : |roundQ q| ≤ 1 := by
  rw [abs_lt] at h
  rw [abs_le]
  refine ⟨?_, roundQ_unit h.2⟩
  have := roundQ_unit (q := -q) (by linarith [h.1])
  rw [roundQ_neg] at this
  linarith

/-- an output sample as a mixture of two neighbours with the weights the code computes -/
theorem scaleAt_mix {b : Build} {input : List F32} {s : List ℚ} (hs : Values input s) (h1 : ∀ x ∈ s, |x| ≤ 1) {f : F32} {k : Nat} {q : ℚ}
    (hn : 1 ≤ input.length) (hl : input.length ≤ 2 ^ 24) (hq : Is (ofInt (k : ℤ) * f) q) (q0 : 0 ≤ q) (q1 : q ≤ 2 ^ 24) :
    ∃ y t u, Signal.scaleAt b input f k = .ok y ∧ Is y (roundQ (roundQ (lastGet s ⌊q⌋.toNat * u) + roundQ (lastGet s (⌊q⌋.toNat + 1) * t))) ∧
      Grid t ∧ Grid u ∧ 0 ≤ t ∧ 0 ≤ u ∧ u + t < 1 + 1 / 2 ^ 24 ∧ (q = 0 → t = 0 ∧ u = 1) := by
  have hlast : chkU b 64 ((input.length : Int) - 1) = .ok (input.length - 1) := by
    have e : (input.length : Int) - 1 = ((input.length - 1 : Nat) : Int) := by omega
    rw [e]
    exact chkU_nat (by norm_num at hl ⊢; omega)
  have f0 : 0 ≤ ⌊q⌋ := Int.floor_nonneg.2 q0
  have f1 : ⌊q⌋ ≤ 2 ^ 24 := by
    have : (⌊q⌋ : ℚ) ≤ ((2 ^ 24 : ℤ) : ℚ) := (Int.floor_le q).trans (by push_cast; exact q1)
    exact_mod_cast this
  have fi : |⌊q⌋| ≤ 2 ^ 24 := by rw [abs_of_nonneg f0]; exact f1
  have hfl : Is (Signal.floor (ofInt (k : ℤ) * f)) ⌊q⌋ := by
    obtain ⟨hr, e⟩ := hq
    rw [e]
    exact is_int fi
  have htr : Is (Signal.trunc (ofInt (k : ℤ) * f)) ⌊q⌋ := by
    obtain ⟨hr, e⟩ := hq
    rw [e]
    show Is (ofRat ((truncQ q : ℤ) : ℚ)) _
    rw [show truncQ q = ⌊q⌋ by unfold truncQ; rw [if_neg (by linarith)]; rfl]
    exact is_int fi
  have hsat : ((Signal.floor (ofInt (k : ℤ) * f)).toIntSat 0 (2 ^ 64 - 1)).toNat = ⌊q⌋.toNat := by
    obtain ⟨hr, e⟩ := hfl
    rw [e, toIntSat, truncQ_int]
    norm_num at f1 ⊢
    omega
  have p0 : 0 ≤ q - ⌊q⌋ := Int.fract_nonneg q
  have p1 : q - ⌊q⌋ ≤ 1 := (Int.fract_lt_one q).le
  have ht := hq.sub htr rep_one (by rw [abs_of_nonneg p0]; exact p1)
  have g0 : Grid 0 := by simpa using grid_int (n := 0) (by norm_num)
  have g1 : Grid 1 := rep_one.grid
  have t0 : 0 ≤ roundQ (q - ⌊q⌋) := le_roundQ g0 p0
  have t1 : roundQ (q - ⌊q⌋) ≤ 1 := roundQ_le g1 p1
  have gt := grid_roundQ (q - ⌊q⌋)
  have tz : q = 0 → roundQ (q - ⌊q⌋) = 0 := by
    rintro rfl
    simp [roundQ_zero]
  generalize roundQ (q - ⌊q⌋) = t at *
  have i1 : Is (ofInt 1) 1 := by simpa using is_int (n := 1) (by norm_num)
  have hu := i1.sub ht rep_one (by rw [abs_of_nonneg (by linarith)]; linarith)
  have eu := roundQ_err (1 - t)
  rw [abs_of_nonneg (by linarith : (0 : ℚ) ≤ 1 - t)] at eu
  have u0 : 0 ≤ roundQ (1 - t) := le_roundQ g0 (by linarith)
  have u1 : roundQ (1 - t) ≤ 1 := roundQ_le g1 (by linarith)
  have gu := grid_roundQ (1 - t)
  have uz : q = 0 → roundQ (1 - t) = 1 := by
    intro h
    rw [tz h, sub_zero]
    exact roundQ_grid g1
  generalize roundQ (1 - t) = u at *
  have hsum : u + t < 1 + 1 / 2 ^ 24 := by
    have e2 := (abs_le.1 eu).2
    by_cases hs : t < 1 / 2 ^ 30
    · norm_num at hs ⊢
      linarith
    · norm_num at hs e2 ⊢
      linarith
  have hw0 : min ⌊q⌋.toNat (input.length - 1) < input.length := by omega
  have hw1 : min (min ⌊q⌋.toNat (input.length - 1) + 1) (input.length - 1) < input.length := by omega
  have ha := hs.get hw0
  have hc := hs.get hw1
  have ea : s.getD (min ⌊q⌋.toNat (input.length - 1)) 0 = lastGet s ⌊q⌋.toNat := by unfold lastGet; rw [hs.length]
  have ec : s.getD (min (min ⌊q⌋.toNat (input.length - 1) + 1) (input.length - 1)) 0 = lastGet s (⌊q⌋.toNat + 1) := by
    unfold lastGet
    rw [← hs.length]
    congr 1
    omega
  rw [ea] at ha
  rw [ec] at hc
  have la := lastGet_le h1 ⌊q⌋.toNat
  have lc := lastGet_le h1 (⌊q⌋.toNat + 1)
  unfold Signal.scaleAt
  rw [hlast, bind_ok]
  dsimp only
  rw [hsat, idx_of_lt hw0, bind_ok, idx_of_lt hw1, bind_ok]
  generalize lastGet s ⌊q⌋.toNat = a at *
  generalize lastGet s (⌊q⌋.toNat + 1) = c at *
  have mu : |a * u| ≤ 1 := by rw [abs_mul, abs_of_nonneg u0]; nlinarith
  have mt : |c * t| ≤ 1 := by rw [abs_mul, abs_of_nonneg t0]; nlinarith
  have r2 : Rep 2 := by simpa using rep_int (n := 2) (by norm_num)
  have hx := ha.mul hu rep_one mu
  have hz := hc.mul ht rep_one mt
  have hx1 := roundQ_abs_le g1 mu
  have hz1 := roundQ_abs_le g1 mt
  refine ⟨_, t, u, rfl, hx.add hz r2 ((abs_add_le _ _).trans (by linarith)), gt, gu, t0, u0, hsum, fun h => ⟨tz h, uz h⟩⟩

theorem lastGet_between {s : List ℚ} (hs : 1 ≤ s.length) {lo hi : ℚ} (h : ∀ x ∈ s, lo ≤ x ∧ x ≤ hi) (i : Nat) : lo ≤ lastGet s i ∧ lastGet s i ≤ hi := by
  unfold lastGet
  rw [List.getD_eq_getElem _ _ (show min i (s.length - 1) < s.length by omega)]
  exact h _ (List.getElem_mem _)

theorem lerp_between {s : List ℚ} (hs : 1 ≤ s.length) {lo hi : ℚ} (h : ∀ x ∈ s, lo ≤ x ∧ x ≤ hi) (p : ℚ) : lo ≤ lerp s p ∧ lerp s p ≤ hi := by
  have e : lerp s p = lastGet s ⌊p⌋.toNat * (1 - Int.fract p) + lastGet s (⌊p⌋.toNat + 1) * Int.fract p := rfl
  obtain ⟨a1, a2⟩ := lastGet_between hs h ⌊p⌋.toNat
  obtain ⟨c1, c2⟩ := lastGet_between hs h (⌊p⌋.toNat + 1)
  have f0 := Int.fract_nonneg p
  have f1 := (Int.fract_lt_one p).le
  rw [e]
  constructor <;> nlinarith

theorem zero_place {f : F32} {q : ℚ} (hq : Is (ofInt ((0 : Nat) : ℤ) * f) q) : q = 0 := by
  have e0 : ofInt ((0 : Nat) : ℤ) = fin 0 (by simpa using rep_int (n := 0) (by norm_num)) := by decide +kernel
  rw [e0] at hq
  have i0 : Is (ofRat 0) 0 := by simpa using is_ofRat (q := 0) rep_one (by norm_num) |> (roundQ_zero ▸ ·)
  cases f with
  | nan => obtain ⟨_, h⟩ := hq; cases h
  | inf s => obtain ⟨_, h⟩ := hq; cases h
  | fin r hr =>
    rw [fin_mul, zero_mul] at hq
    exact hq.unique i0

/-- what is true of every output sample -/
structure InRange (s : List ℚ) (input : List F32) (k : Nat) (y : F32) (v : ℚ) : Prop where
  is : Is y v
  unit : |v| ≤ 1
  first : k = 0 → input.head? = some y
  nonneg : (∀ x ∈ s, 0 ≤ x) → 0 ≤ v
  near : ∀ lo hi : ℚ, (∀ x ∈ s, lo ≤ x ∧ x ≤ hi) → lo - 1 / 2 ^ 21 ≤ v ∧ v ≤ hi + 1 / 2 ^ 21

/-- C119 as far as it holds, for two or more output samples: the first sample is kept exactly; no sample leaves [-1, 1], so nothing clips;
a signal without negative samples gets none; and no sample is further than 2^-21 outside the range of the input, however long the signals are. -/
theorem C119_range_partial (b : Build) (input output : List F32) (s : List ℚ) (d : Nat) (hs : Values input s) (h1 : ∀ x ∈ s, |x| ≤ 1)
    (hn : 1 ≤ input.length) (hl : input.length ≤ 2 ^ 23) (hd : 2 ≤ d) (hd2 : d ≤ 2 ^ 24) (ho : d ≤ output.length) :
    ∃ ys, Signal.scaleSignal b input d output = .ok (ys ++ output.drop d) ∧ ys.length = d ∧
      ∀ k (h : k < ys.length), ∃ v, InRange s input k ys[k] v := by
  have hlast : ∀ n : Nat, 1 ≤ n → n ≤ 2 ^ 24 → chkU b 64 ((n : Int) - 1) = .ok (n - 1) := by
    intro n h1 h2
    have e : (n : Int) - 1 = ((n - 1 : Nat) : Int) := by omega
    rw [e]
    exact chkU_nat (by norm_num at h2 ⊢; omega)
  have hn' : 1 ≤ s.length := by rw [← hs.length]; exact hn
  obtain ⟨ys, e, hy, hv⟩ := fill_slice (f := fun k => Signal.scaleAt b input (ofInt ((input.length - 1 : Nat) : ℤ) / ofInt ((d - 1 : Nat) : ℤ)) k)
    (P := fun k y => ∃ v, InRange s input k y v) output d ho (by
      intro k hk
      obtain ⟨q, hq, q0, q1, eq⟩ := place_near (S := input.length - 1) (D := d - 1) (k := k) (by omega) (by omega) (by omega) (by omega)
      obtain ⟨y, t, u, ey, hy, gt, gu, t0, u0, hsum, hz⟩ := scaleAt_mix (b := b) hs h1 hn (by norm_num at hl ⊢; omega) hq q0 q1
      obtain ⟨y', v, ey', hy', ev⟩ := scaleAt_near (b := b) hs h1 hn (by norm_num at hl ⊢; omega) hq q0 q1
      have eyy : y = y' := Except.ok.inj (ey.symm.trans ey')
      subst eyy
      have evv := hy'.unique hy
      refine ⟨y, ey, v, hy', ?_, ?_, ?_, ?_⟩
      · rw [evv]
        have la := lastGet_le h1 ⌊q⌋.toNat
        have lc := lastGet_le h1 (⌊q⌋.toNat + 1)
        generalize lastGet s ⌊q⌋.toNat = a at *
        generalize lastGet s (⌊q⌋.toNat + 1) = c at *
        have mu : |roundQ (a * u)| ≤ u := roundQ_abs_le gu (by rw [abs_mul, abs_of_nonneg u0]; nlinarith)
        have mt : |roundQ (c * t)| ≤ t := roundQ_abs_le gt (by rw [abs_mul, abs_of_nonneg t0]; nlinarith)
        exact roundQ_unit_abs (lt_of_le_of_lt ((abs_add_le _ _).trans (add_le_add mu mt)) hsum)
      · rintro rfl
        have hq0 : q = 0 := zero_place hq
        obtain ⟨ht, hu⟩ := hz hq0
        subst ht hu hq0
        have h0 := hs.get (show 0 < input.length by omega)
        have ea : s.getD 0 0 = lastGet s ⌊(0 : ℚ)⌋.toNat := by unfold lastGet; simp
        rw [ea] at h0
        have ga := h0.rep.grid
        rw [mul_one, mul_zero, roundQ_zero, add_zero, roundQ_grid ga, roundQ_grid ga] at hy
        rw [hy.eq h0, List.head?_eq_getElem?, List.getElem?_eq_getElem]
      · intro hp
        rw [evv]
        have la := lastGet_between hn' (lo := 0) (hi := 1) (fun x hx => ⟨hp x hx, (abs_le.1 (h1 x hx)).2⟩) ⌊q⌋.toNat
        have lc := lastGet_between hn' (lo := 0) (hi := 1) (fun x hx => ⟨hp x hx, (abs_le.1 (h1 x hx)).2⟩) (⌊q⌋.toNat + 1)
        have g0 : Grid 0 := by simpa using grid_int (n := 0) (by norm_num)
        exact le_roundQ g0 (add_nonneg (le_roundQ g0 (mul_nonneg la.1 u0)) (le_roundQ g0 (mul_nonneg lc.1 t0)))
      · intro lo hi h
        have := lerp_between hn' h q
        rw [abs_le] at ev
        constructor <;> linarith [ev.1, ev.2])
  refine ⟨ys, ?_, hy, hv⟩
  unfold Signal.scaleSignal
  rw [hlast _ hn (by norm_num at hl ⊢; omega), bind_ok, hlast _ (by omega) hd2, bind_ok]
  dsimp only
  rw [e, bind_ok, if_pos (by rw [List.length_append, hy]; omega)]
  rfl

/-! polarity, for all samples, also infinite ones and NaN -/

theorem idx_map {α β : Type} (f : α → β) (l : List α) (i : Nat) : idx (l.map f) i = f <$> idx l i := by
  unfold idx
  rw [List.getElem?_map]
  cases l[i]? <;> rfl

theorem scaleAt_neg (b : Build) (input : List F32) (f : F32) (k : Nat) : Signal.scaleAt b (input.map neg) f k = neg <$> Signal.scaleAt b input f k := by
  unfold Signal.scaleAt
  rw [List.length_map]
  cases chkU b 64 ((input.length : Int) - 1) with
  | error e => rfl
  | ok last =>
    rw [bind_ok, bind_ok]
    dsimp only
    rw [idx_map, idx_map]
    cases idx input (min ((Signal.floor (ofInt ↑k * f)).toIntSat 0 (2 ^ 64 - 1)).toNat last) with
    | error e => rfl
    | ok a =>
      cases idx input (min (min ((Signal.floor (ofInt ↑k * f)).toIntSat 0 (2 ^ 64 - 1)).toNat last + 1) last) with
      | error e => rfl
      | ok c =>
        show Except.ok _ = Except.ok _
        rw [neg_add_f, neg_mul_f, neg_mul_f]

theorem scale_fold_neg (b : Build) (input : List F32) (f : F32) : ∀ (ks : List Nat) (output : List F32),
    ks.foldlM (fun output k => do let y ← Signal.scaleAt b (input.map neg) f k; setIdx output k y) (output.map neg) =
      (List.map neg) <$> ks.foldlM (fun output k => do let y ← Signal.scaleAt b input f k; setIdx output k y) output
  | [], output => rfl
  | k :: ks, output => by
    rw [List.foldlM_cons, List.foldlM_cons, scaleAt_neg]
    cases Signal.scaleAt b input f k with
    | error e => rfl
    | ok y =>
      show (setIdx (output.map neg) k (neg y) >>= _) = _ <$> (setIdx output k y >>= _)
      by_cases h : k < output.length
      · rw [setIdx_of_lt h, setIdx_of_lt (by simpa using h), bind_ok, bind_ok, ← List.map_set]
        exact scale_fold_neg b input f ks _
      · have e1 : setIdx output k y = .error .index := by unfold setIdx; rw [if_neg h]
        have e2 : setIdx (output.map neg) k (neg y) = .error .index := by unfold setIdx; rw [if_neg (by simpa using h)]
        rw [e1, e2]
        rfl

/-- resampling the signal with reversed polarity gives the result with reversed polarity, or panics alike: any samples, any lengths -/
theorem C119_polarity (b : Build) (input output : List F32) (d : Nat) :
    Signal.scaleSignal b (input.map neg) d (output.map neg) = (List.map neg) <$> Signal.scaleSignal b input d output := by
  unfold Signal.scaleSignal
  rw [List.length_map]
  cases chkU b 64 ((input.length : Int) - 1) with
  | error e => rfl
  | ok s =>
    rw [bind_ok, bind_ok]
    cases chkU b 64 ((d : Int) - 1) with
    | error e => rfl
    | ok m =>
      rw [bind_ok, bind_ok]
      dsimp only
      rw [scale_fold_neg]
      cases (List.range d).foldlM (fun output k => do let y ← Signal.scaleAt b input (ofInt s / ofInt m) k; setIdx output k y) output with
      | error e => rfl
      | ok r =>
        show (if d ≤ (r.map neg).length then _ else _) = _ <$> (if d ≤ r.length then _ else _)
        rw [List.length_map]
        split <;> rfl

-- non-vacuity: the ramp 0, 1/2, 1 stretched to seven samples
example : Signal.scaleSignal .debug [ofInt 0, ofRat (1 / 2), ofInt 1] 5 (List.replicate 5 (ofInt 0)) =
    .ok [ofInt 0, ofRat (1 / 4), ofRat (1 / 2), ofRat (3 / 4), ofInt 1] := by decide +kernel

end Adhoc
