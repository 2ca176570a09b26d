import Verif.Props.Silence
import Verif.Props.Generations

/-! # C103: samples out of range -/

namespace Adhoc
open Spec F32

namespace Spec

/-- a sample as a number, limited to [-m, m]; NaN counts as 0 -/
def limited (m : ℚ) : F32 → ℚ
  | .nan => 0
  | .inf true => -m
  | .inf false => m
  | .fin q _ => max (-m) (min m q)

/-- what a sample is when it is limited to [-1, 1] before it is recorded -/
def clipped (x : F32) : F32 := ofRat (limited 1 x)

/-- the largest error of level `L` for samples of any size -/
def roomError (L : Nat) : ℚ := levelError L + 2 ^ L / 2 ^ 22

end Spec

theorem limited_one (x : F32) : limited 1 x = unit x := by
  rcases x with _ | (_ | _) | _ <;> rfl

/-- limiting does not move numbers apart -/
theorem limit_near' {m : ℚ} (_hm : 0 ≤ m) (a b : ℚ) : |max (-m) (min m a) - max (-m) (min m b)| ≤ |a - b| := by
  rw [abs_le]
  have h1 := le_abs_self (a - b)
  have h2 := neg_abs_le (a - b)
  have h3 := abs_nonneg (a - b)
  rcases max_cases (-m) (min m a) with ⟨e1, c1⟩ | ⟨e1, c1⟩ <;> rcases max_cases (-m) (min m b) with ⟨e2, c2⟩ | ⟨e2, c2⟩ <;>
  rcases min_cases m a with ⟨e3, c3⟩ | ⟨e3, c3⟩ <;> rcases min_cases m b with ⟨e4, c4⟩ | ⟨e4, c4⟩ <;>
  rw [e1, e2] <;> constructor <;> linarith

theorem rep_unit (x : F32) : Rep (unit x) := by
  by_cases h : x = .nan
  · subst h
    simpa [unit] using rep_int (n := 0) (by norm_num)
  · exact (is_clamp h).rep

theorem is_clipped (x : F32) : Is (clipped x) (unit x) := by
  unfold clipped
  rw [limited_one, ofRat_rep (rep_unit x)]
  exact ⟨rep_unit x, rfl⟩

/-- a sample and the clipped sample have the same code -/
theorem clipped_code (x : F32) : truncateSample (clipped x) = truncateSample x := by
  rw [truncateSample_eq, truncateSample_eq, unit_of_abs (is_clipped x) (unit_abs x)]

/-- C103, the true part: at level 0 a recording is, bit for bit, the recording of the signal limited to [-1, 1], with 0 for NaN; and it panics
exactly if that does. -/
theorem C103_level0_partial (b : Build) (info : StreamInfo) (calls : List (List F32)) :
    encodeAll b (fresh info 0) calls = encodeAll b (fresh info 0) (calls.map (·.map clipped)) := by
  refine C71_codes_only b info _ _ ?_
  rw [List.map_map]
  refine List.map_congr_left fun pcm _ => ?_
  rw [Function.comp_apply, List.map_map]
  exact List.map_congr_left fun x _ => (clipped_code x).symm

/-! ## the headroom of a level -/

/-- the noise that is added to a sample -/
theorem noise_small {L : Nat} (hL : L ≤ 10) (h0 : L ≠ 0) {inv n : F32} (hinv : Is inv (1 / 2 ^ L)) {m : ℤ} (hm : |m| ≤ 16383) (hn : Is n ((m : ℚ) / 16384)) :
    ∃ r, Is (n * AdhocCodec.DITHER_AMPLITUDE * (ofInt 1 - inv)) r ∧ |r| ≤ 1003 / 1000000 * (1 - 1 / 2 ^ L) := by
  have hmq : |(m : ℚ) / 16384| ≤ 1 := by
    have : |(m : ℚ)| ≤ 16383 := by exact_mod_cast hm
    rw [abs_div, div_le_one (by norm_num)]
    norm_num at this ⊢
    linarith
  have hs : Is (ofInt 1 - inv) (1 - 1 / 2 ^ L) := by
    have i1 : Is (ofInt 1) 1 := by simpa using is_int (n := 1) (by norm_num)
    have hr := rep_inv hL
    have := i1.sub hinv hr (show |(1 : ℚ) - 1 / 2 ^ L| ≤ 1 - 1 / 2 ^ L by
      rw [abs_of_nonneg]
      rw [sub_nonneg, div_le_one (by positivity)]
      exact one_le_pow₀ (by norm_num))
    rwa [roundQ_grid hr.grid] at this
  have hamp := roundQ_err (1 / 1000)
  have iamp := is_amp
  generalize roundQ (1 / 1000) = A at hamp iamp
  generalize (m : ℚ) / 16384 = d at hmq hn
  have hA : |A - 1 / 1000| ≤ 1 / 2 ^ 30 := hamp.trans (by norm_num [abs_div])
  rw [abs_le] at hA
  have hA' : |d * A| ≤ 1001 / 1000000 := by
    rw [abs_mul]
    calc |d| * |A| ≤ 1 * (1001 / 1000000) := by
          have : |A| ≤ 1001 / 1000000 := by rw [abs_le]; constructor <;> linarith [hA.1, hA.2]
          gcongr
      _ = _ := by norm_num
  obtain ⟨p, ip, ep⟩ := hn.near_mul iamp _ hA' (by norm_num)
  have hp : |p| ≤ 1002 / 1000000 := by
    rw [abs_le] at ep hA' ⊢
    constructor <;> linarith [ep.1, ep.2, hA'.1, hA'.2]
  have hs0 : (0 : ℚ) ≤ 1 - 1 / 2 ^ L ∧ (1 : ℚ) - 1 / 2 ^ L ≤ 1 ∧ (1 : ℚ) / 2 ≤ 1 - 1 / 2 ^ L := by
    have h1 : (2 : ℚ) ^ 1 ≤ 2 ^ L := pow_le_pow_right₀ (by norm_num) (by omega)
    have h2 : (1 : ℚ) / 2 ^ L ≤ 1 / 2 := by
      rw [div_le_div_iff₀ (by positivity) (by norm_num)]
      linarith
    have h3 : (0 : ℚ) < 1 / 2 ^ L := by positivity
    refine ⟨?_, ?_, ?_⟩ <;> linarith
  obtain ⟨hs1, hs2, hs3⟩ := hs0
  have hps : |p * (1 - 1 / 2 ^ L)| ≤ 1002 / 1000000 * (1 - 1 / 2 ^ L) := by
    rw [abs_mul, abs_of_nonneg hs1]
    gcongr
  obtain ⟨r, ir, er⟩ := ip.near_mul hs _ hps (by linarith)
  refine ⟨r, ir, ?_⟩
  rw [abs_le] at er hps ⊢
  generalize p * (1 - 1 / 2 ^ L) = z at er hps
  generalize (1 : ℚ) - 1 / 2 ^ L = s at *
  constructor <;> linarith [er.1, er.2, hps.1, hps.2]

theorem rep_4096 : Rep 4096 := by simpa using rep_int (n := 4096) (by norm_num)

theorem round_near' {q M : ℚ} (h : |q| ≤ M) (h2 : M ≤ 4096) : Is (ofRat q) (roundQ q) ∧ |roundQ q - q| ≤ M / 2 ^ 24 + 1 / 2 ^ 150 := by
  refine ⟨is_ofRat rep_4096 (h.trans h2), (roundQ_err q).trans ?_⟩
  have : |q| / 2 ^ 24 ≤ M / 2 ^ 24 := by gcongr
  linarith

/-- numbers from 1 on, also when they are rounded to infinity -/
theorem unit_ofRat {q : ℚ} (h : 1 ≤ q) : unit (ofRat q) = 1 := by
  have hr := le_roundQ rep_one.grid h
  unfold ofRat
  split
  · show max (-1) (min 1 _) = _
    rw [min_eq_left hr]
    norm_num
  · rw [show decide (q < 0) = false by rw [decide_eq_false_iff_not]; linarith]
    rfl

theorem unit_ofRat_neg {q : ℚ} (h : q ≤ -1) : unit (ofRat q) = -1 := by
  have hr := roundQ_le rep_one.grid.neg h
  unfold ofRat
  split
  · show max (-1) (min 1 _) = _
    rw [min_eq_right (by linarith), max_eq_left hr]
  · rw [show decide (q < 0) = true by rw [decide_eq_true_iff]; linarith]
    rfl

theorem inf_mul {s : Bool} {x : F32} {q : ℚ} (h : Is x q) (h0 : 0 < q) : inf s * x = inf s := by
  obtain ⟨hr, rfl⟩ := h
  show (if q = 0 then nan else inf (s != decide (q < 0))) = inf s
  rw [if_neg h0.ne', show decide (q < 0) = false by rw [decide_eq_false_iff_not]; linarith]
  simp

theorem inf_add' {s : Bool} {x : F32} {q : ℚ} (h : Is x q) : inf s + x = inf s := by
  obtain ⟨hr, rfl⟩ := h
  rfl

/-- dividing by the scale, for numbers that are not smaller than it -/
theorem unit_big {L : Nat} (hL : L ≤ 10) {inv : F32} (hinv : Is inv (1 / 2 ^ L)) {q : ℚ} (h : 2 ^ L ≤ q) : unit (ofRat q * inv) = 1 := by
  have hP : (0 : ℚ) < 2 ^ L := by positivity
  have hg : Grid ((2 : ℚ) ^ L) := (is_up hL).rep.grid
  have hr := le_roundQ hg h
  unfold ofRat
  split
  · obtain ⟨hr', rfl⟩ := hinv
    rw [fin_mul]
    refine unit_ofRat ?_
    rw [mul_one_div, le_div_iff₀ hP]
    linarith
  · rw [inf_mul hinv (by positivity), show decide (q < 0) = false by rw [decide_eq_false_iff_not]; linarith]
    rfl

theorem unit_big_neg {L : Nat} (hL : L ≤ 10) {inv : F32} (hinv : Is inv (1 / 2 ^ L)) {q : ℚ} (h : q ≤ -2 ^ L) : unit (ofRat q * inv) = -1 := by
  have hP : (0 : ℚ) < 2 ^ L := by positivity
  have hg : Grid ((2 : ℚ) ^ L) := (is_up hL).rep.grid
  have hr := roundQ_le hg.neg h
  unfold ofRat
  split
  · obtain ⟨hr', rfl⟩ := hinv
    rw [fin_mul]
    refine unit_ofRat_neg ?_
    rw [mul_one_div, div_le_iff₀ hP]
    linarith
  · rw [inf_mul hinv (by positivity), show decide (q < 0) = true by rw [decide_eq_true_iff]; linarith]
    rfl

/-- what is stored of any sample, as a number -/
theorem dither_any {L : Nat} (hL : L ≤ 10) {inv x y : F32} (hinv : Is inv (1 / 2 ^ L)) (h : Dithered inv x y) :
    |unit y * 2 ^ L - limited (2 ^ L) x| ≤ 0.00101 * (1 - 1 / 2 ^ L) + 2 ^ L / 2 ^ 22 := by
  have hP : (0 : ℚ) < 2 ^ L := by positivity
  have hP1 : (1 : ℚ) ≤ 2 ^ L := one_le_pow₀ (by norm_num)
  have hP10 : (2 : ℚ) ^ L ≤ 2 ^ 10 := pow_le_pow_right₀ (by norm_num) hL
  have hs1 : (0 : ℚ) ≤ 1 - 1 / 2 ^ L := by
    rw [sub_nonneg, div_le_one hP]
    exact hP1
  have hE : (0 : ℚ) ≤ 0.00101 * (1 - 1 / 2 ^ L) + 2 ^ L / 2 ^ 22 := by positivity
  by_cases h0 : L = 0
  · subst h0
    have : inv = ofInt 1 := hinv.eq (by simpa using is_int (n := 1) (by norm_num))
    subst this
    rw [dithered_one h, show (2 : ℚ) ^ 0 = 1 by norm_num, limited_one]
    norm_num
  obtain ⟨n, m, hm, hn, rfl⟩ := h
  obtain ⟨r, ir, er⟩ := noise_small hL h0 hinv hm hn
  generalize n * AdhocCodec.DITHER_AMPLITUDE * (ofInt 1 - inv) = N at ir
  have hi1 : (0 : ℚ) < 1 / 2 ^ L := by positivity
  have er1 : |r| ≤ 0.1 := er.trans (by linarith)
  have hz : ∀ s : Bool, unit (inf s * inv) * 2 ^ L = limited (2 ^ L) (inf s) := by
    intro s
    rw [inf_mul hinv hi1]
    cases s
    · exact one_mul _
    · exact neg_one_mul _
  match x with
  | .nan =>
    have : (nan + N) * inv = nan := rfl
    rw [this]
    simpa [unit, limited] using hE
  | .inf s =>
    rw [inf_add' ir, hz s]
    simpa using hE
  | .fin q hq =>
    have hsum : fin q hq + N = ofRat (q + r) := by
      obtain ⟨_, rfl⟩ := ir
      exact fin_add _ _
    rw [hsum]
    rw [abs_le] at er1
    by_cases c1 : 2 ^ L + 1 < q
    · rw [unit_big hL hinv (by linarith [er1.1]), one_mul]
      show |(2 ^ L : ℚ) - max (-2 ^ L) (min (2 ^ L) q)| ≤ _
      rw [min_eq_left (by linarith), max_eq_right (by linarith)]
      simpa using hE
    by_cases c2 : q < -2 ^ L - 1
    · rw [unit_big_neg hL hinv (by linarith [er1.2])]
      show |(-1 * 2 ^ L : ℚ) - max (-2 ^ L) (min (2 ^ L) q)| ≤ _
      rw [min_eq_right (by linarith), max_eq_left (by linarith)]
      simpa using hE
    push Not at c1 c2
    obtain ⟨it, et⟩ := round_near' (q := q + r) (M := 2 ^ L + 1.1) (by rw [abs_le]; constructor <;> linarith [er1.1, er1.2]) (by linarith)
    generalize roundQ (q + r) = t at it et
    have h2L : (2 : ℚ) ≤ 2 ^ L := by
      have : (2 : ℚ) ^ 1 ≤ 2 ^ L := pow_le_pow_right₀ (by norm_num) (by omega)
      linarith
    have ht : |t| ≤ 2 ^ L + 1.2 := by
      rw [abs_le] at et ⊢
      constructor <;> linarith [er1.1, er1.2, et.1, et.2]
    have hti : |t * (1 / 2 ^ L)| ≤ (2 ^ L + 1.2) * (1 / 2 ^ L) := by
      rw [abs_mul, abs_of_pos hi1]
      gcongr
    have hM : ((2 : ℚ) ^ L + 1.2) * (1 / 2 ^ L) ≤ 4096 := by
      rw [add_mul, mul_one_div_cancel hP.ne']
      linarith
    obtain ⟨iv, ev⟩ := round_near' hti hM
    have hy : ofRat (q + r) * inv = ofRat (t * (1 / 2 ^ L)) := by
      obtain ⟨_, e⟩ := it
      obtain ⟨_, rfl⟩ := hinv
      rw [e, fin_mul]
    rw [hy, Is.unit iv]
    generalize roundQ (t * (1 / 2 ^ L)) = v at ev
    have ev' : |v * 2 ^ L - t| ≤ (2 ^ L + 1.2) / 2 ^ 24 + 1 / 2 ^ 140 := by
      have : v * 2 ^ L - t = (v - t * (1 / 2 ^ L)) * 2 ^ L := by field_simp
      rw [this, abs_mul, abs_of_pos hP]
      calc |v - t * (1 / 2 ^ L)| * 2 ^ L ≤ ((2 ^ L + 1.2) * (1 / 2 ^ L) / 2 ^ 24 + 1 / 2 ^ 150) * 2 ^ L := by gcongr
        _ = (2 ^ L + 1.2) / 2 ^ 24 + 1 / 2 ^ 150 * 2 ^ L := by field_simp
        _ ≤ (2 ^ L + 1.2) / 2 ^ 24 + 1 / 2 ^ 150 * 2 ^ 10 := by gcongr
        _ ≤ _ := by norm_num
    have hlim : max (-1) (min 1 v) * 2 ^ L = max (-2 ^ L) (min (2 ^ L) (v * 2 ^ L)) := by
      rw [max_mul_of_nonneg _ _ hP.le, min_mul_of_nonneg _ _ hP.le, neg_one_mul, one_mul]
    rw [hlim]
    refine (limit_near' hP.le _ _).trans ?_
    rw [abs_le] at ev' et er ⊢
    have : (1.1 : ℚ) / 2 ^ 24 + 1.2 / 2 ^ 24 + 1 / 2 ^ 140 + 1 / 2 ^ 150 ≤ 2 / 2 ^ 24 + 0.000001 * (1 - 1 / 2 ^ L) := by
      have : (1 : ℚ) / 2 ^ L ≤ 1 / 2 := by
        rw [div_le_div_iff₀ hP (by norm_num)]
        linarith
      linarith
    have hadd : ((2 : ℚ) ^ L + 1.1) / 2 ^ 24 + (2 ^ L + 1.2) / 2 ^ 24 + 1 / 2 ^ 140 + 1 / 2 ^ 150 ≤ 2 ^ L / 2 ^ 22 + 0.000001 * (1 - 1 / 2 ^ L) := by
      linarith
    generalize v * 2 ^ L = z at *
    generalize (1 : ℚ) - 1 / 2 ^ L = s at *
    constructor <;> linarith [ev'.1, ev'.2, er.1, er.2, et.1, et.2]

/-- the whole trip of any sample, when the codec is in sync -/
theorem trip_any {L : Nat} (hL : L ≤ 10) {x y : F32} (h : Dithered (down L) x y) :
    ∃ w, Is (normalizeSample (truncateSample y) * up L) w ∧ |w - limited (2 ^ L) x| ≤ roomError L := by
  have hd := dither_any hL (is_down hL) h
  obtain ⟨u, iu, eu⟩ := quantise_err y
  have hP10 : (2 : ℚ) ^ L ≤ 2 ^ 10 := pow_le_pow_right₀ (by norm_num) hL
  have hP : (0 : ℚ) < 2 ^ L := by positivity
  have hg : Rep (u * 2 ^ L) := by
    have hr := iu.rep
    obtain ⟨n, e, h1, h2, h3⟩ := hr.grid
    refine (show Grid (u * 2 ^ L) from ⟨n, e + L, h1, by omega, ?_⟩).rep ?_
    · rw [h3, zpow_add₀ (by norm_num), zpow_natCast]; ring
    · have : |u| ≤ 2 := by
        have := unit_abs y
        rw [abs_le] at this eu ⊢
        constructor <;> linarith [this.1, this.2, eu.1, eu.2]
      rw [abs_mul, abs_of_pos hP]
      calc |u| * 2 ^ L ≤ 2 * 2 ^ 10 := by gcongr
        _ < _ := by norm_num
  refine ⟨u * 2 ^ L, ?_, ?_⟩
  · have := iu.mul (is_up hL) (B := |u * 2 ^ L|) (by
      rcases abs_choice (u * 2 ^ L) with e | e <;> rw [e]
      · exact hg
      · exact hg.grid.neg.rep (by rw [abs_neg]; exact hg.lt)) le_rfl
    rwa [roundQ_grid hg.grid] at this
  · have h1 : |u * 2 ^ L - unit y * 2 ^ L| ≤ 2 ^ L * 1.01 / 32767 := by
      rw [← sub_mul, abs_mul, abs_of_pos hP]
      calc |u - unit y| * 2 ^ L ≤ (1.01 / 32767 : ℚ) * 2 ^ L := by gcongr
        _ = _ := by ring
    have := abs_add_le (u * 2 ^ L - unit y * 2 ^ L) (unit y * 2 ^ L - limited (2 ^ L) x)
    rw [sub_add_sub_cancel] at this
    unfold roomError levelError
    linarith

/-- C103, the true part: level `L` has room for samples up to `2 ^ L`. Whenever the codec is in sync, every sample whatsoever, infinite ones
included, is played back as the sample limited to [-2^L, 2^L], and NaN as 0, up to `roomError L`. -/
theorem C103_headroom_partial (b b' : Build) (info : StreamInfo) (hn : 0 < info.channels) (L : Nat) (hL : L ≤ 10) (calls : List (List F32))
    (hp : Proper info.channels calls) (hsync : ∀ ch < info.channels, InSync (stored (down L) info.channels ch 0 calls)) :
    ∃ c sig, encodeAll b (fresh info L) calls = .ok c ∧
      List.Forall₂ (List.Forall₂ fun x y => ∃ w, Is y w ∧ |w - limited (2 ^ L) x| ≤ roomError L) (signal info.channels calls) sig ∧
      ∀ bufs, ∃ c', decodeAll b' c.init bufs = .ok (c', readBlocks info.channels sig (bufs.map (·.map (· * up L)))) := by
  obtain ⟨c, e, hd⟩ := decode_inSync b b' info hn hL calls hp hsync
  exact ⟨c, _, e, rescaled_rel fun pcm _ x _ y hy => trip_any hL hy, hd⟩

/-- the bound in numbers -/
example : roomError 0 < 0.000032 ∧ roomError 1 < 0.0006 ∧ roomError 10 < 0.033 := by
  unfold roomError levelError
  norm_num

/-- samples out of range: 3/2 throughout, then infinities, NaN and the largest sample there is -/
def tooLoud : List (List F32) :=
  [[ofRat (3 / 2), ofRat (3 / 2), ofRat (3 / 2), ofRat (3 / 2)], [inf false, ofRat (2 ^ 127), nan, inf true]]

theorem tooLoud_proper : Proper 1 tooLoud := by
  refine ⟨by simp [tooLoud], by simp [tooLoud], ?_⟩
  intro j
  match j with
  | 0 => exact .inl ⟨0, by simp, by simp [tooLoud]⟩
  | 1 => exact .inl ⟨0, by simp, by simp [tooLoud]⟩
  | j + 2 => exact .inr fun t => by simp [tooLoud, Nat.add_right_comm j 2 t]

/-- they are in sync at level 4, and 2 to the 127 and infinity are then limited to 16 -/
example : (∀ ch < 1, InSync (stored (down 4) 1 ch 0 tooLoud)) ∧
    (signal 1 tooLoud).map (·.map (limited (2 ^ 4))) = [[3 / 2], [3 / 2], [3 / 2], [3 / 2], [16], [16], [0], [-16]] := by
  refine ⟨?_, by decide +kernel⟩
  intro ch hch
  obtain rfl : ch = 0 := by omega
  exact inSync_of_all (by decide +kernel)

/-- C103 is false: at level 1 samples of 3/2 are played back as samples of more than 1.499, in both builds. -/
theorem C103_false (b b' : Build) : ∃ c sig, encodeAll b (fresh ⟨44100, 1⟩ 1) [List.replicate 4 (ofRat (3 / 2))] = .ok c ∧
    List.Forall₂ (List.Forall₂ fun x y => clipped x = ofInt 1 ∧ ∃ w, Is y w ∧ 1.499 < w) (signal 1 [List.replicate 4 (ofRat (3 / 2))]) sig ∧
    ∀ bufs, ∃ c', decodeAll b' c.init bufs = .ok (c', readBlocks 1 sig (bufs.map (·.map (· * up 1)))) := by
  obtain ⟨c, e, hd⟩ := decode_inSync b b' ⟨44100, 1⟩ (by decide) (L := 1) (by omega) [List.replicate 4 (ofRat (3 / 2))]
    ⟨by simp, by simp, by
      intro j
      match j with
      | 0 => exact .inl ⟨0, by simp, by simp⟩
      | j + 1 => exact .inr fun t => by simp [Nat.add_right_comm j 1 t]⟩ (by
    intro ch hch
    obtain rfl : ch = 0 := by simpa using hch
    exact inSync_of_all (by decide +kernel))
  refine ⟨c, _, e, rescaled_rel fun pcm hp x hx y hy => ?_, hd⟩
  rw [List.mem_singleton.1 hp] at hx
  rw [List.eq_of_mem_replicate hx] at hy ⊢
  refine ⟨by decide +kernel, ?_⟩
  obtain ⟨w, iw, hw⟩ := trip_any (by omega) hy
  refine ⟨w, iw, ?_⟩
  have : limited (2 ^ 1) (ofRat (3 / 2)) = 3 / 2 := by decide +kernel
  rw [this, abs_le] at hw
  have : roomError 1 < 0.0006 := by
    unfold roomError levelError
    norm_num
  linarith [hw.1]

end Adhoc
