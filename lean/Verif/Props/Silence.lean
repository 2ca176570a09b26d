import Verif.Props.Quiet

/-! # C100: silence -/

namespace Adhoc
open Spec F32

namespace Spec

/-- the loudest code that the noise alone is stored with at level `L` -/
def hiss (L : Nat) : ℤ := [0, 8, 6, 3, 1].getD L 0

/-- the largest sample that certainly vanishes at level `L` (5 to 10) -/
def faint (L : Nat) : ℚ := 2 ^ L / 32768 - 0.001001 * (1 - 1 / 2 ^ L)

end Spec

/-- `dither_err` for samples that are small -/
theorem dither_faint {L : Nat} (hL : L ≤ 10) {inv x y : F32} (hinv : Is inv (1 / 2 ^ L)) {q : ℚ} (hx : Is x q) (hq : |q| ≤ 1 / 16) (h : Dithered inv x y) :
    ∃ v, Is y v ∧ |v * 2 ^ L - q| ≤ 0.0010001 * (1 - 1 / 2 ^ L) := by
  by_cases h0 : L = 0
  · subst h0
    have : inv = ofInt 1 := hinv.eq (by simpa using is_int (n := 1) (by norm_num))
    subst this
    rw [dithered_one h]
    exact ⟨q, hx, by norm_num⟩
  · obtain ⟨n, m, hm, hn, rfl⟩ := h
    have hmq : |(m : ℚ) / 16384| ≤ 1 := by
      have : |(m : ℚ)| ≤ 16383 := by exact_mod_cast hm
      rw [abs_div, div_le_one (by norm_num)]
      norm_num at this ⊢
      linarith
    have hs : Is (ofInt 1 - inv) (1 - 1 / 2 ^ L) := by
      have i1 : Is (ofInt 1) 1 := by simpa using is_int (n := 1) (by norm_num)
      have hr := rep_inv hL
      have := i1.sub hinv hr (show |(1 : ℚ) - 1 / 2 ^ L| ≤ 1 - 1 / 2 ^ L by
        rw [abs_of_nonneg]
        rw [sub_nonneg, div_le_one (by positivity)]
        exact one_le_pow₀ (by norm_num))
      rwa [roundQ_grid hr.grid] at this
    have hamp := roundQ_err (1 / 1000)
    have iamp := is_amp
    generalize roundQ (1 / 1000) = A at hamp iamp
    generalize (m : ℚ) / 16384 = d at hmq hn
    have hA : |A - 1 / 1000| ≤ 1 / 2 ^ 30 := hamp.trans (by norm_num [abs_div])
    rw [abs_le] at hA
    have hA' : |d * A| ≤ 0.00100001 := by
      rw [abs_mul]
      calc |d| * |A| ≤ 1 * 0.00100001 := by
            have : |A| ≤ 0.00100001 := by rw [abs_le]; constructor <;> linarith [hA.1, hA.2]
            gcongr
        _ = _ := by norm_num
    obtain ⟨p, ip, ep⟩ := hn.near_mul iamp _ hA' (by norm_num)
    have hp : |p| ≤ 0.00100002 := by
      rw [abs_le] at ep hA' ⊢
      constructor <;> linarith [ep.1, ep.2, hA'.1, hA'.2]
    have hs0 : (0 : ℚ) ≤ 1 - 1 / 2 ^ L ∧ (1 : ℚ) - 1 / 2 ^ L ≤ 1 ∧ (1 : ℚ) / 2 ≤ 1 - 1 / 2 ^ L := by
      have h1 : (2 : ℚ) ^ 1 ≤ 2 ^ L := pow_le_pow_right₀ (by norm_num) (by omega)
      have h2 : (1 : ℚ) / 2 ^ L ≤ 1 / 2 := by
        rw [div_le_div_iff₀ (by positivity) (by norm_num)]
        linarith
      have h3 : (0 : ℚ) < 1 / 2 ^ L := by positivity
      refine ⟨?_, ?_, ?_⟩ <;> linarith
    obtain ⟨hs1, hs2, hs3⟩ := hs0
    have hps : |p * (1 - 1 / 2 ^ L)| ≤ 0.00100002 * (1 - 1 / 2 ^ L) := by
      rw [abs_mul, abs_of_nonneg hs1]
      gcongr
    obtain ⟨r, ir, er⟩ := ip.near_mul hs _ hps (by linarith)
    have hr : |r| ≤ 0.00100003 * (1 - 1 / 2 ^ L) := by
      rw [abs_le] at er hps ⊢
      generalize p * (1 - 1 / 2 ^ L) = z at er hps
      generalize (1 : ℚ) - 1 / 2 ^ L = s at *
      constructor <;> linarith [er.1, er.2, hps.1, hps.2]
    rw [abs_le] at hq hr
    obtain ⟨t, it, et⟩ := hx.near_add ir 0.07 (by rw [abs_le]; constructor <;> linarith [hr.1, hr.2]) (by norm_num)
    rw [abs_le] at et
    have ht : |t| ≤ 0.08 := by rw [abs_le]; constructor <;> linarith [hr.1, hr.2, et.1, et.2]
    have hiL : (0 : ℚ) < 1 / 2 ^ L ∧ (1 : ℚ) / 2 ^ L ≤ 1 := ⟨by positivity, by linarith⟩
    have hti : |t * (1 / 2 ^ L)| ≤ 0.08 * (1 / 2 ^ L) := by
      rw [abs_mul, abs_of_pos hiL.1]
      gcongr
    obtain ⟨v, iv, ev⟩ := it.near_mul hinv _ hti (by linarith [hiL.2])
    refine ⟨v, iv, ?_⟩
    have hP : (0 : ℚ) < 2 ^ L := by positivity
    have hP10 : (2 : ℚ) ^ L ≤ 2 ^ 10 := pow_le_pow_right₀ (by norm_num) hL
    have ev' : |v * 2 ^ L - t| ≤ 0.08 / 2 ^ 24 + 1 / 2 ^ 140 := by
      have : v * 2 ^ L - t = (v - t * (1 / 2 ^ L)) * 2 ^ L := by field_simp
      rw [this, abs_mul, abs_of_pos hP]
      calc |v - t * (1 / 2 ^ L)| * 2 ^ L ≤ (0.08 * (1 / 2 ^ L) / 2 ^ 24 + 1 / 2 ^ 150) * 2 ^ L := by gcongr
        _ = 0.08 / 2 ^ 24 + 1 / 2 ^ 150 * 2 ^ L := by field_simp
        _ ≤ 0.08 / 2 ^ 24 + 1 / 2 ^ 150 * 2 ^ 10 := by gcongr
        _ ≤ _ := by norm_num
    rw [abs_le] at ev' ⊢
    generalize v * 2 ^ L = z at *
    generalize (1 : ℚ) - 1 / 2 ^ L = s at *
    constructor <;> linarith [ev'.1, ev'.2, hr.1, hr.2, et.1, et.2]

/-- the code of a sample that is small -/
theorem faint_code {L : Nat} (hL : L ≤ 10) {inv x y : F32} (hinv : Is inv (1 / 2 ^ L)) {q : ℚ} (hx : Is x q) (hq : |q| ≤ 1 / 16) (h : Dithered inv x y) :
    |(truncateSample y : ℚ)| * 2 ^ L ≤ 32767 * (1 + 1 / 2 ^ 23) * (|q| + 0.0010001 * (1 - 1 / 2 ^ L)) + 1 / 2 ^ 140 := by
  obtain ⟨v, iv, ev⟩ := dither_faint hL hinv hx hq h
  have hP : (0 : ℚ) < 2 ^ L := by positivity
  have hP10 : (2 : ℚ) ^ L ≤ 2 ^ 10 := pow_le_pow_right₀ (by norm_num) hL
  have hv : |v| * 2 ^ L ≤ |q| + 0.0010001 * (1 - 1 / 2 ^ L) := by
    rw [show |v| * 2 ^ L = |v * 2 ^ L| by rw [abs_mul, abs_of_pos hP]]
    have := abs_add_le (v * 2 ^ L - q) q
    rw [sub_add_cancel] at this
    linarith
  have hu : |unit y| ≤ |v| := by
    rw [Is.unit iv]
    simpa using limit_near v 0
  rw [truncateSample_eq]
  have h1 := truncQ_abs (roundQ (unit y * 32767))
  have h2 := roundQ_err (unit y * 32767)
  have h3 := abs_add_le (roundQ (unit y * 32767) - unit y * 32767) (unit y * 32767)
  rw [sub_add_cancel] at h3
  rw [abs_mul, show |(32767 : ℚ)| = 32767 by norm_num] at h2 h3
  have h4 : |(truncQ (roundQ (unit y * 32767)) : ℚ)| ≤ |v| * (32767 * (1 + 1 / 2 ^ 23)) + 1 / 2 ^ 150 := by
    have := abs_nonneg v
    generalize |(truncQ (roundQ (unit y * 32767)) : ℚ)| = z at *
    linarith
  calc |(truncQ (roundQ (unit y * 32767)) : ℚ)| * 2 ^ L ≤ (|v| * (32767 * (1 + 1 / 2 ^ 23)) + 1 / 2 ^ 150) * 2 ^ L := by gcongr
    _ = 32767 * (1 + 1 / 2 ^ 23) * (|v| * 2 ^ L) + 1 / 2 ^ 150 * 2 ^ L := by ring
    _ ≤ 32767 * (1 + 1 / 2 ^ 23) * (|q| + 0.0010001 * (1 - 1 / 2 ^ L)) + 1 / 2 ^ 150 * 2 ^ 10 := by gcongr
    _ = _ := by norm_num

/-- the code of a silent sample -/
theorem hiss_code {L : Nat} (hL : L ≤ 10) {x y : F32} (hx : Is x 0) (h : Dithered (down L) x y) : |truncateSample y| ≤ hiss L := by
  have h := faint_code hL (is_down hL) hx (by norm_num) h
  rw [← Int.lt_add_one_iff]
  have : |(truncateSample y : ℚ)| < hiss L + 1 := by
    generalize |(truncateSample y : ℚ)| = z at *
    interval_cases L <;> simp [hiss] at h ⊢ <;> norm_num at h ⊢ <;> linarith
  exact_mod_cast this

/-- the code of a faint sample -/
theorem zero_code {L : Nat} (h5 : 5 ≤ L) (hL : L ≤ 10) {x y : F32} {q : ℚ} (hx : Is x q) (hq : |q| ≤ faint L) (h : Dithered (down L) x y) :
    truncateSample y = 0 := by
  have h := faint_code hL (is_down hL) hx (hq.trans (by unfold faint; interval_cases L <;> norm_num)) h
  have : |(truncateSample y : ℚ)| < 1 := by
    unfold faint at hq
    generalize |(truncateSample y : ℚ)| = z at *
    interval_cases L <;> norm_num at h hq ⊢ <;> linarith
  have : |truncateSample y| < 1 := by exact_mod_cast this
  rwa [Int.abs_lt_one_iff] at this

/-- what is played back, sample by sample -/
theorem rescaled_rel {L n : Nat} {calls : List (List F32)} {R : F32 → F32 → Prop}
    (h : ∀ pcm ∈ calls, ∀ x ∈ pcm, ∀ y, Dithered (down L) x y → R x (normalizeSample (truncateSample y) * up L)) :
    List.Forall₂ (List.Forall₂ R) (signal n calls) (rescaled L n calls) := by
  rw [List.forall₂_iff_get]
  refine ⟨by simp [rescaled], ?_⟩
  intro k h1 h2
  simp only [List.get_eq_getElem, rescaled, List.getElem_map, List.getElem_range]
  have hw := signal_width _ (List.getElem_mem h1)
  rw [List.forall₂_iff_get]
  refine ⟨by simp [hw], ?_⟩
  intro ch g1 g2
  have hch : ch < n := by simpa using g2
  simp only [List.get_eq_getElem, List.getElem_map, List.getElem_range]
  have hst := stored_dithered (inv := down L) hch calls 0
  have hlen := hst.length_eq
  rw [List.forall₂_iff_get] at hst
  have hk : k < (stored (down L) n ch 0 calls).length := by rw [← hlen]; simpa [chan] using h1
  obtain ⟨y, hy, hq⟩ := hst.2 k (by simpa [chan] using h1) hk
  simp only [List.get_eq_getElem, chan, List.getElem_map] at hy hq
  rw [List.getD_eq_getElem?_getD, List.getElem?_eq_getElem hk, Option.getD_some, hq]
  rw [List.getD_eq_getElem?_getD, List.getElem?_eq_getElem g1, Option.getD_some] at hy
  obtain ⟨pcm, hpm, hx⟩ := mem_signal (List.getElem_mem h1) (List.getElem_mem g1)
  exact h pcm hpm _ hx y hy

/-- the sample of a code, scaled up -/
theorem is_scaled {L : Nat} (hL : L ≤ 10) {i : ℤ} (h : |i| ≤ 32767) : ∃ v, Is (normalizeSample i * up L) v ∧ |v| ≤ |(i : ℚ)| * 2 ^ L / 32766 := by
  obtain ⟨u, iu, eu⟩ := normalizeSample_err (i := i) (by omega)
  have hP : (0 : ℚ) < 2 ^ L := by positivity
  have hP10 : (2 : ℚ) ^ L ≤ 2 ^ 10 := pow_le_pow_right₀ (by norm_num) hL
  have hi : |(i : ℚ)| ≤ 32767 := by exact_mod_cast h
  have hu : |u| ≤ |(i : ℚ)| / 32766 := by
    have := abs_add_le (u - (i : ℚ) / 32767) ((i : ℚ) / 32767)
    rw [sub_add_cancel, abs_div (i : ℚ), show |(32767 : ℚ)| = 32767 by norm_num] at this
    have := abs_nonneg (i : ℚ)
    linarith
  have hg : Rep (u * 2 ^ L) := by
    obtain ⟨n, e, h1, h2, h3⟩ := iu.rep.grid
    refine (show Grid (u * 2 ^ L) from ⟨n, e + L, h1, by omega, ?_⟩).rep ?_
    · rw [h3, zpow_add₀ (by norm_num), zpow_natCast]; ring
    · rw [abs_mul, abs_of_pos hP]
      calc |u| * 2 ^ L ≤ 2 * 2 ^ 10 := by gcongr; linarith
        _ < _ := by norm_num
  refine ⟨u * 2 ^ L, ?_, ?_⟩
  · have := iu.mul (is_up hL) (B := |u * 2 ^ L|) (by
      rcases abs_choice (u * 2 ^ L) with e | e <;> rw [e]
      · exact hg
      · exact hg.grid.neg.rep (by rw [abs_neg]; exact hg.lt)) le_rfl
    rwa [roundQ_grid hg.grid] at this
  · rw [abs_mul, abs_of_pos hP, show |(i : ℚ)| * 2 ^ L / 32766 = |(i : ℚ)| / 32766 * 2 ^ L by ring]
    gcongr

theorem hiss_range (L : Nat) : 0 ≤ hiss L ∧ hiss L ≤ 8 := by
  rcases Nat.lt_or_ge L 5 with h | h
  · interval_cases L <;> simp [hiss]
  · unfold hiss
    rw [List.getD_eq_getElem?_getD, List.getElem?_eq_none (by simpa using h)]
    simp

theorem silent_inSync {L : Nat} (hL : L ≤ 10) {n : Nat} {calls : List (List F32)} (h0 : ∀ pcm ∈ calls, ∀ x ∈ pcm, Is x 0) :
    ∀ ch < n, InSync (stored (down L) n ch 0 calls) := by
  intro ch hch
  have hs : ∀ q ∈ stored (down L) n ch 0 calls, |q| ≤ 8 := by
    intro q hq
    obtain ⟨x, hx, y, hy, rfl⟩ := forall₂_mem_right (stored_dithered hch calls 0) q hq
    obtain ⟨pcm, hp, hx⟩ := mem_chan hch hx
    exact (hiss_code hL (h0 pcm hp x hx) hy).trans (hiss_range L).2
  intro k h3 hk
  have := (residual_small (by norm_num) (by norm_num) hs k hk).1
  rw [abs_le] at this
  omega

/-! ## C100 -/

/-- `n` silent samples -/
def zeros (n : Nat) : List F32 := List.replicate n (ofInt 0)

theorem zeros_silent : ∀ pcm ∈ [zeros 8], ∀ x ∈ pcm, Is x 0 := by
  intro pcm hp x hx
  rw [List.mem_singleton.1 hp] at hx
  rw [List.eq_of_mem_replicate hx]
  simpa using is_int (n := 0) (by norm_num)

theorem zeros_proper : Proper 1 [zeros 8] := by
  refine ⟨by simp [zeros], by simp [zeros], ?_⟩
  intro j
  match j with
  | 0 => exact .inl ⟨0, by simp, by simp [zeros]⟩
  | j + 1 => exact .inr fun t => by simp [Nat.add_right_comm j 1 t]

/-- C100 is false: at each of the levels 1 to 4 some silence is not played back as silence. -/
theorem C100_false : ∀ L, 1 ≤ L → L ≤ 4 → ∃ c sig, encodeAll .release (fresh ⟨44100, 1⟩ L) [zeros 8] = .ok c ∧
    (∃ blk ∈ sig, ∃ y ∈ blk, y ≠ ofInt 0) ∧
    ∀ bufs, ∃ c', decodeAll .release c.init bufs = .ok (c', readBlocks 1 sig (bufs.map (·.map (· * up L)))) := by
  intro L h1 h4
  obtain ⟨c, e, hd⟩ := decode_inSync .release .release ⟨44100, 1⟩ (by decide) (L := L) (by omega) [zeros 8] zeros_proper
    (silent_inSync (by omega) zeros_silent)
  refine ⟨c, _, e, ?_, hd⟩
  have : (rescaled L 1 [zeros 8]).any (·.any fun y => decide (y ≠ ofInt 0)) = true := by
    clear e hd
    interval_cases L <;> decide +kernel
  obtain ⟨blk, hb, h⟩ := List.any_eq_true.1 this
  obtain ⟨y, hy, h⟩ := List.any_eq_true.1 h
  exact ⟨blk, hb, y, hy, of_decide_eq_true h⟩

/-- C100, the true part. At every level a silent recording of any length is encoded in both builds, and played back as samples of at most
`hiss L` quantisation steps of that level: 8, 6, 3 and 1 at the levels 1 to 4 and none at the levels 0 and 5 to 10, where silence is
played back as silence. -/
theorem C100_hiss_partial (b b' : Build) (info : StreamInfo) (hn : 0 < info.channels) (L : Nat) (hL : L ≤ 10) (calls : List (List F32))
    (hp : Proper info.channels calls) (h0 : ∀ pcm ∈ calls, ∀ x ∈ pcm, Is x 0) :
    ∃ c sig, encodeAll b (fresh info L) calls = .ok c ∧
      List.Forall₂ (List.Forall₂ fun _ y => Below (hiss L * 2 ^ L / 32766) y) (signal info.channels calls) sig ∧
      ∀ bufs, ∃ c', decodeAll b' c.init bufs = .ok (c', readBlocks info.channels sig (bufs.map (·.map (· * up L)))) := by
  obtain ⟨c, e, hd⟩ := decode_inSync b b' info hn hL calls hp (silent_inSync hL h0)
  refine ⟨c, _, e, rescaled_rel ?_, hd⟩
  intro pcm hp x hx y hy
  have hc := hiss_code hL (h0 pcm hp x hx) hy
  obtain ⟨v, iv, hv⟩ := is_scaled hL (i := truncateSample y) (by have := hiss_range L; omega)
  refine ⟨v, iv, hv.trans ?_⟩
  have : |(truncateSample y : ℚ)| ≤ hiss L := by exact_mod_cast hc
  gcongr

/-- the bound is 0 at the levels 0 and 5 to 10, and less than 0.0008 at the others -/
example : (hiss 0 = 0 ∧ ∀ L, 5 ≤ L → hiss L = 0) ∧ ∀ L ≤ 10, (hiss L : ℚ) * 2 ^ L / 32766 < 0.0008 := by
  refine ⟨⟨rfl, fun L h => ?_⟩, fun L h => ?_⟩
  · unfold hiss
    rw [List.getD_eq_getElem?_getD, List.getElem?_eq_none (by simpa using h)]
    rfl
  · interval_cases L <;> norm_num [hiss]

/-- C100, the true part for silence within other signals. At levels 5 to 10, in every recording of samples in [-1, 1], each sample that is
silent, or at most `faint L`, is played back as exactly 0, whatever the samples around it. -/
theorem C100_gate_partial (b b' : Build) (info : StreamInfo) (hn : 0 < info.channels) (L : Nat) (h5 : 5 ≤ L) (hL : L ≤ 10) (calls : List (List F32))
    (hp : Proper info.channels calls) (hu : ∀ pcm ∈ calls, ∀ x ∈ pcm, Unit x) :
    ∃ c sig, encodeAll b (fresh info L) calls = .ok c ∧
      List.Forall₂ (List.Forall₂ fun x y => Below (faint L) x → y = ofInt 0) (signal info.channels calls) sig ∧
      ∀ bufs, ∃ c', decodeAll b' c.init bufs = .ok (c', readBlocks info.channels sig (bufs.map (·.map (· * up L)))) := by
  obtain ⟨-, c, e, hd⟩ := C03_high_levels b b' info hn L (by omega) hL calls hp hu
  refine ⟨c, _, e, rescaled_rel ?_, hd⟩
  rintro pcm - x - y hy ⟨q, hx, hq⟩
  rw [zero_code h5 hL hx hq hy]
  obtain ⟨v, iv, hv⟩ := is_scaled hL (i := 0) (by norm_num)
  have : v = 0 := by simpa using hv
  subst this
  exact iv.eq (by simpa using is_int (n := 0) (by norm_num))

/-- silence is faint at each of these levels -/
example : ∀ L, 5 ≤ L → L ≤ 10 → 0 < faint L := by
  intro L h5 hL
  unfold faint
  interval_cases L <;> norm_num

/-- at level 10 samples up to 0.03 vanish -/
example : 0.03 < faint 10 := by unfold faint; norm_num

/-- the bounds are reached at each of the levels 1 to 4: by the 4118th silent sample at levels 1 and 2, the 24th at level 3 and the first
at level 4 -/
example : ((ditherAt (down 1) 4117 (zeros 1)).map truncateSample).map abs = [hiss 1] ∧
    ((ditherAt (down 2) 4117 (zeros 1)).map truncateSample).map abs = [hiss 2] ∧
    ((ditherAt (down 3) 23 (zeros 1)).map truncateSample).map abs = [hiss 3] ∧
    ((ditherAt (down 4) 0 (zeros 1)).map truncateSample).map abs = [hiss 4] := by
  decide +kernel
