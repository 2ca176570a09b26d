import Verif.Props.Compression
import Verif.Props.Levels
import Mathlib.Tactic.IntervalCases

/-! # C75: which signals are certainly in sync -/

namespace Adhoc
open Spec F32

/-- a peak that is safe at level `L`: an eighth of the full scale at level 0, then twice as much with every level (less room for the noise) -/
def Spec.safePeak (L : Nat) : ℚ := 2 ^ L / 8 - 0.00101 * (1 - 1 / 2 ^ L)

/-- a finite sample of at most `p` -/
def Spec.Below (p : ℚ) (x : F32) : Prop := ∃ q, Is x q ∧ |q| ≤ p

theorem is_rounded {r q : ℚ} (e : roundQ r = q) (h : |q| < 2 ^ 128) : Is (F32.ofRat r) q := by
  subst e
  exact ⟨rep_roundQ h, ofRat_fin h⟩

theorem code_eighth {y : F32} {v : ℚ} (h : Is y v) (hv : |v| ≤ 1 / 8) : |truncateSample y| ≤ 4095 := by
  have i1 : Is (F32.ofRat (1 / 8)) (1 / 8) := is_rounded (by decide +kernel) (by norm_num [abs_div])
  have i2 : Is (F32.ofRat (-1 / 8)) (-1 / 8) := is_rounded (by decide +kernel) (by norm_num [abs_div])
  have h1 : truncateSample (F32.ofRat (1 / 8)) = 4095 := by decide +kernel
  have h2 : truncateSample (F32.ofRat (-1 / 8)) = -4095 := by decide +kernel
  have u0 := unit_of_abs h (hv.trans (by norm_num))
  have u1 := unit_of_abs i1 (by norm_num [abs_div])
  have u2 := unit_of_abs i2 (by norm_num [abs_div])
  rw [abs_le] at hv
  have l1 := truncateSample_mono (x := y) (y := F32.ofRat (1 / 8)) (by rw [u0, u1]; exact hv.2)
  have l2 := truncateSample_mono (x := F32.ofRat (-1 / 8)) (y := y) (by rw [u0, u2]; linarith [hv.1])
  rw [abs_le]
  omega

theorem inSync_quiet_peak {L : Nat} (hL : L ≤ 10) {n ch : Nat} (hch : ch < n) {calls : List (List F32)}
    (hu : ∀ pcm ∈ calls, ∀ x ∈ pcm, Unit x ∧ Below (safePeak L) x) : InSync (stored (down L) n ch 0 calls) := by
  have hs : ∀ q ∈ stored (down L) n ch 0 calls, |q| ≤ 4095 := by
    intro q hq
    obtain ⟨x, hx, y, hy, rfl⟩ := forall₂_mem_right (stored_dithered hch calls 0) q hq
    obtain ⟨pcm, hp, hx⟩ := mem_chan hch hx
    obtain ⟨⟨r, hr, hr1⟩, r', hr', hr2⟩ := hu pcm hp x hx
    rw [Is.unique hr' hr] at hr2
    obtain ⟨v, iv, ev⟩ := dither_err hL (is_down hL) hr (hr1.trans (by norm_num)) hy
    refine code_eighth iv ?_
    have hP : (0 : ℚ) < 2 ^ L := by positivity
    unfold safePeak at hr2
    have : |v| * 2 ^ L ≤ 1 / 8 * 2 ^ L := by
      rw [← abs_of_pos hP, ← abs_mul, abs_of_pos hP]
      generalize (0.00101 : ℚ) * (1 - 1 / 2 ^ L) = e at *
      rw [abs_le] at *
      constructor <;> linarith [ev.1, ev.2, hr2.1, hr2.2]
    exact le_of_mul_le_mul_right this hP
  intro k h3 hk
  have := (residual_small (by norm_num) (by norm_num) hs k hk).1
  rw [abs_le] at this
  omega

theorem inSync_smooth {Q : List Int} (hr : ∀ q ∈ Q, -32767 ≤ q ∧ q ≤ 32767) (h : Smooth 32765 Q) : InSync Q := by
  intro k h3 hk
  have := gap_smooth h hr h3 (start := k) (len := 1) (by omega) (Q.getD k 0 - guess (Q.take k)) (by simp [differences])
  omega

/-- C75. At every level, signals in [-1, 1] of at most the safe peak (1/8 at level 0, almost 1/4, 1/2 and 1 at levels 1 to 3, no further
restriction at levels 4 to 10) are in sync, so that encoding succeeds in both builds and every stored code is played. -/
theorem C75_quiet (b b' : Build) (info : StreamInfo) (hn : 0 < info.channels) (L : Nat) (hL : L ≤ 10) (calls : List (List F32))
    (hp : Proper info.channels calls) (hu : ∀ pcm ∈ calls, ∀ x ∈ pcm, Unit x ∧ Below (safePeak L) x) :
    (∀ ch < info.channels, InSync (stored (down L) info.channels ch 0 calls)) ∧
    ∃ c, encodeAll b (fresh info L) calls = .ok c ∧ ∀ bufs, ∃ c',
      decodeAll b' c.init bufs = .ok (c', readBlocks info.channels (rescaled L info.channels calls) (bufs.map (·.map (· * up L)))) := by
  have h := fun ch hch => inSync_quiet_peak hL (n := info.channels) (ch := ch) hch hu
  exact ⟨h, decode_inSync b b' info hn hL calls hp h⟩

/-- the safe peaks -/
example : safePeak 0 = 1 / 8 ∧ safePeak 1 > 0.249 ∧ safePeak 2 > 0.499 ∧ safePeak 3 > 0.999 ∧ safePeak 4 > 1 := by
  unfold safePeak
  norm_num

/-- the fastest alternation of that peak meets the hypotheses at level 0 -/
example : ∀ pcm ∈ [[F32.ofRat (1 / 8), F32.ofRat (-1 / 8), F32.ofRat (1 / 8), F32.ofRat (-1 / 8)]], ∀ x ∈ pcm, Unit x ∧ Below (safePeak 0) x := by
  have key : ∀ r : ℚ, |r| ≤ 1 / 8 → roundQ r = r → Unit (F32.ofRat r) ∧ Below (safePeak 0) (F32.ofRat r) := by
    intro r h1 h2
    have i := is_rounded h2 (h1.trans_lt (by norm_num))
    exact ⟨⟨r, i, h1.trans (by norm_num)⟩, r, i, by unfold safePeak; norm_num at h1 ⊢; exact h1⟩
  intro pcm hp x hx
  rw [List.mem_singleton] at hp
  subst hp
  simp only [List.mem_cons, List.not_mem_nil, or_false] at hx
  rcases hx with rfl | rfl | rfl | rfl
  all_goals exact key _ (by norm_num [abs_div]) (by decide +kernel)

/-- C75. At level 0 a signal whose 16-bit codes have third differences of at most 32765 is recorded losslessly (up to quantisation), however
loud it is. -/
theorem C75_smooth (b b' : Build) (info : StreamInfo) (hn : 0 < info.channels) (calls : List (List F32)) (hp : Proper info.channels calls)
    (hs : ∀ ch < info.channels, Smooth 32765 (Spec.codes ch (signal info.channels calls))) :
    ∃ c, encodeAll b (fresh info 0) calls = .ok c ∧ ∀ bufs, ∃ c',
      decodeAll b' c.init bufs = .ok (c', readBlocks info.channels ((signal info.channels calls).map (·.map quantise)) bufs) := by
  refine C01_round_trip b b' info hn calls hp fun ch hch => inSync_smooth ?_ (hs ch hch)
  intro q hq
  obtain ⟨x, -, rfl⟩ := List.mem_map.1 hq
  exact truncateSample_range _

/-- a loud signal meets the condition: a full-scale sawtooth -/
example : Smooth 32765 (Spec.codes 0 (signal 1 [[F32.ofInt (-1), F32.ofRat (-1 / 2), F32.ofInt 0, F32.ofRat (1 / 2), F32.ofInt 1, F32.ofInt 1, F32.ofRat (1 / 2), F32.ofInt 0]])) := by
  have : Spec.codes 0 (signal 1 [[F32.ofInt (-1), F32.ofRat (-1 / 2), F32.ofInt 0, F32.ofRat (1 / 2), F32.ofInt 1, F32.ofInt 1, F32.ofRat (1 / 2), F32.ofInt 0]]) =
    [-32767, -16383, 0, 16383, 32767, 32767, 16383, 0] := by decide +kernel
  rw [this]
  intro i hi
  have : i < 5 := by simp at hi; omega
  interval_cases i <;> decide

/-- samples just above an eighth of the full scale -/
def eighth : List (List F32) := [[F32.ofRat 0.12502, F32.ofRat (-0.12502), F32.ofRat 0.12502, F32.ofRat (-0.12502)]]

theorem eighth_proper : Proper 1 eighth := by
  refine ⟨by simp [eighth], by simp [eighth], ?_⟩
  intro j
  match j with
  | 0 => exact .inl ⟨0, by simp, by simp [eighth]⟩
  | j + 1 => exact .inr fun t => by simp [eighth, Nat.add_right_comm j 1 t]

/-- C75: the peak of an eighth cannot be raised by a 16-bit step: four samples of 0.12502 are not recorded losslessly at level 0. -/
theorem C75_sharp (b b' : Build) (info : StreamInfo) (h1 : info.channels = 1) (c : AdhocCodec) (h : encodeAll b (fresh info 0) eighth = .ok c) :
    Proper 1 eighth ∧ (∀ pcm ∈ eighth, ∀ x ∈ pcm, Below 0.12503 x) ∧
    ∀ c' outs, decodeAll b' c.init [List.replicate 4 (F32.ofInt 0)] = .ok (c', outs) → delivered outs ≠ eighth.flatten.map quantise := by
  refine ⟨eighth_proper, ?_, ?_⟩
  · intro pcm hp x hx
    simp only [eighth, List.mem_singleton] at hp
    subst hp
    have key : ∀ r : ℚ, |roundQ r| ≤ 0.12503 → |roundQ r| < 2 ^ 128 → Below 0.12503 (F32.ofRat r) := fun r h1 h2 => ⟨roundQ r, is_rounded rfl h2, h1⟩
    simp only [List.mem_cons, List.not_mem_nil, or_false] at hx
    rcases hx with rfl | rfl | rfl | rfl
    all_goals exact key _ (by decide +kernel) (by decide +kernel)
  · intro c' outs hd
    have hn : 0 < info.channels := by omega
    obtain ⟨c2, h2⟩ := C02_level0_partial b b' info hn eighth c (by rw [h1]; exact eighth_proper.short) (by rw [h1]; exact eighth_proper.gap) h
      [List.replicate 4 (F32.ofInt 0)]
    rw [hd] at h2
    injection h2 with h2
    have h2 := congrArg (fun p => p.2) h2
    dsimp only at h2
    rw [h2, h1]
    decide +kernel

/-- that recording can be made -/
example : ∃ c, encodeAll .release (fresh { sampleRate := 8000, channels := 1 } 0) eighth = .ok c := by
  obtain ⟨c, -, e, -, -, -⟩ := encodeAll_calls (b := .release) (info := { sampleRate := 8000, channels := 1 }) (by simp) 0 eighth
    eighth_proper.first (.inl rfl)
  exact ⟨c, e⟩

end Adhoc
