import Verif.Props.Silence
import Verif.Props.Compression

/-! # C112: higher compression levels -/

namespace Adhoc
open Spec F32

/-- third differences of small codes are small -/
theorem smooth_small {Q : List Int} {M : Nat} (h : ∀ q ∈ Q, |q| ≤ M) : Smooth (8 * M) Q := by
  have hd : ∀ k, |Q.getD k 0| ≤ (M : ℤ) := by
    intro k
    rw [List.getD_eq_getElem?_getD]
    rcases lt_or_ge k Q.length with hk | hk
    · rw [List.getElem?_eq_getElem hk]; exact h _ (List.getElem_mem hk)
    · rw [List.getElem?_eq_none hk]; simp
  intro i hi
  have h0 := abs_le.1 (hd i)
  have h1 := abs_le.1 (hd (i + 1))
  have h2 := abs_le.1 (hd (i + 2))
  have h3 := abs_le.1 (hd (i + 3))
  rw [abs_le]
  push_cast
  constructor <;> linarith

/-- **C112** as stated: a higher level never makes a recording longer -/
def C112_statement : Prop := ∀ (b : Build) (info : StreamInfo) (_ : 0 < info.channels) (L L' : Nat) (_ : L ≤ L') (_ : L' ≤ 10) (calls : List (List F32))
  (_ : Proper info.channels calls) (_ : ∀ pcm ∈ calls, ∀ x ∈ pcm, Unit x) (c c' : AdhocCodec),
  encodeAll b (fresh info L) calls = .ok c → encodeAll b (fresh info L') calls = .ok c' → c'.stream.stream.len ≤ c.stream.stream.len

/-- C112 is false: eight silent samples take 63 bits at level 0, and 75, 72, 70 and 65 at the levels 1 to 4, which store noise instead -/
theorem C112_false : ¬ C112_statement := by
  intro h
  have h0 : (encodeAll .release (fresh ⟨44100, 1⟩ 0) [zeros 8]).map (fun c => c.stream.stream.len) = .ok 63 := by decide +kernel
  have h1 : (encodeAll .release (fresh ⟨44100, 1⟩ 1) [zeros 8]).map (fun c => c.stream.stream.len) = .ok 75 := by decide +kernel
  cases e0 : encodeAll .release (fresh ⟨44100, 1⟩ 0) [zeros 8] with
  | error p => rw [e0] at h0; cases h0
  | ok c =>
    cases e1 : encodeAll .release (fresh ⟨44100, 1⟩ 1) [zeros 8] with
    | error p => rw [e1] at h1; cases h1
    | ok c' =>
      rw [e0] at h0
      rw [e1] at h1
      have h0 : c.stream.stream.len = 63 := Except.ok.inj h0
      have h1 : c'.stream.stream.len = 75 := Except.ok.inj h1
      have := h .release ⟨44100, 1⟩ (by decide) 0 1 (by norm_num) (by norm_num) [zeros 8] zeros_proper (by
        intro pcm hp x hx
        exact ⟨0, zeros_silent pcm hp x hx, by norm_num⟩) c c' e0 e1
      omega

/-- what a level guarantees, for samples that may exceed 1 a little -/
theorem worst_wide (b : Build) (info : StreamInfo) (hn : 0 < info.channels) (L : Nat) (h3 : 3 ≤ L) (hL : L ≤ 10)
    (calls : List (List F32)) (hs : ∀ pcm ∈ calls, pcm.length / info.channels ≤ 131064) (hc : calls ≠ []) (hu : ∀ pcm ∈ calls, ∀ x ∈ pcm, Wide x)
    (c : AdhocCodec) (h : encodeAll b (fresh info L) calls = .ok c) :
    c.stream.stream.len ≤ info.channels * (48 + (21 - L) * ((signal info.channels calls).length - 3)) := by
  obtain ⟨-, hdown⟩ := fresh_up info hL
  have hsm := (C72_compression b info L hn calls hc c h hs).2.1
  obtain ⟨M, hM⟩ : ∃ M, M = 32802 / 2 ^ L + 2 := ⟨_, rfl⟩
  have h1 : (8 * M + 1) / 2 ^ (18 - L) = 1 := by subst hM; interval_cases L <;> rfl
  have := hsm (8 * M) (by
    intro ch hch
    rw [hdown]
    refine smooth_small fun q hq => ?_
    have := (stored_small hL hch hu q hq).2
    generalize |q| = a at *
    subst hM
    interval_cases L <;> norm_num at this ⊢ <;> omega) (18 - L) (by omega) (by omega)
  rw [h1, show 2 + (18 - L) + 1 = 21 - L by omega] at this
  exact this

/-- C112, the true part: what a level guarantees. At level `L` from 3 to 10, however loud and noisy the samples in [-1, 1] are, the recording takes 48 bits for the
first three samples of a channel and at most `21 - L` bits for each further one: one bit less with each level. -/
theorem C112_worst_case_partial (b : Build) (info : StreamInfo) (hn : 0 < info.channels) (L : Nat) (h3 : 3 ≤ L) (hL : L ≤ 10)
    (calls : List (List F32)) (hs : ∀ pcm ∈ calls, pcm.length / info.channels ≤ 131064) (hc : calls ≠ []) (hu : ∀ pcm ∈ calls, ∀ x ∈ pcm, Unit x)
    (c : AdhocCodec) (h : encodeAll b (fresh info L) calls = .ok c) :
    c.stream.stream.len ≤ info.channels * (48 + (21 - L) * ((signal info.channels calls).length - 3)) :=
  worst_wide b info hn L h3 hL calls hs hc (wide_of_unit hu) c h

/-- C112, the true part: at levels 6 to 10 every recording of samples in [-1, 1] has fewer bits than the 16-bit samples. -/
theorem C112_smaller_partial (b : Build) (info : StreamInfo) (hn : 0 < info.channels) (L : Nat) (h6 : 6 ≤ L) (hL : L ≤ 10)
    (calls : List (List F32)) (hs : ∀ pcm ∈ calls, pcm.length / info.channels ≤ 131064) (h3 : 3 < (signal info.channels calls).length)
    (hu : ∀ pcm ∈ calls, ∀ x ∈ pcm, Unit x) (c : AdhocCodec) (h : encodeAll b (fresh info L) calls = .ok c) :
    c.stream.stream.len < 16 * (info.channels * (signal info.channels calls).length) := by
  have hc : calls ≠ [] := by rintro rfl; simp [signal] at h3
  have := C112_worst_case_partial b info hn L (by omega) hL calls hs hc hu c h
  generalize (signal info.channels calls).length = N at *
  obtain ⟨m, rfl⟩ : ∃ m, N = m + 4 := ⟨N - 4, by omega⟩
  rw [show m + 4 - 3 = m + 1 by omega] at this
  calc _ ≤ _ := this
    _ < info.channels * (16 * (m + 4)) := by
      refine Nat.mul_lt_mul_of_pos_left ?_ hn
      have : (21 - L) * (m + 1) ≤ 15 * (m + 1) := Nat.mul_le_mul_right _ (by omega)
      omega
    _ = _ := by ring

/-- a full-scale alternation meets the hypotheses, and comes within a bit per sample of the bounds from level 3 to level 10 -/
example : (∀ pcm ∈ loud, pcm.length / 1 ≤ 131064) ∧ (∀ pcm ∈ loud, ∀ x ∈ pcm, Unit x) ∧ 3 < (signal 1 loud).length ∧
    [3, 4, 5, 6, 7, 8, 9, 10].map (fun L => (encodeAll .release (fresh ⟨44100, 1⟩ L) loud).map fun c => c.stream.stream.len - 48) =
      [17, 16, 15, 14, 13, 12, 11, 10].map .ok :=
  ⟨fun pcm h => (loud_proper.short pcm h).le.trans (by norm_num), unit_all loud (by decide +kernel), by decide +kernel, by decide +kernel⟩

end Adhoc
