import Verif.Props.SeekFile
import Verif.Props.Seek

/-! # C156: seeks so far behind the end that the number of samples has more than 64 bits -/

namespace Adhoc
open Spec F32

/-- the number of samples, over all channels, that a time amounts to -/
def Spec.samplesUntil (info : StreamInfo) (ms : Nat) : Nat := AdhocCodec.seekOffset info ms * info.channels

/-- C156 as stated: in a release build, every time but the start that is behind the end of a recording is refused -/
def C156_statement : Prop :=
  ∀ (info : StreamInfo) (level : Nat) (calls : List (List F32)) (c : AdhocCodec), 0 < info.channels →
    encodeAll .release (fresh info level) calls = .ok c → ∀ ms, ms ≠ 0 → ms < 2 ^ 64 →
    (signal info.channels calls).length < AdhocCodec.seekOffset info ms → ∃ p, c.seek .release (.start ms) = .error p

/-- C156, for every codec in every state: what a seek in a release build does depends on the number of samples modulo 2^64 only. -/
theorem C156_modulo_partial (c : AdhocCodec) (info : StreamInfo) (hi : c.stream.info = some info) (ms ms' : Nat) (h0 : ms ≠ 0) (h0' : ms' ≠ 0)
    (h : samplesUntil info ms % 2 ^ 64 = samplesUntil info ms' % 2 ^ 64) : c.seek .release (.start ms) = c.seek .release (.start ms') := by
  unfold AdhocCodec.seek
  rw [hi]
  simp only [expect, bind_ok]
  rw [if_neg h0, if_neg h0']
  unfold AdhocCodec.seekTo
  dsimp only
  rw [chkU_release, chkU_release]
  unfold samplesUntil at h
  rw [h]

/-- C156, for every codec in every state: a debug build notices it. -/
theorem C156_debug_partial (c : AdhocCodec) (info : StreamInfo) (hi : c.stream.info = some info) (ms : Nat) (h0 : ms ≠ 0) (h : 2 ^ 64 ≤ samplesUntil info ms) :
    c.seek .debug (.start ms) = .error .overflow := by
  unfold AdhocCodec.seek
  rw [hi]
  simp only [expect, bind_ok]
  rw [if_neg h0]
  unfold AdhocCodec.seekTo
  dsimp only
  unfold samplesUntil at h
  have : chkU .debug 64 ((AdhocCodec.seekOffset info ms * info.channels : Nat) : Int) = .error .overflow := by
    unfold chkU
    rw [if_neg (by rintro ⟨-, h'⟩; have : AdhocCodec.seekOffset info ms * info.channels < 2 ^ 64 := by exact_mod_cast h'
                   omega)]
  rw [this]
  rfl

/-- C156: it takes a product of rate, time and channels of 2^73 or more, and two channels. -/
theorem C156_when_partial (info : StreamInfo) (hR : info.sampleRate < 2 ^ 32) (hC : info.channels < 2 ^ 32) (ms : Nat) (hms : ms ≤ 2 ^ 64)
    (h : 2 ^ 64 ≤ samplesUntil info ms) : 2 ^ 73 ≤ info.sampleRate * ms * info.channels ∧ 2 ≤ info.channels := by
  unfold samplesUntil at h
  constructor
  · by_contra hlt
    push Not at hlt
    have hb := (C14_seek_time_partial info hR).2.1 ms hms
    generalize AdhocCodec.seekOffset info ms = off at h hb
    rw [abs_le] at hb
    have h1 : (off : ℚ) ≤ (info.sampleRate : ℚ) * ms / 1000 + (1 + info.sampleRate * ms / 1000 / 2 ^ 21) := by
      have := min_le_right ((2 : ℚ) ^ 64 - 1) ((info.sampleRate : ℚ) * ms / 1000)
      linarith [hb.2]
    have h2 : (2 : ℚ) ^ 64 ≤ off * info.channels := by exact_mod_cast h
    have h3 : (info.sampleRate : ℚ) * ms * info.channels < 2 ^ 73 := by exact_mod_cast hlt
    have h4 : (info.channels : ℚ) < 2 ^ 32 := by exact_mod_cast hC
    have h5 : (off : ℚ) * info.channels ≤ ((info.sampleRate : ℚ) * ms / 1000 + (1 + info.sampleRate * ms / 1000 / 2 ^ 21)) * info.channels :=
      mul_le_mul_of_nonneg_right h1 (by positivity)
    have h6 : ((info.sampleRate : ℚ) * ms / 1000 + (1 + info.sampleRate * ms / 1000 / 2 ^ 21)) * info.channels =
        (info.sampleRate : ℚ) * ms * info.channels * (1 / 1000 + 1 / 1000 / 2 ^ 21) + info.channels := by ring
    rw [h6] at h5
    generalize (info.sampleRate : ℚ) * ms * info.channels = y at h3 h5
    norm_num at h2 h3 h5
    linarith
  · by_contra hlt
    have hsat : AdhocCodec.seekOffset info ms < 2 ^ 64 := by
      have := (adhoc_seekOffset hR)
      obtain ⟨s, -, ha, -, -⟩ := this
      have h1 := ha ms hms
      have h2 : ((AdhocCodec.seekOffset info ms : ℕ) : ℤ) ≤ 2 ^ 64 - 1 := by rw [h1]; exact min_le_left _ _
      omega
    have : AdhocCodec.seekOffset info ms * info.channels ≤ AdhocCodec.seekOffset info ms * 1 := Nat.mul_le_mul_left _ (by omega)
    omega

theorem frameRows_recording {hd : FrameHeaders} {n i : Nat} (hn : 0 < n) {blocks : List (Nat → Fr)} (hl : IsLog hd (hdrs 0 (flat n blocks)) i)
    (hsh : Short blocks) : frameRows hd n = sizesOf blocks := by
  have hlen : hd.divisorExpList.nibbleCount / n = blocks.length := by
    have := hl.len
    rw [show hd.len = hd.divisorExpList.nibbleCount from rfl] at this
    rw [this]
    simp only [length_hdrs, length_flat]
    exact Nat.mul_div_cancel _ hn
  unfold frameRows sizesOf
  rw [hlen]
  refine List.ext_getElem (by simp) fun j h1 h2 => ?_
  simp only [List.getElem_map, List.getElem_range]
  have hj : j < blocks.length := by simpa using h2
  have hlt : j * n + 0 < (flat n blocks).length := by
    rw [length_flat]
    exact Nat.mul_lt_mul_of_pos_right hj hn
  have hg := flat_getElem blocks hj hn hlt
  simp only [Nat.add_zero] at hg hlt
  rw [hl.sizes, List.getD_eq_getElem?_getD, List.getElem?_map, hdrs_getElem?, List.getElem?_eq_getElem (by simpa using hlt), hg]
  exact Nat.mod_eq_of_lt (hsh _ (List.getElem_mem hj))

/-- C156, exactly, for every recording in a release build: which times are refused. -/
theorem C156_exactly_partial (b : Build) (info : StreamInfo) (level : Nat) (calls : List (List F32)) (c : AdhocCodec) (hn : 0 < info.channels)
    (h : encodeAll b (fresh info level) calls = .ok c) (hshort : ∀ pcm ∈ calls, pcm.length / info.channels < 65536) (hc : info.channels < 2 ^ 32)
    (hf : calls.length * info.channels < 2 ^ 32) (ms : Nat) :
    (ms = 0 ∨ calls ≠ [] ∧ samplesUntil info ms % 2 ^ 64 ≤ (signal info.channels calls).length * info.channels →
      ∃ c', c.seek .release (.start ms) = .ok c') ∧
    (¬ (ms = 0 ∨ calls ≠ [] ∧ samplesUntil info ms % 2 ^ 64 ≤ (signal info.channels calls).length * info.channels) →
      c.seek .release (.start ms) = .error .expect) := by
  obtain ⟨-, blocks, H, HR, -⟩ := recorded_of_ok hn h
  have hsh := HR.short hn hshort
  have hrows := frameRows_recording hn H.log hsh
  have hlen : c.frameHeaderList.len = calls.length * info.channels := by
    rw [H.log.len, length_hdrs, length_flat, HR.len]
  have R : Rolling c.frameHeaderList c.init info := by
    refine ⟨⟨H.hinfo, hn, by simpa [AdhocCodec.init] using H.chans, by show 0 / 128 ≤ _; simp, ⟨?_, ?_, ?_⟩, ?_⟩, rfl, inside_recording hn h⟩
    · show c.frameHeaderList.len ≤ c.frameHeaderList.frameSizeList.length
      rw [H.log.len, H.log.sizes]; simp
    · show c.frameHeaderList.len ≤ c.frameHeaderList.bitCursorList.length
      rw [H.log.len, H.log.cursors]; simp
    · show c.frameHeaderList.len ≤ c.frameHeaderList.stackHistoryList.length
      rw [H.log.len, H.log.hist]; simp
    · intro fc hfc
      obtain ⟨fc', -, rfl⟩ := List.mem_map.1 (show fc ∈ c.channelStateList.map FrameCodec.init from hfc)
      simp [FrameCodec.init]
  have hs := seek_any R hc (by rw [hlen]; exact hf) (by
    intro x hx
    rw [H.log.sizes] at hx
    obtain ⟨y, hy, rfl⟩ := List.mem_map.1 hx
    obtain ⟨i, hi⟩ := List.mem_iff_getElem?.1 hy
    rw [hdrs_getElem?] at hi
    obtain ⟨f, -, rfl⟩ := Option.map_eq_some_iff.1 hi
    exact Nat.mod_lt _ (by norm_num)) ms
  have hseek : c.init.seek .release (.start ms) = c.seek .release (.start ms) := by
    unfold AdhocCodec.seek
    have : c.init.init = c.init := by
      simp [AdhocCodec.init, FrameCodec.init, BitStream.seekStart, FrameHeaders.reset]
    rw [this]
    rfl
  rw [hseek] at hs
  have hin : InFile c.frameHeaderList info ms ↔
      (ms = 0 ∨ calls ≠ [] ∧ samplesUntil info ms % 2 ^ 64 ≤ (signal info.channels calls).length * info.channels) := by
    unfold InFile samplesUntil
    rw [hrows, ← rowsIn_eq_sum, HR.rows hn]
    have : sizesOf blocks ≠ [] ↔ calls ≠ [] := by
      rw [← List.length_pos_iff, ← List.length_pos_iff, ← HR.len]
      simp [sizesOf]
    rw [this]
  rw [hin] at hs
  exact ⟨fun h => (hs.1 h).imp fun _ h => h.1, hs.2⟩

/-- two channels at 1000 Hz: six blocks are recorded, and 2^63 ms amount to 2^64 samples; a debug build notices it, a release build goes to the start -/
example : samplesUntil { sampleRate := 1000, channels := 2 } (2 ^ 63) = 2 ^ 64 ∧ (signal 2 demo).length = 6 ∧
    (match encodeAll .release (fresh { sampleRate := 1000, channels := 2 } 0) demo with
      | .ok c => (match c.seek .debug (.start (2 ^ 63)), c.seek .release (.start (2 ^ 63)), c.seek .release (.start 7), c.seek .release (.start 6) with
        | .error .overflow, .ok _, .error .expect, .ok _ => true
        | _, _, _, _ => false)
      | .error _ => false) = true := by decide +kernel

/-- C156 does not hold as stated: with two channels at 1000 Hz, 2^63 ms are taken for the start. -/
theorem C156_false : ¬ C156_statement := by
  intro hall
  have h : (match encodeAll .release (fresh { sampleRate := 1000, channels := 2 } 0) demo with
      | .ok c => (match c.seek .release (.start (2 ^ 63)) with | .ok _ => true | .error _ => false)
      | .error _ => false) = true := by decide +kernel
  split at h
  · rename_i c hc
    obtain ⟨p, hp⟩ := hall _ 0 demo c (by decide) hc (2 ^ 63) (by decide) (by decide) (by decide +kernel)
    rw [hp] at h
    cases h
  · cases h

end Adhoc
