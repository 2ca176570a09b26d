import Verif.Props.Format
import Verif.Props.Savings
import Verif.Props.CliLevels

/-! # C123: how large .adhoc files are, and what the tool saves -/

namespace Adhoc
open Spec F32

theorem length_little (w n : Nat) : (little w n).length = w := by simp [little]

theorem length_packed (m : Nat) (bits : List Bool) : (packed m bits).length = m := by simp [packed]

theorem length_flatMap_same {α β : Type} {f : α → List β} {m : Nat} (h : ∀ a, (f a).length = m) (l : List α) : (l.flatMap f).length = m * l.length := by
  induction l with
  | nil => rfl
  | cons a l ih => rw [List.flatMap_cons, List.length_append, ih, h, List.length_cons]; ring

theorem length_history (p : Piece) : (p.history.flatMap littleI16).length = 6 := by
  rw [length_flatMap_same (f := littleI16) (m := 2) fun x => length_little _ _]
  simp [Piece.history]

theorem length_fileOf (info : StreamInfo) (level : Nat) (ps : List Piece) :
    (fileOf info level ps).length = 117 + (ps.length + 1) / 2 + 8 * ((ps.length + 63) / 64) + 16 * ps.length + 16 * chunks ps := by
  unfold fileOf
  simp only [List.length_append, length_little, length_packed, List.length_cons, List.length_nil]
  rw [length_flatMap_same (m := 2) fun p => length_little _ _, length_flatMap_same (m := 8) fun p => length_little _ _,
    length_flatMap_same (m := 6) length_history, List.length_range]
  omega

/-- a frame takes at least as many bits as the number written last -/
theorem lastWidth_le {f : Fr} (h : f.WF) : f.lastWidth ≤ 16 := by
  have := h.exp15
  unfold Fr.lastWidth
  split <;> omega

theorem chunksOf_bounds {fs : List Fr} (h : ∀ f ∈ fs, f.WF) : (bitsOf fs).length ≤ 128 * chunksOf fs ∧ 128 * chunksOf fs ≤ (bitsOf fs).length + 256 := by
  unfold chunksOf
  cases hl : (fs.filter fun f => !f.codes.isEmpty).getLast? with
  | none =>
    have h0 : fs.filter (fun f => !f.codes.isEmpty) = [] := List.getLast?_eq_none_iff.1 hl
    have : bitsOf fs = [] := by
      unfold bitsOf
      rw [List.flatMap_eq_nil_iff]
      intro f hf
      apply Fr.bits_nil
      have := List.filter_eq_nil_iff.1 h0 f hf
      simpa using this
    simp [this]
  | some f =>
    have hf : f ∈ fs := (List.mem_filter.1 (List.mem_of_getLast? hl)).1
    have := lastWidth_le (h f hf)
    dsimp only
    omega

/-- **C123**: the exact size of the file of a recording. `F` frames, one for each call and channel, take 16 bytes each, a nibble and a bit, rounded up to whole bytes and
words; the sound takes 16 bytes for each 128 bits, and up to 32 bytes more; 117 bytes are always there. -/
theorem C123_length (b : Build) (info : StreamInfo) (level : Nat) (hn : 0 < info.channels) (calls : List (List F32)) (c : AdhocCodec)
    (e : encodeAll b (fresh info level) calls = .ok c) :
    ∃ blocks, (file c).length = 117 + (calls.length * info.channels + 1) / 2 + 8 * ((calls.length * info.channels + 63) / 64) +
        16 * (calls.length * info.channels) + 16 * blocks ∧
      c.stream.stream.len ≤ 128 * blocks ∧ 128 * blocks ≤ c.stream.stream.len + 256 := by
  have hfile := C122_file b info level hn calls c e
  obtain ⟨-, blocks, H, HR, -⟩ := recorded_of_ok hn e
  have hps := pieces_flat hn HR
  have hwf := H.wf
  refine ⟨chunksOf (flat info.channels blocks), ?_, ?_⟩
  · rw [hfile, adhocFile, length_fileOf, ← show (fresh info level).invScale = loss level from loss_eq _ level, hps, piece_chunks hwf, List.length_map, length_flat,
      HR.len]
  · rw [BitStream.len, H.bits.cursor]
    exact chunksOf_bounds hwf

/-- **C123**: what the tool guarantees. The .adhoc file of any 16-bit WAV file with at least three blocks of less than 342 channels, at a level `L` from 4 to 10, takes at
most `21 - L` bits for each sample, 133 bits for each channel in each run of 1024 samples, and 1260 bits; and at least 3 bits for each sample of a whole block. -/
theorem C123_tool (b : Build) (bytes : List Byte) (info : StreamInfo) (cells : List ℤ) (hr : ∀ x ∈ cells, -32768 ≤ x ∧ x ≤ 32767)
    (hl : WavCodec.load bytes = .ok (.ok { info := info, pcm := cells.flatMap le16, shortCursor := 0 }))
    (hpos : 0 < info.channels) (hn : info.channels < 342) (h3 : 3 * info.channels ≤ cells.length) (L : Nat) (h4 : 4 ≤ L) (hL : L ≤ 10) :
    ∃ adhoc : Writer, Cli.convertWavToAdhoc b bytes L (some Writer.perfect) = .ok (some adhoc, some ()) ∧
      8 * adhoc.out.length ≤ 1260 + (21 - L) * cells.length + (133 * ((cells.length + (whole info.channels 1024 - 1)) / whole info.channels 1024) + 15) * info.channels ∧
      3 * whole info.channels cells.length ≤ 8 * adhoc.out.length := by
  have hn' : info.channels ≤ 1024 := by omega
  have hp := cliCalls_proper hpos hn h3
  have hwide := wide_cells (n := info.channels) hr
  obtain ⟨c, e, -⟩ := decode_inSync b b info hpos hL (cliCalls info.channels cells) hp fun ch hch => inSync_high h4 hL hch hwide
  have hw := wav_to_adhoc hpos hn' hr hl L Writer.perfect (b := b)
  rw [e] at hw
  have hc : cliCalls info.channels cells ≠ [] := by
    intro h0
    have h1 := congrArg List.length (cliCalls_signal hpos hn' cells)
    rw [h0] at h1
    have : 0 < cells.length / info.channels := Nat.div_pos (by omega) hpos
    simp [signal] at h1
    omega
  have hs : ∀ pcm ∈ cliCalls info.channels cells, pcm.length / info.channels ≤ 131064 := fun pcm h => (hp.short pcm h).le.trans (by norm_num)
  have hub := worst_wide b info hpos L (by omega) hL _ hs hc hwide c e
  have hlb := (C72_compression b info L hpos _ hc c e hs).1
  obtain ⟨blocks, f1, f2, f3⟩ := C123_length b info L hpos _ c e
  refine ⟨_, hw, ?_⟩
  rw [show ((c.saveTo Writer.perfect).1.out) = file c from rfl, f1]
  rw [cliCalls_signal hpos hn', length_blocksOf, List.length_map] at hub hlb
  have hcalls : (cliCalls info.channels cells).length = (cells.length + (whole info.channels 1024 - 1)) / whole info.channels 1024 := by
    rw [cliCalls_eq, length_pieces, List.length_map, whole]
  rw [hcalls]
  unfold whole at *
  generalize (cells.length + (1024 / info.channels * info.channels - 1)) / (1024 / info.channels * info.channels) = F
  generalize c.stream.stream.len = B at *
  have hN : 3 ≤ cells.length / info.channels := (Nat.le_div_iff_mul_le hpos).2 h3
  have hW : cells.length / info.channels * info.channels ≤ cells.length := Nat.div_mul_le_self _ _
  generalize cells.length / info.channels = N at *
  obtain ⟨m, rfl⟩ : ∃ m, N = m + 3 := ⟨N - 3, by omega⟩
  rw [Nat.add_sub_cancel] at hub hlb
  obtain ⟨k, hk⟩ : ∃ k, 21 - L = k := ⟨_, rfl⟩
  rw [hk] at hub ⊢
  have hk11 : 11 ≤ k := by omega
  have key : info.channels * (48 + k * m) ≤ k * cells.length + 15 * info.channels := by
    have h1 : k * ((m + 3) * info.channels) ≤ k * cells.length := Nat.mul_le_mul_left _ hW
    have h2 : 11 * info.channels ≤ k * info.channels := Nat.mul_le_mul_right _ hk11
    nlinarith
  generalize hFn : F * info.channels = G
  have e1 : (133 * F + 15) * info.channels = 133 * G + 15 * info.channels := by rw [← hFn]; ring
  have e2 : info.channels * (48 + 3 * m) = 39 * info.channels + 3 * ((m + 3) * info.channels) := by ring
  rw [e1]
  rw [e2] at hlb
  constructor <;> omega

/-- **C123**: with one or two channels and at least 2200 samples, the file is smaller than the samples alone at levels 6 to 10, and with at least 6000 samples it
saves 28 percent of them at level 10. No file saves more than 81.25 percent of the samples. -/
theorem C123_smaller (b : Build) (bytes : List Byte) (info : StreamInfo) (cells : List ℤ) (hr : ∀ x ∈ cells, -32768 ≤ x ∧ x ≤ 32767)
    (hl : WavCodec.load bytes = .ok (.ok { info := info, pcm := cells.flatMap le16, shortCursor := 0 }))
    (hpos : 0 < info.channels) (hn : info.channels ≤ 2) (h3 : 2200 ≤ cells.length) (L : Nat) (h6 : 6 ≤ L) (hL : L ≤ 10) :
    ∃ adhoc : Writer, Cli.convertWavToAdhoc b bytes L (some Writer.perfect) = .ok (some adhoc, some ()) ∧
      adhoc.out.length < 2 * cells.length ∧
      (L = 10 → 6000 ≤ cells.length → 100 * adhoc.out.length ≤ 72 * (2 * cells.length)) ∧
      3 * (2 * whole info.channels cells.length) ≤ 16 * adhoc.out.length := by
  obtain ⟨w, e, h1, h2⟩ := C123_tool b bytes info cells hr hl hpos (by omega) (by omega) L (by omega) hL
  refine ⟨w, e, ?_⟩
  have h1024 : whole info.channels 1024 = 1024 := by
    unfold whole
    generalize info.channels = n at *
    interval_cases n <;> rfl
  rw [h1024] at h1
  generalize whole info.channels cells.length = W at *
  generalize info.channels = n at *
  generalize cells.length = K at *
  generalize w.out.length = B at *
  have hk : (21 - L) * K ≤ 15 * K := Nat.mul_le_mul_right _ (by omega)
  refine ⟨?_, ?_, by omega⟩
  · interval_cases n <;> omega
  · rintro rfl h
    interval_cases n <;> omega

/-- five samples in two calls at level 3: 68 bits of sound in two blocks, 190 bytes in all -/
example : ∃ c, encodeAll .release (fresh { sampleRate := 8000, channels := 1 } 3)
      [[F32.ofRat (1 / 2), F32.ofRat (1 / 4), F32.ofInt 0, F32.ofRat (-1 / 4)], [F32.ofInt 1]] = .ok c ∧
    (file c).length = 117 + (2 * 1 + 1) / 2 + 8 * ((2 * 1 + 63) / 64) + 16 * (2 * 1) + 16 * 2 := by
  obtain ⟨c, -, h, -⟩ := encodeAll_calls (b := .release) (info := { sampleRate := 8000, channels := 1 }) (by simp) 3
    [[F32.ofRat (1 / 2), F32.ofRat (1 / 4), F32.ofInt 0, F32.ofRat (-1 / 4)], [F32.ofInt 1]] (by simp) (.inl rfl)
  refine ⟨c, h, ?_⟩
  rw [C122_file _ _ _ (by simp) _ _ h]
  decide +kernel

/-- 6000 samples that jump between the extremes -/
def jumpy : List ℤ := (List.range 6000).map fun i => if i % 3 = 0 then -32768 else 32767

/-- a stereo file with these samples meets the hypotheses of both -/
example : (∃ bytes, WavCodec.load bytes = .ok (.ok { info := { sampleRate := 44100, channels := 2 }, pcm := jumpy.flatMap le16, shortCursor := 0 })) ∧
    jumpy.length = 6000 ∧ ∀ x ∈ jumpy, -32768 ≤ x ∧ x ≤ 32767 := by
  have hj : jumpy.length = 6000 := by rw [jumpy, List.length_map, List.length_range]
  have hlen : (jumpy.flatMap le16).length = 12000 := by rw [length_le16, hj]
  have hr : ∀ x ∈ jumpy, -32768 ≤ x ∧ x ≤ 32767 := by
    intro x hx
    unfold jumpy at hx
    generalize 6000 = n at hx
    obtain ⟨i, -, rfl⟩ := List.mem_map.1 hx
    split <;> norm_num
  generalize jumpy = cells at *
  obtain ⟨dst, -, h⟩ := C33_save_load_partial .release { info := { sampleRate := 44100, channels := 2 }, pcm := cells.flatMap le16, shortCursor := 0 }
    ⟨by norm_num, by norm_num, by norm_num, by rw [hlen]; norm_num⟩ (by rw [hlen]; norm_num) (by rw [hlen]; norm_num)
  exact ⟨⟨_, h⟩, hj, hr⟩

end Adhoc
