import Verif.Proofs.Wav
import Verif.Props.Seek

/-! # C22, C34, C40–C43: WavCodec as a tape -/

namespace Adhoc
open Spec

/-! ## C34 -/

theorem isReel_new (info : StreamInfo) : IsReel (WavCodec.new info) ⟨[], 0⟩ := ⟨rfl, by simp, rfl, by simp⟩

/-- C34 is false for a codec loaded from a file that ends in half a sample: encoding at the end writes across the half sample.
Here the codec holds one byte, a sample is encoded at the end, and decoding from the same place gives another one. -/
theorem C34_false : ¬ ∀ (w w' : WavCodec) (x : F32) (r : Option Nat), w.info.channels = 1 → w.shortCursor = w.numSamples →
    w.encode [x] = .ok (w', r) →
    (WavCodec.decode { w' with shortCursor := w.shortCursor } [F32.ofInt 0]).map (·.2) = .ok ([normalizeSample (truncateSample x)], some 1) := by
  intro h
  have := h { info := { sampleRate := 8000, channels := 1 }, pcm := [0#8], shortCursor := 0 }
    { info := { sampleRate := 8000, channels := 1 }, pcm := [0#8, 255#8, 127#8], shortCursor := 1 } (F32.ofInt 1) (some 1)
    rfl rfl (by decide +kernel)
  revert this
  decide +kernel

/-- C34: a codec that is a tape (`IsReel`: its bytes are the cells, little-endian, and its cursor is the position) behaves like the tape in
every sequence of encode and decode calls, never panics, and is the tape afterwards. `C34_codecs` says that every codec with whole samples
is a tape. Missing: codecs loaded from a file that ends in half a sample, for which the claim is false. -/
theorem C34_tape_partial (w : WavCodec) (t : Reel) (H : IsReel w t) (hn : 0 < w.info.channels) (ops : List WavOp) :
    ∃ w', wavRun w ops = .ok (w', (reelRun w.info.channels t ops).2) ∧ w'.info = w.info ∧ IsReel w' (reelRun w.info.channels t ops).1 :=
  wavRun_ok ops H hn

/-- new codecs are empty tapes, and every codec with whole samples and its cursor inside is a tape -/
theorem C34_codecs : (∀ info, IsReel (WavCodec.new info) ⟨[], 0⟩) ∧
    ∀ w : WavCodec, w.pcm.length % 2 = 0 → w.shortCursor ≤ w.numSamples →
      ∃ t, IsReel w t ∧ t.cells.length = w.numSamples ∧ t.pos = w.shortCursor := by
  refine ⟨isReel_new, fun w h hc => ?_⟩
  obtain ⟨t, H⟩ := isReel_exists h hc
  exact ⟨t, H, H.samples.symm, H.pos.symm⟩

/-- a stereo tape: half a block is dropped, reading at the end gives nothing -/
example : (wavRun (WavCodec.new { sampleRate := 8000, channels := 2 })
    [.encode [F32.ofInt 1, F32.ofInt (-1), F32.ofInt 0], .decode [F32.ofInt 0, F32.ofInt 0]]).map (fun r => (r.1.pcm, r.2.map (·.2))) =
    .ok ([255#8, 127#8, 1#8, 128#8], [some 2, none]) := by decide +kernel

/-! ## C22 -/

/-- C22 for WavCodec: `encode` returns the number of samples it moved the cursor by and wrote: the whole blocks of the buffer. -/
theorem C22_wav_partial (w : WavCodec) (t : Reel) (H : IsReel w t) (hn : 0 < w.info.channels) (xs : List F32) :
    ∃ w' k, w.encode xs = .ok (w', some k) ∧ k = xs.length / w.info.channels * w.info.channels ∧
      w'.shortCursor = w.shortCursor + k ∧ IsReel w' (t.put ((xs.take k).map truncateSample)) := by
  obtain ⟨w', e, -, H'⟩ := wavEncode_ok H hn xs
  refine ⟨w', _, e, rfl, ?_, H'⟩
  have h1 := H'.pos
  have h2 := H.pos
  have h3 : whole w.info.channels xs.length ≤ xs.length := Nat.div_mul_le_self _ _
  rw [h1, h2]
  simp [Reel.put]; omega

/-- a stereo call of three samples reports two -/
example : ((WavCodec.new { sampleRate := 8000, channels := 2 }).encode [F32.ofInt 1, F32.ofInt (-1), F32.ofInt 0]).map (·.2) = .ok (some 2) := by
  decide +kernel

/-! ## C40 -/

/-- a codec with six stereo samples -/
def six : WavCodec := { info := { sampleRate := 1000, channels := 2 }, pcm := List.replicate 12 1#8, shortCursor := 1 }

/-- C40 is false for extreme times: the multiplication with the number of channels overflows and the seek goes to the start
(a debug build panics). -/
theorem C40_false : ¬ ∀ (w : WavCodec) (ms : Nat), ms < 2 ^ 64 → 0 < w.info.channels → 0 < w.numSamples →
    ∃ w', w.seek .release (.start ms) = .ok w' ∧
      (w'.shortCursor : Int) = min (WavCodec.seekOffset w.info ms * w.info.channels) ((w.numSamples : Int) - 1) := by
  intro h
  obtain ⟨w', e, h1⟩ := h six (2 ^ 64 - 1) (by norm_num) (by simp [six]) (by simp [six, WavCodec.numSamples])
  have k1 : six.seek .release (.start (2 ^ 64 - 1)) = .ok { six with shortCursor := 0 } := by decide +kernel
  have k2 : min (WavCodec.seekOffset six.info ((2 ^ 64 - 1 : Nat) : Int) * six.info.channels) ((six.numSamples : Int) - 1) = 5 := by decide +kernel
  rw [k2] at h1
  rw [k1] at e
  cases e
  cases h1

theorem clamp_inside {x hi : Int} (h : 0 ≤ hi) : clampI x 0 hi = .ok (max 0 (min x hi)) := by
  unfold clampI
  rw [if_neg (by omega)]
  congr 1
  split
  · omega
  · split <;> omega

theorem chkI_release (n : Nat) (x : Int) : ∃ y, chkI .release n x = .ok y := by
  unfold chkI
  split
  · exact ⟨_, rfl⟩
  · exact ⟨_, rfl⟩

theorem inI64 {x : Int} (h : |x| < 2 ^ 63) : InI 64 x := by
  rw [abs_lt] at h
  unfold InI
  norm_num at h ⊢
  omega

/-- C40, on every stream that is not empty: as long as the i64 arithmetic does not overflow, `Start` goes to block(ms) or to the last sample,
and `Current` moves by block(ms) blocks from the current block, limited to the stream; and in release builds every seek whatsoever succeeds
and leaves the cursor inside the stream, changing nothing else. Missing: times for which the arithmetic overflows, where the claim is false. -/
theorem C40_seek_partial (b : Build) (w : WavCodec) (hn : 0 < w.info.channels) (hne : 0 < w.numSamples) :
    (∀ ms : Nat, |WavCodec.seekOffset w.info ms * w.info.channels| < 2 ^ 63 → ∃ w', w.seek b (.start ms) = .ok w' ∧
      (w'.shortCursor : Int) = max 0 (min (WavCodec.seekOffset w.info ms * w.info.channels) (w.numSamples - 1))) ∧
    (∀ ms : Int, |WavCodec.seekOffset w.info ms * w.info.channels| < 2 ^ 63 →
      |(w.shortCursor / w.info.channels + WavCodec.seekOffset w.info ms) * w.info.channels| < 2 ^ 63 →
      ∃ w', w.seek b (.current ms) = .ok w' ∧
      (w'.shortCursor : Int) =
        max 0 (min ((w.shortCursor / w.info.channels + WavCodec.seekOffset w.info ms) * w.info.channels) (w.numSamples - 1))) ∧
    (∀ dt, ∃ w', w.seek .release dt = .ok w') ∧
    (∀ dt w', w.seek b dt = .ok w' → w' = { w with shortCursor := w'.shortCursor } ∧ w'.shortCursor < w.numSamples) := by
  have hhi : (0 : Int) ≤ (w.numSamples : Int) - 1 := by omega
  refine ⟨?_, ?_, ?_, ?_⟩
  · intro ms h
    unfold WavCodec.seek
    dsimp only
    rw [chkI_of (inI64 h), bind_ok, clamp_inside hhi, bind_ok]
    exact ⟨_, rfl, by simp only; omega⟩
  · intro ms h h'
    unfold WavCodec.seek
    dsimp only
    rw [udiv_of_pos hn, bind_ok, chkI_of (inI64 h), bind_ok]
    rw [Int.add_mul] at h' ⊢
    rw [chkI_of (inI64 (by push_cast; exact h')), bind_ok, clamp_inside hhi, bind_ok]
    exact ⟨_, rfl, by push_cast; omega⟩
  · intro dt
    unfold WavCodec.seek
    cases dt with
    | start ms =>
      obtain ⟨y, e⟩ := chkI_release 64 (WavCodec.seekOffset w.info ms * w.info.channels)
      dsimp only
      rw [e, bind_ok, clamp_inside hhi, bind_ok]
      exact ⟨_, rfl⟩
    | current ms =>
      dsimp only
      obtain ⟨y, e⟩ := chkI_release 64 (WavCodec.seekOffset w.info ms * w.info.channels)
      obtain ⟨z, e'⟩ := chkI_release 64 (((w.shortCursor / w.info.channels : Nat) : Int) * w.info.channels + y)
      rw [udiv_of_pos hn, bind_ok, e, bind_ok, e', bind_ok, clamp_inside hhi, bind_ok]
      exact ⟨_, rfl⟩
    | «end» ms =>
      dsimp only
      obtain ⟨y, e⟩ := chkI_release 64 (WavCodec.seekOffset w.info ms * w.info.channels)
      obtain ⟨z, e'⟩ := chkI_release 64 ((w.numSamples : Int) - w.numSamples + y)
      rw [e, bind_ok, e', bind_ok, clamp_inside hhi, bind_ok]
      exact ⟨_, rfl⟩
  · intro dt w' h
    unfold WavCodec.seek at h
    cases dt with
    | start ms =>
      dsimp only at h
      obtain ⟨y, -, h⟩ := bind_eq_ok.1 h
      rw [clamp_inside hhi, bind_ok] at h
      cases h
      exact ⟨rfl, by simp only; omega⟩
    | current ms =>
      dsimp only at h
      obtain ⟨q, -, h⟩ := bind_eq_ok.1 h
      obtain ⟨y, -, h⟩ := bind_eq_ok.1 h
      obtain ⟨z, -, h⟩ := bind_eq_ok.1 h
      rw [clamp_inside hhi, bind_ok] at h
      cases h
      exact ⟨rfl, by simp only; omega⟩
    | «end» ms =>
      dsimp only at h
      obtain ⟨y, -, h⟩ := bind_eq_ok.1 h
      obtain ⟨z, -, h⟩ := bind_eq_ok.1 h
      rw [clamp_inside hhi, bind_ok] at h
      cases h
      exact ⟨rfl, by simp only; omega⟩

/-- two milliseconds of `six` are four samples; one back from the second block is the first -/
example : (six.seek .debug (.start 2)).map (·.shortCursor) = .ok 4 ∧ (six.seek .debug (.start 7)).map (·.shortCursor) = .ok 5 ∧
    (WavCodec.seek .debug { six with shortCursor := 3 } (.current (-1))).map (·.shortCursor) = .ok 0 ∧
    |WavCodec.seekOffset six.info 2 * six.info.channels| < 2 ^ 63 := by decide +kernel

/-! ## C41 -/

/-- C41 is false: `End(0)` goes to the start. -/
theorem C41_false : ¬ ∀ (w : WavCodec) (w' : WavCodec), w.seek .release (.end 0) = .ok w' →
    w'.shortCursor = w.numSamples ∨ w'.shortCursor + 1 = w.numSamples := by
  intro h
  have := h six { six with shortCursor := 0 } (by decide +kernel)
  revert this
  decide +kernel

/-- C41, what is true: `End(ms)` is `Start(ms)`, and on a stream that is not empty `End(-ms)` goes to the start (as long as the arithmetic
does not overflow). Missing: the claim, which is false. -/
theorem C41_end_partial (b : Build) (w : WavCodec) :
    (∀ ms : Nat, w.seek b (.end ms) = w.seek b (.start ms)) ∧
    (∀ ms : Int, 0 < w.numSamples → WavCodec.seekOffset w.info ms ≤ 0 → |WavCodec.seekOffset w.info ms * w.info.channels| < 2 ^ 63 →
      w.seek b (.end ms) = .ok { w with shortCursor := 0 }) := by
  have hc : ∀ x y : Int, chkI b 64 x = .ok y → chkI b 64 y = .ok y := by
    intro x y h
    unfold chkI at h
    split at h
    · cases h; exact chkI_of (by assumption)
    · cases b
      · cases h
      · cases h
        refine chkI_of ?_
        have h1 := Int.le_bmod (x := x) (m := 2 ^ 64) (by norm_num)
        have h2 := Int.bmod_lt (x := x) (m := 2 ^ 64) (by norm_num)
        unfold InI
        norm_num at h1 h2 ⊢
        omega
  constructor
  · intro ms
    unfold WavCodec.seek
    dsimp only
    rcases e : chkI b 64 (WavCodec.seekOffset w.info ms * w.info.channels) with p | y
    · rfl
    · rw [bind_ok, bind_ok, sub_self, zero_add, hc _ _ e, bind_ok]
  · intro ms hne hs h
    unfold WavCodec.seek
    dsimp only
    rw [chkI_of (inI64 h), bind_ok, sub_self, zero_add, chkI_of (inI64 h), bind_ok, clamp_inside (by omega), bind_ok]
    have : WavCodec.seekOffset w.info ms * w.info.channels ≤ 0 := Int.mul_nonpos_of_nonpos_of_nonneg hs (by positivity)
    have : max 0 (min (WavCodec.seekOffset w.info ms * w.info.channels) ((w.numSamples : Int) - 1)) = 0 := by omega
    rw [this]
    rfl

/-- both parts apply to `six` -/
example : WavCodec.seekOffset six.info (-2) = -2 ∧ (six.seek .debug (.end (-2))).map (·.shortCursor) = .ok 0 ∧
    (six.seek .debug (.end 1)).map (·.shortCursor) = .ok 2 := by decide +kernel

/-! ## C42 -/

/-- C42 is false: seeking in a new codec panics. -/
theorem C42_false : ¬ ∀ (info : StreamInfo) (dt : SeekFrom), 0 < info.channels → ∃ w', (WavCodec.new info).seek .release dt = .ok w' := by
  intro h
  obtain ⟨w', e⟩ := h { sampleRate := 8000, channels := 1 } (.start 0) (by simp)
  have : (WavCodec.new { sampleRate := 8000, channels := 1 }).seek .release (.start 0) = .error .clampAssert := by decide +kernel
  rw [this] at e
  cases e

/-- C42, exactly: a seek panics on every stream without samples and every argument, in both builds; in release builds it is always the
assertion of `clamp` (given a channel). In release builds it panics on no other stream, by C40. Missing: the claim, which is false. -/
theorem C42_empty_partial (b : Build) (w : WavCodec) (h0 : w.numSamples = 0) (dt : SeekFrom) :
    (∃ p, w.seek b dt = .error p) ∧ (0 < w.info.channels → w.seek .release dt = .error .clampAssert) := by
  have hcl : ∀ x : Int, clampI x 0 ((w.numSamples : Int) - 1) = .error .clampAssert := by
    intro x
    unfold clampI
    rw [h0, if_pos (by norm_num)]
  constructor
  · rcases e : w.seek b dt with p | w'
    · exact ⟨p, rfl⟩
    · exfalso
      unfold WavCodec.seek at e
      cases dt with
      | start ms =>
        dsimp only at e
        obtain ⟨y, -, e⟩ := bind_eq_ok.1 e
        rw [hcl] at e; cases e
      | current ms =>
        dsimp only at e
        obtain ⟨q, -, e⟩ := bind_eq_ok.1 e
        obtain ⟨y, -, e⟩ := bind_eq_ok.1 e
        obtain ⟨z, -, e⟩ := bind_eq_ok.1 e
        rw [hcl] at e; cases e
      | «end» ms =>
        dsimp only at e
        obtain ⟨y, -, e⟩ := bind_eq_ok.1 e
        obtain ⟨z, -, e⟩ := bind_eq_ok.1 e
        rw [hcl] at e; cases e
  · intro hn
    unfold WavCodec.seek
    cases dt with
    | start ms =>
      obtain ⟨y, e⟩ := chkI_release 64 (WavCodec.seekOffset w.info ms * w.info.channels)
      dsimp only
      rw [e, bind_ok, hcl]
      rfl
    | current ms =>
      dsimp only
      obtain ⟨y, e⟩ := chkI_release 64 (WavCodec.seekOffset w.info ms * w.info.channels)
      obtain ⟨z, e'⟩ := chkI_release 64 (((w.shortCursor / w.info.channels : Nat) : Int) * w.info.channels + y)
      rw [udiv_of_pos hn, bind_ok, e, bind_ok, e', bind_ok, hcl]
      rfl
    | «end» ms =>
      dsimp only
      obtain ⟨y, e⟩ := chkI_release 64 (WavCodec.seekOffset w.info ms * w.info.channels)
      obtain ⟨z, e'⟩ := chkI_release 64 ((w.numSamples : Int) - w.numSamples + y)
      rw [e, bind_ok, e', bind_ok, hcl]
      rfl

/-- a new codec has no samples -/
example : (WavCodec.new { sampleRate := 8000, channels := 1 }).numSamples = 0 := by decide +kernel

/-! ## C43 -/

/-- C43 is false: after seeking behind the end of a stereo stream, decode delivers half a block. -/
theorem C43_false : ¬ ∀ (w w' : WavCodec) (ms : Nat) (buf : List F32) (r : WavCodec × List F32 × Option Nat), w.info.channels ∣ w.numSamples →
    w.seek .release (.start ms) = .ok w' → w'.decode buf = .ok r → w.info.channels ∣ r.2.2.getD 0 := by
  intro h
  have := h six { six with shortCursor := 5 } 7 [F32.ofInt 0, F32.ofInt 0]
    ({ six with shortCursor := 6 }, [normalizeSample 257, F32.ofInt 0], some 1) (by decide +kernel) (by decide +kernel) (by decide +kernel)
  revert this
  decide +kernel

namespace Spec

/-- whole blocks, and the cursor between two of them -/
structure Aligned (w : WavCodec) : Prop where
  bytes : w.pcm.length % 2 = 0
  blocks : w.info.channels ∣ w.numSamples
  cursor : w.info.channels ∣ w.shortCursor
  inside : w.shortCursor ≤ w.numSamples

end Spec

theorem dvd_whole (n len : Nat) : n ∣ whole n len := ⟨len / n, Nat.mul_comm _ _⟩

theorem reelRun_aligned {n : Nat} : ∀ (ops : List WavOp) {t : Reel} (_ : t.pos ≤ t.cells.length) (_ : n ∣ t.cells.length) (_ : n ∣ t.pos),
    (∀ r ∈ (reelRun n t ops).2, n ∣ r.2.getD 0) ∧ (reelRun n t ops).1.pos ≤ (reelRun n t ops).1.cells.length ∧
      n ∣ (reelRun n t ops).1.cells.length ∧ n ∣ (reelRun n t ops).1.pos
  | [], t, h, h1, h2 => ⟨by simp [reelRun], h, h1, h2⟩
  | .encode xs :: ops, t, h, h1, h2 => by
    have hw := dvd_whole n xs.length
    have hwl : whole n xs.length ≤ xs.length := Nat.div_mul_le_self _ _
    obtain ⟨k, hk⟩ : ∃ k, k = whole n xs.length := ⟨_, rfl⟩
    rw [← hk] at hw hwl
    have hp : (t.put ((xs.take k).map truncateSample)).pos = t.pos + k := by simp [Reel.put]; omega
    have hl : (t.put ((xs.take k).map truncateSample)).cells.length = max t.cells.length (t.pos + k) := by simp [Reel.put]; omega
    have hd : n ∣ t.pos + k := Nat.dvd_add h2 hw
    obtain ⟨i1, i2⟩ := reelRun_aligned (n := n) ops (put_le h ((xs.take k).map truncateSample)) (by
      rw [hl]; rcases max_choice t.cells.length (t.pos + k) with e | e <;> rw [e] <;> assumption) (by rw [hp]; exact hd)
    simp only [reelRun, ← hk]
    refine ⟨?_, i2⟩
    intro r hr
    rcases List.mem_cons.1 hr with rfl | hr
    · exact hw
    · exact i1 r hr
  | .decode buf :: ops, t, h, h1, h2 => by
    have hw := dvd_whole n buf.length
    obtain ⟨k, hk⟩ : ∃ k, k = whole n buf.length := ⟨_, rfl⟩
    rw [← hk] at hw
    have hl : (t.next k).length = min k (t.cells.length - t.pos) := by simp [Reel.next]
    have hd : n ∣ (t.next k).length := by
      rw [hl]
      rcases min_choice k (t.cells.length - t.pos) with e | e <;> rw [e]
      · exact hw
      · exact Nat.dvd_sub h1 h2
    obtain ⟨i1, i2⟩ := reelRun_aligned (n := n) ops (t := ⟨t.cells, t.pos + (t.next k).length⟩) (by simp only; omega) h1 (Nat.dvd_add h2 hd)
    simp only [reelRun, ← hk]
    refine ⟨?_, i2⟩
    intro r hr
    rcases List.mem_cons.1 hr with rfl | hr
    · dsimp only
      split
      · exact dvd_zero n
      · exact hd
    · exact i1 r hr

/-- C43: from a stream of whole blocks with the cursor between blocks, every sequence of encode and decode calls reports multiples of the
channel count only and ends in such a stream again; seeks keep it so if their target is inside the stream. New codecs start like this.
Missing: seeks behind the end, for which the claim is false. -/
theorem C43_blocks_partial (w : WavCodec) (H : Aligned w) (hn : 0 < w.info.channels) :
    (∀ ops, ∃ w' outs, wavRun w ops = .ok (w', outs) ∧ w'.info = w.info ∧ Aligned w' ∧ ∀ r ∈ outs, w.info.channels ∣ r.2.getD 0) ∧
    (∀ b (ms : Nat) w', w.seek b (.start ms) = .ok w' → 0 ≤ WavCodec.seekOffset w.info ms →
      WavCodec.seekOffset w.info ms * w.info.channels < w.numSamples → (w.numSamples : Int) ≤ 2 ^ 63 → Aligned w') := by
  constructor
  · intro ops
    obtain ⟨t, hr⟩ := isReel_exists H.bytes H.inside
    obtain ⟨w', e, i, H'⟩ := wavRun_ok ops hr hn
    have hl := hr.samples
    obtain ⟨h1, h2, h3, h4⟩ := reelRun_aligned (n := w.info.channels) ops hr.le (by rw [← hl]; exact H.blocks) (by rw [← hr.pos]; exact H.cursor)
    refine ⟨w', _, e, i, ⟨?_, ?_, ?_, ?_⟩, h1⟩
    · rw [H'.bytes, length_le16s]; omega
    · rw [i, H'.samples]; exact h3
    · rw [i, H'.pos]; exact h4
    · rw [H'.samples, H'.pos]; exact h2
  · intro b ms w' h h0 hlt h63
    have h1 : 0 ≤ WavCodec.seekOffset w.info ms * w.info.channels := by positivity
    obtain ⟨k, hk⟩ : ∃ k : Nat, (k : Int) = WavCodec.seekOffset w.info ms := ⟨_, Int.toNat_of_nonneg h0⟩
    have hne : 0 < w.numSamples := by omega
    obtain ⟨h2, -, -, h3⟩ := C40_seek_partial b w hn hne
    obtain ⟨w1, e1, h4⟩ := h2 ms (by rw [abs_of_nonneg h1]; omega)
    rw [h] at e1
    cases e1
    obtain ⟨e, h5⟩ := h3 _ _ h
    have h6 : w'.shortCursor = k * w.info.channels := by
      rw [← hk] at h4 hlt h1
      have : (w'.shortCursor : Int) = (k * w.info.channels : Nat) := by push_cast; omega
      exact_mod_cast this
    rw [e]
    exact ⟨H.bytes, H.blocks, by rw [h6]; exact ⟨k, Nat.mul_comm _ _⟩, h5.le⟩

/-- `six` with its cursor at a block, and a seek inside it, meet the hypotheses -/
example : Aligned { six with shortCursor := 2 } ∧ WavCodec.seekOffset six.info 2 * six.info.channels < six.numSamples := by
  refine ⟨⟨?_, ?_, ?_, ?_⟩, ?_⟩ <;> decide +kernel

end Adhoc
