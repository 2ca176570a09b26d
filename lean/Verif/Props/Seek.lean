import Verif.Proofs.Seek
import Verif.Proofs.Time
import Verif.Proofs.Table
import Verif.Spec.Tape
import Verif.Model.Wav
import Verif.Props.Files

/-! # C12, C13, C14: seeking in .adhoc recordings -/

namespace Adhoc
open Spec

/-! ## one call -/

theorem init_init (c : AdhocCodec) : c.init.init = c.init := by
  have h : c.frameHeaderList.reset.reset = c.frameHeaderList.reset := rfl
  simp [AdhocCodec.init, BitStream.seekStart, FrameCodec.init, h]

theorem rewound_init (c : AdhocCodec) (ms : Nat) (b : Build) : c.init.seek b (.start ms) = c.seek b (.start ms) := by
  unfold AdhocCodec.seek
  rw [init_init]
  rfl

theorem seekOffset_zero (info : StreamInfo) : AdhocCodec.seekOffset info 0 = 0 := by
  unfold AdhocCodec.seekOffset
  dsimp only
  have h0 : F32.ofInt ((0 : Nat) : Int) = F32.fin 0 (by simpa using F32.rep_int (n := 0) (by norm_num)) := by
    have := F32.ofInt_fin (n := 0) (by norm_num)
    rw [show (((0 : Nat) : Int)) = 0 from rfl, this]
    exact F32.fin_ext _ _ (by norm_num)
  rw [h0]
  rcases F32.ofInt info.sampleRate / F32.ofInt 1000 with _ | s | ⟨q, hq⟩
  · rfl
  · have : F32.inf s * F32.fin 0 (by simpa using F32.rep_int (n := 0) (by norm_num)) = F32.nan := by
      rw [F32.mul_def]; simp [F32.mul]
    rw [this]; rfl
  · rw [F32.fin_mul, mul_zero, F32.ofRat_rep (by simpa using F32.rep_int (n := 0) (by norm_num))]
    have : F32.truncQ 0 = 0 := by simpa using F32.truncQ_int 0
    simp [F32.toIntSat, this]

theorem seek_ok {b : Build} {c : AdhocCodec} {info : StreamInfo} (hn : 0 < info.channels) {blocks : List (Nat → Fr)}
    (HR : Rec info.channels blocks) (hsh : Short blocks) (hbits : (bitsOf (flat info.channels blocks)).length < 2 ^ 64)
    {j m : Nat} (H : DecSt c info blocks j m) (hne : blocks ≠ []) (dt : Nat) (ht : AdhocCodec.seekOffset info dt ≤ rowsIn blocks) :
    ∃ c', c.seek b (.start dt) = .ok c' ∧ ((∀ ch < info.channels, InSync (codesOf blocks ch)) →
      SameLevel c c' ∧ ∃ j', DecSt c' info blocks j' (AdhocCodec.seekOffset info dt)) := by
  unfold AdhocCodec.seek
  rw [H.fl.hinfo, show expect (some info) = .ok info from rfl, bind_ok]
  dsimp only
  have s0 : SameLevel c c.init := ⟨rfl, rfl, rfl⟩
  by_cases h0 : dt = 0
  · subst h0
    refine ⟨c.init, by rw [if_pos rfl]; rfl, fun _ => ⟨s0, 0, ?_⟩⟩
    rw [seekOffset_zero]
    exact H.init
  · rw [if_neg h0]
    have := rows_le_bits HR
    obtain ⟨c', e, h⟩ := seekTo_ok (b := b) hn HR hsh hbits (by omega) H.init hne dt ht
    exact ⟨c', e, fun hs => ⟨s0.trans (h hs).1, (h hs).2⟩⟩

/-- reads and seeks on a codec that is ready to play -/
theorem winds_ok {b : Build} {info : StreamInfo} (hn : 0 < info.channels) {blocks : List (Nat → Fr)}
    (HR : Rec info.channels blocks) (hsh : Short blocks) (hng : NoGap (sizesOf blocks))
    (hbits : (bitsOf (flat info.channels blocks)).length < 2 ^ 64) (hne : blocks ≠ [])
    (hsync : ∀ ch < info.channels, InSync (codesOf blocks ch)) :
    ∀ (acts : List Act) (_ : ∀ ms, Act.seek ms ∈ acts → AdhocCodec.seekOffset info ms ≤ rowsIn blocks)
      {c : AdhocCodec} {j m : Nat} (_ : DecSt c info blocks j m),
    winds b c acts = .ok ((tape info.channels (AdhocCodec.seekOffset info) (played info.channels (rowsIn blocks) (codesOf blocks)) m acts).map
      fun r => (r.1.map (· * c.scale), r.2))
  | [], _, c, j, m, H => rfl
  | .seek ms :: acts, hs, c, j, m, H => by
    obtain ⟨c1, e1, h1⟩ := seek_ok (b := b) hn HR hsh hbits H hne ms (hs ms (by simp))
    obtain ⟨s1, j1, H1⟩ := h1 hsync
    have := winds_ok (b := b) hn HR hsh hng hbits hne hsync acts (fun ms h => hs ms (by simp [h])) H1
    unfold winds
    rw [e1, bind_ok, this, s1.scale]
    rfl
  | .read buf :: acts, hs, c, j, m, H => by
    obtain ⟨c1, j1, d, e1, s1, H1, hd, hmd, hlaw⟩ := decode_ok (b := b) hn HR hsh H buf
    have hlaw := hlaw hng
    have ih := winds_ok (b := b) hn HR hsh hng hbits hne hsync acts (fun ms h => hs ms (by simp [h])) H1
    have hdd : d = min (buf.length / info.channels) ((played info.channels (rowsIn blocks) (codesOf blocks)).length - m) := by
      simp only [played, List.length_map, List.length_range]
      omega
    unfold winds
    rw [e1, bind_ok]
    dsimp only
    rw [ih, bind_ok, pure_eq_ok, s1.scale]
    simp only [tape]
    rw [← hdd, rows_played HR hmd]
    simp only [List.map_cons]
    congr 3
    by_cases h0 : d = 0
    · subst h0; simp
    · rw [if_pos (by omega), if_neg h0]

/-- a loaded recording is ready to play -/
theorem decSt_reloaded {c : AdhocCodec} {info : StreamInfo} {blocks : List (Nat → Fr)}
    (H : DecSt c.init info blocks 0 0) : DecSt (reloaded c info.channels) info blocks 0 0 where
  fl := by
    refine ⟨H.fl.hinfo, by simp [reloaded], ?_, H.fl.bits, H.fl.log⟩
    intro k hk
    have : (reloaded c info.channels).channelStateList[k] = FrameCodec.new := by simp [reloaded]
    rw [this]
    exact ⟨by simp [FrameCodec.new, decoded, rebuild, codesOf, residuals], by simpa [decoded, rebuild, codesOf, residuals, FrameCodec.new] using last_new,
      by simp [FrameCodec.new, decoded, rebuild, codesOf, residuals]⟩
  j_le := by omega
  m_le := by simp

/-! ## C12 -/

/-- C12: reading and seeking in a recording is reading and winding a tape that holds the decoded signal, as long as every seek goes to a
block that exists (or to the end). `stored` are the 16-bit codes written for a channel, `seekOffset` is `(rate / 1000.0 * ms) as u64` in
single precision (see C14). The recording may be rewound or loaded from a file; if the first thing is a seek, it need not be rewound. -/
theorem C12_seek_is_skip (b b' : Build) (info : StreamInfo) (level : Nat) (calls : List (List F32)) (c : AdhocCodec)
    (hn : 0 < info.channels) (h : encodeAll b (fresh info level) calls = .ok c) (hp : Proper info.channels calls) (hne : calls ≠ [])
    (hsync : ∀ ch < info.channels, InSync (stored (fresh info level).invScale info.channels ch 0 calls))
    (hb : c.stream.stream.bitCursor < 2 ^ 64) (acts : List Act)
    (hs : ∀ ms, Act.seek ms ∈ acts → AdhocCodec.seekOffset info ms ≤ (signal info.channels calls).length) :
    let expected := (tape info.channels (AdhocCodec.seekOffset info)
      (played info.channels (signal info.channels calls).length fun ch => stored (fresh info level).invScale info.channels ch 0 calls) 0 acts).map
        fun r => (r.1.map (· * (fresh info level).scale), r.2)
    winds b' c.init acts = .ok expected ∧
    (∀ ms, acts.head? = some (.seek ms) → winds b' c acts = .ok expected) ∧
    (info.sampleRate < 2 ^ 32 → info.channels < 2 ^ 32 → calls.length * info.channels < 2 ^ 32 →
      ∃ c', AdhocCodec.load b (file c) = .ok (some c') ∧ winds b' c' acts = .ok expected) := by
  obtain ⟨-, blocks, H, HR, s⟩ := recorded_of_ok hn h
  have hrec := HR.toRec hn
  have hsh := HR.short hn hp.short
  have hng := recorded_made HR hn hp.gap
  have hbits : (bitsOf (flat info.channels blocks)).length < 2 ^ 64 := by
    rw [← H.bits.cursor]; exact hb
  have hbne : blocks ≠ [] := by
    rintro rfl
    exact hne (List.eq_nil_of_length_eq_zero (by rw [← HR.len]; rfl))
  have hsy : ∀ ch < info.channels, InSync (codesOf blocks ch) := fun ch hch => by rw [HR.exact hch]; exact hsync ch hch
  have hpl : played info.channels (rowsIn blocks) (codesOf blocks) = played info.channels (signal info.channels calls).length
      fun ch => stored (fresh info level).invScale info.channels ch 0 calls := by
    rw [HR.rows hn]
    unfold played
    apply List.map_congr_left
    intro k _
    apply List.map_congr_left
    intro ch hch
    rw [HR.exact (by simpa using hch)]
  have hs' : ∀ ms, Act.seek ms ∈ acts → AdhocCodec.seekOffset info ms ≤ rowsIn blocks := by rw [HR.rows hn]; exact hs
  have hinit := decSt_init H
  have key : ∀ {c : AdhocCodec} {j m : Nat}, DecSt c info blocks j m → _ :=
    winds_ok (b := b') hn hrec hsh hng hbits hbne hsy acts hs'
  have hsc : c.init.scale = (fresh info level).scale := s.scale
  have h1 := key hinit
  rw [hsc, hpl] at h1
  refine ⟨h1, ?_, ?_⟩
  · intro ms hms
    rw [← h1]
    cases acts with
    | nil => cases hms
    | cons a acts =>
      cases hms
      simp only [winds, rewound_init]
  · intro hr hc hf
    have V := valued_run (b := b) (calls.map Use.encode) (valued_fresh info level) c (by rw [encodeAll_uses]; exact h)
    have hl := load_saved (b := b) (counted_recording hn hr hc hf h (by rw [H.bits.cursor]; exact hbits)) V []
    rw [List.append_nil, ← file_eq] at hl
    refine ⟨_, hl, ?_⟩
    have h2 := key (decSt_reloaded hinit)
    rw [show (reloaded c info.channels).scale = (fresh info level).scale from s.scale, hpl] at h2
    exact h2

/-! ## C13 -/

/-- three samples at 1000 Hz -/
def three : List (List F32) := [[F32.ofInt 0, F32.ofInt 0, F32.ofInt 0]]

/-- C13 is false: seeking to 4 ms in a recording of 3 ms panics. -/
theorem C13_false : ¬ ∀ (b : Build) (info : StreamInfo) (calls : List (List F32)) (c : AdhocCodec) (ms : Nat),
    encodeAll b (fresh info 0) calls = .ok c → ∃ c', c.seek b (.start ms) = .ok c' := by
  intro h
  have key : ((encodeAll .release (fresh { sampleRate := 1000, channels := 1 } 0) three) >>= fun c =>
      (c.seek .release (.start 4)).map fun _ => ()) = .error .expect := by decide +kernel
  rcases e : encodeAll .release (fresh { sampleRate := 1000, channels := 1 } 0) three with p | c
  · rw [e] at key
    have : ((encodeAll .release (fresh { sampleRate := 1000, channels := 1 } 0) three).map fun _ => ()) = .ok () := by decide +kernel
    rw [e] at this
    cases this
  · obtain ⟨c', hc⟩ := h .release _ _ c 4 e
    rw [e, bind_ok, hc] at key
    cases key

/-- C13, what is true: on every recording (in sync or not) a seek to 0 or to a block that exists or to the end does not panic, and every
other seek panics with the `.expect` of a missing frame header. Missing: the seeks behind the end, for which the claim is false, and
positions of 2^64 samples and more. -/
theorem C13_beyond_partial (b b' : Build) (info : StreamInfo) (level : Nat) (calls : List (List F32)) (c : AdhocCodec)
    (hn : 0 < info.channels) (h : encodeAll b (fresh info level) calls = .ok c) (hshort : ∀ pcm ∈ calls, pcm.length / info.channels < 65536)
    (hb : c.stream.stream.bitCursor < 2 ^ 64) (ms : Nat) :
    (ms = 0 ∨ calls ≠ [] ∧ AdhocCodec.seekOffset info ms ≤ (signal info.channels calls).length →
      ∃ c', c.seek b' (.start ms) = .ok c') ∧
    (¬ (ms = 0 ∨ calls ≠ [] ∧ AdhocCodec.seekOffset info ms ≤ (signal info.channels calls).length) →
      AdhocCodec.seekOffset info ms * info.channels < 2 ^ 64 → c.seek b' (.start ms) = .error .expect) := by
  obtain ⟨-, blocks, H, HR, s⟩ := recorded_of_ok hn h
  have hrec := HR.toRec hn
  have hsh := HR.short hn hshort
  have hbits : (bitsOf (flat info.channels blocks)).length < 2 ^ 64 := by
    rw [← H.bits.cursor]; exact hb
  have hbne : blocks = [] ↔ calls = [] := by
    rw [← List.length_eq_zero_iff, HR.len, List.length_eq_zero_iff]
  have hinit := decSt_init H
  have hrow := rows_le_bits hrec
  rw [← HR.rows hn]
  constructor
  · rintro (rfl | ⟨h1, h2⟩)
    · refine ⟨c.init, ?_⟩
      unfold AdhocCodec.seek
      rw [H.hinfo]
      rfl
    · obtain ⟨c', e, -⟩ := seek_ok (b := b') hn hrec hsh hbits hinit (fun h => h1 (hbne.1 h)) ms h2
      rw [rewound_init] at e
      exact ⟨c', e⟩
  · intro h1 h2
    push Not at h1
    obtain ⟨h0, h1⟩ := h1
    unfold AdhocCodec.seek
    rw [H.hinfo, show expect (some info) = .ok info from rfl, bind_ok]
    dsimp only
    rw [if_neg h0]
    refine seekTo_beyond (b := b') hn hsh (by omega) hinit ms ?_ h2
    by_cases hc : calls = []
    · exact .inl (hbne.2 hc)
    · exact .inr (h1 hc)

/-! ## examples for C12 and C13 -/

theorem stored_level_zero (info : StreamInfo) (calls : List (List F32)) {ch : Nat} (hch : ch < info.channels) :
    stored (fresh info 0).invScale info.channels ch 0 calls = Spec.codes ch (signal info.channels calls) := by
  rw [(fresh_zero info).2]; exact stored_one hch _ _

/-- the hypotheses hold for `demo` at 1000 Hz, with seeks forward, backward and to the end -/
example : ∃ c, encodeAll .debug (fresh { sampleRate := 1000, channels := 2 } 0) demo = .ok c ∧ c.stream.stream.bitCursor < 2 ^ 64 ∧
    (∀ ch < 2, InSync (stored (fresh { sampleRate := 1000, channels := 2 } 0).invScale 2 ch 0 demo)) ∧
    ∀ ms, Act.seek ms ∈ [Act.seek 4, .read [F32.ofInt 0, F32.ofInt 0], .seek 1, .read [F32.ofInt 0, F32.ofInt 0], .seek 6] →
      AdhocCodec.seekOffset { sampleRate := 1000, channels := 2 } ms ≤ (signal 2 demo).length := by
  have hbits : (encodeAll .debug (fresh { sampleRate := 1000, channels := 2 } 0) demo).map (fun c => c.stream.stream.bitCursor) = .ok 184 := by
    decide +kernel
  rcases e : encodeAll .debug (fresh { sampleRate := 1000, channels := 2 } 0) demo with p | c
  · rw [e] at hbits; cases hbits
  · rw [e] at hbits
    have hbits : c.stream.stream.bitCursor = 184 := by injection hbits
    refine ⟨c, rfl, by omega, ?_, ?_⟩
    · intro ch hch
      have := stored_level_zero { sampleRate := 1000, channels := 2 } demo hch
      rw [this]
      exact demo_inSync ch hch
    · have hl : (signal 2 demo).length = 6 := by simp [signal, demo]
      rw [hl]
      intro ms hms
      simp only [List.mem_cons, Act.seek.injEq, reduceCtorEq, List.not_mem_nil, or_false, false_or] at hms
      rcases hms with rfl | rfl | rfl <;> decide +kernel

/-- and seeking in `demo` then gives the fifth and the second block -/
example : ((encodeAll .debug (fresh { sampleRate := 1000, channels := 2 } 0) demo) >>= fun c =>
    winds .debug c [.seek 4, .read [F32.ofInt 0, F32.ofInt 0], .seek 1, .read [F32.ofInt 0, F32.ofInt 0], .seek 6, .read [F32.ofInt 0, F32.ofInt 0]]) =
    .ok [([normalizeSample (-3276), normalizeSample 21844], some 2), ([normalizeSample 10922, normalizeSample 13106], some 2),
      ([F32.ofInt 0, F32.ofInt 0], none)] := by decide +kernel

/-! ## C14 -/

theorem adhoc_seekOffset {info : StreamInfo} (hR : info.sampleRate < 2 ^ 32) : ∃ s : ℚ, 0 ≤ s ∧
    (∀ T : ℕ, T ≤ 2 ^ 64 → ((AdhocCodec.seekOffset info T : ℕ) : ℤ) = min (2 ^ 64 - 1) (F32.truncQ (roundQ (s * roundQ T)))) ∧
    (∀ T : ℕ, T ≤ 2 ^ 64 → WavCodec.seekOffset info T = min (2 ^ 63 - 1) (F32.truncQ (roundQ (s * roundQ T)))) ∧
    |s - info.sampleRate / 1000| ≤ info.sampleRate / 1000 * (1 / 2 ^ 23 + 1 / 2 ^ 44) := by
  obtain ⟨s, hs0, -, his, hs⟩ := time_is hR
  have h0 : ∀ T : ℕ, 0 ≤ F32.truncQ (roundQ (s * roundQ (T : ℤ))) := by
    intro T
    have := F32.truncQ_mono (time_close (R := info.sampleRate) (T := T) hs0 (by positivity) hs).1
    rwa [show F32.truncQ 0 = 0 by simpa using F32.truncQ_int 0] at this
  refine ⟨s, hs0, ?_, ?_, hs⟩
  · intro T hT
    obtain ⟨h, e⟩ := his T (by rw [abs_of_nonneg (by positivity)]; exact_mod_cast hT)
    have := h0 T
    unfold AdhocCodec.seekOffset
    dsimp only
    rw [e]
    simp only [F32.toIntSat]
    push_cast at this ⊢
    omega
  · intro T hT
    obtain ⟨h, e⟩ := his T (by rw [abs_of_nonneg (by positivity)]; exact_mod_cast hT)
    have := h0 T
    unfold WavCodec.seekOffset
    rw [e]
    simp only [F32.toIntSat]
    push_cast at this ⊢
    omega

/-- C14 is false for extreme values, because the conversion to an integer saturates. -/
theorem C14_false : ¬ ∀ (info : StreamInfo) (ms : ℕ), info.sampleRate < 2 ^ 32 → ms < 2 ^ 64 →
    |((AdhocCodec.seekOffset info ms : ℕ) : ℚ) - info.sampleRate * ms / 1000| ≤ 1 + info.sampleRate * ms / 1000 / 2 ^ 21 := by
  intro h
  have h1 := h { sampleRate := 2 ^ 32 - 1, channels := 1 } (2 ^ 64 - 1) (by norm_num) (by norm_num)
  obtain ⟨s, -, hs, -⟩ := adhoc_seekOffset (info := { sampleRate := 2 ^ 32 - 1, channels := 1 }) (by norm_num)
  have h2 := hs (2 ^ 64 - 1) (by norm_num)
  have h3 : ((AdhocCodec.seekOffset { sampleRate := 2 ^ 32 - 1, channels := 1 } (2 ^ 64 - 1) : ℕ) : ℚ) ≤ 2 ^ 64 - 1 := by
    have : ((AdhocCodec.seekOffset { sampleRate := 2 ^ 32 - 1, channels := 1 } (2 ^ 64 - 1) : ℕ) : ℤ) ≤ 2 ^ 64 - 1 := by
      rw [h2]; exact min_le_left _ _
    exact_mod_cast this
  rw [abs_le] at h1
  have h4 := h1.1
  generalize ((AdhocCodec.seekOffset { sampleRate := 2 ^ 32 - 1, channels := 1 } (2 ^ 64 - 1) : ℕ) : ℚ) = x at h3 h4
  norm_num at h3 h4
  linarith

/-- C14, for both codecs: the block of a seek is monotone in the time and within 1 + 2^-21 relative of rate * ms / 1000, limited to the
largest value of the integer type. Missing: times for which that limit is exceeded, where the literal claim is false. -/
theorem C14_seek_time_partial (info : StreamInfo) (hR : info.sampleRate < 2 ^ 32) :
    (∀ ms ms' : ℕ, ms ≤ ms' → ms' ≤ 2 ^ 64 → AdhocCodec.seekOffset info ms ≤ AdhocCodec.seekOffset info ms') ∧
    (∀ ms : ℕ, ms ≤ 2 ^ 64 →
      |((AdhocCodec.seekOffset info ms : ℕ) : ℚ) - min (2 ^ 64 - 1) ((info.sampleRate : ℚ) * ms / 1000)| ≤ 1 + info.sampleRate * ms / 1000 / 2 ^ 21) ∧
    (∀ ms ms' : ℕ, ms ≤ ms' → ms' ≤ 2 ^ 64 → WavCodec.seekOffset info ms ≤ WavCodec.seekOffset info ms') ∧
    (∀ ms : ℕ, ms ≤ 2 ^ 64 →
      |((WavCodec.seekOffset info ms : ℤ) : ℚ) - min (2 ^ 63 - 1) ((info.sampleRate : ℚ) * ms / 1000)| ≤ 1 + info.sampleRate * ms / 1000 / 2 ^ 21) := by
  obtain ⟨s, hs0, ha, hw, hs⟩ := adhoc_seekOffset hR
  have mono : ∀ ms ms' : ℕ, ms ≤ ms' → F32.truncQ (roundQ (s * roundQ ms)) ≤ F32.truncQ (roundQ (s * roundQ ms')) := by
    intro ms ms' h
    apply F32.truncQ_mono
    apply roundQ_mono
    have : roundQ (ms : ℚ) ≤ roundQ (ms' : ℚ) := roundQ_mono (by exact_mod_cast h)
    gcongr
  refine ⟨?_, ?_, ?_, ?_⟩
  · intro ms ms' h h'
    have h1 := ha ms (by omega)
    have h2 := ha ms' h'
    have := mono ms ms' h
    omega
  · intro ms h
    obtain ⟨h1, h2⟩ := time_close (R := info.sampleRate) (T := ms) hs0 (by positivity) hs
    have := time_sat (hi := 2 ^ 64 - 1) (by norm_num) h1 (by positivity) h2
    have e := ha ms h
    push_cast at this h1 h2
    rw [show ((AdhocCodec.seekOffset info ms : ℕ) : ℚ) = (((AdhocCodec.seekOffset info ms : ℕ) : ℤ) : ℚ) by push_cast; rfl, e]
    push_cast
    norm_num at this ⊢
    exact this
  · intro ms ms' h h'
    have h1 := hw ms (by omega)
    have h2 := hw ms' h'
    have := mono ms ms' h
    omega
  · intro ms h
    obtain ⟨h1, h2⟩ := time_close (R := info.sampleRate) (T := ms) hs0 (by positivity) hs
    have := time_sat (hi := 2 ^ 63 - 1) (by norm_num) h1 (by positivity) h2
    have e := hw ms h
    push_cast at this h1 h2
    rw [e]
    push_cast
    norm_num at this ⊢
    exact this

/-- one hour at 44.1 kHz -/
example : AdhocCodec.seekOffset { sampleRate := 44100, channels := 2 } 3600000 = 158760000 ∧
    WavCodec.seekOffset { sampleRate := 44100, channels := 2 } 3600000 = 158760000 := by decide +kernel

/-- C14, exactly: the block of a seek to `ms` is `rate / 1000 * ms` in single precision (`roundQ` rounds to the nearest such number, see
`F32_nearest` and `F32_ties`), where the rate, the time, the quotient and the product are rounded in this order; what is behind the point is cut off,
and the result is limited to the integer type. Backwards is as far as forwards. -/
theorem C14_exact_partial (info : StreamInfo) (hR : info.sampleRate < 2 ^ 32) (ms : ℕ) (hms : ms ≤ 2 ^ 64) (n : ℤ)
    (hn : n = ⌊roundQ (roundQ (roundQ info.sampleRate / 1000) * roundQ ms)⌋) :
    0 ≤ n ∧ ((AdhocCodec.seekOffset info ms : ℕ) : ℤ) = min (2 ^ 64 - 1) n ∧
      WavCodec.seekOffset info ms = min (2 ^ 63 - 1) n ∧ WavCodec.seekOffset info (-(ms : ℤ)) = max (-2 ^ 63) (-n) := by
  obtain ⟨hs0, -, his, hs⟩ := time_eq hR rfl
  have h0 := (time_close (R := info.sampleRate) (T := ms) hs0 (by positivity) hs).1
  have ht : F32.truncQ (roundQ (roundQ (roundQ info.sampleRate / 1000) * roundQ ((ms : ℤ) : ℚ))) = n := by
    unfold F32.truncQ
    rw [if_neg (not_lt.2 h0), hn]
    push_cast
    rfl
  have hn0 : 0 ≤ n := by
    rw [hn]
    refine Int.floor_nonneg.2 ?_
    simpa using h0
  have habs : |(ms : ℤ)| ≤ 2 ^ 64 := by rw [abs_of_nonneg (by positivity)]; exact_mod_cast hms
  obtain ⟨h1, e1⟩ := his ms habs
  obtain ⟨h2, e2⟩ := his (-(ms : ℤ)) (by rw [abs_neg]; exact habs)
  refine ⟨hn0, ?_, ?_, ?_⟩
  · unfold AdhocCodec.seekOffset
    dsimp only
    rw [e1]
    simp only [F32.toIntSat]
    rw [ht]
    omega
  · unfold WavCodec.seekOffset
    rw [e1]
    simp only [F32.toIntSat]
    rw [ht]
    omega
  · unfold WavCodec.seekOffset
    rw [e2]
    simp only [F32.toIntSat]
    rw [Int.cast_neg, roundQ_neg, mul_neg, roundQ_neg, truncQ_neg, ht]
    omega

/-- the rounding shows: at 44.1 kHz, 90 ms are 3969 blocks, but the seek goes to block 3968; and the time itself is rounded from 2^24 ms on -/
example : AdhocCodec.seekOffset { sampleRate := 44100, channels := 2 } 90 = 3968 ∧ 44100 * 90 = 3969 * 1000 ∧
    WavCodec.seekOffset { sampleRate := 44100, channels := 2 } (-90) = -3968 ∧
    AdhocCodec.seekOffset { sampleRate := 1000, channels := 1 } (2 ^ 24 + 1) = 2 ^ 24 := by decide +kernel

end Adhoc
