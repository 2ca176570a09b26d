import Verif.Props.CliLevels
import Verif.Props.Mirror

/-! # C129: the test `re_encode` for every WAV file -/

namespace Adhoc
open Spec F32

/-- adhoc.rs 532-534: decode the WAV a buffer at a time and encode it; the buffer is used again later -/
def recordLoop (b : Build) : (fuel : Nat) → WavCodec → AdhocCodec → List F32 → R (AdhocCodec × List F32)
  | 0, _, _, _ => .error .fuel
  | fuel + 1, wav, adhoc, buf => do
    let (wav, buf, n?) ← wav.decode buf
    match n? with
    | none => pure (adhoc, buf)
    | some n => do
      let (adhoc, _) ← adhoc.encode b (buf.take n)
      recordLoop b fuel wav adhoc buf

/-- adhoc.rs 542-548: decode, turn the whole buffer upside down, store what was decoded -/
def invertLoop (b : Build) : (fuel : Nat) → AdhocCodec → WavCodec → List F32 → R WavCodec
  | 0, _, _, _ => .error .fuel
  | fuel + 1, adhoc, wav, buf => do
    let (adhoc, buf, n?) ← adhoc.decode b buf
    match n? with
    | none => pure wav
    | some n => do
      let buf := buf.map (· * F32.ofInt (-1))
      let (wav, _) ← wav.encode (buf.take n)
      invertLoop b fuel adhoc wav buf

/-- adhoc.rs 523-552: `re_encode` for any content of `taunt.wav` and any level: the content of `taunt.adhoc` and of `taunt_adhoc.wav`.
`fuel` bounds the number of decode calls; `load`, `save_to` of the WAV and the creation of files are unwrapped. -/
def reEncode (b : Build) (fuel level : Nat) (bytes : List Byte) : R (List Byte × List Byte) := do
  match ← WavCodec.load bytes with
  | .error _ => .error .expect
  | .ok wav => do
    let adhoc := (AdhocCodec.new.withCompressionLevel level).setInfo wav.info
    let (adhoc, buf) ← recordLoop b (wav.numSamples + 1) wav adhoc (List.replicate 1024 (F32.ofInt 0))
    let adhoc ← adhoc.seek b (.start 0)
    let (file, _) := adhoc.saveTo Writer.perfect
    let adhoc ← adhoc.seek b (.start 0)
    let out ← invertLoop b fuel adhoc (WavCodec.new wav.info) buf
    let (w, ok) ← out.saveTo b Writer.perfect
    if ok then pure (file.out, w.out) else .error .expect

/-! ## the loops -/

/-- the first loop is that of the tool -/
theorem recordLoop_eq {b : Build} : ∀ (fuel : Nat) (w : WavCodec) (adhoc : AdhocCodec) (buf : List F32),
    (recordLoop b fuel w adhoc buf).map (·.1) = Cli.compressLoop b fuel w adhoc buf
  | 0, _, _, _ => rfl
  | fuel + 1, w, adhoc, buf => by
    unfold recordLoop Cli.compressLoop
    rcases w.decode buf with p | ⟨w', buf', n⟩
    · rfl
    · rw [bind_ok, bind_ok]
      dsimp only
      cases n with
      | none => rfl
      | some n =>
        dsimp only
        rcases adhoc.encode b (buf'.take n) with p | ⟨a', k⟩
        · rfl
        · rw [bind_ok, bind_ok]
          exact recordLoop_eq fuel w' a' buf'

/-- and leaves a buffer of the same size -/
theorem recordLoop_buf {b : Build} {n : Nat} (hn : 0 < n) (hn' : n ≤ 1024) (cells : List ℤ) : ∀ (fuel : Nat) {w : WavCodec} {pos : Nat} (_ : IsReel w ⟨cells, pos⟩)
    (_ : w.info.channels = n) (buf : List F32) (_ : buf.length = 1024) (adhoc : AdhocCodec),
    Ens (recordLoop b fuel w adhoc buf) (fun r => r.2.length = 1024)
  | 0, _, _, _, _, _, _, _ => by intro r h; cases h
  | fuel + 1, w, pos, H, hi, buf, hb, adhoc => by
    obtain ⟨w', e, i', H'⟩ := wavDecode_ok H (by rw [hi]; exact hn) buf
    rw [hi, hb] at e H'
    unfold recordLoop
    rw [e, bind_ok]
    obtain ⟨nx, hnx⟩ : ∃ nx, nx = (Reel.mk cells pos).next (whole n 1024) := ⟨_, rfl⟩
    rw [← hnx] at H' ⊢
    have hlen : nx.length ≤ 1024 := by
      rw [hnx]
      show ((cells.drop pos).take (whole n 1024)).length ≤ 1024
      rw [List.length_take]
      have : whole n 1024 ≤ 1024 := Nat.div_mul_le_self _ _
      omega
    have hbl : (nx.map normalizeSample ++ buf.drop nx.length).length = 1024 := by simp [hb]; omega
    by_cases h0 : nx = []
    · simp only [h0, if_true]
      apply Ens.ok
      simpa [h0] using hbl
    · simp only [h0, if_false]
      intro r h
      obtain ⟨⟨a', k⟩, h1, h⟩ := bind_eq_ok.1 h
      exact recordLoop_buf hn hn' cells fuel H' (by rw [i', hi]) _ hbl a' r h

theorem invert_sample (x : F32) : truncateSample (x * F32.ofInt (-1)) = -truncateSample x := by
  rw [neg_ofInt, mul_neg_f, F32.mul_one', truncateSample_neg]

theorem invertLoop_ok {b : Build} {n : Nat} {s : F32} (hn : 0 < n) (hn' : n ≤ 1024) : ∀ (fuel : Nat) {c : AdhocCodec} {sig : List (List F32)}
    (_ : Plays b n s c sig) (_ : ∀ blk ∈ sig, blk.length = n) {w : WavCodec} {cells : List ℤ} (_ : IsReel w ⟨cells, cells.length⟩) (_ : w.info.channels = n)
    (buf : List F32) (_ : buf.length = 1024) (_ : sig.length < fuel),
    ∃ w', invertLoop b fuel c w buf = .ok w' ∧ w'.info = w.info ∧
      IsReel w' ⟨cells ++ sig.flatten.map (fun x => -restore s x), (cells ++ sig.flatten.map (fun x => -restore s x)).length⟩
  | 0, _, _, _, _, _, _, _, _, _, _, hf => by omega
  | fuel + 1, c, sig, H, hw, w, cells, HR, hi, buf, hb, hf => by
    have hq : 0 < 1024 / n := Nat.div_pos hn' hn
    obtain ⟨c', e, H'⟩ := H.step buf
    rw [hb] at e H'
    obtain ⟨d, hd⟩ : ∃ d, d = min (1024 / n) sig.length := ⟨_, rfl⟩
    rw [← hd] at e H'
    unfold invertLoop
    rw [e, bind_ok]
    by_cases h0 : d = 0
    · simp only [h0, if_true]
      have : sig = [] := by
        rw [← List.length_eq_zero_iff]; omega
      subst this
      refine ⟨w, rfl, rfl, ?_⟩
      simpa using HR
    · simp only [h0, if_false]
      have hfl : (sig.take d).flatten.length = d * n := by
        rw [length_flatten_width fun x hx => hw x (List.mem_of_mem_take hx), List.length_take]
        congr 1; omega
      have hle : d * n ≤ 1024 := by
        have h1 : d * n ≤ 1024 / n * n := Nat.mul_le_mul_right _ (by omega)
        have h2 := Nat.div_mul_le_self 1024 n
        omega
      have htake : ((((sig.take d).flatten ++ buf.drop (d * n)).map (· * s)).map (· * F32.ofInt (-1))).take (d * n) =
          (sig.take d).flatten.map fun x => x * s * F32.ofInt (-1) := by
        rw [List.map_append, List.map_append, List.take_append_of_le_length (by rw [List.length_map, List.length_map]; omega),
          List.take_of_length_le (by rw [List.length_map, List.length_map]; omega), List.map_map]
        rfl
      rw [htake]
      obtain ⟨w', e', i', HR'⟩ := wavEncode_ok HR (by rw [hi]; exact hn) ((sig.take d).flatten.map fun x => x * s * F32.ofInt (-1))
      rw [e', bind_ok]
      have hwh : whole w.info.channels ((sig.take d).flatten.map fun x => x * s * F32.ofInt (-1)).length = d * n := by
        rw [hi, List.length_map, hfl, whole, Nat.mul_div_cancel _ hn]
      have hmap : ((sig.take d).flatten.map fun x => x * s * F32.ofInt (-1)).map truncateSample = (sig.take d).flatten.map fun x => -restore s x := by
        rw [List.map_map]
        apply List.map_congr_left
        intro x _
        exact invert_sample (x * s)
      rw [hwh, List.take_of_length_le (by rw [List.length_map]; omega), hmap] at HR'
      have hput : (Reel.mk cells cells.length).put ((sig.take d).flatten.map fun x => -restore s x) =
          ⟨cells ++ (sig.take d).flatten.map (fun x => -restore s x), (cells ++ (sig.take d).flatten.map (fun x => -restore s x)).length⟩ := by
        unfold Reel.put
        dsimp only
        rw [List.take_of_length_le le_rfl, List.drop_eq_nil_of_le (by omega), List.append_nil, List.length_append]
      rw [hput] at HR'
      obtain ⟨w'', e'', i'', HR''⟩ := invertLoop_ok hn hn' fuel H' (fun x hx => hw x (List.mem_of_mem_drop hx)) HR' (by rw [i', hi])
        ((((sig.take d).flatten ++ buf.drop (d * n)).map (· * s)).map (· * F32.ofInt (-1)))
        (by rw [List.length_map, List.length_map, List.length_append, hfl, List.length_drop, hb]; omega)
        (by rw [List.length_drop]; omega)
      refine ⟨w'', e'', by rw [i'', i'], ?_⟩
      have : cells ++ sig.flatten.map (fun x => -restore s x) =
          cells ++ (sig.take d).flatten.map (fun x => -restore s x) ++ (sig.drop d).flatten.map (fun x => -restore s x) := by
        rw [List.append_assoc, ← List.map_append, ← List.flatten_append, List.take_append_drop]
      rw [this]
      exact HR''

/-! ## C129 -/

/-- saving the rewound codec: the file differs, but loads as the same -/
theorem load_rewound {b : Build} {info : StreamInfo} {level : Nat} {calls : List (List F32)} {c : AdhocCodec} (hn : 0 < info.channels)
    (hr : info.sampleRate < 2 ^ 32) (hc : info.channels < 2 ^ 32) (hf : calls.length * info.channels < 2 ^ 32)
    (e : encodeAll b (fresh info level) calls = .ok c) (hb : c.stream.stream.bitCursor < 2 ^ 64) (b' : Build) :
    AdhocCodec.load b' (file c.init) = AdhocCodec.load b' (file c) := by
  have V := valued_run (calls.map Use.encode) (valued_fresh info level) c (by rw [encodeAll_uses]; exact e)
  have K := counted_recording hn hr hc hf e hb
  have K' : Counted c.init := ⟨K.rate, K.nibbles, K.count, K.bits, K.bitsCursor, K.sizes, K.cursors, K.hist, by simp [AdhocCodec.init, FrameHeaders.reset], K.binary,
    by simp [AdhocCodec.init, BitStream.seekStart], K.capacity⟩
  have h1 := load_saved (b := b') K V []
  have h2 := load_saved (b := b') K' V.init []
  rw [List.append_nil] at h1 h2
  rw [file_eq, file_eq, h1, h2]
  congr 2

/-- the test, from what is recorded and what is decoded of it -/
theorem reEncode_of {b : Build} {bytes : List Byte} {info : StreamInfo} {cells : List ℤ} {level : Nat} {c : AdhocCodec} {sig : List (List F32)} {s : F32}
    (hn : 0 < info.channels) (hn' : info.channels ≤ 1024) (hr : ∀ x ∈ cells, -32768 ≤ x ∧ x ≤ 32767)
    (hl : WavCodec.load bytes = .ok (.ok { info := info, pcm := cells.flatMap le16, shortCursor := 0 }))
    (e : encodeAll b (fresh info level) (cliCalls info.channels cells) = .ok c) (hw : ∀ blk ∈ sig, blk.length = info.channels)
    (hp : Plays b info.channels s c.init sig) {fuel : Nat} (hfuel : sig.length < fuel) {w : Writer}
    (hsave : WavCodec.saveTo b { info := info, pcm := (sig.flatten.map fun x => -restore s x).flatMap le16, shortCursor := 0 } Writer.perfect = .ok (w, true)) :
    reEncode b fuel level bytes = .ok (file c.init, w.out) := by
  have hreel : IsReel { info := info, pcm := cells.flatMap le16, shortCursor := 0 } ⟨cells, 0⟩ := ⟨rfl, hr, rfl, Nat.zero_le _⟩
  have hinfo : c.stream.info = some info := by
    have V := valued_run ((cliCalls info.channels cells).map Use.encode) (valued_fresh info level) c (by rw [encodeAll_uses]; exact e)
    exact V.hinfo
  have hseek : ∀ c : AdhocCodec, c.stream.info = some info → c.seek b (.start 0) = .ok c.init := by
    intro c h
    unfold AdhocCodec.seek
    rw [h]
    rfl
  have h1 := recordLoop_eq (b := b) (WavCodec.numSamples { info := info, pcm := cells.flatMap le16, shortCursor := 0 } + 1)
    { info := info, pcm := cells.flatMap le16, shortCursor := 0 } ((AdhocCodec.new.withCompressionLevel level).setInfo info) (List.replicate 1024 (F32.ofInt 0))
  rw [compressLoop_ok hn hn' cells _ (pos := 0) hreel rfl _ (List.length_replicate ..) _ (by
    show cells.length - 0 < (cells.flatMap le16).length / 2 + 1
    rw [length_le16]
    omega), List.drop_zero] at h1
  change _ = encodeAll b (fresh info level) (cliCalls info.channels cells) at h1
  rw [e] at h1
  have h2 := recordLoop_buf (b := b) hn hn' cells (WavCodec.numSamples { info := info, pcm := cells.flatMap le16, shortCursor := 0 } + 1) hreel rfl
    (List.replicate 1024 (F32.ofInt 0)) (List.length_replicate ..) ((AdhocCodec.new.withCompressionLevel level).setInfo info)
  unfold reEncode
  rw [hl, bind_ok]
  dsimp only
  rcases hrec : recordLoop b (WavCodec.numSamples { info := info, pcm := cells.flatMap le16, shortCursor := 0 } + 1)
    { info := info, pcm := cells.flatMap le16, shortCursor := 0 } ((AdhocCodec.new.withCompressionLevel level).setInfo info) (List.replicate 1024 (F32.ofInt 0)) with p | ⟨a, buf⟩
  · rw [hrec] at h1; cases h1
  · rw [hrec] at h1
    have ha : a = c := Except.ok.inj h1
    subst ha
    have hbuf := h2 _ hrec
    rw [bind_ok]
    dsimp only
    rw [hseek a hinfo, bind_ok, hseek a.init hinfo, bind_ok]
    have hii : a.init.init = a.init := by simp [AdhocCodec.init, FrameCodec.init, FrameHeaders.reset, BitStream.seekStart]
    rw [hii]
    obtain ⟨w', ew, iw, HR⟩ := invertLoop_ok hn hn' fuel hp hw (w := WavCodec.new info) (cells := []) ⟨rfl, by simp, rfl, Nat.le_refl _⟩ rfl buf hbuf hfuel
    rw [ew, bind_ok]
    have hpcm := HR.bytes
    dsimp only at hpcm
    rw [List.nil_append] at hpcm
    have : w'.saveTo b Writer.perfect = WavCodec.saveTo b { info := info, pcm := (sig.flatten.map fun x => -restore s x).flatMap le16, shortCursor := 0 } Writer.perfect := by
      rw [← hpcm, ← show w'.info = info from iw]
      rfl
    rw [this, hsave, bind_ok]
    rfl

/-- C129. Take a 16-bit WAV file of fewer than 342 channels and at least three blocks, whose header fields fit. At every level, if the tool converts it
(it does in release builds, and in debug builds unless a difference overflows, see C26) and back to the samples `out`, then the test `re_encode` runs to its
end; its .adhoc file is not that of the tool, because it was rewound, but loads as the same; and its WAV file is what `save_to` writes for the samples
`out` turned upside down, in the same stream info. -/
theorem C129_inverse (b : Build) (bytes : List Byte) (info : StreamInfo) (cells : List ℤ) (hr : ∀ x ∈ cells, -32768 ≤ x ∧ x ≤ 32767)
    (hl : WavCodec.load bytes = .ok (.ok { info := info, pcm := cells.flatMap le16, shortCursor := 0 }))
    (H : Fits { info := info, pcm := cells.flatMap le16, shortCursor := 0 }) (hn : info.channels < 342) (h3 : 3 * info.channels ≤ cells.length)
    (level fuel : Nat) (hfuel : cells.length < fuel) (r : Option Writer × Option Unit)
    (hconv : Cli.convertWavToAdhoc b bytes level (some Writer.perfect) = .ok r) :
    ∃ (adhoc wav wav' : Writer) (adhoc' : List Byte) (out : List ℤ), r = (some adhoc, some ()) ∧
      Cli.convertAdhocToWav b fuel adhoc.out (some Writer.perfect) = .ok (some wav, some ()) ∧
      WavCodec.saveTo b { info := info, pcm := out.flatMap le16, shortCursor := 0 } Writer.perfect = .ok (wav, true) ∧
      (∀ y ∈ out, -32767 ≤ y ∧ y ≤ 32767) ∧ out.length = whole info.channels cells.length ∧
      reEncode b fuel level bytes = .ok (adhoc', wav'.out) ∧ (∀ b', AdhocCodec.load b' adhoc' = AdhocCodec.load b' adhoc.out) ∧
      WavCodec.saveTo b { info := info, pcm := (out.map (- ·)).flatMap le16, shortCursor := 0 } Writer.perfect = .ok (wav', true) := by
  have hpos : 0 < info.channels := H.pos
  have hn' : info.channels ≤ 1024 := by omega
  have hwh : whole info.channels cells.length ≤ cells.length := Nat.div_mul_le_self _ _
  have hp := cliCalls_proper hpos hn h3
  have hrate : info.sampleRate < 2 ^ 32 := lt_trans H.rate_lt (by norm_num)
  rw [wav_to_adhoc hpos hn' hr hl] at hconv
  rcases e : encodeAll b (fresh info level) (cliCalls info.channels cells) with p | c
  · rw [e] at hconv; cases hconv
  rw [e] at hconv
  obtain rfl := Except.ok.inj hconv
  obtain ⟨hf, hb⟩ := cli_counts hpos hn' (by have := H.size; dsimp only at this; rw [length_le16] at this; norm_num at this ⊢; omega) e
  obtain ⟨Q, -, -, hd⟩ := playback hpos e hp.short hp.gap
  obtain ⟨sig, hsig⟩ : ∃ sig, sig = played info.channels (signal info.channels (cliCalls info.channels cells)).length Q := ⟨_, rfl⟩
  have hw : ∀ blk ∈ sig, blk.length = info.channels := by
    intro blk hblk
    rw [hsig] at hblk
    obtain ⟨k, -, rfl⟩ := List.mem_map.1 hblk
    simp
  have hsl : sig.length = cells.length / info.channels := by
    rw [hsig, cliCalls_signal hpos hn']
    simp [played, blocksOf]
  have hplays : Plays b info.channels (fresh info level).scale c.init sig := by
    intro bufs
    obtain ⟨c', e', -⟩ := hd b bufs
    rw [e', hsig]; rfl
  have hlen : (sig.flatten.map (restore (fresh info level).scale)).length = whole info.channels cells.length := by
    rw [List.length_map, length_flatten_width hw, hsl, whole]
  have hmap : (sig.flatten.map (restore (fresh info level).scale)).map (- ·) = sig.flatten.map fun x => -restore (fresh info level).scale x := by
    rw [List.map_map]; rfl
  have hfit := le16_fits (cells' := sig.flatten.map (restore (fresh info level).scale)) H (by rw [hlen]; exact hwh)
  have hfit' := le16_fits (cells' := sig.flatten.map fun x => -restore (fresh info level).scale x) H (by rw [← hmap, List.length_map, hlen]; exact hwh)
  obtain ⟨h, eh, hh⟩ := header_ok (b := b) hfit
  obtain ⟨h', eh', hh'⟩ := header_ok (b := b) hfit'
  have hsf : sig.length < fuel := by rw [hsl]; exact lt_of_le_of_lt (Nat.div_le_self _ _) hfuel
  refine ⟨_, _, _, file c.init, sig.flatten.map (restore (fresh info level).scale), rfl, ?_, saveTo_perfect eh, ?_, hlen,
    reEncode_of hpos hn' hr hl e hw hplays hsf (saveTo_perfect eh'), ?_, ?_⟩
  · have key := adhoc_to_wav hpos hn' hrate e hf hb hw hplays hsf Writer.perfect
    rw [show ((c.saveTo Writer.perfect).1).out = file c from rfl, key, saveTo_perfect eh]
    rfl
  · intro y hy
    obtain ⟨x, -, rfl⟩ := List.mem_map.1 hy
    exact truncateSample_range _
  · intro b'
    exact load_rewound hpos hrate (lt_of_le_of_lt hn' (by norm_num)) hf e hb b'
  · rw [hmap]
    exact saveTo_perfect eh'

/-- C129. At level 4, as in the test, it always runs to its end, and each sample of the WAV file is the negative of the original one up to 52 (of 32768). -/
theorem C129_close (b : Build) (bytes : List Byte) (info : StreamInfo) (cells : List ℤ) (hr : ∀ x ∈ cells, -32768 ≤ x ∧ x ≤ 32767)
    (hl : WavCodec.load bytes = .ok (.ok { info := info, pcm := cells.flatMap le16, shortCursor := 0 }))
    (H : Fits { info := info, pcm := cells.flatMap le16, shortCursor := 0 }) (hn : info.channels < 342) (h3 : 3 * info.channels ≤ cells.length)
    (fuel : Nat) (hfuel : cells.length < fuel) :
    ∃ (wav' : Writer) (adhoc' : List Byte) (out : List ℤ), reEncode b fuel 4 bytes = .ok (adhoc', wav'.out) ∧
      WavCodec.saveTo b { info := info, pcm := out.flatMap le16, shortCursor := 0 } Writer.perfect = .ok (wav', true) ∧
      List.Forall₂ (fun x y : ℤ => |x + y| ≤ 52) (cells.take (whole info.channels cells.length)) out := by
  have hpos : 0 < info.channels := H.pos
  have hn' : info.channels ≤ 1024 := by omega
  have hwh : whole info.channels cells.length ≤ cells.length := Nat.div_mul_le_self _ _
  obtain ⟨c, sig, e, hp, hw, hsl, hnear⟩ := level_playback b hpos hr hn h3 (L := 4) (by norm_num) (by norm_num) (by omega)
  have hfit := le16_fits (cells' := sig.flatten.map fun x => -restore (fresh info 4).scale x) H (by
    rw [List.length_map, length_flatten_width hw, hsl]; exact hwh)
  obtain ⟨h, eh, hh⟩ := header_ok (b := b) hfit
  refine ⟨_, _, _, reEncode_of hpos hn' hr hl e hw hp (by rw [hsl]; exact lt_of_le_of_lt (Nat.div_le_self _ _) hfuel) (saveTo_perfect eh), saveTo_perfect eh, ?_⟩
  rw [List.forall₂_map_right_iff] at hnear ⊢
  refine hnear.imp ?_
  intro x y hxy
  have h1 : |((x + -restore (fresh info 4).scale y : ℤ) : ℚ)| < 53 := by
    rw [abs_sub_comm] at hxy
    push_cast
    rw [← sub_eq_add_neg]
    refine lt_of_le_of_lt hxy ?_
    norm_num
  have h2 : |x + -restore (fresh info 4).scale y| < 53 := by exact_mod_cast h1
  omega

/-- for example with the file `shortWav` of C58 -/
example : ∃ (wav' : Writer) (adhoc' : List Byte) (out : List ℤ), reEncode .debug 6 4 shortWav = .ok (adhoc', wav'.out) ∧
    WavCodec.saveTo .debug { info := { sampleRate := 8000, channels := 1 }, pcm := out.flatMap le16, shortCursor := 0 } Writer.perfect = .ok (wav', true) ∧
    List.Forall₂ (fun x y : ℤ => |x + y| ≤ 52) [1000, -513, 517, 2000, -3276] out := by
  have h := C129_close .debug shortWav { sampleRate := 8000, channels := 1 } [1000, -513, 517, 2000, -3276] (by decide) (by decide +kernel)
    ⟨by decide, by decide, by decide, by decide⟩ (by decide) (by decide) 6 (by decide)
  rwa [show List.take (whole 1 [1000, -513, 517, 2000, -3276].length) [1000, -513, 517, 2000, -3276] = ([1000, -513, 517, 2000, -3276] : List ℤ) from by decide] at h

end Adhoc
