import Verif.Proofs.Cli
import Verif.Props.Samples
import Verif.Props.Encoding
import Mathlib.Data.List.TakeWhile

/-! # The command line program: C58, C59, C61, C64 -/

namespace Adhoc
open Spec F32

namespace Spec

/-- the codes of channel `ch` of the interleaved 16-bit samples `cells`, each after its conversion to a float and back -/
def track (n ch : Nat) (cells : List ℤ) : List ℤ :=
  (List.range (cells.length / n)).map fun k => truncateSample (normalizeSample (cells.getD (k * n + ch) 0))

end Spec

/-- the calls of `encode` the program makes for these samples -/
def cliCalls (n : Nat) (cells : List ℤ) : List (List F32) := (pieces (whole n 1024) cells).map (·.map normalizeSample)

theorem cliCalls_eq (n : Nat) (cells : List ℤ) : cliCalls n cells = pieces (1024 / n * n) (cells.map normalizeSample) := pieces_map _ _ _

theorem cliCalls_signal {n : Nat} (hn : 0 < n) (hn' : n ≤ 1024) (cells : List ℤ) : signal n (cliCalls n cells) = blocksOf n (cells.map normalizeSample) := by
  rw [cliCalls_eq, signal_pieces hn (Nat.div_pos hn' hn)]

theorem length_cliCalls {n : Nat} (hn : 0 < n) (hn' : n ≤ 1024) (cells : List ℤ) : (cliCalls n cells).length * n ≤ cells.length + 1024 := by
  have hq : 0 < 1024 / n := Nat.div_pos hn' hn
  rw [cliCalls_eq, length_pieces, List.length_map]
  obtain ⟨m, hm⟩ : ∃ m, m = 1024 / n * n := ⟨_, rfl⟩
  rw [← hm]
  have h1 : n ≤ m := by rw [hm]; exact Nat.le_mul_of_pos_left _ hq
  have h2 : m ≤ 1024 := by rw [hm]; exact Nat.div_mul_le_self _ _
  have h3 := Nat.div_mul_le_self (cells.length + (m - 1)) m
  have h4 := Nat.mul_le_mul_left ((cells.length + (m - 1)) / m) h1
  omega

theorem cliCalls_proper {n : Nat} (hn : 0 < n) (hn' : n < 342) {cells : List ℤ} (h3 : 3 * n ≤ cells.length) : Proper n (cliCalls n cells) := by
  have hq : 3 ≤ 1024 / n := (Nat.le_div_iff_mul_le hn).2 (by omega)
  rw [cliCalls_eq]
  have hxs : 3 * n ≤ (cells.map normalizeSample).length := by simpa using h3
  generalize cells.map normalizeSample = xs at hxs
  obtain ⟨q, hqd⟩ : ∃ q, q = 1024 / n := ⟨_, rfl⟩
  have hqn : q * n ≤ 1024 := by rw [hqd]; exact Nat.div_mul_le_self _ _
  rw [← hqd] at hq ⊢
  have hm : 0 < q * n := Nat.mul_pos (by omega) hn
  refine ⟨?_, ?_, ?_⟩
  · intro pcm hp
    rw [pieces_cons hm (by intro h; rw [h] at hxs; simp at hxs; omega)] at hp
    simp only [List.head?_cons, Option.mem_def, Option.some.injEq] at hp
    subst hp
    refine (Nat.le_div_iff_mul_le hn).2 ?_
    rw [List.length_take]
    exact le_min (Nat.mul_le_mul_right _ hq) hxs
  · intro pcm hp
    have h1 := mem_pieces hp
    have h2 := Nat.div_le_self pcm.length n
    omega
  · have hfull : ∀ j, j + 1 < (pieces (q * n) xs).length → 0 < ((pieces (q * n) xs).map fun pcm => pcm.length / n).getD j 0 := by
      intro j hj
      have hj' : j < (pieces (q * n) xs).length := by omega
      rw [List.getD_eq_getElem?_getD, List.getElem?_map, List.getElem?_eq_getElem hj']
      simp only [Option.map_some, Option.getD_some, pieces, List.getElem_map, List.getElem_range]
      rw [length_pieces] at hj
      have h1 : (j + 2) * (q * n) ≤ xs.length + (q * n - 1) := (Nat.le_div_iff_mul_le hm).1 hj
      have h2 : (j + 2) * (q * n) = j * (q * n) + 2 * (q * n) := by ring
      have h3 : ((xs.drop (j * (q * n))).take (q * n)).length = q * n := by
        rw [List.length_take, List.length_drop]
        omega
      rw [h3, Nat.mul_div_cancel _ hn]
      omega
    have hout : ∀ j, (pieces (q * n) xs).length ≤ j → ((pieces (q * n) xs).map fun pcm => pcm.length / n).getD j 0 = 0 := by
      intro j hj
      rw [List.getD_eq_getElem?_getD, List.getElem?_eq_none (by simpa using hj)]
      rfl
    intro j
    rcases Nat.lt_or_ge (j + 1) (pieces (q * n) xs).length with h | h
    · exact .inl ⟨0, by omega, hfull j h⟩
    · by_cases hz : 0 < ((pieces (q * n) xs).map fun pcm => pcm.length / n).getD j 0
      · exact .inl ⟨0, by omega, hz⟩
      · refine .inr fun t => ?_
        rcases t with _ | t
        · simpa using hz
        · exact hout _ (by omega)

theorem cliCalls_codes {n : Nat} (hn : 0 < n) (hn' : n ≤ 1024) (cells : List ℤ) {ch : Nat} (hch : ch < n) :
    Spec.codes ch (signal n (cliCalls n cells)) = track n ch cells := by
  rw [cliCalls_signal hn hn']
  unfold Spec.codes blocksOf track
  rw [List.map_map, List.length_map]
  apply List.map_congr_left
  intro k hk
  have hk : k < cells.length / n := by simpa using hk
  have h1 : (k + 1) * n ≤ cells.length := (Nat.le_div_iff_mul_le hn).1 hk
  rw [Nat.add_mul, Nat.one_mul] at h1
  have h2 : k * n + ch < cells.length := by omega
  simp only [Function.comp_def]
  rw [List.getD_eq_getElem?_getD, List.getD_eq_getElem?_getD, List.getElem?_take_of_lt hch, List.getElem?_drop, List.getElem?_map, List.getElem?_eq_getElem h2]
  rfl

theorem length_le16 (cells : List ℤ) : (cells.flatMap le16).length = 2 * cells.length := by
  rw [length_flatMap_const _ 2 (fun _ => rfl)]
  omega

/-- the way there -/
theorem wav_to_adhoc {b : Build} {bytes : List Byte} {info : StreamInfo} {cells : List ℤ} (hn : 0 < info.channels) (hn' : info.channels ≤ 1024)
    (hr : ∀ x ∈ cells, -32768 ≤ x ∧ x ≤ 32767) (hl : WavCodec.load bytes = .ok (.ok { info := info, pcm := cells.flatMap le16, shortCursor := 0 }))
    (level : Nat) (dst : Writer) :
    Cli.convertWavToAdhoc b bytes level (some dst) =
      (encodeAll b (fresh info level) (cliCalls info.channels cells)).map fun c => (some (c.saveTo dst).1, some ()) := by
  unfold Cli.convertWavToAdhoc
  rw [hl, bind_ok]
  dsimp only
  rw [compressLoop_ok hn hn' cells _ (pos := 0) ⟨rfl, hr, rfl, Nat.zero_le _⟩ rfl Cli.buffer (List.length_replicate ..) _ (by
    show cells.length - 0 < (cells.flatMap le16).length / 2 + 1
    rw [length_le16]
    omega)]
  rw [List.drop_zero]
  show (encodeAll b (fresh info level) (cliCalls info.channels cells) >>= _) = _
  rcases encodeAll b (fresh info level) (cliCalls info.channels cells) with p | c <;> rfl

/-- the recording fits the counters of the file -/
theorem cli_counts {b : Build} {info : StreamInfo} {cells : List ℤ} (hn : 0 < info.channels) (hn' : info.channels ≤ 1024) {level : Nat} {c : AdhocCodec}
    (hsz : cells.length < 2 ^ 31) (e : encodeAll b (fresh info level) (cliCalls info.channels cells) = .ok c) :
    (cliCalls info.channels cells).length * info.channels < 2 ^ 32 ∧ c.stream.stream.bitCursor < 2 ^ 64 := by
  have h1 := length_cliCalls hn hn' cells
  refine ⟨by norm_num at hsz ⊢; omega, ?_⟩
  have h2 := (C19_expansion_partial b info level hn _ c e (by
    intro pcm hp
    obtain ⟨x, hx, rfl⟩ := List.mem_map.1 hp
    have h3 := mem_pieces hx
    have h4 : whole info.channels 1024 ≤ 1024 := Nat.div_mul_le_self _ _
    have h5 := Nat.div_le_self (x.map normalizeSample).length info.channels
    rw [List.length_map] at h5 ⊢
    omega)).1
  have h3 : info.channels * (signal info.channels (cliCalls info.channels cells)).length ≤ cells.length := by
    rw [cliCalls_signal hn hn']
    simp only [blocksOf, List.length_map, List.length_range]
    exact Nat.mul_div_le _ _
  have h4 : c.stream.stream.len = c.stream.stream.bitCursor := rfl
  rw [← h4]
  norm_num at hsz ⊢
  omega

/-- the way back -/
theorem adhoc_to_wav {b : Build} {info : StreamInfo} {level : Nat} {calls : List (List F32)} {c : AdhocCodec} (hn : 0 < info.channels) (hn' : info.channels ≤ 1024)
    (hrate : info.sampleRate < 2 ^ 32) (e : encodeAll b (fresh info level) calls = .ok c) (hf : calls.length * info.channels < 2 ^ 32)
    (hb : c.stream.stream.bitCursor < 2 ^ 64) {s : F32} {sig : List (List F32)} (hw : ∀ blk ∈ sig, blk.length = info.channels)
    (hp : Plays b info.channels s c.init sig) {fuel : Nat} (hfuel : sig.length < fuel) (dst : Writer) :
    Cli.convertAdhocToWav b fuel (file c) (some dst) =
      (WavCodec.saveTo b { info := info, pcm := (sig.flatten.map (restore s)).flatMap le16, shortCursor := 0 } dst).map
        fun r => (some r.1, if r.2 then some () else none) := by
  obtain ⟨c', hl, hi, -, hd⟩ := C09_recordings b info level calls c e hn hrate (lt_of_le_of_lt hn' (by norm_num)) hf hb []
  rw [List.append_nil] at hl
  unfold Cli.convertAdhocToWav
  rw [hl, bind_ok]
  dsimp only
  have hinfo : c'.info = .ok info := by unfold AdhocCodec.info; rw [hi]; rfl
  rw [hinfo, bind_ok]
  have hp' : Plays b info.channels s c' sig := fun bufs => by rw [hd bufs]; exact hp bufs
  obtain ⟨w', ew, iw, HR⟩ := decompressLoop_ok hn hn' fuel hp' hw (w := WavCodec.new info) (cells := []) ⟨rfl, by simp, rfl, Nat.le_refl _⟩ rfl
    Cli.buffer (List.length_replicate ..) hfuel
  rw [ew, bind_ok]
  have hpcm := HR.bytes
  dsimp only at hpcm
  rw [List.nil_append] at hpcm
  have : w'.saveTo b dst = WavCodec.saveTo b { info := info, pcm := (sig.flatten.map (restore s)).flatMap le16, shortCursor := 0 } dst := by
    rw [← hpcm, ← show w'.info = info from iw]
    rfl
  show (w'.saveTo b dst >>= _) = _
  rw [this]
  rcases WavCodec.saveTo b { info := info, pcm := (sig.flatten.map (restore s)).flatMap le16, shortCursor := 0 } dst with p | ⟨r, ok⟩ <;> rfl

/-! ## C58 -/

theorem le16_fits {info : StreamInfo} {cells cells' : List ℤ} {k : Nat} (H : Fits { info := info, pcm := cells.flatMap le16, shortCursor := k })
    (h : cells'.length ≤ cells.length) : Fits { info := info, pcm := cells'.flatMap le16, shortCursor := 0 } := by
  refine ⟨H.pos, H.chans, H.rate, ?_⟩
  have := H.size
  dsimp only at this ⊢
  rw [length_le16] at this ⊢
  omega

/-- C58. Take a 16-bit WAV file (`bytes`, which loads as the samples `cells`) of fewer than 342 channels and at least three blocks, whose
header fields fit, and whose prediction residuals fit. Converting it to an .adhoc file at level 0 and that back succeeds in either build, and
the second file is what `save_to` writes for the same stream info and the samples of the whole blocks, each converted to a float and back
(see C38 for which samples that changes). If the data is at least 212 bytes long, that file loads with these samples. -/
theorem C58_round_trip (b : Build) (bytes : List Byte) (info : StreamInfo) (cells : List ℤ) (hr : ∀ x ∈ cells, -32768 ≤ x ∧ x ≤ 32767)
    (hl : WavCodec.load bytes = .ok (.ok { info := info, pcm := cells.flatMap le16, shortCursor := 0 }))
    (H : Fits { info := info, pcm := cells.flatMap le16, shortCursor := 0 }) (hn : info.channels < 342) (h3 : 3 * info.channels ≤ cells.length)
    (hsync : ∀ ch < info.channels, InSync (track info.channels ch cells)) (fuel : Nat) (hfuel : cells.length < fuel) :
    ∃ adhoc wav, Cli.convertWavToAdhoc b bytes 0 (some Writer.perfect) = .ok (some adhoc, some ()) ∧
      Cli.convertAdhocToWav b fuel adhoc.out (some Writer.perfect) = .ok (some wav, some ()) ∧
      WavCodec.saveTo b { info := info, pcm := ((cells.take (whole info.channels cells.length)).map fun i => truncateSample (normalizeSample i)).flatMap le16, shortCursor := 0 }
        Writer.perfect = .ok (wav, true) ∧
      (106 ≤ whole info.channels cells.length → 2 * whole info.channels cells.length ≠ 1635017024 → WavCodec.load wav.out = .ok (.ok
        { info := info, pcm := ((cells.take (whole info.channels cells.length)).map fun i => truncateSample (normalizeSample i)).flatMap le16, shortCursor := 0 })) := by
  have hpos : 0 < info.channels := H.pos
  have hn' : info.channels ≤ 1024 := by omega
  have hwh : whole info.channels cells.length ≤ cells.length := Nat.div_mul_le_self _ _
  obtain ⟨c, e, hd⟩ := C01_round_trip b b info hpos (cliCalls info.channels cells) (cliCalls_proper hpos hn h3) (by
    intro ch hch
    rw [cliCalls_codes hpos hn' cells hch]
    exact hsync ch hch)
  obtain ⟨hf, hb⟩ := cli_counts hpos hn' (by have := H.size; dsimp only at this; rw [length_le16] at this; norm_num at this ⊢; omega) e
  have hcells : ((blocksOf info.channels (cells.map normalizeSample)).map (·.map quantise)).flatten.map (restore (F32.ofInt 1)) =
      (cells.take (whole info.channels cells.length)).map fun i => truncateSample (normalizeSample i) := by
    rw [← List.map_flatten, flatten_blocksOf hpos, List.length_map, List.map_take, List.map_take, List.map_take, List.map_map, List.map_map]
    congr 1
    apply List.map_congr_left
    intro i hi
    have := hr i hi
    simp only [Function.comp_def, restore, F32.mul_one', quantise]
    exact again_again (by rw [abs_le]; omega)
  have hfit := le16_fits (cells' := (cells.take (whole info.channels cells.length)).map fun i => truncateSample (normalizeSample i)) H (by simp)
  obtain ⟨h, eh, hh⟩ := header_ok (b := b) hfit
  refine ⟨(c.saveTo Writer.perfect).1, _, ?_, ?_, saveTo_perfect eh, ?_⟩
  · rw [wav_to_adhoc hpos hn' hr hl, e]; rfl
  · have hrate : info.sampleRate < 2 ^ 32 := lt_trans H.rate_lt (by norm_num)
    have key := adhoc_to_wav hpos hn' hrate e hf hb (s := F32.ofInt 1)
      (sig := (blocksOf info.channels (cells.map normalizeSample)).map (·.map quantise)) (by
        intro blk hblk
        obtain ⟨x, hx, rfl⟩ := List.mem_map.1 hblk
        rw [List.length_map]
        exact signal_width (calls := cliCalls info.channels cells) x (by rw [cliCalls_signal hpos hn']; exact hx)) (by
        intro bufs
        obtain ⟨c', e'⟩ := hd bufs
        rw [e', map_mul_one, cliCalls_signal hpos hn']; rfl)
      (fuel := fuel) (by
        simp only [List.length_map, blocksOf, List.length_range]
        exact lt_of_le_of_lt (Nat.div_le_self _ _) hfuel) Writer.perfect
    rw [hcells] at key
    rw [show ((c.saveTo Writer.perfect).1).out = file c from rfl, key, saveTo_perfect eh]
    rfl
  · intro h106 hne
    have hlen : (((cells.take (whole info.channels cells.length)).map fun i => truncateSample (normalizeSample i)).flatMap le16).length =
        2 * whole info.channels cells.length := by
      rw [length_le16, List.length_map, List.length_take, Nat.min_eq_left hwh]
    dsimp only
    rw [hh, load_saved_wav hfit (by rw [hlen]; omega)]
    dsimp only
    rw [hlen, if_neg hne]

/-- a mono file of 258 bytes with a long header and five samples -/
def shortWav : List Byte :=
  ascii ['R', 'I', 'F', 'F'] ++ Bincode.leBytes 4 250 ++ ascii ['W', 'A', 'V', 'E'] ++ ascii ['f', 'm', 't', ' '] ++ Bincode.leBytes 4 16 ++
    Bincode.leBytes 2 1 ++ Bincode.leBytes 2 1 ++ Bincode.leBytes 4 8000 ++ Bincode.leBytes 4 16000 ++ Bincode.leBytes 2 2 ++ Bincode.leBytes 2 16 ++
    List.replicate 204 0#8 ++ ascii ['d', 'a', 't', 'a'] ++ Bincode.leBytes 4 10 ++ [1000, -513, 517, 2000, -3276].flatMap le16

theorem shortWav_track : track 1 0 [1000, -513, 517, 2000, -3276] = [1000, -512, 516, 2000, -3276] := by decide +kernel

/-- the hypotheses hold for it -/
example : WavCodec.load shortWav = .ok (.ok { info := { sampleRate := 8000, channels := 1 }, pcm := [1000, -513, 517, 2000, -3276].flatMap le16, shortCursor := 0 }) ∧
    Fits { info := { sampleRate := 8000, channels := 1 }, pcm := [1000, -513, 517, 2000, -3276].flatMap le16, shortCursor := 0 } ∧
    ∀ ch < 1, InSync (track 1 ch [1000, -513, 517, 2000, -3276]) := by
  refine ⟨by decide +kernel, ⟨by decide, by decide, by decide, by decide⟩, ?_⟩
  intro ch hch
  obtain rfl : ch = 0 := by omega
  rw [shortWav_track]
  exact inSync_of_all (by decide +kernel)

/-! ## C64 -/

/-- C64. At every level, if the first conversion does not panic (it never does in release builds), both conversions succeed and the second
file is what `save_to` writes for a recording with the same stream info and one sample for every sample of the whole blocks. -/
theorem C64_same_shape (b : Build) (bytes : List Byte) (info : StreamInfo) (cells : List ℤ) (hr : ∀ x ∈ cells, -32768 ≤ x ∧ x ≤ 32767)
    (hl : WavCodec.load bytes = .ok (.ok { info := info, pcm := cells.flatMap le16, shortCursor := 0 }))
    (H : Fits { info := info, pcm := cells.flatMap le16, shortCursor := 0 }) (hn : info.channels < 342) (h3 : 3 * info.channels ≤ cells.length)
    (level fuel : Nat) (hfuel : cells.length < fuel) :
    (b = .release → ∃ r, Cli.convertWavToAdhoc b bytes level (some Writer.perfect) = .ok r) ∧
    ∀ r, Cli.convertWavToAdhoc b bytes level (some Writer.perfect) = .ok r → ∃ (adhoc wav : Writer) (out : List ℤ), r = (some adhoc, some ()) ∧
      Cli.convertAdhocToWav b fuel adhoc.out (some Writer.perfect) = .ok (some wav, some ()) ∧
      out.length = whole info.channels cells.length ∧
      WavCodec.saveTo b { info := info, pcm := out.flatMap le16, shortCursor := 0 } Writer.perfect = .ok (wav, true) := by
  have hpos : 0 < info.channels := H.pos
  have hn' : info.channels ≤ 1024 := by omega
  have hwh : whole info.channels cells.length ≤ cells.length := Nat.div_mul_le_self _ _
  have hp := cliCalls_proper hpos hn h3
  rw [wav_to_adhoc hpos hn' hr hl]
  constructor
  · rintro rfl
    obtain ⟨c, -, e, -⟩ := encodeAll_calls (b := .release) hpos level _ hp.first (.inl rfl)
    exact ⟨_, by rw [e]; rfl⟩
  · intro r hc
    rcases e : encodeAll b (fresh info level) (cliCalls info.channels cells) with p | c
    · rw [e] at hc; cases hc
    rw [e] at hc
    obtain rfl := Except.ok.inj hc
    obtain ⟨hf, hb⟩ := cli_counts hpos hn' (by have := H.size; dsimp only at this; rw [length_le16] at this; norm_num at this ⊢; omega) e
    obtain ⟨Q, -, -, hd⟩ := playback hpos e hp.short hp.gap
    obtain ⟨sig, hsig⟩ : ∃ sig, sig = played info.channels (signal info.channels (cliCalls info.channels cells)).length Q := ⟨_, rfl⟩
    have hw : ∀ blk ∈ sig, blk.length = info.channels := by
      intro blk hblk
      rw [hsig] at hblk
      obtain ⟨k, -, rfl⟩ := List.mem_map.1 hblk
      simp
    have hsl : sig.length = cells.length / info.channels := by
      rw [hsig, cliCalls_signal hpos hn']
      simp [played, blocksOf]
    have hlen : (sig.flatten.map (restore (fresh info level).scale)).length = whole info.channels cells.length := by
      rw [List.length_map, length_flatten_width hw, hsl, whole]
    have hfit := le16_fits (cells' := sig.flatten.map (restore (fresh info level).scale)) H (by rw [hlen]; exact hwh)
    obtain ⟨h, eh, hh⟩ := header_ok (b := b) hfit
    refine ⟨_, _, _, rfl, ?_, hlen, saveTo_perfect eh⟩
    have key := adhoc_to_wav hpos hn' (lt_trans H.rate_lt (by norm_num)) e hf hb (s := (fresh info level).scale) hw (by
        intro bufs
        obtain ⟨c', e', -⟩ := hd b bufs
        rw [e', hsig]; rfl)
      (fuel := fuel) (by rw [hsl]; exact lt_of_le_of_lt (Nat.div_le_self _ _) hfuel) Writer.perfect
    rw [show ((c.saveTo Writer.perfect).1).out = file c from rfl, key, saveTo_perfect eh]
    rfl

/-- at level 5, the default, the five samples come back as five samples, at a resolution of 32 -/
example : ((Cli.convertWavToAdhoc .debug shortWav 5 (some Writer.perfect)).bind fun r =>
    Cli.convertAdhocToWav .debug 6 (r.1.getD Writer.perfect).out (some Writer.perfect)).map
      (fun r => (r.2, (r.1.getD Writer.perfect).out.drop 44)) = .ok (some (), [992, -480, 480, 1984, -3264].flatMap le16) := by decide +kernel

/-! ## C59 -/

/-- an input without samples: 256 bytes of header -/
def emptyWav : List Byte := (shortWav.take 36) ++ List.replicate 212 0#8 ++ ascii ['d', 'a', 't', 'a'] ++ Bincode.leBytes 4 0

theorem outLength_ok {x : R (Option Writer × Option PUnit)} {n : Nat} (h : x.map (fun r => (r.1.map (·.out.length), r.2)) = .ok (some n, some ())) :
    ∃ d : Writer, x = .ok (some d, some ()) ∧ d.out.length = n := by
  rcases x with p | ⟨_ | d, r⟩
  · cases h
  · cases h
  · have h := Except.ok.inj h
    simp only [Option.map_some, Prod.mk.injEq, Option.some.injEq] at h
    exact ⟨d, by rw [h.2], h.1⟩

/-- C59 is false: the output device fails at once, the file stays empty, and `convert_wav_to_adhoc` returns `Some(())`. -/
theorem C59_false : ¬ ∀ (b : Build) (bytes : List Byte) (level : Nat) (dst dst' full : Writer),
    Cli.convertWavToAdhoc b bytes level (some dst) = .ok (some dst', some ()) →
    Cli.convertWavToAdhoc b bytes level (some Writer.perfect) = .ok (some full, some ()) → dst'.out = dst.out ++ full.out := by
  intro h
  have h1 : (Cli.convertWavToAdhoc .debug emptyWav 5 (some ⟨[], [.fail]⟩)).map (fun r => (r.1.map (·.out.length), r.2)) = .ok (some 0, some ()) := by
    decide +kernel
  have h2 : (Cli.convertWavToAdhoc .debug emptyWav 5 (some Writer.perfect)).map (fun r => (r.1.map (·.out.length), r.2)) = .ok (some 117, some ()) := by
    decide +kernel
  obtain ⟨d, e, hd⟩ := outLength_ok h1
  obtain ⟨d', e', hd'⟩ := outLength_ok h2
  have := congrArg List.length (h _ _ _ _ _ _ e e')
  rw [List.length_append, hd, hd'] at this
  simp at this

/-- C59, what holds: once the input loads and does not make the encoder panic, the result is `Some(())` whatever the device does. The device
has received a prefix of the file, and all of it exactly if `save_to` returned `Some(())`, a result the program drops. -/
theorem C59_partial (b : Build) (bytes : List Byte) (level : Nat) (dst : Writer) (r : Option Writer × Option PUnit)
    (h : Cli.convertWavToAdhoc b bytes level (some dst) = .ok r) :
    ((∃ err, WavCodec.load bytes = .ok (.error err)) ∧ r = (some dst, none)) ∨
    ∃ c dst' p q, Cli.convertWavToAdhoc b bytes level (some Writer.perfect) = .ok (some ⟨file c, []⟩, some ()) ∧
      r = (some dst', some ()) ∧ file c = p ++ q ∧ dst'.out = dst.out ++ p ∧ ((c.saveTo dst).2 = some () ↔ q = []) := by
  unfold Cli.convertWavToAdhoc at h ⊢
  generalize WavCodec.load bytes = l at h ⊢
  rcases l with e | e | w
  · cases h
  · exact .inl ⟨⟨e, rfl⟩, (Except.ok.inj h).symm⟩
  · right
    rw [bind_ok] at h ⊢
    dsimp only at h ⊢
    generalize Cli.compressLoop b (w.numSamples + 1) w ((AdhocCodec.new.withCompressionLevel level).setInfo w.info) Cli.buffer = x at h ⊢
    rcases x with e | c
    · cases h
    · obtain ⟨p, q, h1, h2, h3, -⟩ := C11_save_reports c dst
      refine ⟨c, (c.saveTo dst).1, p, q, ?_, (Except.ok.inj h).symm, h1, h2, h3⟩
      rw [bind_ok]
      have : (c.saveTo Writer.perfect).1 = ⟨file c, []⟩ := by
        unfold file AdhocCodec.saveTo Writer.perfect
        rw [Writer.writePieces_perfect]
      rw [this]
      rfl

/-- a device that takes ten bytes and then fails -/
example : (Cli.convertWavToAdhoc .debug emptyWav 5 (some ⟨[], [.accept 4, .accept 6, .fail]⟩)).map (fun r => (r.1.map (·.out.length), r.2)) =
    .ok (some 10, some ()) := by decide +kernel

/-! ## C61 -/

theorem reverse_ext {stem e : List Char} (he : '.' ∉ e) : (stem ++ '.' :: e).reverse.takeWhile (· ≠ '.') = e.reverse := by
  rw [List.reverse_append, List.reverse_cons, List.append_assoc, List.takeWhile_append_of_pos]
  · simp
  · intro c hc
    have : c ∈ e := by simpa using hc
    simp only [ne_eq, decide_eq_true_eq]
    rintro rfl
    exact he this

theorem splitExt_dot {stem e : List Char} (hs : stem ≠ []) (he : '.' ∉ e) (h2 : stem ++ '.' :: e ≠ ['.', '.']) : Cli.splitExt (stem ++ '.' :: e) = (stem, some e) := by
  unfold Cli.splitExt
  rw [if_neg h2]
  dsimp only
  rw [reverse_ext he, List.reverse_reverse]
  have hl : (stem ++ '.' :: e).length - e.length - 1 = stem.length := by simp; omega
  rw [hl, List.take_left, if_neg]
  rintro (h | h)
  · simp only [List.length_append, List.length_cons] at h
    omega
  · exact hs h

theorem takeWhile_dotless {n : List Char} (h : '.' ∉ n) : n.reverse.takeWhile (· ≠ '.') = n.reverse := by
  rw [List.takeWhile_eq_self_iff]
  intro c hc
  have : c ∈ n := by simpa using hc
  simp only [ne_eq, decide_eq_true_eq]
  rintro rfl
  exact h this

/-- a name whose only dot, if any, is the first character, and which is more than a dot -/
def Plain (n : List Char) : Prop := n ≠ [] ∧ n ≠ ['.'] ∧ '.' ∉ n.tail

theorem splitExt_plain {n : List Char} (h : Plain n) : Cli.splitExt n = (n, none) := by
  obtain ⟨h0, h1, ht⟩ := h
  unfold Cli.splitExt
  split
  · rfl
  · dsimp only
    rcases n with _ | ⟨c, t⟩
    · exact absurd rfl h0
    · by_cases hc : c = '.'
      · subst hc
        have := reverse_ext (stem := []) ht
        rw [List.nil_append] at this
        rw [List.tail_cons] at this
        rw [this, List.reverse_reverse, if_pos]
        right
        simp
      · rw [takeWhile_dotless, List.reverse_reverse, if_pos (.inl rfl)]
        rw [List.mem_cons]
        rintro (h | h)
        · exact hc h.symm
        · exact ht h

theorem plain_ne {n : List Char} (h : Plain n) : n ≠ ['.', '.'] := by
  rintro rfl
  exact h.2.2 (by simp)

/-- C61 is false: the part of the stem after its last dot goes, too, and two inputs share an output. -/
theorem C61_false : (¬ ∀ stem e : List Char, stem ≠ [] → '.' ∉ e → Cli.outputName (stem ++ '.' :: e) ['a', 'd', 'h', 'o', 'c'] =
      some (stem ++ ['.', 'a', 'd', 'h', 'o', 'c'])) ∧
    Cli.outputName "live.1.wav".toList ['a', 'd', 'h', 'o', 'c'] = some "live.adhoc".toList ∧
    Cli.outputName "live.2.wav".toList ['a', 'd', 'h', 'o', 'c'] = some "live.adhoc".toList := by
  refine ⟨fun h => ?_, by decide, by decide⟩
  have := h "live.1".toList "wav".toList (by decide) (by decide)
  revert this
  decide

/-- C61, what holds. If the stem has no dot (other than a leading one), the output is the input with its extension replaced, and a second
conversion gives the first name back. Every other stem loses what follows its last dot. -/
theorem C61_partial (stem e ext : List Char) (he : '.' ∉ e) :
    (Plain stem → Cli.outputName (stem ++ '.' :: e) ext = some (stem ++ '.' :: ext)) ∧
    (∀ a t, stem = a ++ '.' :: t → a ≠ [] → '.' ∉ t → stem ≠ ['.', '.'] → Cli.outputName (stem ++ '.' :: e) ext = some (a ++ '.' :: ext)) ∧
    (Plain stem → Cli.conversions (stem ++ ".wav".toList) = ["wav2adhoc"] ∧ Cli.outputName (stem ++ ".wav".toList) "adhoc".toList = some (stem ++ ".adhoc".toList) ∧
      Cli.conversions (stem ++ ".adhoc".toList) = ["adhoc2wav"] ∧ Cli.outputName (stem ++ ".adhoc".toList) "wav".toList = some (stem ++ ".wav".toList)) := by
  have key : ∀ e ext, '.' ∉ e → Plain stem → Cli.outputName (stem ++ '.' :: e) ext = some (stem ++ '.' :: ext) := by
    intro e ext he hp
    have h2 : stem ++ '.' :: e ≠ ['.', '.'] := by
      intro h
      have hl := congrArg List.length h
      obtain ⟨c, t, rfl⟩ := List.exists_cons_of_ne_nil hp.1
      simp only [List.length_append, List.length_cons, List.length_nil] at hl
      have : t = [] := List.length_eq_zero_iff.1 (by omega)
      subst this
      rw [List.cons_append, List.cons.injEq] at h
      exact hp.2.1 (by rw [h.1])
    unfold Cli.outputName Cli.setExtension
    rw [splitExt_dot hp.1 he h2]
    dsimp only
    rw [splitExt_plain hp, if_neg (by rintro (h | h); exacts [hp.2.1 h, plain_ne hp h])]
  have hconv : ∀ e, '.' ∉ e → e ≠ [] → Plain stem → (Cli.splitExt (stem ++ '.' :: e)).2 = some e := by
    intro e he h0 hp
    rw [splitExt_dot hp.1 he]
    intro h
    have hl := congrArg List.length h
    have h1 := List.length_pos_iff.2 hp.1
    have h2 := List.length_pos_iff.2 h0
    simp only [List.length_append, List.length_cons, List.length_nil] at hl
    omega
  refine ⟨key e ext he, ?_, fun hp => ⟨?_, key _ _ (by decide) hp, ?_, key _ _ (by decide) hp⟩⟩
  · rintro a t rfl ha ht hdd
    have h2 : a ++ '.' :: t ++ '.' :: e ≠ ['.', '.'] := by
      intro h
      have hl := congrArg List.length h
      have h1 := List.length_pos_iff.2 ha
      simp only [List.length_append, List.length_cons, List.length_nil] at hl
      omega
    have h1 : a ++ '.' :: t ≠ ['.'] := by
      intro h
      have hl := congrArg List.length h
      have h1 := List.length_pos_iff.2 ha
      simp only [List.length_append, List.length_cons, List.length_nil] at hl
      omega
    unfold Cli.outputName Cli.setExtension
    rw [splitExt_dot (by simp) he h2]
    dsimp only
    rw [splitExt_dot ha ht hdd, if_neg (by rintro (h | h); exacts [h1 h, hdd h])]
  · unfold Cli.conversions
    rw [show stem ++ ".wav".toList = stem ++ '.' :: "wav".toList from rfl, hconv _ (by decide) (by decide) hp]
    decide
  · unfold Cli.conversions
    rw [show stem ++ ".adhoc".toList = stem ++ '.' :: "adhoc".toList from rfl, hconv _ (by decide) (by decide) hp]
    decide

/-- an extension that contains both words runs both conversions -/
example : Plain "song".toList ∧ Plain ".hidden".toList ∧ ¬ Plain "a.b".toList ∧ Cli.conversions "x.wavadhoc".toList = ["wav2adhoc", "adhoc2wav"] := by
  unfold Plain; decide

end Adhoc
