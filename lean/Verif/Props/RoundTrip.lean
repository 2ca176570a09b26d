import Verif.Proofs.Codec

/-!
# C01, C02, C05–C08, C23, C24: encode, rewind, decode

Everywhere `n` is the number of channels, `calls` the buffers passed to `encode` one after the other and `bufs` the buffers passed to
`decode` one after the other. `signal n calls` are the whole blocks of the encoded signal.
-/

namespace Adhoc
open Spec

namespace Spec

/-- the documented way of calling `encode`: the first call holds at least three blocks, no call more than 65535, and there are never
nine calls without a whole block in a row -/
structure Proper (n : Nat) (calls : List (List F32)) : Prop where
  first : ∀ pcm ∈ calls.head?, 3 ≤ pcm.length / n
  short : ∀ pcm ∈ calls, pcm.length / n < 65536
  gap : NoGap (calls.map fun pcm => pcm.length / n)

/-- the 16-bit quantisation of a sample -/
def quantise (x : F32) : F32 := normalizeSample (truncateSample x)

/-- what decode calls put at the front of the buffers, together -/
def delivered (outs : List (List F32 × Option Nat)) : List F32 := outs.flatMap fun r => r.1.take (r.2.getD 0)

end Spec

/-! ## the decoder law -/

theorem recorded_made {n : Nat} {inv : F32} {calls : List (List F32)} {blocks : List (Nat → Fr)} (H : Recorded n inv calls blocks)
    (hn : 0 < n) (hg : NoGap (calls.map fun pcm => pcm.length / n)) : NoGap (sizesOf blocks) := by
  rw [H.sizes hn]; exact hg

/-- What a rewound codec plays back, for every build, level and sequence of buffers, and again after every further rewind. -/
theorem playback {b : Build} {info : StreamInfo} {level : Nat} {calls : List (List F32)} {c : AdhocCodec} (hn : 0 < info.channels)
    (h : encodeAll b (fresh info level) calls = .ok c) (hs : ∀ pcm ∈ calls, pcm.length / info.channels < 65536)
    (hg : NoGap (calls.map fun pcm => pcm.length / info.channels)) :
    ∃ Q : Nat → List Int,
      (∀ ch < info.channels, (Q ch).length = (signal info.channels calls).length ∧
        Q ch = stored (fresh info level).invScale info.channels ch 0 calls) ∧
      (level = 0 → ∀ ch < info.channels, Q ch = Spec.codes ch (signal info.channels calls)) ∧
      ∀ b' bufs, ∃ c', decodeAll b' c.init bufs = .ok (c',
          (readBlocks info.channels (played info.channels (signal info.channels calls).length Q) bufs).map
            fun r => (r.1.map (· * (fresh info level).scale), r.2)) ∧
        ∀ b'' bufs', ∃ c'', decodeAll b'' c'.init bufs' = .ok (c'',
          (readBlocks info.channels (played info.channels (signal info.channels calls).length Q) bufs').map
            fun r => (r.1.map (· * (fresh info level).scale), r.2)) := by
  obtain ⟨-, blocks, H, HR, s⟩ := recorded_of_ok hn h
  have hrec := HR.toRec hn
  have hsh := HR.short hn hs
  have hng := recorded_made HR hn hg
  refine ⟨codesOf blocks, ?_, ?_, ?_⟩
  · intro ch hch
    refine ⟨by rw [hrec.length hch, HR.rows hn], ?_⟩
    exact HR.exact hch
  · rintro rfl ch hch
    rw [(fresh_zero info).2] at HR
    exact HR.codes_zero hch
  · intro b' bufs
    obtain ⟨c', j', m', e, s', H'⟩ := decodeAll_ok (b := b') hn hrec hsh hng bufs (decSt_init H)
    have hsc : c.init.scale = (fresh info level).scale := s.scale
    rw [hsc, HR.rows hn, List.drop_zero] at e
    refine ⟨c', e, ?_⟩
    intro b'' bufs'
    obtain ⟨c'', j'', m'', e', s'', H''⟩ := decodeAll_ok (b := b'') hn hrec hsh hng bufs' H'.init
    have hsc' : c'.init.scale = (fresh info level).scale := by
      rw [← hsc]; exact s'.scale
    rw [hsc', HR.rows hn, List.drop_zero] at e'
    exact ⟨c'', e'⟩

theorem map_mul_one (l : List (List F32 × Option Nat)) : l.map (fun r => (r.1.map (· * F32.ofInt 1), r.2)) = l := by
  conv_rhs => rw [← List.map_id l]
  apply List.map_congr_left
  rintro ⟨a, b⟩ _
  simp [F32.mul_one']

theorem signal_width {n : Nat} {calls : List (List F32)} : ∀ blk ∈ signal n calls, blk.length = n := by
  intro blk h
  obtain ⟨pcm, -, h⟩ := List.mem_flatMap.1 h
  exact blocksOf_width blk h

theorem codes_range (ch : Nat) (sig : List (List F32)) : ∀ q ∈ Spec.codes ch sig, -32767 ≤ q ∧ q ≤ 32767 := by
  intro q hq
  obtain ⟨blk, -, rfl⟩ := List.mem_map.1 hq
  exact truncateSample_range _

/-- in sync, the signal played back is the quantised input -/
theorem played_inSync {n : Nat} {sig : List (List F32)} (hw : ∀ blk ∈ sig, blk.length = n)
    (h : ∀ ch < n, InSync (Spec.codes ch sig)) :
    played n sig.length (fun ch => Spec.codes ch sig) = sig.map (·.map quantise) := by
  apply List.ext_getElem
  · simp [played]
  · intro k h1 h2
    have hk : k < sig.length := by simpa using h2
    simp only [played, List.getElem_map, List.getElem_range]
    apply List.ext_getElem
    · simp [hw _ (List.getElem_mem hk)]
    · intro ch g1 g2
      have hch : ch < n := by simpa using g1
      have hch' : ch < sig[k].length := by rw [hw _ (List.getElem_mem hk)]; exact hch
      simp only [List.getElem_map, List.getElem_range]
      rw [decoded_of_inSync (h ch hch) (fun q hq => by have := codes_range _ _ q hq; omega)]
      have hl : k < (Spec.codes ch sig).length := by simpa [Spec.codes] using hk
      rw [List.getD_eq_getElem?_getD, List.getElem?_eq_getElem hl, Option.getD_some,
        out_of_range (codes_range _ _ _ (List.getElem_mem hl))]
      simp [Spec.codes, quantise, List.getD_eq_getElem?_getD, List.getElem?_eq_getElem hch']

theorem inSync_quiet {Q : List Int} (h : InSync Q) : Quiet Q := by
  intro n h3 hn
  have := h n h3 hn
  omega

/-! ## C01 -/

/-- C01. At level 0, if all prediction residuals of the 16-bit codes fit, then encoding succeeds in both builds, and decoding the rewound
codec (in any build, with any buffers) returns the 16-bit quantisation of the signal, sample for sample and in order. -/
theorem C01_round_trip (b b' : Build) (info : StreamInfo) (hn : 0 < info.channels) (calls : List (List F32))
    (hp : Proper info.channels calls) (hsync : ∀ ch < info.channels, InSync (Spec.codes ch (signal info.channels calls))) :
    ∃ c, encodeAll b (fresh info 0) calls = .ok c ∧ ∀ bufs, ∃ c',
      decodeAll b' c.init bufs = .ok (c', readBlocks info.channels ((signal info.channels calls).map (·.map quantise)) bufs) := by
  obtain ⟨c, blocks, e, -, -, -⟩ := encodeAll_calls (b := b) hn 0 calls hp.first (.inr ⟨hp.short, by
    intro ch hch
    rw [(fresh_zero info).2, stored_one hch]
    exact inSync_quiet (hsync ch hch)⟩)
  refine ⟨c, e, ?_⟩
  obtain ⟨Q, -, hQ, hdec⟩ := playback hn e hp.short hp.gap
  have hQ := hQ rfl
  intro bufs
  obtain ⟨c', e', -⟩ := hdec b' bufs
  refine ⟨c', ?_⟩
  rw [e', (fresh_zero info).1, map_mul_one]
  have : played info.channels (signal info.channels calls).length Q =
      played info.channels (signal info.channels calls).length (fun ch => Spec.codes ch (signal info.channels calls)) := by
    unfold played
    apply List.map_congr_left
    intro k _
    apply List.map_congr_left
    intro ch hch
    rw [hQ ch (by simpa using hch)]
  rw [this, played_inSync signal_width hsync]

/-- the spec of a decode call, on the first call: the front of the buffer and the count -/
theorem readBlocks_cons (n : Nat) (sig : List (List F32)) (buf : List F32) (bufs : List (List F32)) :
    readBlocks n sig (buf :: bufs) =
      ((sig.take (min (buf.length / n) sig.length)).flatten ++ buf.drop (min (buf.length / n) sig.length * n),
        if min (buf.length / n) sig.length = 0 then none else some (min (buf.length / n) sig.length * n)) ::
      readBlocks n (sig.drop (min (buf.length / n) sig.length)) bufs := rfl

/-- a stereo signal of six blocks in two calls, the second of which ends in half a block -/
def demo : List (List F32) :=
  [[F32.ofRat (1 / 2), F32.ofRat (1 / 4), F32.ofRat (1 / 3), F32.ofRat (2 / 5), F32.ofInt 0, F32.ofRat (1 / 2)],
   [F32.ofRat (-1 / 5), F32.ofRat (3 / 5), F32.ofRat (-1 / 10), F32.ofRat (2 / 3), F32.ofRat (1 / 7), F32.ofRat (1 / 2), F32.ofInt 1]]

theorem demo_proper : Proper 2 demo := by
  refine ⟨by simp [demo], by simp [demo], ?_⟩
  intro j
  match j with
  | 0 => exact .inl ⟨0, by simp, by simp [demo]⟩
  | 1 => exact .inl ⟨0, by simp, by simp [demo]⟩
  | j + 2 => exact .inr fun t => by simp [demo, Nat.add_right_comm j 2 t]

theorem demo_codes : Spec.codes 0 (signal 2 demo) = [16383, 10922, 0, -6553, -3276, 4681] ∧
    Spec.codes 1 (signal 2 demo) = [8191, 13106, 16383, 19660, 21844, 16383] := by decide +kernel

theorem inSync_of_all {Q : List Int} (h : ∀ n < Q.length, 3 ≤ n → -32767 ≤ Q.getD n 0 - guess (Q.take n) ∧ Q.getD n 0 - guess (Q.take n) ≤ 32766) :
    InSync Q := fun n h3 hn => h n hn h3

theorem demo_inSync : ∀ ch < 2, InSync (Spec.codes ch (signal 2 demo)) := by
  intro ch hch
  obtain rfl | rfl : ch = 0 ∨ ch = 1 := by omega
  · rw [demo_codes.1]; exact inSync_of_all (by decide +kernel)
  · rw [demo_codes.2]; exact inSync_of_all (by decide +kernel)

/-- the hypotheses of C01 hold for `demo` -/
example : Proper 2 demo ∧ (signal 2 demo).length = 6 ∧ ∀ ch < 2, InSync (Spec.codes ch (signal 2 demo)) :=
  ⟨demo_proper, by simp [signal, demo], demo_inSync⟩

/-! ## C02 -/

/-- full-scale alternation -/
def loud : List (List F32) := [[F32.ofInt 1, F32.ofInt (-1), F32.ofInt 1, F32.ofInt (-1)]]

theorem loud_proper : Proper 1 loud := by
  refine ⟨by simp [loud], by simp [loud], ?_⟩
  intro j
  match j with
  | 0 => exact .inl ⟨0, by simp, by simp [loud]⟩
  | j + 1 => exact .inr fun t => by simp [loud, Nat.add_right_comm j 1 t]

theorem loud_codes : Spec.codes 0 (signal 1 loud) = [32767, -32767, 32767, -32767] := by decide +kernel

theorem loud_decoded : decoded [32767, -32767, 32767, -32767] = [32767, -32767, 32767, 0] := by decide +kernel

/-- C02, exact behaviour. At level 0 every properly encoded signal, loud or not, decodes to the signal whose channels are the 16-bit codes
sent through prediction with residuals limited to [-32767, 32766]: for a channel in sync that is its quantisation. -/
theorem C02_level0_partial (b b' : Build) (info : StreamInfo) (hn : 0 < info.channels) (calls : List (List F32)) (c : AdhocCodec)
    (hs : ∀ pcm ∈ calls, pcm.length / info.channels < 65536) (hg : NoGap (calls.map fun pcm => pcm.length / info.channels))
    (h : encodeAll b (fresh info 0) calls = .ok c) (bufs : List (List F32)) :
    ∃ c', decodeAll b' c.init bufs = .ok (c', readBlocks info.channels
      (played info.channels (signal info.channels calls).length fun ch => Spec.codes ch (signal info.channels calls)) bufs) := by
  obtain ⟨Q, -, hQ, hdec⟩ := playback hn h hs hg
  have hQ := hQ rfl
  obtain ⟨c', e', -⟩ := hdec b' bufs
  refine ⟨c', ?_⟩
  rw [e', (fresh_zero info).1, map_mul_one]
  congr 3
  unfold played
  apply List.map_congr_left
  intro k _
  apply List.map_congr_left
  intro ch hch
  rw [hQ ch (by simpa using hch)]

/-- C02 as documented is false: full-scale alternation does not decode to its quantisation. -/
theorem C02_false : ¬ ∀ (info : StreamInfo) (calls : List (List F32)) (c : AdhocCodec), 0 < info.channels → Proper info.channels calls →
    encodeAll .release (fresh info 0) calls = .ok c → ∀ bufs, ∃ c',
      decodeAll .release c.init bufs = .ok (c', readBlocks info.channels ((signal info.channels calls).map (·.map quantise)) bufs) := by
  intro hall
  obtain ⟨c, -, e, -, -, -⟩ := encodeAll_calls (b := .release) (info := { sampleRate := 8000, channels := 1 }) (by simp) 0 loud
    loud_proper.first (.inl rfl)
  have h1 := hall _ _ c (by simp) loud_proper e [List.replicate 4 (F32.ofInt 0)]
  have h2 := C02_level0_partial .release .release _ (by simp) _ c loud_proper.short loud_proper.gap e [List.replicate 4 (F32.ofInt 0)]
  obtain ⟨c1, h1⟩ := h1
  obtain ⟨c2, h2⟩ := h2
  rw [h1] at h2
  injection h2 with h2
  have h2 := congrArg (fun p => p.2) h2
  revert h2
  have hp : played 1 (signal 1 loud).length (fun ch => Spec.codes ch (signal 1 loud)) = [[out 32767], [out (-32767)], [out 32767], [out 0]] := by
    have : (signal 1 loud).length = 4 := by simp [signal, loud]
    rw [this]
    simp [played, List.range_succ, loud_codes, loud_decoded]
  simp only [hp]
  decide +kernel

/-! ## C05 -/

/-- C05. At level 0, how the signal was cut into `encode` calls (and in which build) makes no difference to what is decoded. -/
theorem C05_split (b₁ b₂ b' : Build) (info : StreamInfo) (hn : 0 < info.channels) (calls₁ calls₂ : List (List F32)) (c₁ c₂ : AdhocCodec)
    (h₁ : encodeAll b₁ (fresh info 0) calls₁ = .ok c₁) (h₂ : encodeAll b₂ (fresh info 0) calls₂ = .ok c₂)
    (hs₁ : ∀ pcm ∈ calls₁, pcm.length / info.channels < 65536) (hg₁ : NoGap (calls₁.map fun pcm => pcm.length / info.channels))
    (hs₂ : ∀ pcm ∈ calls₂, pcm.length / info.channels < 65536) (hg₂ : NoGap (calls₂.map fun pcm => pcm.length / info.channels))
    (hsig : signal info.channels calls₁ = signal info.channels calls₂) (bufs : List (List F32)) :
    ∃ c₁' c₂' outs, decodeAll b' c₁.init bufs = .ok (c₁', outs) ∧ decodeAll b' c₂.init bufs = .ok (c₂', outs) := by
  obtain ⟨c₁', e₁⟩ := C02_level0_partial b₁ b' info hn calls₁ c₁ hs₁ hg₁ h₁ bufs
  obtain ⟨c₂', e₂⟩ := C02_level0_partial b₂ b' info hn calls₂ c₂ hs₂ hg₂ h₂ bufs
  rw [hsig] at e₁
  exact ⟨c₁', c₂', _, e₁, e₂⟩

/-- `demo` in one call instead of two (without the half block) -/
example : signal 2 demo = signal 2 [demo.flatten.take 12] ∧ demo ≠ [demo.flatten.take 12] := by
  constructor
  · simp [signal, demo, blocksOf, List.range_succ]
  · simp [demo]

/-! ## C06 -/

theorem readBlocks_delivered (n : Nat) : ∀ (bufs : List (List F32)) (sig : List (List F32)) (_ : ∀ blk ∈ sig, blk.length = n),
    ∃ d, delivered (readBlocks n sig bufs) = (sig.take d).flatten ∧ d = min (bufs.map (·.length / n)).sum sig.length
  | [], sig, _ => ⟨0, by simp [delivered, readBlocks], by simp⟩
  | buf :: bufs, sig, hw => by
    obtain ⟨d, hd, hd'⟩ := readBlocks_delivered n bufs (sig.drop (min (buf.length / n) sig.length))
      (fun blk h => hw blk (List.mem_of_mem_drop h))
    obtain ⟨e, he⟩ : ∃ e, e = min (buf.length / n) sig.length := ⟨_, rfl⟩
    rw [readBlocks_cons]
    rw [← he] at hd hd' ⊢
    refine ⟨e + d, ?_, ?_⟩
    · have hl : (sig.take e).flatten.length = e * n := by
        rw [List.length_flatten, List.map_congr_left (g := fun _ => n) (fun blk hb => hw blk (List.mem_of_mem_take hb))]
        simp
        left; omega
      unfold delivered at hd ⊢
      rw [List.flatMap_cons, hd]
      have : ((sig.take e).flatten ++ buf.drop (e * n)).take ((if e = 0 then none else some (e * n)).getD 0) = (sig.take e).flatten := by
        by_cases h0 : e = 0
        · subst h0; simp
        · rw [if_neg h0, Option.getD_some, ← hl, List.take_left']; rfl
      rw [this, ← List.flatten_append, List.take_add]
    · simp only [List.map_cons, List.sum_cons, List.length_drop] at hd' ⊢
      omega

/-- C06. For every level there is one fixed signal, with one block per encoded block, such that any sequence of decode calls on the
rewound codec reads that signal: each call returns `min(blocks that fit, blocks left)` blocks, or `None` when that is 0
(`readBlocks`). Together the calls deliver the signal from its start, all of it as soon as the buffers are large enough, and rewinding
after any number of calls starts over with the same signal. -/
theorem C06_buffers (b : Build) (info : StreamInfo) (level : Nat) (hn : 0 < info.channels) (calls : List (List F32)) (c : AdhocCodec)
    (h : encodeAll b (fresh info level) calls = .ok c)
    (hs : ∀ pcm ∈ calls, pcm.length / info.channels < 65536) (hg : NoGap (calls.map fun pcm => pcm.length / info.channels)) :
    ∃ sig : List (List F32), sig.length = (signal info.channels calls).length ∧ (∀ blk ∈ sig, blk.length = info.channels) ∧
      ∀ b' bufs, ∃ c' outs, decodeAll b' c.init bufs = .ok (c', outs) ∧
        outs.map (·.2) = (readBlocks info.channels sig bufs).map (·.2) ∧
        delivered outs = (sig.take (bufs.map (·.length / info.channels)).sum).flatten ∧
        ∀ b'' bufs', ∃ c'' outs', decodeAll b'' c'.init bufs' = .ok (c'', outs') ∧
          outs'.map (·.2) = (readBlocks info.channels sig bufs').map (·.2) ∧
          delivered outs' = (sig.take (bufs'.map (·.length / info.channels)).sum).flatten := by
  obtain ⟨Q, hQ, -, hdec⟩ := playback hn h hs hg
  obtain ⟨n, hnn⟩ : ∃ n, n = info.channels := ⟨_, rfl⟩
  obtain ⟨sc, hsc⟩ : ∃ sc, sc = (fresh info level).scale := ⟨_, rfl⟩
  rw [← hnn, ← hsc] at hdec
  rw [← hnn]
  obtain ⟨sig, hsig⟩ : ∃ sig, sig = played n (signal n calls).length Q := ⟨_, rfl⟩
  have hw : ∀ blk ∈ sig, blk.length = n := by
    intro blk hb
    rw [hsig] at hb
    obtain ⟨k, -, rfl⟩ := List.mem_map.1 hb
    simp
  have hlen : sig.length = (signal n calls).length := by rw [hsig]; simp [played]
  rw [← hsig] at hdec
  have key : ∀ bufs : List (List F32), let outs := (readBlocks n sig bufs).map fun r => (r.1.map (· * sc), r.2)
      outs.map (·.2) = (readBlocks n (sig.map (·.map (· * sc))) bufs).map (·.2) ∧
      delivered outs = ((sig.map (·.map (· * sc))).take (bufs.map (·.length / n)).sum).flatten := by
    intro bufs outs
    constructor
    · have : ∀ (bufs : List (List F32)) (s t : List (List F32)), s.length = t.length →
          (readBlocks n s bufs).map (·.2) = (readBlocks n t bufs).map (·.2) := by
        intro bufs
        induction bufs with
        | nil => intro s t _; rfl
        | cons buf bufs ih =>
          intro s t hst
          simp only [readBlocks_cons, List.map_cons, hst]
          rw [ih (s.drop (min (buf.length / n) t.length)) (t.drop (min (buf.length / n) t.length)) (by simp [hst])]
      simp only [outs, List.map_map, Function.comp_def]
      exact this bufs _ _ (by simp)
    · obtain ⟨d, hd, hd'⟩ := readBlocks_delivered n bufs sig hw
      have e1 : delivered outs = (delivered (readBlocks n sig bufs)).map (· * sc) := by
        simp only [outs, delivered, List.flatMap_map, List.map_flatMap, List.map_take]
      rw [e1, hd, hd', ← List.map_take, List.map_flatten]
      congr 2
      rcases Nat.le_total (bufs.map (·.length / n)).sum sig.length with h | h
      · rw [Nat.min_eq_left h]
      · rw [Nat.min_eq_right h, List.take_of_length_le le_rfl, List.take_of_length_le h]
  refine ⟨sig.map (·.map (· * sc)), by simp [hlen], by simpa using hw, ?_⟩
  intro b' bufs
  obtain ⟨c', e, e2⟩ := hdec b' bufs
  refine ⟨c', _, e, (key bufs).1, (key bufs).2, ?_⟩
  intro b'' bufs'
  obtain ⟨c'', e'⟩ := e2 b'' bufs'
  exact ⟨c'', _, e', (key bufs').1, (key bufs').2⟩

/-- the hypotheses of C06 hold for `demo` at level 0 -/
example : ∃ c, encodeAll .debug (fresh { sampleRate := 44100, channels := 2 } 0) demo = .ok c := by
  obtain ⟨c, h, -⟩ := C01_round_trip .debug .debug { sampleRate := 44100, channels := 2 } (by simp) demo demo_proper demo_inSync
  exact ⟨c, h⟩

end Adhoc
