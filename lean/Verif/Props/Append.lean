import Verif.Proofs.Append
import Verif.Props.Files

/-!
# C76: recording only appends

What was recorded before a call stays as it is: a snapshot of the codec taken between two calls (or saved then) is a recording of the first part of the
signal and plays the first part of what the finished recording plays.
-/

namespace Adhoc
open Spec

/-- bit `i` of the compressed stream, the low bit of the first 128-bit chunk first -/
def Spec.payloadBit (c : AdhocCodec) (i : Nat) : Bool := ((c.stream.stream.binary[i / 128]?).getD 0#128).getLsbD (i % 128)

theorem noGap_prefix {A B : List Nat} (h : NoGap (A ++ B)) : NoGap A := by
  intro j
  by_cases hz : ∃ t, A.getD (j + t) 0 ≠ 0
  · left
    obtain ⟨t, ht, hmin⟩ : ∃ t, A.getD (j + t) 0 ≠ 0 ∧ ∀ s < t, A.getD (j + s) 0 = 0 := by
      refine ⟨Nat.find hz, Nat.find_spec hz, fun s hs => ?_⟩
      have := Nat.find_min hz hs
      simpa using this
    have hlt : j + t < A.length := by
      by_contra hge
      rw [List.getD_eq_getElem?_getD, List.getElem?_eq_none (by omega)] at ht
      exact ht rfl
    have hag : ∀ s, s ≤ t → (A ++ B).getD (j + s) 0 = A.getD (j + s) 0 := by
      intro s hs
      rw [List.getD_eq_getElem?_getD, List.getElem?_append_left (by omega), List.getD_eq_getElem?_getD]
    refine ⟨t, ?_, Nat.pos_of_ne_zero ht⟩
    by_contra hgt
    rcases h j with ⟨s, hs, hp⟩ | hall
    · rw [hag s (by omega), hmin s (by omega)] at hp
      exact absurd hp (by omega)
    · rw [hag t le_rfl |>.symm] at ht
      exact ht (hall t)
  · right
    intro t
    by_contra hne
    exact hz ⟨t, hne⟩

theorem played_prefix {n len0 len : Nat} {Q0 Q : Nat → List Int} (hl : len0 ≤ len) (h0 : len0 = 0 ∨ 3 ≤ len0) (h : ∀ ch < n, Q0 ch = (Q ch).take len0) :
    played n len0 Q0 = (played n len Q).take len0 := by
  apply List.ext_getElem
  · simp [played, hl]
  · intro k h1 h2
    have hk : k < len0 := by simpa [played] using h1
    simp only [played, List.getElem_map, List.getElem_range, List.getElem_take]
    apply List.map_congr_left
    intro ch hch
    rw [h ch (by simpa using hch), decoded_take h0, List.getD_eq_getElem?_getD, List.getElem?_take, if_pos hk, List.getD_eq_getElem?_getD]

/-- C76. When recording goes on, the bits and frame headers that were there stay as they are. -/
theorem C76_append (b : Build) (info : StreamInfo) (level : Nat) (hn : 0 < info.channels) (calls more : List (List F32)) (c : AdhocCodec)
    (h : encodeAll b (fresh info level) (calls ++ more) = .ok c) :
    ∃ c0, encodeAll b (fresh info level) calls = .ok c0 ∧ encodeAll b c0 more = .ok c ∧ c0.stream.stream.len ≤ c.stream.stream.len ∧
      (∀ i < c0.stream.stream.len, payloadBit c i = payloadBit c0 i) ∧
      c0.frameHeaderList.len = calls.length * info.channels ∧ c.frameHeaderList.len = (calls.length + more.length) * info.channels ∧
      ∀ i < calls.length * info.channels, c.frameHeaderList.get i = c0.frameHeaderList.get i := by
  obtain ⟨c0, blocks, new, h0, h1, H, HR, H', HR', -, -⟩ := recorded_split hn h
  have hl : (flat info.channels blocks).length = calls.length * info.channels := by rw [length_flat, HR.len]
  have hl' : (flat info.channels (blocks ++ new)).length = (calls.length + more.length) * info.channels := by
    rw [length_flat, HR'.len, List.length_append]
  have hlog := H.log.len
  have hlog' := H'.log.len
  rw [length_hdrs] at hlog hlog'
  refine ⟨c0, h0, h1, ?_, ?_, by rw [hlog, hl], by rw [hlog', hl'], ?_⟩
  · show c0.stream.stream.bitCursor ≤ c.stream.stream.bitCursor
    rw [H.bits.cursor, H'.bits.cursor, flat_append, bitsOf_append, List.length_append]
    omega
  · intro i hi
    have hi : i < (bitsOf (flat info.channels blocks)).length := by rw [← H.bits.cursor]; exact hi
    have e1 := H.bits.bit i hi
    have hi' : i < (bitsOf (flat info.channels (blocks ++ new))).length := by rw [flat_append, bitsOf_append, List.length_append]; omega
    have e2 := H'.bits.bit i hi'
    have e3 : (bitsOf (flat info.channels (blocks ++ new)))[i] = (bitsOf (flat info.channels blocks))[i] := by
      simp only [flat_append, bitsOf_append]
      exact List.getElem_append_left hi
    exact (e2.trans e3).trans e1.symm
  · intro i hi
    rw [isLog_get H.log, isLog_get H'.log, flat_append, hdrs_append, List.getElem?_append_left (by rw [length_hdrs]; omega)]

/-- C76. A codec between two calls, rewound or saved and loaded, plays the first part of what the finished recording plays: `sig` is the signal of the
snapshot, one block for every block recorded so far, and `sig ++ rest` that of the finished recording. (As always, `decode` scales the
buffers it does not fill.) -/
theorem C76_snapshot (b : Build) (info : StreamInfo) (level : Nat) (hn : 0 < info.channels) (calls more : List (List F32)) (c : AdhocCodec)
    (h : encodeAll b (fresh info level) (calls ++ more) = .ok c) (hs : ∀ pcm ∈ calls ++ more, pcm.length / info.channels < 65536)
    (hg : NoGap ((calls ++ more).map fun pcm => pcm.length / info.channels)) :
    ∃ c0 sig rest, encodeAll b (fresh info level) calls = .ok c0 ∧ sig.length = (signal info.channels calls).length ∧
      rest.length = (signal info.channels more).length ∧
      (∀ b' bufs, ∃ c', decodeAll b' c0.init bufs = .ok (c', (readBlocks info.channels sig bufs).map fun r => (r.1.map (· * (fresh info level).scale), r.2))) ∧
      (∀ b' bufs, ∃ c', decodeAll b' c.init bufs = .ok (c', (readBlocks info.channels (sig ++ rest) bufs).map fun r => (r.1.map (· * (fresh info level).scale), r.2))) ∧
      (info.sampleRate < 2 ^ 32 → info.channels < 2 ^ 32 → calls.length * info.channels < 2 ^ 32 → c0.stream.stream.len < 2 ^ 64 →
        ∃ c1, AdhocCodec.load b (file c0) = .ok (some c1) ∧ ∀ bufs, ∃ c', decodeAll b c1 bufs = .ok (c',
          (readBlocks info.channels sig bufs).map fun r => (r.1.map (· * (fresh info level).scale), r.2))) := by
  obtain ⟨c0, blocks, new, h0, h1, H, HR, H', HR', -, -⟩ := recorded_split hn h
  have hs0 : ∀ pcm ∈ calls, pcm.length / info.channels < 65536 := fun pcm hp => hs pcm (by simp [hp])
  have hg0 : NoGap (calls.map fun pcm => pcm.length / info.channels) := by
    rw [List.map_append] at hg
    exact noGap_prefix hg
  obtain ⟨Q0, hQ0, -, p0⟩ := playback hn h0 hs0 hg0
  obtain ⟨Q, hQ, -, p1⟩ := playback hn h hs hg
  have hrec := HR'.toRec hn
  have hlen : (signal info.channels (calls ++ more)).length = (signal info.channels calls).length + (signal info.channels more).length := by
    rw [signal_append, List.length_append]
  have hrows : rowsIn blocks = (signal info.channels calls).length := HR.rows hn
  have htake : (blocks ++ new).take blocks.length = blocks := by simp
  have hpre := played_prefix (n := info.channels) (len0 := (signal info.channels calls).length) (len := (signal info.channels (calls ++ more)).length)
    (Q0 := Q0) (Q := Q) (by omega) (by
      have := hrec.rows_cases hn blocks.length
      rwa [htake, hrows] at this) (by
      intro ch hch
      rw [(hQ0 ch hch).2, (hQ ch hch).2, ← HR.exact hch, ← HR'.exact hch]
      have := hrec.codes_take blocks.length hch
      rwa [htake, hrows] at this)
  refine ⟨c0, played info.channels (signal info.channels calls).length Q0,
    (played info.channels (signal info.channels (calls ++ more)).length Q).drop (signal info.channels calls).length, h0, by simp [played], ?_, ?_, ?_, ?_⟩
  · simp [played]
    omega
  · intro b' bufs
    obtain ⟨c', e, -⟩ := p0 b' bufs
    exact ⟨c', e⟩
  · intro b' bufs
    obtain ⟨c', e, -⟩ := p1 b' bufs
    refine ⟨c', ?_⟩
    rw [hpre, List.take_append_drop]
    exact e
  · intro a1 a2 a3 a4
    obtain ⟨c1, l1, -, -, l4⟩ := C09_recordings b info level calls c0 h0 hn a1 a2 a3 a4 []
    rw [List.append_nil] at l1
    refine ⟨c1, l1, fun bufs => ?_⟩
    obtain ⟨c', e, -⟩ := p0 b bufs
    have := l4 bufs
    rw [e] at this
    cases h2 : decodeAll b c1 bufs with
    | error x => rw [h2] at this; cases this
    | ok r =>
      rw [h2] at this
      obtain ⟨c2, outs⟩ := r
      refine ⟨c2, ?_⟩
      have h3 := Except.ok.inj this
      exact congrArg (fun o => Except.ok (c2, o)) h3

/-- `demo` is a recording of two calls -/
example : ∃ first second, demo = [first] ++ [second] ∧ first ≠ [] ∧ second ≠ [] := ⟨_, _, rfl, by simp, by simp⟩

end Adhoc
