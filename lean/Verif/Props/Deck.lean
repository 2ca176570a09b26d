import Verif.Props.HalfTape
import Verif.Props.Builds

/-! # C158: all calls of a WAV codec in any order -/

namespace Adhoc
open Spec F32

namespace Spec

/-- the calls -/
inductive DeckOp
  | encode (samples : List F32)
  | decode (buf : List F32)
  | seek (dt : SeekFrom)

/-- the sample a seek asks for; `off` is the number of blocks in a time, and numbers have 64 bits. Seeks from the end count from the start, as wav.rs 316-321
has it. -/
def goal (n : Nat) (off : Int → Int) (t : Reel) : SeekFrom → Int
  | .start ms => Int.bmod (off ms * n) (2 ^ 64)
  | .current ms => Int.bmod ((t.pos / n * n : Nat) + off ms * n) (2 ^ 64)
  | .end ms => Int.bmod (off ms * n) (2 ^ 64)

/-- all calls on a tape with `n` channels: the tape afterwards and the results, or nothing if the head is moved on an empty tape -/
def deck (n : Nat) (off : Int → Int) : Reel → List DeckOp → Option (Reel × List (List F32 × Option Nat))
  | t, [] => some (t, [])
  | t, .encode xs :: ops => do
    let (t', outs) ← deck n off (t.put ((xs.take (whole n xs.length)).map truncateSample)) ops
    some (t', (xs, some (whole n xs.length)) :: outs)
  | t, .decode buf :: ops => do
    let ys := t.next (whole n buf.length)
    let (t', outs) ← deck n off ⟨t.cells, t.pos + ys.length⟩ ops
    some (t', (ys.map normalizeSample ++ buf.drop ys.length, if ys = [] then none else some ys.length) :: outs)
  | t, .seek dt :: ops =>
    if t.cells = [] then none else deck n off ⟨t.cells, (max 0 (min (goal n off t dt) (t.cells.length - 1))).toNat⟩ ops

/-- all calls on the WAV codec -/
def deckRun (b : Build) : WavCodec → List DeckOp → R (WavCodec × List (List F32 × Option Nat))
  | w, [] => pure (w, [])
  | w, .encode xs :: ops => do
    let (w, n) ← w.encode xs
    let (w, outs) ← deckRun b w ops
    pure (w, (xs, n) :: outs)
  | w, .decode buf :: ops => do
    let (w, out, n) ← w.decode buf
    let (w, outs) ← deckRun b w ops
    pure (w, (out, n) :: outs)
  | w, .seek dt :: ops => do
    let w ← w.seek b dt
    deckRun b w ops

end Spec

theorem seek_reel {w : WavCodec} {t : Reel} (H : IsReel w t) (hn : 0 < w.info.channels) (hne : t.cells ≠ []) (dt : SeekFrom) : ∃ w',
    w.seek .release dt = .ok w' ∧ w'.info = w.info ∧
      IsReel w' ⟨t.cells, (max 0 (min (goal w.info.channels (WavCodec.seekOffset w.info) t dt) (t.cells.length - 1))).toNat⟩ := by
  have hpos : 0 < t.cells.length := List.length_pos_iff.2 hne
  have hnum : 0 < w.numSamples := by rw [H.samples]; exact hpos
  have key : ∀ g : Int, IsReel { w with shortCursor := (max 0 (min g ((w.numSamples : Int) - 1))).toNat }
      ⟨t.cells, (max 0 (min g ((t.cells.length : Int) - 1))).toNat⟩ := by
    intro g
    refine ⟨H.bytes, H.range, by dsimp only; rw [H.samples], ?_⟩
    dsimp only
    omega
  cases dt with
  | start ms => exact ⟨_, (C40_exact_partial w hn hnum ms _ _ rfl rfl).1 ms rfl, rfl, key _⟩
  | current ms =>
    have h := (C40_exact_partial w hn hnum ms _ _ rfl rfl).2.2.1
    refine ⟨_, h, rfl, ?_⟩
    have := key (goal w.info.channels (WavCodec.seekOffset w.info) t (.current ms))
    unfold goal at this ⊢
    rw [← H.pos] at this ⊢
    push_cast at this ⊢
    exact this
  | «end» ms => exact ⟨_, (C40_exact_partial w hn hnum ms _ _ rfl rfl).2.1, rfl, key _⟩

/-- C158 as documented ("there no restrictions on how one should call this after encode/decode"): no sequence of calls panics -/
def C158_statement : Prop := ∀ (info : StreamInfo) (ops : List DeckOp), 0 < info.channels → ∃ r, deckRun .release (WavCodec.new info) ops = .ok r

/-- C158, exactly, in a release build: every sequence of calls does on a WAV codec what it does on the tape, and panics if and only if the head is moved on an
empty tape. Missing: that it does not (C42). -/
theorem C158_exactly_partial : ∀ (ops : List DeckOp) (w : WavCodec) (t : Reel) (_ : IsReel w t) (_ : 0 < w.info.channels),
    match deck w.info.channels (WavCodec.seekOffset w.info) t ops with
    | some (t', outs) => ∃ w', deckRun .release w ops = .ok (w', outs) ∧ w'.info = w.info ∧ IsReel w' t'
    | none => deckRun .release w ops = .error .clampAssert
  | [], w, t, H, _ => ⟨w, rfl, rfl, H⟩
  | .encode xs :: ops, w, t, H, hn => by
    obtain ⟨w1, e1, i1, H1⟩ := wavEncode_ok H hn xs
    have ih := C158_exactly_partial ops w1 _ H1 (by rw [i1]; exact hn)
    rw [i1] at ih
    unfold deck deckRun
    rw [e1, bind_ok]
    dsimp only
    cases ed : deck w.info.channels (WavCodec.seekOffset w.info) (t.put ((xs.take (whole w.info.channels xs.length)).map truncateSample)) ops with
    | none =>
      rw [ed] at ih
      rw [show deckRun .release w1 ops = _ from ih]
      rfl
    | some r =>
      rw [ed] at ih
      obtain ⟨w2, e2, i2, H2⟩ := ih
      rw [e2]
      exact ⟨w2, rfl, i2, H2⟩
  | .decode buf :: ops, w, t, H, hn => by
    obtain ⟨w1, e1, i1, H1⟩ := wavDecode_ok H hn buf
    have ih := C158_exactly_partial ops w1 _ H1 (by rw [i1]; exact hn)
    rw [i1] at ih
    unfold deck deckRun
    rw [e1, bind_ok]
    dsimp only
    cases ed : deck w.info.channels (WavCodec.seekOffset w.info) ⟨t.cells, t.pos + (t.next (whole w.info.channels buf.length)).length⟩ ops with
    | none =>
      rw [ed] at ih
      rw [show deckRun .release w1 ops = _ from ih]
      rfl
    | some r =>
      rw [ed] at ih
      obtain ⟨w2, e2, i2, H2⟩ := ih
      rw [e2]
      exact ⟨w2, rfl, i2, H2⟩
  | .seek dt :: ops, w, t, H, hn => by
    unfold deck deckRun
    by_cases h0 : t.cells = []
    · rw [if_pos h0, (C42_empty_partial .release w (by rw [H.samples, h0]; rfl) dt).2 hn]
      rfl
    · rw [if_neg h0]
      obtain ⟨w1, e1, i1, H1⟩ := seek_reel H hn h0 dt
      have ih := C158_exactly_partial ops w1 _ H1 (by rw [i1]; exact hn)
      rw [i1] at ih
      rw [e1, bind_ok]
      exact ih

theorem deck_some {n : Nat} {off : Int → Int} : ∀ (ops : List DeckOp) {t : Reel} (_ : t.cells ≠ []) (_ : t.pos ≤ t.cells.length), ∃ r, deck n off t ops = some r
  | [], t, _, _ => ⟨_, rfl⟩
  | .encode xs :: ops, t, h, hp => by
    have hl : t.cells.length ≤ (t.put ((xs.take (whole n xs.length)).map truncateSample)).cells.length := by
      generalize (xs.take (whole n xs.length)).map truncateSample = ys
      simp only [Reel.put, List.length_append, List.length_take, List.length_drop]
      omega
    obtain ⟨r, e⟩ := deck_some (n := n) (off := off) ops (t := t.put ((xs.take (whole n xs.length)).map truncateSample)) (by
      rw [← List.length_pos_iff] at h ⊢; omega) (by
      generalize (xs.take (whole n xs.length)).map truncateSample = ys
      simp only [Reel.put, List.length_append, List.length_take, List.length_drop]
      omega)
    unfold deck
    rw [e]
    exact ⟨_, rfl⟩
  | .decode buf :: ops, t, h, hp => by
    obtain ⟨r, e⟩ := deck_some (n := n) (off := off) ops (t := ⟨t.cells, t.pos + (t.next (whole n buf.length)).length⟩) h (by
      simp only [Reel.next, List.length_take, List.length_drop]; omega)
    unfold deck
    dsimp only
    rw [e]
    exact ⟨_, rfl⟩
  | .seek dt :: ops, t, h, hp => by
    unfold deck
    rw [if_neg h]
    have := List.length_pos_iff.2 h
    exact deck_some ops h (by dsimp only; omega)

/-- C158: once there is a sample, no sequence of calls panics in a release build. -/
theorem C158_safe_partial (w : WavCodec) (t : Reel) (H : IsReel w t) (hn : 0 < w.info.channels) (hne : t.cells ≠ []) (ops : List DeckOp) :
    ∃ r, deckRun .release w ops = .ok r := by
  have h := C158_exactly_partial ops w t H hn
  obtain ⟨⟨t', outs⟩, e⟩ := deck_some (n := w.info.channels) (off := WavCodec.seekOffset w.info) ops hne H.le
  rw [e] at h
  obtain ⟨w', e', -⟩ := h
  exact ⟨_, e'⟩

/-- C158: a debug build does the same, or panics because a seek overflows. -/
theorem C158_debug_partial : ∀ (ops : List DeckOp) (w : WavCodec), deckRun .debug w ops = deckRun .release w ops ∨ deckRun .debug w ops = .error .overflow
  | [], w => .inl rfl
  | .encode xs :: ops, w => by
    unfold deckRun
    rcases w.encode xs with p | ⟨w1, n⟩
    · exact .inl rfl
    · simp only [bind_ok]
      rcases C158_debug_partial ops w1 with h | h
      · exact .inl (by rw [h])
      · exact .inr (by rw [h]; rfl)
  | .decode buf :: ops, w => by
    unfold deckRun
    rcases w.decode buf with p | ⟨w1, out, n⟩
    · exact .inl rfl
    · simp only [bind_ok]
      rcases C158_debug_partial ops w1 with h | h
      · exact .inl (by rw [h])
      · exact .inr (by rw [h]; rfl)
  | .seek dt :: ops, w => by
    unfold deckRun
    rcases (C154_wav w Writer.perfect dt).2 with h | h
    · rw [h]
      rcases w.seek .release dt with p | w1
      · exact .inl rfl
      · exact C158_debug_partial ops w1
    · exact .inr (by rw [h]; rfl)

/-- recording two blocks at 1000 Hz, going back by one from the end, recording over it, and playing all from the start -/
example : ((deckRun .release (WavCodec.new { sampleRate := 1000, channels := 1 })
      [.encode [F32.ofInt 1, F32.ofInt 1], .seek (.current (-1)), .encode [F32.ofInt (-1), F32.ofInt 0], .seek (.start 0),
        .decode [F32.ofInt 0, F32.ofInt 0, F32.ofInt 0, F32.ofInt 0]]).map fun r => (r.1.pcm, r.2.map (·.2))) =
    .ok ([255#8, 127#8, 1#8, 128#8, 0#8, 0#8], [some 2, some 2, some 3]) := by decide +kernel

/-- C158 does not hold as documented: a seek on a new codec panics. -/
theorem C158_false : ¬ C158_statement := by
  intro h
  obtain ⟨r, e⟩ := h { sampleRate := 1000, channels := 1 } [.decode [], .seek (.start 0)] (by decide)
  have : deckRun .release (WavCodec.new { sampleRate := 1000, channels := 1 }) [.decode [], .seek (.start 0)] = .error .clampAssert := by decide +kernel
  rw [this] at e
  cases e

end Adhoc
