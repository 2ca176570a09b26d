import Verif.Proofs.Robust
import Verif.Props.RoundTrip

/-! # C25, C26, C27: which sequences of calls panic -/

namespace Adhoc
open Spec

namespace Spec

/-- the calls of a user with one codec -/
inductive Use
  | encode (pcm : List F32)
  | decode (buf : List F32)
  | rewind

/-- run a call -/
def Use.run (b : Build) (c : AdhocCodec) : Use → R AdhocCodec
  | .encode pcm => do let (c, _) ← c.encode b pcm; pure c
  | .decode buf => do let (c, _, _) ← c.decode b buf; pure c
  | .rewind => pure c.init

/-- run the calls -/
def Use.runAll (b : Build) : AdhocCodec → List Use → R AdhocCodec
  | c, [] => pure c
  | c, u :: us => do
    let c ← u.run b c
    runAll b c us

/-- what the codec is being used for since the last rewind -/
inductive Mode
  | idle
  | recording
  | playing
  deriving DecidableEq

/-- the protocol: the mode, the number of calls recorded since the last rewind, and the largest such number so far -/
structure Proto where
  mode : Mode
  calls : Nat
  most : Nat
  deriving DecidableEq

/-- the protocol a call has to follow; `none` is a panic. A recording starts with at least three blocks, playing ends with a rewind, and
a buffer is never filled while recording if there are older calls left that have not been overwritten. Buffers smaller than a block do
nothing, and so does playing when nothing was ever recorded. -/
def Proto.step (channels : Nat) (p : Proto) : Use → Option Proto
  | .encode pcm => match p.mode with
    | .idle => if pcm.length / channels < 3 then none else some ⟨.recording, 1, max p.most 1⟩
    | .recording => some ⟨.recording, p.calls + 1, max p.most (p.calls + 1)⟩
    | .playing => none
  | .decode buf => if buf.length < channels then some p else match p.mode with
    | .idle => if p.most = 0 then some p else some ⟨.playing, 0, p.most⟩
    | .recording => if p.calls < p.most then none else some p
    | .playing => some p
  | .rewind => some ⟨.idle, 0, p.most⟩

/-- a sequence of calls -/
def Proto.run (channels : Nat) : Proto → List Use → Option Proto
  | p, [] => some p
  | p, u :: us => match p.step channels u with
    | none => none
    | some p => run channels p us

end Spec

/-- the codec follows the protocol -/
def Follows (c : AdhocCodec) (info : StreamInfo) (p : Proto) : Prop :=
  match p.mode with
  | .idle => Ready c info .init 0 0 (p.most * info.channels)
  | .recording => Ready c info .encoding 0 (p.calls * info.channels) (p.most * info.channels)
  | .playing => Sane c info ∧ Writable c.frameHeaderList ∧ c.frameHeaderList.len = p.most * info.channels ∧
      c.channelStateList[0]?.map FrameCodec.state = some .decoding ∧ c.seq.sequence < 507961

theorem Ready.buffersEmpty {c : AdhocCodec} {info : StreamInfo} {st : CodecState} {k cursor len : Nat} (H : Ready c info st k cursor len) :
    c.isBuffersEmpty = true := by
  unfold AdhocCodec.isBuffersEmpty
  rw [List.all_eq_true]
  intro fc hfc
  rw [H.empty fc hfc]
  rfl

theorem Ready.first {c : AdhocCodec} {info : StreamInfo} {st : CodecState} {cursor len : Nat} (H : Ready c info st 0 cursor len) :
    c.channelStateList[0]?.map FrameCodec.state = some st := by
  have h0 : 0 < c.channelStateList.length := by rw [H.chans]; exact H.pos
  rw [List.getElem?_eq_getElem h0, Option.map_some, H.state 0 h0]
  simp

theorem Ready.sane {c : AdhocCodec} {info : StreamInfo} {st : CodecState} {cursor len : Nat} (H : Ready c info st 0 cursor len) (hst : st ≠ .encoding) :
    Sane c info := by
  refine ⟨H.hinfo, H.pos, H.chans, H.inBuf, H.writable.toReadable, ?_⟩
  intro fc hfc
  obtain ⟨i, hi, rfl⟩ := List.getElem_of_mem hfc
  rw [H.state i hi]
  simpa using hst

theorem ready_init {c : AdhocCodec} {info : StreamInfo} {len : Nat} (h1 : c.stream.info = some info) (h2 : 0 < info.channels)
    (h3 : c.channelStateList.length = info.channels) (h4 : Writable c.frameHeaderList) (h5 : c.frameHeaderList.len = len)
    (h6 : c.seq.sequence < 507961) : Ready c.init info .init 0 0 len where
  hinfo := h1
  pos := h2
  chans := by simpa [AdhocCodec.init] using h3
  inBuf := by show 0 / 128 ≤ _; simp
  writable := ⟨⟨h4.sizes, h4.cursors, h4.hist⟩, h4.nibbles, h4.bits⟩
  hcur := rfl
  hlen := h5
  le := Nat.zero_le _
  state := by intro i hi; simp [AdhocCodec.init, FrameCodec.init]
  empty := by
    intro fc hfc
    obtain ⟨x, -, rfl⟩ := List.mem_map.1 hfc
    rfl
  seq := h6

theorem follows_init {c : AdhocCodec} {info : StreamInfo} {p : Proto} (H : Follows c info p) : Follows c.init info ⟨.idle, 0, p.most⟩ := by
  obtain ⟨m, k, t⟩ := p
  cases m with
  | idle => exact ready_init H.hinfo H.pos H.chans H.writable H.hlen H.seq
  | recording => exact ready_init H.hinfo H.pos H.chans H.writable H.hlen H.seq
  | playing =>
    obtain ⟨h1, h2, h3, h4, h5⟩ := H
    exact ready_init h1.hinfo h1.pos h1.chans h2 h3 h5

theorem follows_fresh (info : StreamInfo) (hn : 0 < info.channels) (level : Nat) : Follows (fresh info level) info ⟨.idle, 0, 0⟩ where
  hinfo := rfl
  pos := hn
  chans := by simp [fresh, AdhocCodec.withCompressionLevel, AdhocCodec.setInfo, AdhocCodec.resize, AdhocCodec.new]
  inBuf := by show 0 / 128 ≤ _; simp
  writable := ⟨⟨Nat.zero_le _, Nat.zero_le _, Nat.zero_le _⟩, by show 0 / 2 ≤ _; simp, by show 0 / 64 ≤ _; simp⟩
  hcur := rfl
  hlen := by simp; rfl
  le := by simp
  state := by
    intro i h
    simp [fresh, AdhocCodec.withCompressionLevel, AdhocCodec.setInfo, AdhocCodec.resize, AdhocCodec.new, FrameCodec.new]
  empty := by
    intro fc hfc
    simp [fresh, AdhocCodec.withCompressionLevel, AdhocCodec.setInfo, AdhocCodec.resize, AdhocCodec.new] at hfc
    rw [hfc.2]; rfl
  seq := by show 314 < 507961; norm_num

theorem max_mul_nat (a b n : Nat) : max a b * n = max (a * n) (b * n) := by
  rcases Nat.le_total a b with h | h
  · rw [Nat.max_eq_right h, Nat.max_eq_right (Nat.mul_le_mul_right _ h)]
  · rw [Nat.max_eq_left h, Nat.max_eq_left (Nat.mul_le_mul_right _ h)]

/-- decoding in a mode that allows it -/
theorem fine_follows_decode {b : Build} {c : AdhocCodec} {info : StreamInfo} {p p' : Proto} (H : Follows c info p) {buf : List F32}
    (h : p.step info.channels (.decode buf) = some p') : Fine b (c.decode b buf) (fun r => Follows r.1 info p') := by
  obtain ⟨m, k, t⟩ := p
  unfold Proto.step at h
  dsimp only at h
  split at h
  · next hb =>
    cases h
    have : c.stream.info = some info ∧ 0 < info.channels := by
      cases m with
      | idle => exact ⟨H.hinfo, H.pos⟩
      | recording => exact ⟨H.hinfo, H.pos⟩
      | playing => exact ⟨H.1.hinfo, H.1.pos⟩
    rw [decode_short this.1 this.2 hb]
    exact Fine.ok H
  · next hb =>
    cases m with
    | idle =>
      dsimp only at h
      have H' : Ready c info .init 0 0 (t * info.channels) := H
      split at h
      · next ht =>
        cases h
        rw [decode_done H'.hinfo H'.pos H'.chans H'.buffersEmpty (by rw [H'.hlen, H'.hcur, ht]; simp)]
        exact Fine.ok H
      · next ht =>
        cases h
        have hpos := Nat.mul_pos (Nat.pos_of_ne_zero ht) H'.pos
        refine (fine_decode (H'.sane (by simp)) buf).mono ?_
        rintro ⟨c', o, r⟩ ⟨h1, h2, h3⟩
        refine ⟨h1, h2.headers.writable H'.writable, h2.headers.len.trans H'.hlen, h3 (by omega) H'.buffersEmpty ?_, ?_⟩
        · rw [H'.hcur, H'.hlen]; exact hpos
        · have := H'.seq
          rw [← h2.seq] at this
          exact this
    | recording =>
      dsimp only at h
      have H' : Ready c info .encoding 0 (k * info.channels) (t * info.channels) := H
      split at h
      · cases h
      · next ht =>
        cases h
        rw [decode_done H'.hinfo H'.pos H'.chans H'.buffersEmpty (by rw [H'.hlen, H'.hcur]; exact Nat.mul_le_mul_right _ (by omega))]
        exact Fine.ok H
    | playing =>
      cases h
      obtain ⟨g1, g2, g3, g4, g5⟩ := H
      refine (fine_decode g1 buf).mono ?_
      rintro ⟨c', o, r⟩ ⟨h1, h2, h3⟩
      refine ⟨h1, h2.headers.writable g2, h2.headers.len.trans g3, h2.first g4, ?_⟩
      have := g5
      rw [← h2.seq] at this
      exact this

/-- encoding in a mode that allows it -/
theorem fine_follows_encode {b : Build} {c : AdhocCodec} {info : StreamInfo} {p p' : Proto} (H : Follows c info p) {pcm : List F32}
    (h : p.step info.channels (.encode pcm) = some p') : Fine b (c.encode b pcm) (fun r => Follows r.1 info p') := by
  obtain ⟨m, k, t⟩ := p
  unfold Proto.step at h
  cases m with
  | idle =>
    dsimp only at h
    have H' : Ready c info .init 0 0 (t * info.channels) := H
    split at h
    · cases h
    · next h3 =>
      cases h
      refine (fine_encode H' pcm (.inr ⟨rfl, by omega⟩)).mono fun r hr => ?_
      show Ready r.1 info .encoding 0 (1 * info.channels) (max t 1 * info.channels)
      have e : max (t * info.channels) (0 + info.channels) = max t 1 * info.channels := by rw [max_mul_nat, Nat.zero_add, Nat.one_mul]
      rw [← e, Nat.one_mul]
      simpa using hr
  | recording =>
    dsimp only at h
    have H' : Ready c info .encoding 0 (k * info.channels) (t * info.channels) := H
    cases h
    refine (fine_encode H' pcm (.inl rfl)).mono fun r hr => ?_
    show Ready r.1 info .encoding 0 ((k + 1) * info.channels) (max t (k + 1) * info.channels)
    rw [max_mul_nat, Nat.add_mul, Nat.one_mul]
    exact hr
  | playing => cases h

/-- a call against the protocol panics in both builds -/
theorem panic_of_step {b : Build} {c : AdhocCodec} {info : StreamInfo} {p : Proto} (H : Follows c info p) (u : Use) (us : List Use)
    (h : p.step info.channels u = none) : ∃ e, Use.runAll b c (u :: us) = .error e := by
  obtain ⟨m, k, t⟩ := p
  cases u with
  | rewind => cases h
  | encode pcm =>
    unfold Use.runAll Use.run
    dsimp only
    unfold Proto.step at h
    cases m with
    | idle =>
      have H' : Ready c info .init 0 0 (t * info.channels) := H
      dsimp only at h
      split at h
      · next h3 => rw [encode_start_panics H'.hinfo H'.pos H'.first H'.seq H'.inBuf h3]; exact ⟨_, rfl⟩
      · cases h
    | recording => cases h
    | playing =>
      obtain ⟨g1, g2, g3, g4, g5⟩ := H
      rw [encode_playing g1.hinfo g1.pos g4 g5]
      exact ⟨_, rfl⟩
  | decode buf =>
    unfold Use.runAll Use.run
    dsimp only
    unfold Proto.step at h
    dsimp only at h
    split at h
    · cases h
    · next hb =>
      cases m with
      | idle => dsimp only at h; split at h <;> cases h
      | recording =>
        have H' : Ready c info .encoding 0 (k * info.channels) (t * info.channels) := H
        dsimp only at h
        split at h
        · next hk =>
          rw [decode_recording (buf := buf) H'.hinfo H'.pos H'.buffersEmpty H'.first H'.writable.toReadable
            (by rw [H'.hcur, H'.hlen]; exact Nat.mul_lt_mul_of_pos_right hk H'.pos) (by omega)]
          exact ⟨_, rfl⟩
        · cases h
      | playing => cases h

theorem follows_run {b : Build} {info : StreamInfo} : ∀ (us : List Use) {c : AdhocCodec} {p : Proto} (_ : Follows c info p),
    match p.run info.channels us with
    | some p' => Fine b (Use.runAll b c us) (fun c' => Follows c' info p')
    | none => ∃ e, Use.runAll b c us = .error e
  | [], c, p, H => Fine.ok H
  | u :: us, c, p, H => by
    unfold Proto.run
    cases hs : p.step info.channels u with
    | none => exact panic_of_step H u us hs
    | some p1 =>
      dsimp only
      have key : ∀ {c1 : AdhocCodec}, Follows c1 info p1 → _ := fun h => follows_run (b := b) us (c := _) (p := p1) h
      have step : Fine b (u.run b c) (fun c1 => Follows c1 info p1) := by
        cases u with
        | encode pcm => exact (fine_follows_encode H hs).bind fun r hr => Fine.ok hr
        | decode buf => exact (fine_follows_decode H hs).bind fun r hr => Fine.ok hr
        | rewind => cases hs; exact Fine.ok (follows_init H)
      unfold Use.runAll
      rcases step with ⟨c1, e, h1⟩ | ⟨hb, e⟩
      · rw [e, bind_ok]; exact key h1
      · rw [e, bind_error]
        split
        · exact .inr ⟨hb, rfl⟩
        · exact ⟨_, rfl⟩

/-- C25, for all sequences of encode, decode and rewind calls with any samples and at every level: a release build panics exactly when the
sequence breaks the protocol `Proto`. A debug build panics in the same cases, and otherwise at most from an overflowing integer operation. -/
theorem C25_panics_exactly (info : StreamInfo) (hn : 0 < info.channels) (level : Nat) (us : List Use) :
    (panics (Use.runAll .release (fresh info level) us) = ((⟨.idle, 0, 0⟩ : Proto).run info.channels us).isNone) ∧
    (((⟨.idle, 0, 0⟩ : Proto).run info.channels us).isNone → panics (Use.runAll .debug (fresh info level) us)) ∧
    (((⟨.idle, 0, 0⟩ : Proto).run info.channels us).isSome → ∀ e, Use.runAll .debug (fresh info level) us = .error e → e = .overflow) := by
  have h1 := follows_run (b := .release) us (follows_fresh info hn level)
  have h2 := follows_run (b := .debug) us (follows_fresh info hn level)
  cases hr : (⟨.idle, 0, 0⟩ : Proto).run info.channels us with
  | none =>
    rw [hr] at h1 h2
    obtain ⟨e1, h1⟩ := h1
    obtain ⟨e2, h2⟩ := h2
    rw [h1, h2]
    exact ⟨rfl, fun _ => rfl, fun h => by simp at h⟩
  | some p =>
    rw [hr] at h1 h2
    obtain ⟨c1, h1, -⟩ := h1.release
    rw [h1]
    refine ⟨rfl, fun h => by simp at h, fun _ e he => ?_⟩
    rcases h2 with ⟨c2, h2, -⟩ | ⟨-, h2⟩
    · rw [h2] at he; cases he
    · rw [h2] at he; cases he; rfl

/-- C25 as documented: record (the first call with at least three blocks), then play any number of times, each time after a rewind: a
release build does not panic, whatever the samples. Starting with fewer than three blocks panics. -/
theorem C25_no_panic (info : StreamInfo) (hn : 0 < info.channels) (level : Nat) :
    (∀ (first : List F32) (calls : List (List F32)) (plays : List (List (List F32))), 3 ≤ first.length / info.channels →
      ∃ c, Use.runAll .release (fresh info level)
        ((first :: calls).map Use.encode ++ plays.flatMap fun bufs => Use.rewind :: bufs.map Use.decode) = .ok c) ∧
    (∀ (b : Build) (first : List F32) (us : List Use), first.length / info.channels < 3 →
      Use.runAll b (fresh info level) (.encode first :: us) = .error .index) := by
  refine ⟨?_, ?_⟩
  · intro first calls plays h3
    have hap : ∀ (us vs : List Use) (p : Proto), p.run info.channels (us ++ vs) =
        match p.run info.channels us with | none => none | some q => q.run info.channels vs := by
      intro us
      induction us with
      | nil => intro vs p; rfl
      | cons u us ih =>
        intro vs p
        simp only [List.cons_append, Proto.run]
        cases p.step info.channels u with
        | none => rfl
        | some q => exact ih vs q
    have hdec : ∀ (bufs : List (List F32)) (p : Proto), p.mode ≠ .recording → ∃ q, p.run info.channels (bufs.map Use.decode) = some q := by
      intro bufs
      induction bufs with
      | nil => intro p _; exact ⟨p, rfl⟩
      | cons buf bufs ih =>
        intro p hp
        obtain ⟨m, k, t⟩ := p
        simp only [List.map_cons, Proto.run, Proto.step]
        by_cases hb : buf.length < info.channels
        · rw [if_pos hb]; exact ih _ hp
        · rw [if_neg hb]
          cases m with
          | idle =>
            dsimp only
            by_cases ht : t = 0
            · rw [if_pos ht]; exact ih _ hp
            · rw [if_neg ht]; exact ih _ (by simp)
          | recording => exact absurd rfl hp
          | playing => exact ih _ hp
    have hplay : ∀ (plays : List (List (List F32))) (p : Proto), ∃ q, p.run info.channels
        (plays.flatMap fun bufs => Use.rewind :: bufs.map Use.decode) = some q := by
      intro plays
      induction plays with
      | nil => intro p; exact ⟨p, rfl⟩
      | cons bufs plays ih =>
        intro p
        rw [List.flatMap_cons, List.cons_append]
        simp only [Proto.run, Proto.step]
        rw [hap]
        obtain ⟨q, hq⟩ := hdec bufs ⟨.idle, 0, p.most⟩ (by simp)
        rw [hq]
        exact ih q
    have henc : ∀ (calls : List (List F32)) (p : Proto), p.mode = .recording → ∃ q, p.run info.channels (calls.map Use.encode) = some q := by
      intro calls
      induction calls with
      | nil => intro p _; exact ⟨p, rfl⟩
      | cons x calls ih =>
        intro p hp
        obtain ⟨m, k, t⟩ := p
        dsimp only at hp
        subst hp
        exact ih _ rfl
    have hrun : ∃ q, (⟨.idle, 0, 0⟩ : Proto).run info.channels
        ((first :: calls).map Use.encode ++ plays.flatMap fun bufs => Use.rewind :: bufs.map Use.decode) = some q := by
      rw [hap, List.map_cons]
      simp only [Proto.run, Proto.step]
      rw [if_neg (by omega)]
      obtain ⟨q, hq⟩ := henc calls ⟨.recording, 1, max 0 1⟩ rfl
      simp only [hq]
      exact hplay plays q
    obtain ⟨q, hq⟩ := hrun
    have h := follows_run (b := .release) ((first :: calls).map Use.encode ++ plays.flatMap fun bufs => Use.rewind :: bufs.map Use.decode)
      (follows_fresh info hn level)
    rw [hq] at h
    obtain ⟨c, e, -⟩ := h.release
    exact ⟨c, e⟩
  · intro b first us h
    unfold Use.runAll Use.run
    dsimp only
    rw [encode_first_panics hn level first h]
    rfl

/-- a full-scale alternation, which loses sync, is covered -/
example : ∃ c, Use.runAll .release (fresh { sampleRate := 8000, channels := 1 } 0)
    ((loud.head! :: loud.tail).map Use.encode ++ [[[F32.ofInt 0]], [[F32.ofInt 0]]].flatMap fun bufs => Use.rewind :: bufs.map Use.decode) = .ok c :=
  (C25_no_panic _ (by decide) 0).1 _ _ _ (by decide)

/-! ## C26 -/

/-- C26 is false: encoding the full-scale alternation overflows in a debug build. -/
theorem C26_false :
    (encodeAll .debug (fresh { sampleRate := 8000, channels := 1 } 0) loud).map (fun _ => ()) = .error .overflow := by decide +kernel

/-- C26, what holds: calls of fewer than 65536 blocks whose quantised samples all stay within 49151 of the prediction (C26 asks for
65534) encode without panic in a debug build, and overflow is the only panic that other samples can cause. -/
theorem C26_debug_partial (info : StreamInfo) (hn : 0 < info.channels) (level : Nat) (calls : List (List F32))
    (h3 : ∀ first ∈ calls.head?, 3 ≤ first.length / info.channels) :
    ((∀ pcm ∈ calls, pcm.length / info.channels < 65536) →
      (∀ ch < info.channels, Quiet (stored (fresh info level).invScale info.channels ch 0 calls)) →
      ∃ c, encodeAll .debug (fresh info level) calls = .ok c) ∧
    (∀ e, encodeAll .debug (fresh info level) calls = .error e → e = .overflow) := by
  refine ⟨fun hs hq => ?_, fun e he => ?_⟩
  · obtain ⟨c, -, e, -⟩ := encodeAll_calls (b := .debug) hn level calls h3 (.inr ⟨hs, hq⟩)
    exact ⟨c, e⟩
  · have hrun : ∀ (calls : List (List F32)) (c : AdhocCodec), Use.runAll .debug c (calls.map Use.encode) = encodeAll .debug c calls := by
      intro calls
      induction calls with
      | nil => intro c; rfl
      | cons x calls ih =>
        intro c
        unfold encodeAll
        rw [List.foldlM_cons, List.map_cons, Use.runAll, Use.run]
        cases c.encode .debug x with
        | error e => rfl
        | ok r => simp only [bind_ok, pure_eq_ok]; exact ih r.1
    have henc : ∀ (calls : List (List F32)) (p : Proto), p.mode = .recording → ∃ q, p.run info.channels (calls.map Use.encode) = some q := by
      intro calls
      induction calls with
      | nil => intro p _; exact ⟨p, rfl⟩
      | cons x calls ih =>
        intro p hp
        obtain ⟨m, k, t⟩ := p
        dsimp only at hp
        subst hp
        exact ih _ rfl
    rw [← hrun] at he
    refine (C25_panics_exactly info hn level _).2.2 ?_ e he
    cases calls with
    | nil => rfl
    | cons x calls =>
      have := h3 x (by simp)
      simp only [List.map_cons, Proto.run, Proto.step]
      rw [if_neg (by omega)]
      obtain ⟨q, hq⟩ := henc calls ⟨.recording, 1, max 0 1⟩ rfl
      simp only [hq]
      rfl

/-- the hypotheses hold for `demo` at level 0 -/
example : ∃ c, encodeAll .debug (fresh { sampleRate := 44100, channels := 2 } 0) demo = .ok c := by
  obtain ⟨c, h, -⟩ := C01_round_trip .debug .debug { sampleRate := 44100, channels := 2 } (by simp) demo demo_proper demo_inSync
  exact ⟨c, h⟩

/-! ## C27 -/

/-- C27 is false for codecs that are rewound and recorded into again: if the new recording has fewer calls than the old one, decoding
right after it panics. -/
theorem C27_false :
    (Use.runAll .release (fresh { sampleRate := 8000, channels := 1 } 0)
      [.encode (List.replicate 3 (F32.ofInt 0)), .encode [F32.ofInt 0], .rewind, .encode (List.replicate 3 (F32.ofInt 0)), .decode [F32.ofInt 0]]).map
      (fun _ => ()) = .error .explicit := by
  decide +kernel

/-- what `c` does after calls that follow the protocol -/
theorem follows_of_run {b : Build} {info : StreamInfo} (hn : 0 < info.channels) (level : Nat) (us : List Use) {c : AdhocCodec}
    (h : Use.runAll b (fresh info level) us = .ok c) :
    ∃ p, (⟨.idle, 0, 0⟩ : Proto).run info.channels us = some p ∧ Follows c info p := by
  have h1 := follows_run (b := b) us (follows_fresh info hn level)
  cases hr : (⟨.idle, 0, 0⟩ : Proto).run info.channels us with
  | none =>
    rw [hr] at h1
    obtain ⟨e, h1⟩ := h1
    rw [h1] at h
    cases h
  | some p =>
    rw [hr] at h1
    rcases h1 with ⟨c', e, h1⟩ | ⟨-, e⟩
    · rw [e] at h; cases h; exact ⟨p, rfl, h1⟩
    · rw [e] at h; cases h

/-- C27, what holds, after any calls that did not panic, in both builds:
- while recording, unless an older recording with more calls is left in memory (then decoding panics), decoding changes nothing in the
  codec, reports no samples and only multiplies the buffer by the scale;
- after a call to decode that reported samples, encoding panics with the explicit message;
- a loaded codec has both cursors at the start, every channel in its initial state and nothing buffered, so recording starts over. -/
theorem C27_order_partial (b : Build) (info : StreamInfo) (hn : 0 < info.channels) (level : Nat) (us : List Use) (c : AdhocCodec)
    (h : Use.runAll b (fresh info level) us = .ok c) :
    (∀ k m, (⟨.idle, 0, 0⟩ : Proto).run info.channels us = some ⟨.recording, k, m⟩ → ∀ buf : List F32,
      c.decode b buf = if info.channels ≤ buf.length ∧ k < m then .error .explicit else .ok (c, buf.map (· * c.scale), none)) ∧
    (∀ buf c' out n, c.decode b buf = .ok (c', out, some n) → ∀ pcm, c'.encode b pcm = .error .explicit) ∧
    (∀ bytes c', AdhocCodec.load b bytes = .ok (some c') → c'.frameHeaderList.headerCursor = 0 ∧ c'.stream.stream.bitCursor = 0 ∧
      ∀ fc ∈ c'.channelStateList, fc.state = .init ∧ fc.buffered = []) := by
  obtain ⟨p, hp, H⟩ := follows_of_run hn level us h
  refine ⟨?_, ?_, ?_⟩
  · intro k m hkm buf
    rw [hp] at hkm
    cases hkm
    have H' : Ready c info .encoding 0 (k * info.channels) (m * info.channels) := H
    by_cases hb : buf.length < info.channels
    · rw [decode_short H'.hinfo H'.pos hb, if_neg (by omega)]
    · by_cases hk : k < m
      · rw [if_pos ⟨by omega, hk⟩]
        exact decode_recording H'.hinfo H'.pos H'.buffersEmpty H'.first H'.writable.toReadable
          (by rw [H'.hcur, H'.hlen]; exact Nat.mul_lt_mul_of_pos_right hk H'.pos) (by omega)
      · rw [if_neg (by omega)]
        exact decode_done H'.hinfo H'.pos H'.chans H'.buffersEmpty (by rw [H'.hlen, H'.hcur]; exact Nat.mul_le_mul_right _ (by omega)) buf
  · intro buf c' out n hd pcm
    have hplay : ∀ q, p.step info.channels (.decode buf) = some q → q.mode = .playing → c'.encode b pcm = .error .explicit := by
      intro q hq hm
      rcases fine_follows_decode (b := b) H hq with ⟨r, e, hr⟩ | ⟨-, e⟩
      · rw [hd] at e
        cases e
        unfold Follows at hr
        rw [hm] at hr
        exact encode_playing hr.1.hinfo hr.1.pos hr.2.2.2.1 hr.2.2.2.2 pcm
      · rw [hd] at e; cases e
    obtain ⟨m, k, t⟩ := p
    have hi : c.stream.info = some info := by
      cases m with
      | idle => exact H.hinfo
      | recording => exact H.hinfo
      | playing => exact H.1.hinfo
    by_cases hb : buf.length < info.channels
    · rw [decode_short hi hn hb] at hd
      cases hd
    cases m with
    | idle =>
      have H' : Ready c info .init 0 0 (t * info.channels) := H
      by_cases ht : t = 0
      · rw [decode_done H'.hinfo H'.pos H'.chans H'.buffersEmpty (by rw [H'.hlen, H'.hcur, ht]; simp)] at hd
        cases hd
      · exact hplay ⟨.playing, 0, t⟩ (by simp [Proto.step, hb, ht]) rfl
    | recording =>
      have H' : Ready c info .encoding 0 (k * info.channels) (t * info.channels) := H
      by_cases hk : k < t
      · rw [decode_recording H'.hinfo H'.pos H'.buffersEmpty H'.first H'.writable.toReadable
          (by rw [H'.hcur, H'.hlen]; exact Nat.mul_lt_mul_of_pos_right hk H'.pos) (by omega)] at hd
        cases hd
      · rw [decode_done H'.hinfo H'.pos H'.chans H'.buffersEmpty (by rw [H'.hlen, H'.hcur]; exact Nat.mul_le_mul_right _ (by omega)) buf] at hd
        cases hd
    | playing => exact hplay ⟨.playing, k, t⟩ (by simp [Proto.step, hb]) rfl
  · intro bytes c' hl
    unfold AdhocCodec.load at hl
    split at hl
    · cases hl
    · obtain ⟨s, -, hl⟩ := bind_eq_ok.1 hl
      dsimp only at hl
      split at hl
      · cases hl
      · cases hl
        refine ⟨rfl, rfl, ?_⟩
        intro fc hfc
        obtain ⟨x, -, rfl⟩ := List.mem_map.1 hfc
        exact ⟨rfl, rfl⟩

/-- recording, then playing: `decode` reports samples, so the hypotheses of the second part are met -/
example : (do
    let c ← Use.runAll .debug (fresh { sampleRate := 8000, channels := 1 } 0) [.encode (List.replicate 3 (F32.ofInt 0)), .rewind]
    let (_, _, r) ← c.decode .debug [F32.ofInt 0]
    pure r) = .ok (some 1) := by
  decide +kernel

/-! ## C32 -/

/-- a file of 125 bytes that claims one header but holds no header data -/
def torn : List Byte :=
  List.replicate 4 0#8 ++ List.replicate 8 0#8 ++ [1#8, 0#8, 0#8, 0#8] ++ List.replicate 8 0#8 ++ List.replicate 16 0#8 ++
    List.replicate 24 0#8 ++ List.replicate 4 0#8 ++ [1#8] ++ [64#8, 31#8, 0#8, 0#8] ++ [1#8, 0#8, 0#8, 0#8] ++ List.replicate 8 0#8 ++
    List.replicate 32 0#8

/-- C32 is false: this file is accepted by `load`, and decoding one sample from it panics. -/
theorem C32_false :
    (do
      let c ← AdhocCodec.load .release torn
      match c with
      | none => pure true
      | some c => do
        let _ ← c.decode .release [F32.ofInt 0]
        pure false) = .error .index := by
  decide +kernel

/-- C32, what holds for every file whatsoever: in a release build loading never panics, and if the loaded codec has at least one channel
and its header vectors are as long as the header count, then no sequence of decode calls and rewinds panics. In a debug build the only
panic is an overflow. -/
theorem C32_corrupt_files_partial (b : Build) (bytes : List Byte) :
    Fine b (AdhocCodec.load b bytes) (fun r => ∀ c, r = some c → ∀ info, c.stream.info = some info → 0 < info.channels →
      c.frameHeaderList.len ≤ c.frameHeaderList.frameSizeList.length → c.frameHeaderList.len ≤ c.frameHeaderList.bitCursorList.length →
      c.frameHeaderList.len ≤ c.frameHeaderList.stackHistoryList.length →
      ∀ us : List Use, (∀ pcm, Use.encode pcm ∉ us) → Fine b (Use.runAll b c us) (fun _ => True)) := by
  have hrun : ∀ (info : StreamInfo) (us : List Use) (c : AdhocCodec), Sane c info → (∀ pcm, Use.encode pcm ∉ us) →
      Fine b (Use.runAll b c us) (fun _ => True) := by
    intro info us
    induction us with
    | nil => intro c _ _; exact Fine.ok trivial
    | cons u us ih =>
      intro c H hu
      unfold Use.runAll
      have hus : ∀ pcm, Use.encode pcm ∉ us := fun pcm h => hu pcm (by simp [h])
      cases u with
      | encode pcm => exact absurd (by simp) (hu pcm)
      | decode buf =>
        refine Fine.bind (P := fun c => Sane c info) ?_ fun c' h' => ih c' h' hus
        exact (fine_decode H buf).bind fun r hr => Fine.ok hr.1
      | rewind =>
        refine ih c.init ⟨H.hinfo, H.pos, by simpa [AdhocCodec.init] using H.chans, by show 0 / 128 ≤ _; simp,
          ⟨H.readable.sizes, H.readable.cursors, H.readable.hist⟩, ?_⟩ hus
        intro fc hfc
        obtain ⟨x, -, rfl⟩ := List.mem_map.1 hfc
        simp [FrameCodec.init]
  have hshl : ∀ n, Fine b (AdhocCodec.shl1 b n) (fun _ => True) := by
    intro n
    unfold AdhocCodec.shl1
    split
    · exact Fine.ok trivial
    · cases b
      · exact .inr ⟨rfl, rfl⟩
      · exact Fine.ok trivial
  unfold AdhocCodec.load
  split
  · exact Fine.ok (fun c h => by cases h)
  · refine (hshl _).bind fun s _ => ?_
    dsimp only
    split
    · exact Fine.ok (fun c h => by cases h)
    · next info hinfo =>
      refine Fine.ok ?_
      intro c hc info' hi' hpos h1 h2 h3 us hus
      cases hc
      have hii : info' = info := by
        have h := hinfo.symm.trans hi'
        cases h; rfl
      subst hii
      refine hrun info' us _ ⟨hi', hpos, by simp [AdhocCodec.init], by show 0 / 128 ≤ _; simp, ⟨h1, h2, h3⟩, ?_⟩ hus
      intro fc hfc
      obtain ⟨x, -, rfl⟩ := List.mem_map.1 hfc
      simp [FrameCodec.init]

/-- the file of an empty recording meets the hypotheses -/
example : (AdhocCodec.load .release (torn.set 12 0#8)).map (fun r => r.map fun c =>
    (c.stream.info, decide (c.frameHeaderList.len ≤ c.frameHeaderList.frameSizeList.length), c.frameHeaderList.len)) =
    .ok (some (some { sampleRate := 8000, channels := 1 }, true, 0)) := by
  decide +kernel

end Adhoc
