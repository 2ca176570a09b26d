import Verif.Proofs.Reader
import Verif.Props.Files
import Verif.Props.Cli

/-!
# C133, C134: loading from readers that hand out their content in pieces, are interrupted or fail
-/

namespace Adhoc
open Spec

/-! ## C133 -/

/-- C133 for `AdhocCodec::load`: a reader that neither fails nor pretends to be at its end gives what its content gives; any other
reader gives that or `None`. -/
theorem C133_adhoc (b : Build) (r : Reader) :
    (Steady r → (AdhocCodec.loadFrom b r).map (Option.map Prod.fst) = AdhocCodec.load b r.unread)
    ∧ (AdhocCodec.loadFrom b r = .ok none ∨ (AdhocCodec.loadFrom b r).map (Option.map Prod.fst) = AdhocCodec.load b r.unread) := by
  have key : ∀ {p : Prop}, (p → Steady r) → (¬ p ∧ AdhocCodec.loadFrom b r = .ok none)
      ∨ (AdhocCodec.loadFrom b r).map (Option.map Prod.fst) = AdhocCodec.load b r.unread := by
    intro p hp
    have h := AdhocCodec.reads_slim (r := r) hp
    unfold AdhocCodec.loadFrom AdhocCodec.load
    match AdhocCodec.readSlim r, AdhocCodec.decSlim r.unread, h with
    | none, none, _ => exact .inr rfl
    | none, some _, h => exact .inl ⟨h, rfl⟩
    | some (s, r'), some (s', bs), h =>
      obtain ⟨rfl, -, -⟩ := h
      dsimp only
      right
      match AdhocCodec.shl1 b s.compressionLevel with
      | .error e => rfl
      | .ok k =>
        rw [bind_ok, bind_ok]
        cases s.stream.info <;> rfl
  constructor
  · intro hs
    rcases key (p := True) fun _ => hs with ⟨h, -⟩ | h
    · exact absurd trivial h
    · exact h
  · rcases key (p := False) (fun h => h.elim) with ⟨-, h⟩ | h
    · exact .inl h
    · exact .inr h

/-- C133 for `WavCodec::load`: a reader that can seek and neither fails nor pretends to be at its end gives what its content gives; one that
fails gives that or an error. -/
theorem C133_wav (r : Reader) :
    (Steady r → r.seekable = true → WavCodec.loadFrom r = (WavCodec.loadAt r.bytes r.pos).map (Except.mapError .content))
    ∧ (Honest r → WavCodec.loadFrom r = (WavCodec.loadAt r.bytes r.pos).map (Except.mapError .content)
        ∨ ∃ e, WavCodec.loadFrom r = .ok (.error e)) := by
  have key : Honest r → WavCodec.loadFrom r = (WavCodec.loadAt r.bytes r.pos).map (Except.mapError .content)
      ∨ ((∃ e, WavCodec.loadFrom r = .ok (.error e)) ∧ ¬ (Steady r ∧ r.seekable = true)) := by
    intro hh
    unfold WavCodec.loadFrom WavCodec.loadAt
    dsimp only
    generalize 256 = N
    match e : r.readExact N with
    | none =>
      by_cases hlen : N ≤ r.unread.length
      · refine .inr ⟨⟨_, rfl⟩, fun h => ?_⟩
        obtain ⟨y, hy⟩ := Reader.readExact_complete h.1 hlen
        rw [e] at hy
        cases hy
      · left
        rw [if_pos (by rw [List.length_take]; unfold Reader.unread at hlen; omega)]
        rfl
    | some (hdr, r') =>
      obtain ⟨h1, h2, -, h4, -, h6, h7⟩ := Reader.readExact_sound e
      have hlen : ¬ (List.take N (List.drop r.pos r.bytes)).length < N := by
        rw [List.length_take]; unfold Reader.unread at h1; omega
      rw [if_neg hlen]
      have h2 : hdr = List.take N (List.drop r.pos r.bytes) := h2
      rw [← h2]
      dsimp only
      cases WavCodec.findData hdr with
      | none => exact .inl rfl
      | some ds =>
        dsimp only
        generalize hdr.drop (ds + 4) = rest
        generalize WavCodec.i16At hdr 34 = bits
        generalize WavCodec.i16At hdr 20 = form
        generalize WavCodec.i16At hdr 22 = chans
        generalize Bincode.leNat ((hdr.drop 24).take 4) = freq
        match idx rest 0, idx rest 1, idx rest 2, idx rest 3 with
        | .error _, _, _, _ => exact .inl rfl
        | .ok _, .error _, _, _ => exact .inl rfl
        | .ok _, .ok _, .error _, _ => exact .inl rfl
        | .ok _, .ok _, .ok _, .error _ => exact .inl rfl
        | .ok _, .ok _, .ok _, .ok _ =>
          iterate 8 rw [bind_ok]
          split
          · exact .inl rfl
          · split
            · exact .inl rfl
            · unfold Reader.seekStart
              rw [h6]
              cases hsk : r.seekable with
              | false => exact .inr ⟨⟨_, rfl⟩, fun h => by cases h.2⟩
              | true =>
                rw [if_pos rfl]
                dsimp only
                unfold Reader.readToEnd Reader.unread
                dsimp only
                rw [h4]
                have hh' : .give 0 ∉ r'.script := fun h => hh (h7 _ h)
                match e2 : Reader.readToEndAux r'.script (r.bytes.drop (ds + 8)) [] with
                | none =>
                  refine .inr ⟨⟨_, rfl⟩, fun h => ?_⟩
                  obtain ⟨x, hx⟩ := Reader.readToEndAux_complete r'.script (r.bytes.drop (ds + 8)) []
                    fun hf => (h.1 _ (h7 _ hf)).1 rfl
                  rw [e2] at hx
                  cases hx
                | some pcm =>
                  have hp := Reader.readToEndAux_sound _ _ _ hh' e2
                  rw [List.nil_append] at hp
                  subst hp
                  dsimp only
                  left
                  split
                  · cases WavCodec.widen _ _ <;> rfl
                  · rfl
  constructor
  · intro hs hk
    rcases key (fun h => (hs _ h).2 rfl) with h | h
    · exact h
    · exact absurd ⟨hs, hk⟩ h.2
  · intro hh
    rcases key hh with h | h
    · exact .inl h
    · exact .inr h.1

/-- a reader that is interrupted, hands out one to four bytes at a time for a while, and does not fail -/
def drip (bytes : List Byte) : Reader :=
  { bytes := bytes, pos := 0, script := [.interrupted, .give 1, .give 2, .interrupted, .give 3, .give 4, .give 1, .give 100], seekable := true }

/-- the same, but it fails after the first bytes -/
def broken (bytes : List Byte) : Reader := { drip bytes with script := [.give 1, .interrupted, .give 200, .fail] }

/-- the same, but it fails at the end, and once the header was read -/
def brokenLate (bytes : List Byte) : Reader := { drip bytes with script := [.give 256, .give 5, .fail] }

/-- the hypotheses hold for `drip`, the weaker ones also for `broken` -/
example (bytes : List Byte) : Steady (drip bytes) ∧ (drip bytes).seekable = true ∧ Honest (broken bytes) ∧ ¬ Steady (broken bytes) := by
  refine ⟨?_, rfl, ?_, ?_⟩
  · simp [Steady, drip]
  · simp [Honest, broken]
  · simp [Steady, broken]

/-- `demo`, saved and loaded: from `drip` it comes back, from `broken` nothing does -/
example : (match encodeAll .debug (fresh { sampleRate := 44100, channels := 2 } 0) demo with
    | .ok c =>
      (match AdhocCodec.loadFrom .debug (drip (file c)), AdhocCodec.load .debug (file c), AdhocCodec.loadFrom .debug (broken (file c)) with
        | .ok (some (c1, r)), .ok (some c2), .ok none => decide (c1.stream = c2.stream ∧ c1.frameHeaderList = c2.frameHeaderList ∧ r.pos = 239)
        | _, _, _ => false)
    | .error _ => false) = true := by decide +kernel

/-- a WAV file of five samples: from `drip` it is loaded, the other two give errors -/
example : WavCodec.loadFrom (drip shortWav) =
      .ok (.ok { info := { sampleRate := 8000, channels := 1 }, pcm := [1000, -513, 517, 2000, -3276].flatMap le16, shortCursor := 0 })
    ∧ WavCodec.loadFrom (broken shortWav) = .ok (.error (.content .readHeader))
    ∧ WavCodec.loadFrom (brokenLate shortWav) = .ok (.error .readToEnd)
    ∧ WavCodec.loadFrom { drip shortWav with seekable := false } = .ok (.error .seek) := by decide +kernel

/-- A reader that pretends to be at its end is why `C133_wav` asks for an honest one: the samples behind are lost without an error. -/
example : WavCodec.loadFrom { drip shortWav with script := [.give 256, .give 4, .give 0] } =
    .ok (.ok { info := { sampleRate := 8000, channels := 1 }, pcm := [1000, -513].flatMap le16, shortCursor := 0 }) := by decide +kernel

/-! ## C134 -/

theorem saveTo_true {c : AdhocCodec} {w w' : Writer} (h : c.saveTo w = (w', some ())) : w'.out = w.out ++ savedBytes c := by
  unfold AdhocCodec.saveTo at h
  obtain ⟨p, q, h1, h2, h3⟩ := Writer.writePieces_spec c.encPieces w
  match hw : w.writePieces c.encPieces with
  | (w1, true) =>
    rw [hw] at h h2 h3
    have hq := h3.1 rfl
    rw [← (Prod.mk.inj h).1]
    unfold savedBytes
    rw [h1, hq, List.append_nil]
    exact h2
  | (w1, false) =>
    rw [hw] at h
    cases (Prod.mk.inj h).2

theorem saveAll_true : ∀ (cs : List AdhocCodec) {w w' : Writer}, saveAll cs w = (w', true) → w'.out = w.out ++ cs.flatMap savedBytes
  | [], w, w', h => by
    rw [← (Prod.mk.inj h).1]
    simp
  | c :: cs, w, w', h => by
    unfold saveAll at h
    match hw : c.saveTo w with
    | (w1, some ()) =>
      rw [hw] at h
      rw [saveAll_true cs h, saveTo_true hw]
      simp
    | (w1, none) =>
      rw [hw] at h
      cases (Prod.mk.inj h).2

/-- a codec and how it was recorded: fewer than 2^32 frames, fewer than 2^64 bits, rate and channel count below 2^32 -/
structure Take (b : Build) where
  info : StreamInfo
  level : Nat
  calls : List (List F32)
  codec : AdhocCodec
  recorded : encodeAll b (fresh info level) calls = .ok codec
  someChannel : 0 < info.channels
  rate : info.sampleRate < 2 ^ 32
  channels : info.channels < 2 ^ 32
  frames : calls.length * info.channels < 2 ^ 32
  bits : codec.stream.stream.bitCursor < 2 ^ 64

theorem load_next {b : Build} (t : Take b) {r : Reader} (hr : Steady r) {rest : List Byte} (hu : r.unread = savedBytes t.codec ++ rest) :
    ∃ c' r', AdhocCodec.loadFrom b r = .ok (some (c', r')) ∧ Steady r' ∧ r'.unread = rest ∧ c'.stream.info = some t.info
      ∧ c'.compressionLevel = min t.level 10 ∧ ∀ bufs, (decodeAll b c' bufs).map (·.2) = (decodeAll b t.codec.init bufs).map (·.2) := by
  obtain ⟨c', h1, h2, h3, h4⟩ := C09_recordings b t.info t.level t.calls t.codec t.recorded t.someChannel t.rate t.channels t.frames t.bits rest
  rw [file_eq, ← hu, ← (C133_adhoc b r).1 hr] at h1
  match hl : AdhocCodec.loadFrom b r with
  | .error e => rw [hl] at h1; cases h1
  | .ok none => rw [hl] at h1; cases Except.ok.inj h1
  | .ok (some (c1, r1)) =>
    rw [hl] at h1
    have e1 : c1 = c' := Option.some.inj (Except.ok.inj h1)
    subst e1
    refine ⟨c1, r1, rfl, ?_⟩
    have hs := AdhocCodec.reads_slim (p := True) (r := r) fun _ => hr
    have hc := counted_recording t.someChannel t.rate t.channels t.frames t.recorded t.bits
    have V := valued_run (b := b) (t.calls.map Use.encode) (valued_fresh t.info t.level) t.codec (by rw [encodeAll_uses]; exact t.recorded)
    have hl10 : t.codec.compressionLevel ≤ 10 := by rw [V.lev]; omega
    rw [hu, (good_slim hc V.headers (by omega)).read] at hs
    unfold AdhocCodec.loadFrom at hl
    match hd : AdhocCodec.readSlim r with
    | none => rw [hd] at hs; exact absurd trivial hs
    | some (s, r2) =>
      rw [hd] at hs hl
      obtain ⟨-, g2, g3⟩ := hs
      dsimp only at hl
      rw [bind_eq_ok] at hl
      obtain ⟨k, -, hl⟩ := hl
      have e2 : r2 = r1 := by
        match hi : s.stream.info with
        | none => rw [hi] at hl; cases Except.ok.inj hl
        | some i => rw [hi] at hl; exact (Prod.mk.inj (Option.some.inj (Except.ok.inj hl))).2
      subst e2
      exact ⟨g3 trivial, g2, h2, h3, h4⟩

/-- C134: recordings saved one after the other to the same writer are loaded back one after the other from the same reader, which then
stands behind the last of them. Each comes back with its info and level, and plays what it would have played. The writer may take the
bytes in any pieces, the reader hand them out in any others, and there may be something else before and behind. -/
theorem C134_one_file (b : Build) : ∀ (ts : List (Take b)) (w w' : Writer) (_ : saveAll (ts.map Take.codec) w = (w', true)) (rest : List Byte)
    (r : Reader) (_ : Steady r) (_ : r.bytes = w'.out ++ rest) (_ : r.pos = w.out.length),
    ∃ cs r', loadAll b ts.length r = .ok (some (cs, r')) ∧ r'.unread = rest
      ∧ List.Forall₂ (fun (t : Take b) c => c.stream.info = some t.info ∧ c.compressionLevel = min t.level 10
          ∧ ∀ bufs, (decodeAll b c bufs).map (·.2) = session b t.info t.level t.calls bufs) ts cs := by
  intro ts w w' hw rest r hr hb hp
  have hu : r.unread = (ts.map Take.codec).flatMap savedBytes ++ rest := by
    unfold Reader.unread
    rw [hb, hp, saveAll_true _ hw, List.append_assoc, List.drop_left]
  clear hw hb hp
  induction ts generalizing r with
  | nil => exact ⟨[], r, rfl, by simpa using hu, .nil⟩
  | cons t ts ih =>
    rw [List.map_cons, List.flatMap_cons, List.append_assoc] at hu
    obtain ⟨c, r1, h1, h2, h3, h4, h5, h6⟩ := load_next t hr hu
    obtain ⟨cs, r2, g1, g2, g3⟩ := ih r1 h2 h3
    refine ⟨c :: cs, r2, ?_, g2, .cons ⟨h4, h5, fun bufs => ?_⟩ g3⟩
    · rw [List.length_cons, loadAll, h1, bind_ok]
      dsimp only
      rw [g1, bind_ok]
      rfl
    · rw [h6, session, t.recorded, bind_ok]
      match decodeAll b t.codec.init bufs with
      | .error _ => rfl
      | .ok _ => rfl

/-- `demo` is such a recording -/
theorem demo_take : ∃ t : Take .debug, t.info = { sampleRate := 44100, channels := 2 } ∧ t.level = 0 ∧ t.calls = demo := by
  have h : (encodeAll .debug (fresh { sampleRate := 44100, channels := 2 } 0) demo).map (·.stream.stream.bitCursor) = .ok 184 := by decide +kernel
  match hc : encodeAll .debug (fresh { sampleRate := 44100, channels := 2 } 0) demo with
  | .error e => rw [hc] at h; cases h
  | .ok c =>
    rw [hc] at h
    have h : c.stream.stream.bitCursor = 184 := Except.ok.inj h
    exact ⟨⟨_, _, _, c, hc, by decide, by decide, by decide, by decide, by rw [h]; decide⟩, rfl, rfl, rfl⟩

/-- two recordings behind a note of three bytes, written in pieces and read in others: both come back and four bytes are left -/
example : (match encodeAll .debug (fresh { sampleRate := 44100, channels := 2 } 0) demo, encodeAll .debug (fresh { sampleRate := 8000, channels := 1 } 3) demo with
    | .ok c, .ok d =>
      (match saveAll [c, d] { out := [1, 2, 3], script := [.accept 1, .interrupted, .accept 2, .accept 300] } with
        | (w, true) =>
          (match loadAll .debug 2 { drip (w.out ++ [9, 9, 9, 9]) with pos := 3 } with
            | .ok (some ([c', d'], r)) =>
              decide (c'.stream.info = some { sampleRate := 44100, channels := 2 } ∧ d'.stream.info = some { sampleRate := 8000, channels := 1 }
                ∧ d'.compressionLevel = 3 ∧ r.unread = [9, 9, 9, 9])
            | _ => false)
        | _ => false)
    | _, _ => false) = true := by decide +kernel

end Adhoc
