import Verif.Props.Again
import Verif.Props.Files
import Verif.Props.Append

/-! # C97, C98 and C99: ways to seek, recording on after loading, and a wrong channel count -/

namespace Adhoc
open Spec F32 BitStream

/-! ## C97 -/

/-- after `decode_frame` with a header left the channel is playing -/
theorem ens_decodeFrame_playing {b : Build} {fc : FrameCodec} {st : AudioStream} {hd : FrameHeaders} (h : hd.headerCursor < hd.len) :
    Ens (fc.decodeFrame b st hd) (fun r => r.1.state = .decoding) := by
  unfold FrameCodec.decodeFrame
  refine Ens.bind (P := fun r => r.2 ≠ none) ?_ fun r hr => ?_
  · unfold FrameHeaders.next
    dsimp only
    rw [if_pos (show hd.headerCursor < hd.divisorExpList.len from h)]
    exact (Ens.any _).bind fun _ _ => (Ens.any _).bind fun _ _ => (Ens.any _).bind fun _ _ => Ens.ok (by simp)
  · obtain ⟨hd', hdr?⟩ := r
    cases hdr? with
    | none => exact absurd rfl hr
    | some hdr =>
      dsimp only
      split
      · exact (Ens.any _).bind fun _ _ => (Ens.any _).bind fun _ _ => (Ens.any _).bind fun _ _ => (Ens.any _).bind fun _ _ => Ens.ok rfl
      · next hst => exact (Ens.any _).bind fun _ _ => Ens.ok hst
      · exact Ens.error

/-- the first channel is playing -/
def FirstPlays (c : AdhocCodec) : Prop := c.channelStateList[0]?.map FrameCodec.state = some .decoding

theorem ens_seekChannel_first {b : Build} {c : AdhocCodec} {s : Nat} (h : c.frameHeaderList.headerCursor = s) :
    Ens (c.seekChannel b s 0) FirstPlays := by
  unfold AdhocCodec.seekChannel
  refine Ens.bind (P := fun r => r ≠ none → s < c.frameHeaderList.len) ?_ fun hdr? h1 => ?_
  · unfold FrameHeaders.get
    split
    · next hlt => exact fun _ _ _ => hlt
    · exact Ens.ok fun h => absurd rfl h
  · cases hdr? with
    | none => exact Ens.error
    | some hdr =>
      have hlt := h1 (by simp)
      refine (Ens.any _).bind fun hdr _ => (Ens.any _).bind fun fc _ => ?_
      refine (ens_decodeFrame_playing (by rw [h]; exact hlt)).bind fun r hr => ?_
      refine Ens.bind (P := fun l => 0 < c.channelStateList.length ∧ l = c.channelStateList.set 0 r.1) (fun l hl => setIdx_eq_ok.1 hl) fun l hl => Ens.ok ?_
      obtain ⟨h0, rfl⟩ := hl
      show (c.channelStateList.set 0 r.1)[0]?.map FrameCodec.state = _
      rw [List.getElem?_set_self h0]
      exact congrArg some hr

theorem ens_seekChannel_later {b : Build} {c : AdhocCodec} {s off : Nat} (h : FirstPlays c) : Ens (c.seekChannel b s (off + 1)) FirstPlays := by
  unfold AdhocCodec.seekChannel
  refine (Ens.any _).bind fun _ _ => (Ens.any _).bind fun _ _ => (Ens.any _).bind fun _ _ => (Ens.any _).bind fun r _ => ?_
  refine Ens.bind (P := fun l => l = c.channelStateList.set (off + 1) r.1) (fun l hl => (setIdx_eq_ok.1 hl).2) fun l hl => Ens.ok ?_
  show l[0]?.map FrameCodec.state = _
  rw [hl, List.getElem?_set_ne (by omega)]
  exact h

theorem ens_prune_first {b : Build} {n target : Nat} : ∀ (fuel skipped : Nat) {c : AdhocCodec} (_ : FirstPlays c),
    Ens (AdhocCodec.prune b n target fuel skipped c) FirstPlays
  | 0, _, _, _ => Ens.error
  | fuel + 1, skipped, c, h => by
    unfold AdhocCodec.prune
    split
    · refine Ens.bind (P := FirstPlays) ?_ fun c' h' => (Ens.any _).bind fun _ _ => ens_prune_first fuel _ h'
      unfold AdhocCodec.dropOne
      refine Ens.foldlM ?_ _ _ h
      intro c off h
      refine Ens.bind (P := fun fc => c.channelStateList[off]? = some fc) (fun fc hfc => idx_eq_ok.1 hfc) fun fc hfc => ?_
      refine Ens.bind (P := fun l => l = c.channelStateList.set off { fc with buffered := fc.buffered.tail }) (fun l hl => (setIdx_eq_ok.1 hl).2) fun l hl => Ens.ok ?_
      subst hl
      unfold FirstPlays at h ⊢
      dsimp only
      by_cases ho : off = 0
      · subst ho
        rw [hfc] at h
        rw [List.getElem?_set_self (List.getElem?_eq_some_iff.1 hfc).1]
        exact h
      · rw [List.getElem?_set_ne ho]
        exact h
    · exact Ens.ok h

theorem ens_seek_first {b : Build} {c : AdhocCodec} {info : StreamInfo} (hinfo : c.stream.info = some info) (hn : 0 < info.channels) {dt : Nat} (hdt : dt ≠ 0) :
    Ens (c.seek b (.start dt)) FirstPlays := by
  unfold AdhocCodec.seek
  rw [hinfo, show expect (some info) = .ok info from rfl, bind_ok]
  dsimp only
  rw [if_neg hdt]
  unfold AdhocCodec.seekTo
  refine (Ens.any _).bind fun _ _ => (Ens.any _).bind fun _ _ => (Ens.any _).bind fun r _ => ?_
  refine (Ens.any _).bind fun _ _ => (Ens.any _).bind fun hdr _ => ?_
  refine Ens.bind (P := FirstPlays) ?_ fun c' h' => ens_prune_first _ _ h'
  obtain ⟨n, e⟩ : ∃ n, info.channels = n + 1 := ⟨info.channels - 1, by omega⟩
  rw [show List.range info.channels = 0 :: (List.range n).map (· + 1) by rw [e, List.range_succ_eq_map], List.foldlM_cons]
  refine (ens_seekChannel_first rfl).bind fun c' h' => ?_
  rw [List.foldlM_map]
  exact Ens.foldlM (fun c off h => ens_seekChannel_later h) _ _ h'

/-- C97 is false: on a recording, seeking by 0 from where the codec stands, or to its end, panics. -/
theorem C97_false : ¬ ∀ (b : Build) (info : StreamInfo) (level : Nat) (calls : List (List F32)) (c : AdhocCodec) (t : SeekFrom), 0 < info.channels →
    Proper info.channels calls → encodeAll b (fresh info level) calls = .ok c → t = .current 0 ∨ t = .end 0 → ∃ c', c.init.seek b t = .ok c' := by
  intro H
  obtain ⟨c, h, -⟩ := C01_round_trip .debug .debug { sampleRate := 44100, channels := 2 } (by simp) demo demo_proper demo_inSync
  obtain ⟨c', e⟩ := H .debug _ 0 _ c (.current 0) (by simp) demo_proper h (.inl rfl)
  obtain ⟨-, blocks, HE, -, -⟩ := recorded_of_ok (by simp) h
  unfold AdhocCodec.seek at e
  rw [show c.init.stream.info = some { sampleRate := 44100, channels := 2 } from HE.hinfo] at e
  cases e

/-- C97, what each way to seek does, for every codec and in both builds: without stream info all of them panic; otherwise those relative to
the position or to the end panic, and the start is where `init` goes. -/
theorem C97_modes_partial (b : Build) (c : AdhocCodec) :
    (c.stream.info = none → ∀ t, c.seek b t = .error .expect) ∧
    ∀ info, c.stream.info = some info →
      (∀ d, c.seek b (.current d) = .error .unimplemented ∧ c.seek b (.end d) = .error .unimplemented) ∧ c.seek b (.start 0) = .ok c.init := by
  refine ⟨fun h t => ?_, fun info h => ⟨fun d => ⟨?_, ?_⟩, ?_⟩⟩ <;> unfold AdhocCodec.seek <;> rw [h] <;> rfl

/-- C97, what a seek is good for, after any calls: after a seek to a later time than the start recording panics, whatever is recorded; after a
seek to the start it does what it does after a rewind. -/
theorem C97_then_partial (b : Build) (info : StreamInfo) (hn : 0 < info.channels) (level : Nat) (xs : List Call) (c : AdhocCodec)
    (os : List (List F32 × Option Nat)) (h : Call.runAll b (fresh info level) xs = .ok (c, os)) (hx : ∀ x ∈ xs, x.isLoad = false) :
    (∀ dt c', dt ≠ 0 → c.seek b (.start dt) = .ok c' → ∀ pcm, c'.encode b pcm = .error .explicit) ∧
    ∀ c', c.seek b (.start 0) = .ok c' → ∀ pcm, c'.encode b pcm = c.init.encode b pcm := by
  have T : Trail c info level := trail_runAll xs (trail_fresh info level) hx _ h
  refine ⟨fun dt c' hdt hs pcm => ?_, fun c' hs pcm => ?_⟩
  · have T' : Trail c' info level := trail_seek T (.start dt) _ hs
    obtain ⟨t, ht⟩ := T'.seq
    exact encode_playing T'.hinfo hn (ens_seek_first T.hinfo hn hdt _ hs) (by rw [ht]; exact draw_lt _) pcm
  · rw [((C97_modes_partial b c).2 info T.hinfo).2] at hs
    cases hs
    rfl

/-- a recording of half a second is sought to its middle: the codec is ready to play and recording panics; sought to the start it records -/
example : (do
    let c ← encodeAll .release (fresh { sampleRate := 10, channels := 1 } 3) [pcmOf [1, 2, 3, 4, 5]]
    let c1 ← c.seek .release (.start 200)
    let c2 ← c.seek .release (.start 0)
    let (c2, _) ← c2.encode .release (pcmOf [7, 8, 9])
    pure (decide ((c1.encode .release (pcmOf [7, 8, 9])).map (fun _ => ()) = .error .explicit), c2.frameHeaderList.len) : R (Bool × Nat)) = .ok (true, 1) := by
  decide +kernel

/-! ## C98 -/

theorem firstPlays_of_set {c : AdhocCodec} {ch : Nat} {fc fc' : FrameCodec} (h : FirstPlays c) (hfc : c.channelStateList[ch]? = some fc)
    (hst : fc.state = .decoding → fc'.state = .decoding) : (c.channelStateList.set ch fc')[0]?.map FrameCodec.state = some .decoding := by
  unfold FirstPlays at h
  by_cases ho : ch = 0
  · subst ho
    rw [hfc] at h
    rw [List.getElem?_set_self (List.getElem?_eq_some_iff.1 hfc).1]
    exact congrArg some (hst (Option.some.inj h))
  · rw [List.getElem?_set_ne ho]
    exact h

/-- without a header `decode_frame` does nothing, with one the channel is playing afterwards -/
theorem ens_decodeFrame_or {b : Build} {fc : FrameCodec} {st : AudioStream} {hd : FrameHeaders} :
    Ens (fc.decodeFrame b st hd) (fun r => r.1.state = .decoding ∧ hd.headerCursor < hd.len ∨ r.1 = fc ∧ r.2.2.1 = hd ∧ hd.len ≤ hd.headerCursor) := by
  by_cases h : hd.headerCursor < hd.len
  · exact fun r hr => .inl ⟨ens_decodeFrame_playing h r hr, h⟩
  · unfold FrameCodec.decodeFrame FrameHeaders.next
    dsimp only
    rw [if_neg (show ¬ hd.headerCursor < hd.divisorExpList.len from h)]
    exact Ens.ok (.inr ⟨rfl, rfl, by omega⟩)

/-- nothing is buffered and no header is left -/
def Idle (c : AdhocCodec) : Prop := c.isBuffersEmpty = true ∧ c.frameHeaderList.len ≤ c.frameHeaderList.headerCursor

theorem set_same {α : Type} {l : List α} {i : Nat} {a : α} (h : l[i]? = some a) : l.set i a = l := by
  obtain ⟨hi, rfl⟩ := List.getElem?_eq_some_iff.1 h
  exact List.set_getElem_self hi

theorem ens_decodeChannel_first {b : Build} {c : AdhocCodec} (ch : Nat) (h : FirstPlays c ∨ Idle c ∨ ch = 0 ∧ c.isBuffersEmpty = true) :
    Ens (c.decodeChannel b ch) (fun c => FirstPlays c ∨ Idle c) := by
  unfold AdhocCodec.decodeChannel
  refine Ens.bind (P := fun fc => c.channelStateList[ch]? = some fc) (fun fc hfc => idx_eq_ok.1 hfc) fun fc hfc => ?_
  refine ens_decodeFrame_or.bind fun r hr => ?_
  refine Ens.bind (P := fun l => l = c.channelStateList.set ch r.1) (fun l hl => (setIdx_eq_ok.1 hl).2) fun l hl => Ens.ok ?_
  subst hl
  have idle : r.1 = fc → r.2.2.1 = c.frameHeaderList → c.frameHeaderList.len ≤ c.frameHeaderList.headerCursor → c.isBuffersEmpty = true →
      Idle { c with channelStateList := c.channelStateList.set ch r.1, stream := r.2.1, frameHeaderList := r.2.2.1 } := by
    intro h1 h2 h3 h4
    refine ⟨?_, ?_⟩
    · show (c.channelStateList.set ch r.1).all _ = true
      rw [h1, set_same hfc]
      exact h4
    · show r.2.2.1.len ≤ r.2.2.1.headerCursor
      rw [h2]
      exact h3
  rcases h with h | h | ⟨rfl, h⟩
  · left
    refine firstPlays_of_set h hfc fun hd => ?_
    rcases hr with hr | hr
    · exact hr.1
    · rw [hr.1]; exact hd
  · rcases hr with hr | ⟨h1, h2, h3⟩
    · exact absurd hr.2 (by have := h.2; omega)
    · exact .inr (idle h1 h2 h3 h.1)
  · rcases hr with hr | ⟨h1, h2, h3⟩
    · left
      show (c.channelStateList.set 0 r.1)[0]?.map FrameCodec.state = _
      rw [List.getElem?_set_self (List.getElem?_eq_some_iff.1 hfc).1]
      exact congrArg some hr.1
    · exact .inr (idle h1 h2 h3 h)

theorem ens_bufferAudio_keeps {b : Build} {n : Nat} : ∀ (left : Nat) {c : AdhocCodec} (_ : FirstPlays c),
    Ens (AdhocCodec.bufferAudio b n left c) (fun r => FirstPlays r.1)
  | 0, _, h => Ens.ok h
  | left + 1, c, h => by
    unfold AdhocCodec.bufferAudio
    split
    · refine Ens.bind (P := FirstPlays) ?_ fun c' h' => ens_bufferAudio_keeps left h'
      unfold AdhocCodec.decodeBlock
      refine Ens.foldlM ?_ _ _ h
      intro c ch h
      unfold AdhocCodec.decodeChannel
      refine Ens.bind (P := fun fc => c.channelStateList[ch]? = some fc) (fun fc hfc => idx_eq_ok.1 hfc) fun fc hfc => ?_
      refine ens_decodeFrame_or.bind fun r hr => ?_
      refine Ens.bind (P := fun l => l = c.channelStateList.set ch r.1) (fun l hl => (setIdx_eq_ok.1 hl).2) fun l hl => Ens.ok ?_
      subst hl
      refine firstPlays_of_set h hfc fun hd => ?_
      rcases hr with hr | hr
      · exact hr.1
      · rw [hr.1]; exact hd
    · exact Ens.ok h

/-- the first channel is playing, or nothing is buffered -/
def PlaysOrEmpty (c : AdhocCodec) : Prop := FirstPlays c ∨ c.isBuffersEmpty = true

theorem ens_decodeBlock_first {b : Build} {c : AdhocCodec} {n : Nat} (hn : 0 < n) (h : PlaysOrEmpty c) : Ens (c.decodeBlock b n) PlaysOrEmpty := by
  unfold AdhocCodec.decodeBlock
  obtain ⟨m, rfl⟩ : ∃ m, n = m + 1 := ⟨n - 1, by omega⟩
  rw [List.range_succ_eq_map, List.foldlM_cons]
  refine (ens_decodeChannel_first 0 (h.imp id fun h => .inr ⟨rfl, h⟩)).bind fun c' h' => ?_
  have H : Ens ((List.map Nat.succ (List.range m)).foldlM (fun c ch => c.decodeChannel b ch) c') (fun c => FirstPlays c ∨ Idle c) :=
    Ens.foldlM (fun c ch h => ens_decodeChannel_first ch (h.imp id .inl)) _ _ h'
  exact fun r hr => (H r hr).imp id And.left

theorem ens_bufferAudio_first {b : Build} {n : Nat} (hn : 0 < n) : ∀ (left : Nat) {c : AdhocCodec} (_ : PlaysOrEmpty c),
    Ens (AdhocCodec.bufferAudio b n left c) (fun r => PlaysOrEmpty r.1 ∧ (r.2 ≠ 0 → FirstPlays r.1))
  | 0, _, h => Ens.ok ⟨h, fun h => absurd rfl h⟩
  | left + 1, c, h => by
    unfold AdhocCodec.bufferAudio
    split
    · exact (ens_decodeBlock_first hn h).bind fun c' h' => ens_bufferAudio_first hn left h'
    · next he => exact Ens.ok ⟨h, fun _ => h.elim id fun h => absurd h he⟩

theorem ens_popBlock_first {legal : Nat} : ∀ (n ch : Nat) {c : AdhocCodec} (_ : FirstPlays c) (pcm : List F32) (cursor : Nat),
    Ens (AdhocCodec.popBlock legal n ch c pcm cursor) (fun r => FirstPlays r.1)
  | 0, _, _, h, _, _ => Ens.ok h
  | n + 1, ch, c, h, pcm, cursor => by
    unfold AdhocCodec.popBlock
    split
    · refine Ens.bind (P := fun fc => c.channelStateList[ch]? = some fc) (fun fc hfc => idx_eq_ok.1 hfc) fun fc hfc => ?_
      refine Ens.bind (P := fun l => l = c.channelStateList.set ch { fc with buffered := fc.buffered.tail }) (fun l hl => (setIdx_eq_ok.1 hl).2) fun l hl => ?_
      refine (Ens.any _).bind fun _ _ => ens_popBlock_first n (ch + 1) ?_ _ _
      subst hl
      exact firstPlays_of_set h hfc id
    · exact Ens.ok h

theorem ens_decodeLoop_first {b : Build} {n legal : Nat} (hn : 0 < n) : ∀ (fuel : Nat) {c : AdhocCodec} {pcm : List F32} {cursor : Nat}
    (_ : PlaysOrEmpty c) (_ : 0 < cursor → FirstPlays c), Ens (AdhocCodec.decodeLoop b n legal fuel c pcm cursor) (fun r => 0 < r.2.2 → FirstPlays r.1)
  | 0, _, _, _, _, _ => Ens.error
  | fuel + 1, c, pcm, cursor, h, hc => by
    unfold AdhocCodec.decodeLoop
    split
    · refine Ens.bind (P := fun r => (PlaysOrEmpty r.1 ∧ (r.2 ≠ 0 → FirstPlays r.1)) ∧ (0 < cursor → FirstPlays r.1)) ?_ fun r hr => ?_
      · intro r hr
        exact ⟨ens_bufferAudio_first hn _ h r hr, fun h0 => ens_bufferAudio_keeps _ (hc h0) r hr⟩
      · obtain ⟨c', left⟩ := r
        dsimp only at hr ⊢
        split
        · exact Ens.ok hr.2
        · next hl =>
          refine (ens_popBlock_first _ _ (hr.1.2 hl) _ _).bind fun r hr => ?_
          exact ens_decodeLoop_first hn fuel (.inl hr) fun _ => hr
    · exact Ens.ok hc

theorem ens_decode_first {b : Build} {c : AdhocCodec} {info : StreamInfo} (hinfo : c.stream.info = some info) (hn : 0 < info.channels)
    (he : c.isBuffersEmpty = true) (buf : List F32) : Ens (c.decode b buf) (fun r => r.2.2 ≠ none → FirstPlays r.1) := by
  unfold AdhocCodec.decode
  refine Ens.bind (P := fun r => 0 < r.2.2 → FirstPlays r.1) ?_ fun r hr => Ens.ok ?_
  · unfold AdhocCodec.decodeRaw
    rw [hinfo, show expect (some info) = .ok info from rfl, bind_ok]
    refine (Ens.any _).bind fun q _ => ?_
    exact (ens_decodeLoop_first hn _ (.inr he) (fun h => absurd h (by omega))).bind fun r hr => Ens.ok hr
  · intro h
    apply hr
    by_contra h0
    exact h (if_neg h0)

/-- what calls to read and to seek never change -/
def SameSource (c c' : AdhocCodec) : Prop := c'.seq = c.seq ∧ c'.stream.info = c.stream.info

theorem SameSource.refl (c : AdhocCodec) : SameSource c c := ⟨rfl, rfl⟩

theorem SameSource.trans {c c' c'' : AdhocCodec} (h : SameSource c c') (h' : SameSource c' c'') : SameSource c c'' :=
  ⟨h'.1.trans h.1, h'.2.trans h.2⟩

theorem ens_decodeFrame_info {b : Build} {fc : FrameCodec} {st : AudioStream} {hd : FrameHeaders} :
    Ens (fc.decodeFrame b st hd) (fun r => r.2.1.info = st.info) := by
  unfold FrameCodec.decodeFrame
  refine (Ens.any _).bind fun r _ => ?_
  obtain ⟨hd', hdr?⟩ := r
  dsimp only
  split
  · exact Ens.ok rfl
  · split
    · exact (Ens.any _).bind fun _ _ => (Ens.any _).bind fun _ _ => (Ens.any _).bind fun _ _ => (Ens.any _).bind fun _ _ => Ens.ok rfl
    · exact (Ens.any _).bind fun _ _ => Ens.ok rfl
    · exact Ens.error

theorem ens_bufferAudio_source {b : Build} {n : Nat} {c0 : AdhocCodec} : ∀ (left : Nat) {c : AdhocCodec} (_ : SameSource c0 c),
    Ens (AdhocCodec.bufferAudio b n left c) (fun r => SameSource c0 r.1)
  | 0, _, h => Ens.ok h
  | left + 1, c, h => by
    unfold AdhocCodec.bufferAudio
    split
    · refine Ens.bind (P := SameSource c0) ?_ fun c' h' => ens_bufferAudio_source left h'
      unfold AdhocCodec.decodeBlock
      refine Ens.foldlM ?_ _ _ h
      intro c ch h
      unfold AdhocCodec.decodeChannel
      exact (Ens.any _).bind fun _ _ => ens_decodeFrame_info.bind fun r hr => (Ens.any _).bind fun _ _ => Ens.ok (h.trans ⟨rfl, hr⟩)
    · exact Ens.ok h

theorem ens_popBlock_source {legal : Nat} {c0 : AdhocCodec} : ∀ (n ch : Nat) {c : AdhocCodec} (_ : SameSource c0 c) (pcm : List F32) (cursor : Nat),
    Ens (AdhocCodec.popBlock legal n ch c pcm cursor) (fun r => SameSource c0 r.1)
  | 0, _, _, h, _, _ => Ens.ok h
  | n + 1, ch, c, h, pcm, cursor => by
    unfold AdhocCodec.popBlock
    split
    · refine (Ens.any _).bind fun _ _ => (Ens.any _).bind fun _ _ => (Ens.any _).bind fun _ _ => ens_popBlock_source n (ch + 1) ?_ _ _
      exact h.trans ⟨rfl, rfl⟩
    · exact Ens.ok h

theorem ens_decodeLoop_source {b : Build} {n legal : Nat} {c0 : AdhocCodec} : ∀ (fuel : Nat) {c : AdhocCodec} {pcm : List F32} {cursor : Nat}
    (_ : SameSource c0 c), Ens (AdhocCodec.decodeLoop b n legal fuel c pcm cursor) (fun r => SameSource c0 r.1)
  | 0, _, _, _, _ => Ens.error
  | fuel + 1, c, pcm, cursor, h => by
    unfold AdhocCodec.decodeLoop
    split
    · refine (ens_bufferAudio_source _ h).bind fun r hr => ?_
      obtain ⟨c', left⟩ := r
      dsimp only at hr ⊢
      split
      · exact Ens.ok hr
      · exact (ens_popBlock_source _ _ hr _ _).bind fun r hr => ens_decodeLoop_source fuel hr
    · exact Ens.ok h

theorem ens_decode_source {b : Build} {c : AdhocCodec} (buf : List F32) : Ens (c.decode b buf) (fun r => SameSource c r.1) := by
  unfold AdhocCodec.decode
  refine Ens.bind (P := fun r => SameSource c r.1) ?_ fun r hr => Ens.ok hr
  unfold AdhocCodec.decodeRaw
  exact (Ens.any _).bind fun _ _ => (Ens.any _).bind fun q _ => (ens_decodeLoop_source _ (.refl c)).bind fun r hr => Ens.ok hr

theorem ens_seek_source {b : Build} {c : AdhocCodec} (t : SeekFrom) : Ens (c.seek b t) (SameSource c) := by
  unfold AdhocCodec.seek
  refine (Ens.any _).bind fun info _ => ?_
  have h0 : SameSource c c.init := ⟨rfl, rfl⟩
  dsimp only
  split
  · split
    · exact Ens.ok h0
    · unfold AdhocCodec.seekTo
      refine (Ens.any _).bind fun target _ => (Ens.any _).bind fun _ _ => (Ens.any _).bind fun r _ => ?_
      refine (Ens.any _).bind fun _ _ => (Ens.any _).bind fun hdr _ => ?_
      refine Ens.bind (P := SameSource c) ?_ fun c' h' => ?_
      · refine Ens.foldlM ?_ _ _ (h0.trans ⟨rfl, rfl⟩)
        intro c1 off h
        unfold AdhocCodec.seekChannel
        exact (Ens.any _).bind fun _ _ => (Ens.any _).bind fun _ _ => (Ens.any _).bind fun _ _ => ens_decodeFrame_info.bind fun r hr =>
          (Ens.any _).bind fun _ _ => Ens.ok (h.trans ⟨rfl, hr⟩)
      · generalize target + 1 = fuel
        generalize r.1 = skipped
        induction fuel generalizing skipped c' with
        | zero => exact Ens.error
        | succ fuel ih =>
          unfold AdhocCodec.prune
          split
          · refine Ens.bind (P := SameSource c) ?_ fun c2 h2 => (Ens.any _).bind fun _ _ => ih c2 h2 _
            unfold AdhocCodec.dropOne
            refine Ens.foldlM ?_ _ _ h'
            intro c1 off h
            exact (Ens.any _).bind fun _ _ => (Ens.any _).bind fun _ _ => Ens.ok (h.trans ⟨rfl, rfl⟩)
          · exact Ens.ok h'
  · exact Ens.error

theorem load_start {b : Build} {bytes : List Byte} {c : AdhocCodec} (h : AdhocCodec.load b bytes = .ok (some c)) :
    c.seq = .new 314 ∧ c.isBuffersEmpty = true := by
  unfold AdhocCodec.load at h
  split at h
  · cases h
  · obtain ⟨s, -, h⟩ := bind_eq_ok.1 h
    dsimp only at h
    split at h
    · cases h
    · cases h
      refine ⟨rfl, ?_⟩
      simp [AdhocCodec.isBuffersEmpty, AdhocCodec.init, FrameCodec.init, FrameCodec.new]

/-- C98, what a loaded codec does not allow, whatever the file is: once it has played samples, or has been sought to a time after the start, recording panics. -/
theorem C98_no_end_partial (b : Build) (bytes : List Byte) (c : AdhocCodec) (info : StreamInfo) (h : AdhocCodec.load b bytes = .ok (some c))
    (hinfo : c.stream.info = some info) (hn : 0 < info.channels) :
    (∀ buf c' out n, c.decode b buf = .ok (c', out, some n) → ∀ pcm, c'.encode b pcm = .error .explicit) ∧
    ∀ dt c', dt ≠ 0 → c.seek b (.start dt) = .ok c' → ∀ pcm, c'.encode b pcm = .error .explicit := by
  obtain ⟨hseq, hempty⟩ := load_start h
  have start : ∀ c', SameSource c c' → FirstPlays c' → ∀ pcm, c'.encode b pcm = .error .explicit := by
    intro c' hs hf pcm
    exact encode_playing (hs.2.trans hinfo) hn hf (by rw [hs.1, hseq]; decide) pcm
  exact ⟨fun buf c' out n hd => start c' (ens_decode_source buf _ hd) (ens_decode_first hinfo hn hempty buf _ hd (by simp)),
    fun dt c' hdt hs => start c' (ens_seek_source _ _ hs) (ens_seek_first hinfo hn hdt _ hs)⟩

theorem trail_uses {b : Build} {info : StreamInfo} {level : Nat} : ∀ (us : List Use) {c : AdhocCodec} (_ : Trail c info level),
    Ens (Use.runAll b c us) (fun c => Trail c info level)
  | [], _, H => Ens.ok H
  | u :: us, c, H => by
    unfold Use.runAll
    refine Ens.bind (P := fun c => Trail c info level) ?_ fun c' H' => trail_uses us H'
    cases u with
    | encode pcm => exact (trail_encode H pcm).bind fun r hr => Ens.ok hr
    | decode buf => exact (trail_decode H buf).bind fun r hr => Ens.ok hr
    | rewind => exact Ens.ok H.init

theorem trail_reloaded {c : AdhocCodec} {info : StreamInfo} {level : Nat} (H : Trail c info level) : Trail (reloaded c info.channels) info level := by
  refine ⟨H.hinfo, by simp [reloaded], ?_, H.init.log, H.lev, H.scale, H.inv, 0, rfl⟩
  intro fc hfc
  rw [reloaded, List.mem_replicate] at hfc
  rw [hfc.2]
  exact last_new

theorem reloaded_init (c : AdhocCodec) (n : Nat) : (reloaded c n).init = reloaded c n := by
  simp [reloaded, AdhocCodec.init, FrameCodec.init, FrameCodec.new, BitStream.seekStart, FrameHeaders.reset]

/-- recording into a loaded codec and into a new one, side by side -/
theorem over_reloaded {c : AdhocCodec} {info : StreamInfo} {level : Nat} (H : Trail c info level) {log : List FrameHeader} {k : Nat}
    (hl : IsLog c.frameHeaderList log k) : CodecOver c.stream.stream.binary c.stream.stream.capacity log (fresh info level) (reloaded c info.channels) := by
  have h := over_start (trail_reloaded H) (log := log) (k := 0) (isLog_reset hl) (fresh info level).seq (.inl rfl)
  rw [reloaded_init] at h
  exact h

/-- C98, what recording into a loaded codec does, after any calls before the save and at any level: it starts over. It panics exactly if and as recording into a
new codec would, and otherwise writes as many bits and the same headers as there (the noise starts over, too). Behind them stay the
headers of the file that it has not reached. In the bits, beside the ones of the new recording, there can be ones of the file. -/
theorem C98_over_partial (b : Build) (info : StreamInfo) (level : Nat) (us : List Use) (c : AdhocCodec)
    (h : Use.runAll b (fresh info level) us = .ok c) (hc : Counted c) (rest : List Byte) (new : List (List F32)) :
    ∃ c', AdhocCodec.load b (file c ++ rest) = .ok (some c') ∧
      (∀ e, encodeAll b (fresh info level) new = .error e ↔ encodeAll b c' new = .error e) ∧
      ∀ d, encodeAll b (fresh info level) new = .ok d → ∃ d', encodeAll b c' new = .ok d' ∧ Overlay c.stream.stream d.stream.stream d'.stream.stream ∧
        d'.stream.info = d.stream.info ∧
        ∀ i, d'.frameHeaderList.get i = if i < d.frameHeaderList.len then d.frameHeaderList.get i else c.frameHeaderList.get i := by
  have V := valued_run us (valued_fresh info level) c h
  have T := trail_uses us (trail_fresh info level) c h
  obtain ⟨log, k, hl⟩ := T.log
  refine ⟨reloaded c info.channels, by rw [file_eq]; exact load_saved hc V rest, ?_⟩
  rcases over_encodeAll (b := b) (over_reloaded T hl) new with ⟨e, e1, e2⟩ | ⟨d, d', e1, e2, K⟩
  · refine ⟨fun e' => by rw [e1, e2], fun d hd => ?_⟩
    rw [e1] at hd; cases hd
  · refine ⟨fun e' => ?_, fun d0 hd => ?_⟩
    · rw [e1, e2]; constructor <;> intro h <;> cases h
    · rw [e1] at hd; cases hd
      refine ⟨d', e2, ⟨K.stream.cursor, K.stream.length, K.stream.cap, fun i => ⟨K.stream.lower i, K.stream.upper i⟩⟩, K.info.symm, fun i => ?_⟩
      obtain ⟨l, h1, h2⟩ := K.log
      rw [isLog_get h2, isLog_get h1, isLog_get hl, h1.len]
      split_ifs with hi
      · rw [List.getElem?_append_left hi]
      · rw [List.getElem?_append_right (by omega), List.getElem?_drop]
        congr 2
        omega

theorem binary_ext {l l' : List (BitVec 128)} (hlen : l.length = l'.length) (h : ∀ i, bitAt l i = true ↔ bitAt l' i = true) : l = l' := by
  refine List.ext_getElem hlen fun j h1 h2 => BitVec.eq_of_getLsbD_eq fun k hk => ?_
  have hbit : bitAt l (128 * j + k) = bitAt l' (128 * j + k) := by rw [Bool.eq_iff_iff]; exact h _
  unfold bitAt at hbit
  rw [show (128 * j + k) / 128 = j by omega, show (128 * j + k) % 128 = k by omega, List.getElem?_eq_getElem h1, List.getElem?_eq_getElem h2] at hbit
  exact hbit

/-- C98, how a saved recording can be continued, at any level: recording all of it again, from the first call on, and then more, gives bit by bit the
recording that would have been made without the interruption. -/
theorem C98_whole_partial (b : Build) (info : StreamInfo) (level : Nat) (hn : 0 < info.channels) (calls more : List (List F32)) (c d : AdhocCodec)
    (h : encodeAll b (fresh info level) calls = .ok c) (hc : Counted c) (hd : encodeAll b c more = .ok d) (rest : List Byte) :
    ∃ c' d', AdhocCodec.load b (file c ++ rest) = .ok (some c') ∧ encodeAll b c' (calls ++ more) = .ok d' ∧ d'.stream = d.stream ∧
      (∀ i, d'.frameHeaderList.get i = d.frameHeaderList.get i) ∧
      (Proper info.channels (calls ++ more) → ∀ b' bufs, (decodeAll b' d'.init bufs).map (·.2) = (decodeAll b' d.init bufs).map (·.2)) := by
  have hu : Use.runAll b (fresh info level) (calls.map Use.encode) = .ok c := by rw [encodeAll_uses]; exact h
  have V := valued_run _ (valued_fresh info level) c hu
  have T := trail_uses _ (trail_fresh info level) c hu
  obtain ⟨-, blocks, HE, -, -⟩ := recorded_of_ok hn h
  have hall : encodeAll b (fresh info level) (calls ++ more) = .ok d := by rw [encodeAll_append, h, bind_ok, hd]
  -- the first part again
  obtain ⟨c1, e1, K⟩ : ∃ c1, encodeAll b (reloaded c info.channels) calls = .ok c1 ∧ CodecOver c.stream.stream.binary c.stream.stream.capacity _ c c1 := by
    rcases over_encodeAll (b := b) (over_reloaded T HE.log) calls with ⟨e, e1, e2⟩ | ⟨d0, d', e1, e2, K⟩
    · rw [h] at e1; cases e1
    · rw [h] at e1; cases e1; exact ⟨d', e2, K⟩
  have K0 : CodecOver [] 0 [] c c1 := by
    refine ⟨K.chans, K.info, ⟨K.stream.cursor, K.stream.inside, ?_, ?_, K.stream.lower, fun i hi => .inl ((K.stream.upper i hi).elim id id)⟩, ?_, K.level, K.scale, K.inv, K.noise⟩
    · rw [K.stream.length]; simp
    · rw [K.stream.cap]; simp
    · obtain ⟨l, h1, h2⟩ := K.log
      have hlen : (hdrs 0 (flat info.channels blocks)).length = l.length := by rw [← HE.log.len, ← h1.len]
      refine ⟨l, h1, ?_⟩
      rw [List.drop_eq_nil_of_le (by omega)] at h2
      simpa using h2
  -- and the second
  obtain ⟨d', e2, K2⟩ : ∃ d', encodeAll b c1 more = .ok d' ∧ CodecOver [] 0 [] d d' := by
    rcases over_encodeAll (b := b) K0 more with ⟨e, e1, e2⟩ | ⟨d0, d', e1, e2, K⟩
    · rw [hd] at e1; cases e1
    · rw [hd] at e1; cases e1; exact ⟨d', e2, K⟩
  refine ⟨reloaded c info.channels, d', by rw [file_eq]; exact load_saved hc V rest, by rw [encodeAll_append, e1, bind_ok, e2], ?_, ?_, fun hp b' bufs => ?_⟩
  · refine audioStream_ext K2.info.symm (binary_ext (by rw [K2.stream.length]; simp) fun i => ⟨fun hi => ?_, K2.stream.lower i⟩) K2.stream.cursor (by rw [K2.stream.cap]; simp)
    rcases K2.stream.upper i hi with hi | hi
    · exact hi
    · simp [bitAt] at hi
  · intro i
    obtain ⟨l, h1, h2⟩ := K2.log
    rw [isLog_get h1, isLog_get h2]
    simp
  · exact plays_over hn hall hp K2 (by simp) (by simp [bitAt]) b' bufs

/-- the first part of a recording -/
def firstHalf : List (List F32) := [pcmOf [500, -7, 3, 9000], pcmOf [8, 9]]
/-- what comes after the interruption -/
def secondHalf : List (List F32) := [pcmOf [1, 2, 3, 4, 5]]

theorem halves_proper : Proper 1 (firstHalf ++ secondHalf) := by
  refine ⟨by simp [firstHalf, pcmOf], by simp [firstHalf, secondHalf, pcmOf], ?_⟩
  intro j
  match j with
  | 0 => exact .inl ⟨0, by simp, by simp [firstHalf, secondHalf, pcmOf]⟩
  | 1 => exact .inl ⟨0, by simp, by simp [firstHalf, secondHalf, pcmOf]⟩
  | 2 => exact .inl ⟨0, by simp, by simp [firstHalf, secondHalf, pcmOf]⟩
  | j + 3 => exact .inr fun t => by simp [firstHalf, secondHalf, Nat.add_right_comm j 3 t]

/-- C98 is false: a recording that is saved, loaded and continued does not play what one without the interruption plays. -/
theorem C98_false : ¬ ∀ (b : Build) (info : StreamInfo) (calls more : List (List F32)) (c c' d d' : AdhocCodec), 0 < info.channels →
    Proper info.channels (calls ++ more) → encodeAll b (fresh info 0) calls = .ok c → encodeAll b c more = .ok d →
    AdhocCodec.load b (file c) = .ok (some c') → encodeAll b c' more = .ok d' →
    ∀ bufs, (decodeAll b d'.init bufs).map (·.2) = (decodeAll b d.init bufs).map (·.2) := by
  intro H
  have key : (match encodeAll .release (fresh { sampleRate := 8000, channels := 1 } 0) firstHalf with
    | .ok c => match encodeAll .release c secondHalf, AdhocCodec.load .release (file c) with
      | .ok d, .ok (some c') => match encodeAll .release c' secondHalf with
        | .ok d' => decide ((decodeAll .release d'.init [pcmOf [0]]).map (·.2) ≠ (decodeAll .release d.init [pcmOf [0]]).map (·.2))
        | .error _ => false
      | _, _ => false
    | .error _ => false) = true := by decide +kernel
  split at key
  · next c hc =>
    split at key
    · next d c' hd hl =>
      split at key
      · next d' hd' =>
        exact of_decide_eq_true key (H .release { sampleRate := 8000, channels := 1 } _ _ c c' d d' (by simp) halves_proper hc hd hl hd' _)
      · cases key
    · cases key
  · cases key

/-- stereo at level 4, saved, loaded and recorded again from the start with more behind: the payload is that of the recording in one go, though its noise is not 0 -/
example : (do
    let c ← encodeAll .debug (fresh { sampleRate := 8000, channels := 2 } 4) [pcmOf [1, 2, 3, 4, 5, 6, 20000, -20000]]
    let d ← encodeAll .debug c [pcmOf [8, 8]]
    match ← AdhocCodec.load .debug (file c) with
    | some c' => do
      let d' ← encodeAll .debug c' [pcmOf [1, 2, 3, 4, 5, 6, 20000, -20000], pcmOf [8, 8]]
      pure (decide (d'.stream = d.stream), decide (c.stream.stream.len < d.stream.stream.len), decide (d.seq = .new 314))
    | none => pure (false, false, false) : R (Bool × Bool × Bool)) = .ok (true, true, false) := by decide +kernel

/-! ## C99 -/

/-- C99 is false: setting one channel and then two again in the middle of a stereo recording changes what it plays. -/
theorem C99_false : ¬ ∀ (b : Build) (info wrong : StreamInfo) (calls more : List (List F32)) (c d d' : AdhocCodec), 0 < info.channels → 0 < wrong.channels →
    Proper info.channels (calls ++ more) → encodeAll b (fresh info 0) calls = .ok c → encodeAll b c more = .ok d →
    encodeAll b ((c.setInfo wrong).setInfo info) more = .ok d' →
    ∀ bufs, (decodeAll b d'.init bufs).map (·.2) = (decodeAll b d.init bufs).map (·.2) := by
  intro H
  have key : (match encodeAll .release (fresh { sampleRate := 8000, channels := 2 } 0) [pcmOf [1, 2, 3, 4, 5, 6]] with
    | .ok c => match encodeAll .release c [pcmOf [10, 20, 30, 40, 50, 60]],
        encodeAll .release ((c.setInfo { sampleRate := 8000, channels := 1 }).setInfo { sampleRate := 8000, channels := 2 }) [pcmOf [10, 20, 30, 40, 50, 60]] with
      | .ok d, .ok d' => decide ((decodeAll .release d'.init [pcmOf [0, 0, 0, 0, 0, 0, 0, 0]]).map (·.2) ≠
          (decodeAll .release d.init [pcmOf [0, 0, 0, 0, 0, 0, 0, 0]]).map (·.2))
      | _, _ => false
    | .error _ => false) = true := by decide +kernel
  split at key
  · next c hc =>
    split at key
    · next d d' hd hd' =>
      refine of_decide_eq_true key (H .release { sampleRate := 8000, channels := 2 } { sampleRate := 8000, channels := 1 }
        [pcmOf [1, 2, 3, 4, 5, 6]] [pcmOf [10, 20, 30, 40, 50, 60]] c d d' (by simp) (by simp) ?_ hc hd hd' _)
      refine ⟨by simp [pcmOf], by simp [pcmOf], ?_⟩
      intro j
      match j with
      | 0 => exact .inl ⟨0, by simp, by simp [pcmOf]⟩
      | 1 => exact .inl ⟨0, by simp, by simp [pcmOf]⟩
      | j + 2 => exact .inr fun t => by simp [Nat.add_right_comm j 2 t]
    · cases key
  · cases key

/-- C99, what holds: after any calls, a wrong channel count that is not too small does no harm once it is corrected, the codec is as before. After one
that is too small, the channels up to it are as before and the others are those of a new codec. -/
theorem C99_corrected_partial (b : Build) (info : StreamInfo) (level : Nat) (xs : List Call) (c : AdhocCodec) (os : List (List F32 × Option Nat))
    (h : Call.runAll b (fresh info level) xs = .ok (c, os)) (hx : ∀ x ∈ xs, x.isLoad = false) (wrong : StreamInfo) :
    (info.channels ≤ wrong.channels → (c.setInfo wrong).setInfo info = c) ∧
    (wrong.channels < info.channels → ∀ ch < info.channels,
      ((c.setInfo wrong).setInfo info).channelStateList[ch]? = if ch < wrong.channels then c.channelStateList[ch]? else some FrameCodec.new) := by
  have T : Trail c info level := trail_runAll xs (trail_fresh info level) hx _ h
  have hl := T.chans
  have hi := T.hinfo
  obtain ⟨hd, chs, ⟨inf, st⟩, lev, sc, inv, seq⟩ := c
  dsimp only at hl hi
  subst hi
  refine ⟨fun hw => ?_, fun hw ch hch => ?_⟩
  · unfold AdhocCodec.setInfo AdhocCodec.resize
    dsimp only
    rw [List.take_of_length_le (by omega : chs.length ≤ wrong.channels), List.take_left' hl, List.length_append, List.length_replicate,
      show info.channels - (chs.length + (wrong.channels - chs.length)) = 0 by omega, List.replicate_zero, List.append_nil]
  · unfold AdhocCodec.setInfo AdhocCodec.resize
    dsimp only
    rw [List.length_append, List.length_replicate, List.length_take, show wrong.channels - chs.length = 0 by omega, List.replicate_zero, List.append_nil,
      List.take_of_length_le (by rw [List.length_take]; omega)]
    split_ifs with hc
    · rw [List.getElem?_append_left (by rw [List.length_take]; omega), List.getElem?_take, if_pos hc]
    · rw [List.getElem?_append_right (by rw [List.length_take]; omega), List.length_take, List.getElem?_replicate, if_pos (by omega)]

/-- a stereo codec in the middle of playing, set to five channels and back: it is playing on where it was -/
example : (do
    let (c, _) ← Call.runAll .debug (fresh { sampleRate := 8000, channels := 2 } 0) [.encode (pcmOf [1, 2, 3, 4, 5, 6]), .rewind, .decode (pcmOf [0, 0])]
    let (_, out, n) ← ((c.setInfo { sampleRate := 1, channels := 5 }).setInfo { sampleRate := 8000, channels := 2 }).decode .debug (pcmOf [0, 0])
    pure (out.map truncateSample, n) : R (List Int × Option Nat)) = .ok ([3, 4], some 2) := by decide +kernel

/-- a loaded recording plays a sample and then cannot be recorded into -/
example : (do
    let c ← encodeAll .release (fresh { sampleRate := 8000, channels := 1 } 0) firstHalf
    match ← AdhocCodec.load .release (file c) with
    | some c => do
      let (c, _, n) ← c.decode .release (pcmOf [0])
      pure (n, decide ((c.encode .release (pcmOf [1, 2, 3])).map (fun _ => ()) = .error .explicit))
    | none => pure (none, false) : R (Option Nat × Bool)) = .ok (some 1, true) := by decide +kernel

end Adhoc
