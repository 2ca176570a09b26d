import Verif.Props.Config
import Verif.Props.Files
import Verif.Props.Protocol

/-! # C114: the sample rate is only a label -/

namespace Adhoc
open Spec F32

namespace Spec

/-- the codec with another sample rate and everything else the same -/
def rated (r : Nat) (c : AdhocCodec) : AdhocCodec :=
  { c with stream := { c.stream with info := c.stream.info.map fun i => { i with sampleRate := r } } }

/-- what one can do with a codec except seeking; every call reports something -/
inductive Request
  | encode (pcm : List F32)
  | decode (buf : List F32)
  | rewind
  | level (k : Nat)
  | count
  | size (nibCap : Nat)

/-- what a call reports -/
inductive Report
  | encoded (n : Option Nat)
  | decoded (buf : List F32) (n : Option Nat)
  | unit
  | number (n : Nat)
  deriving DecidableEq

/-- run a call -/
def Request.run (b : Build) (c : AdhocCodec) : Request → R (AdhocCodec × Report)
  | .encode pcm => do let (c, n) ← c.encode b pcm; pure (c, .encoded n)
  | .decode buf => do let (c, buf, n) ← c.decode b buf; pure (c, .decoded buf n)
  | .rewind => pure (c.init, .unit)
  | .level k => pure (c.withCompressionLevel k, .unit)
  | .count => do let n ← c.calculateSampleCountPerChannel; pure (c, .number n)
  | .size nibCap => pure (c, .number (c.filesizeUpperbound nibCap))

/-- run calls -/
def Request.runAll (b : Build) : AdhocCodec → List Request → R (AdhocCodec × List Report)
  | c, [] => pure (c, [])
  | c, u :: us => do
    let (c, r) ← u.run b c
    let (c, rs) ← runAll b c us
    pure (c, r :: rs)

end Spec

/-- the other codec has the info `i` instead of `j` -/
def Tagged (i j : Option StreamInfo) (x y : AdhocCodec) : Prop := y = x.labelled i ∧ x.stream.info = j

theorem same_decodeFrame_label (b : Build) (fc : FrameCodec) (st : AudioStream) (hd : FrameHeaders) (i : Option StreamInfo) :
    Same (fc.decodeFrame b st hd) (fc.decodeFrame b { st with info := i } hd)
      fun x y => y = (x.1, { x.2.1 with info := i }, x.2.2) ∧ x.2.1.info = st.info := by
  unfold FrameCodec.decodeFrame
  refine (Same.refl _).bind ?_; rintro ⟨h, hdr?⟩ _ rfl
  cases hdr? with
  | none => exact Same.ok ⟨rfl, rfl⟩
  | some hdr =>
    dsimp only
    cases fc.state with
    | init =>
      refine (Same.refl _).bind ?_; rintro ⟨s0, x0⟩ _ rfl
      refine (Same.refl _).bind ?_; rintro ⟨s1, x1⟩ _ rfl
      refine (Same.refl _).bind ?_; rintro ⟨s2, x2⟩ _ rfl
      refine (Same.refl _).bind ?_; rintro ⟨s, h, buf⟩ _ rfl
      exact Same.ok ⟨rfl, rfl⟩
    | encoding => exact Same.error
    | decoding =>
      refine (Same.refl _).bind ?_; rintro ⟨s, h, buf⟩ _ rfl
      exact Same.ok ⟨rfl, rfl⟩

theorem tagged_encodeChannel {i j : Option StreamInfo} (b : Build) {c c' : AdhocCodec} (H : Tagged i j c c') (pcm : List F32) (k m ch : Nat) :
    Same (c.encodeChannel b pcm k m ch) (c'.encodeChannel b pcm k m ch) (Tagged i j) := by
  obtain ⟨rfl, hj⟩ := H
  unfold AdhocCodec.encodeChannel
  refine (Same.refl _).bind ?_; rintro xs _ rfl
  refine (Same.refl _).bind ?_; rintro ⟨seq, ys⟩ _ rfl
  refine (Same.refl _).bind ?_; rintro fc _ rfl
  refine (same_encodeFrame_label b fc c.stream c.frameHeaderList ys i).bind ?_
  rintro ⟨f, s, h⟩ _ ⟨rfl, hs⟩
  refine (Same.refl _).bind ?_; rintro chs _ rfl
  exact Same.ok ⟨rfl, hs.trans hj⟩

theorem tagged_decodeChannel {i j : Option StreamInfo} (b : Build) {c c' : AdhocCodec} (H : Tagged i j c c') (ch : Nat) :
    Same (c.decodeChannel b ch) (c'.decodeChannel b ch) (Tagged i j) := by
  obtain ⟨rfl, hj⟩ := H
  unfold AdhocCodec.decodeChannel
  refine (Same.refl _).bind ?_; rintro fc _ rfl
  refine (same_decodeFrame_label b fc c.stream c.frameHeaderList i).bind ?_
  rintro ⟨f, s, h, n⟩ _ ⟨rfl, hs⟩
  refine (Same.refl _).bind ?_; rintro chs _ rfl
  exact Same.ok ⟨rfl, hs.trans hj⟩

theorem tagged_bufferAudio {i j : Option StreamInfo} (b : Build) (n : Nat) : ∀ (left : Nat) {c c' : AdhocCodec} (_ : Tagged i j c c'),
    Same (AdhocCodec.bufferAudio b n left c) (AdhocCodec.bufferAudio b n left c') fun x y => Tagged i j x.1 y.1 ∧ x.2 = y.2
  | 0, c, c', H => Same.ok ⟨H, rfl⟩
  | left + 1, c, c', H => by
    unfold AdhocCodec.bufferAudio
    have he : c'.isBuffersEmpty = c.isBuffersEmpty := by rw [H.1]; rfl
    rw [he]
    split
    · refine Same.bind (P := Tagged i j) ?_ (fun x y h => tagged_bufferAudio b n left h)
      exact Same.foldlM (P := Tagged i j) (fun x y ch h => tagged_decodeChannel b h ch) _ _ _ H
    · exact Same.ok ⟨H, rfl⟩

theorem tagged_popBlock {i j : Option StreamInfo} (legal : Nat) : ∀ (n ch : Nat) {c c' : AdhocCodec} (_ : Tagged i j c c') (pcm : List F32) (cursor : Nat),
    Same (AdhocCodec.popBlock legal n ch c pcm cursor) (AdhocCodec.popBlock legal n ch c' pcm cursor) fun x y => Tagged i j x.1 y.1 ∧ x.2 = y.2
  | 0, ch, c, c', H, pcm, cursor => Same.ok ⟨H, rfl⟩
  | n + 1, ch, c, c', H, pcm, cursor => by
    unfold AdhocCodec.popBlock
    split
    · obtain ⟨rfl, hj⟩ := H
      refine (Same.refl _).bind ?_; rintro fc _ rfl
      refine (Same.refl _).bind ?_; rintro chs _ rfl
      refine (Same.refl _).bind ?_; rintro pcm _ rfl
      exact tagged_popBlock legal n (ch + 1) (c := { c with channelStateList := chs }) (i := i) ⟨rfl, hj⟩ pcm (cursor + 1)
    · exact Same.ok ⟨H, rfl⟩

theorem tagged_decodeLoop {i j : Option StreamInfo} (b : Build) (n legal : Nat) : ∀ (fuel : Nat) {c c' : AdhocCodec} (_ : Tagged i j c c') (pcm : List F32) (cursor : Nat),
    Same (AdhocCodec.decodeLoop b n legal fuel c pcm cursor) (AdhocCodec.decodeLoop b n legal fuel c' pcm cursor) fun x y => Tagged i j x.1 y.1 ∧ x.2 = y.2
  | 0, c, c', H, pcm, cursor => Same.error
  | fuel + 1, c, c', H, pcm, cursor => by
    unfold AdhocCodec.decodeLoop
    split
    · refine (tagged_bufferAudio b n _ H).bind ?_
      rintro ⟨x, left⟩ ⟨y, _⟩ ⟨h, rfl⟩
      dsimp only
      split
      · exact Same.ok ⟨h, rfl⟩
      · refine (tagged_popBlock legal n 0 h pcm cursor).bind ?_
        rintro ⟨x, p, k⟩ ⟨y, _⟩ ⟨h, rfl⟩
        exact tagged_decodeLoop b n legal fuel h p k
    · exact Same.ok ⟨H, rfl⟩

/-- two infos that differ in the rate only -/
def SameShape (i j : Option StreamInfo) : Prop := i.map StreamInfo.channels = j.map StreamInfo.channels

theorem same_shape {i j : Option StreamInfo} (h : SameShape i j) : (i = none ∧ j = none) ∨ ∃ a a', i = some a ∧ j = some a' ∧ a.channels = a'.channels := by
  unfold SameShape at h
  cases i <;> cases j <;> simp_all

theorem tagged_encode {i j : Option StreamInfo} (hij : SameShape i j) (b : Build) {c c' : AdhocCodec} (H : Tagged i j c c') (pcm : List F32) :
    Same (c.encode b pcm) (c'.encode b pcm) fun x y => Tagged i j x.1 y.1 ∧ x.2 = y.2 := by
  unfold AdhocCodec.encode AdhocCodec.encodeRaw
  have hi : c'.stream.info = i := by rw [H.1]; rfl
  rw [H.2, hi]
  refine Same.bind (P := Tagged i j) ?_ (fun x y h => Same.ok ⟨h, rfl⟩)
  rcases same_shape hij with ⟨rfl, rfl⟩ | ⟨a, a', rfl, rfl, e⟩
  · exact Same.error
  · simp only [expect, bind_ok, e]
    refine (Same.refl _).bind ?_; rintro m _ rfl
    exact Same.foldlM (P := Tagged (some a) (some a')) (fun x y ch h => tagged_encodeChannel b h _ _ _ ch) _ _ _ H

theorem tagged_decode {i j : Option StreamInfo} (hij : SameShape i j) (b : Build) {c c' : AdhocCodec} (H : Tagged i j c c') (buf : List F32) :
    Same (c.decode b buf) (c'.decode b buf) fun x y => Tagged i j x.1 y.1 ∧ x.2 = y.2 := by
  unfold AdhocCodec.decode AdhocCodec.decodeRaw
  have hi : c'.stream.info = i := by rw [H.1]; rfl
  rw [H.2, hi]
  refine Same.bind (P := fun x y => Tagged i j x.1 y.1 ∧ x.2 = y.2) ?_ (by
    rintro ⟨x, p, n⟩ ⟨y, _⟩ ⟨h, rfl⟩
    exact Same.ok ⟨h, rfl⟩)
  rcases same_shape hij with ⟨rfl, rfl⟩ | ⟨a, a', rfl, rfl, e⟩
  · exact Same.error
  · simp only [expect, bind_ok, e]
    refine (Same.refl _).bind ?_; rintro q _ rfl
    refine (tagged_decodeLoop b _ _ _ H _ _).bind ?_
    rintro ⟨x, p, n⟩ ⟨y, _⟩ ⟨h, rfl⟩
    refine Same.ok ⟨h, ?_⟩
    rw [h.1]
    rfl

theorem tagged_run {i j : Option StreamInfo} (hij : SameShape i j) (b : Build) {c c' : AdhocCodec} (H : Tagged i j c c') (u : Request) :
    Same (u.run b c) (u.run b c') fun x y => Tagged i j x.1 y.1 ∧ x.2 = y.2 := by
  cases u with
  | encode pcm =>
    refine (tagged_encode hij b H pcm).bind ?_
    rintro ⟨x, n⟩ ⟨y, _⟩ ⟨h, rfl⟩
    exact Same.ok ⟨h, rfl⟩
  | decode buf =>
    refine (tagged_decode hij b H buf).bind ?_
    rintro ⟨x, p, n⟩ ⟨y, _⟩ ⟨h, rfl⟩
    exact Same.ok ⟨h, rfl⟩
  | rewind =>
    obtain ⟨rfl, hj⟩ := H
    exact Same.ok ⟨⟨rfl, hj⟩, rfl⟩
  | level k =>
    obtain ⟨rfl, hj⟩ := H
    exact Same.ok ⟨⟨rfl, hj⟩, rfl⟩
  | count =>
    have hi : c'.stream.info = i := by rw [H.1]; rfl
    refine Same.bind (P := fun x y => x = y) ?_ (by rintro n _ rfl; exact Same.ok ⟨H, rfl⟩)
    unfold AdhocCodec.calculateSampleCountPerChannel AdhocCodec.info
    rw [H.2, hi]
    rcases same_shape hij with ⟨rfl, rfl⟩ | ⟨a, a', rfl, rfl, e⟩
    · exact Same.error
    · simp only [expect, bind_ok, e]
      obtain ⟨rfl, hj⟩ := H
      exact Same.refl _
  | size k =>
    obtain ⟨rfl, hj⟩ := H
    exact Same.ok ⟨⟨rfl, hj⟩, rfl⟩

theorem tagged_runAll {i j : Option StreamInfo} (hij : SameShape i j) (b : Build) : ∀ (us : List Request) {c c' : AdhocCodec} (_ : Tagged i j c c'),
    Same (Request.runAll b c us) (Request.runAll b c' us) fun x y => Tagged i j x.1 y.1 ∧ x.2 = y.2
  | [], c, c', H => Same.ok ⟨H, rfl⟩
  | u :: us, c, c', H => by
    unfold Request.runAll
    refine (tagged_run hij b H u).bind ?_
    rintro ⟨x, r⟩ ⟨y, _⟩ ⟨h, rfl⟩
    refine (tagged_runAll hij b us h).bind ?_
    rintro ⟨x, rs⟩ ⟨y, _⟩ ⟨h, rfl⟩
    exact Same.ok ⟨h, rfl⟩

theorem tagged_rated (r : Nat) (c : AdhocCodec) : Tagged (c.stream.info.map fun i => { i with sampleRate := r }) c.stream.info c (rated r c) := ⟨rfl, rfl⟩

theorem shape_rated (r : Nat) (o : Option StreamInfo) : SameShape (o.map fun i => { i with sampleRate := r }) o := by
  cases o <;> rfl

/-- C114. Whatever codec it is, in whatever state, and whatever calls follow (other than seeking): with another sample rate everything panics
at the same place or reports the same, sample by sample, and ends in the same state but for the rate. -/
theorem C114_label (b : Build) (c : AdhocCodec) (r : Nat) (us : List Request) :
    Request.runAll b (rated r c) us = (Request.runAll b c us).map fun x => (rated r x.1, x.2) := by
  rcases tagged_runAll (shape_rated r c.stream.info) b us (tagged_rated r c) with ⟨e, e1, e2⟩ | ⟨x, y, e1, e2, ⟨h1, h2⟩, h3⟩
  · rw [e1, e2]; rfl
  · rw [e1, e2]
    simp only [Except.map]
    congr 1
    refine Prod.ext ?_ h3.symm
    rw [h1]
    unfold rated AdhocCodec.labelled
    rw [h2]

/-- four samples recorded and played at 44100 Hz, and at 8000 Hz -/
example : ((Request.runAll .debug (fresh ⟨44100, 1⟩ 0) [.encode (List.replicate 4 (ofInt 1)), .rewind, .decode (List.replicate 4 (ofInt 0)), .count]).map (·.2)).toOption =
      some [.encoded (some 4), .unit, .decoded (List.replicate 4 (ofInt 1)) (some 4), .number 4] ∧
    (rated 8000 (fresh ⟨44100, 1⟩ 0)).stream.info = some ⟨8000, 1⟩ := by
  decide +kernel

/-! ## seeking -/

theorem tagged_seekChannel {i j : Option StreamInfo} (b : Build) {c c' : AdhocCodec} (H : Tagged i j c c') (k off : Nat) :
    Same (c.seekChannel b k off) (c'.seekChannel b k off) (Tagged i j) := by
  obtain ⟨rfl, hj⟩ := H
  unfold AdhocCodec.seekChannel
  refine (Same.refl _).bind ?_; rintro hdr? _ rfl
  refine (Same.refl _).bind ?_; rintro hdr _ rfl
  refine (Same.refl _).bind ?_; rintro fc _ rfl
  refine (same_decodeFrame_label b _ c.stream c.frameHeaderList i).bind ?_
  rintro ⟨f, s, h, n⟩ _ ⟨rfl, hs⟩
  refine (Same.refl _).bind ?_; rintro chs _ rfl
  exact Same.ok ⟨rfl, hs.trans hj⟩

theorem tagged_dropOne {i j : Option StreamInfo} {c c' : AdhocCodec} (H : Tagged i j c c') (n : Nat) :
    Same (c.dropOne n) (c'.dropOne n) (Tagged i j) := by
  unfold AdhocCodec.dropOne
  refine Same.foldlM (P := Tagged i j) ?_ _ _ _ H
  rintro x _ off ⟨rfl, hj⟩
  refine (Same.refl _).bind ?_; rintro fc _ rfl
  refine (Same.refl _).bind ?_; rintro chs _ rfl
  exact Same.ok ⟨rfl, hj⟩

theorem tagged_prune {i j : Option StreamInfo} (b : Build) (n target : Nat) : ∀ (fuel skipped : Nat) {c c' : AdhocCodec} (_ : Tagged i j c c'),
    Same (AdhocCodec.prune b n target fuel skipped c) (AdhocCodec.prune b n target fuel skipped c') (Tagged i j)
  | 0, _, _, _, _ => Same.error
  | fuel + 1, skipped, c, c', H => by
    unfold AdhocCodec.prune
    split
    · refine (tagged_dropOne H n).bind ?_
      intro x y h
      refine (Same.refl _).bind ?_; rintro k _ rfl
      exact tagged_prune b n target fuel k h
    · exact Same.ok H

/-- C114, seeking. A seek depends on the rate only through the number of samples the time amounts to: where two rates give the same
number for two times, both seeks do the same. -/
theorem C114_seek (b : Build) (c : AdhocCodec) (r t t' : Nat) (ht : 0 < t) (ht' : 0 < t') (info : StreamInfo) (hi : c.stream.info = some info)
    (h : AdhocCodec.seekOffset info t = AdhocCodec.seekOffset { info with sampleRate := r } t') :
    AdhocCodec.seek b (rated r c) (.start t') = (AdhocCodec.seek b c (.start t)).map (rated r) := by
  have key : Same (AdhocCodec.seek b c (.start t)) (AdhocCodec.seek b (rated r c) (.start t'))
      (Tagged (some { info with sampleRate := r }) (some info)) := by
    have hi' : (rated r c).stream.info = some { info with sampleRate := r } := by unfold rated; rw [hi]; rfl
    have H : Tagged (some { info with sampleRate := r }) (some info) c.init (rated r c).init := by
      refine ⟨?_, hi⟩
      unfold rated
      rw [hi]
      rfl
    unfold AdhocCodec.seek
    rw [hi, hi']
    simp only [expect, bind_ok]
    rw [if_neg (by omega), if_neg (by omega)]
    generalize c.init = x at H
    generalize (rated r c).init = y at H
    obtain ⟨rfl, hj⟩ := H
    unfold AdhocCodec.seekTo
    dsimp only
    rw [h]
    refine (Same.refl _).bind ?_; rintro target _ rfl
    refine (Same.refl _).bind ?_; rintro blockLen _ rfl
    refine (Same.refl _).bind ?_; rintro ⟨skipped, block⟩ _ rfl
    refine (Same.refl _).bind ?_; rintro hdr? _ rfl
    refine (Same.refl _).bind ?_; rintro hdr _ rfl
    refine Same.bind (P := Tagged (some { info with sampleRate := r }) (some info)) ?_ (fun x y h => tagged_prune b _ _ _ _ h)
    exact Same.foldlM (P := Tagged (some { info with sampleRate := r }) (some info)) (fun x y ch h => tagged_seekChannel b h _ ch) _ _ _ ⟨rfl, hj⟩
  rcases key with ⟨e, e1, e2⟩ | ⟨x, y, e1, e2, h1, h2⟩
  · rw [e1, e2]; rfl
  · rw [e1, e2]
    simp only [Except.map]
    congr 1
    rw [h1]
    unfold rated AdhocCodec.labelled
    rw [h2]
    rfl

/-- a second at 500 Hz is half a second at 1000 Hz -/
example : AdhocCodec.seekOffset ⟨1000, 2⟩ 500 = AdhocCodec.seekOffset ⟨500, 2⟩ 1000 ∧ AdhocCodec.seekOffset ⟨1000, 2⟩ 500 = 500 := by decide +kernel

/-! ## saving -/

/-- C114, files. The files of two codecs that differ in the rate differ in four bytes, which hold the rate. -/
theorem C114_file (c : AdhocCodec) (r : Nat) (info : StreamInfo) (hi : c.stream.info = some info) :
    ∃ before after : List Byte, file c = before ++ Bincode.leBytes 4 info.sampleRate ++ after ∧
      file (rated r c) = before ++ Bincode.leBytes 4 r ++ after := by
  rw [file_eq, file_eq]
  unfold savedBytes AdhocCodec.encPieces rated
  simp only [hi, Option.map_some, Bincode.encOpt]
  generalize Bincode.encVec _ c.stream.stream.binary = q1
  generalize Bincode.encU 16 c.stream.stream.bitCursor = q2
  generalize Bincode.encU 16 c.stream.stream.capacity = q3
  generalize Bincode.encU 4 c.compressionLevel ++ _ ++ _ ++ _ ++ _ ++ _ ++ _ ++ _ ++ _ = p
  refine ⟨p.flatten ++ [1#8], Bincode.leBytes 4 info.channels ++ q1.flatten ++ q2.flatten ++ q3.flatten, ?_, ?_⟩ <;>
    simp [Bincode.encU]

end Adhoc
