import Verif.Proofs.Over
import Verif.Props.Reuse
import Verif.Props.Encoding

/-! # C21 and C89: recording again over whatever is in the codec -/

namespace Adhoc
open Spec F32 BitStream

namespace Spec

/-- does not replace the codec -/
def Call.isLoad : Call → Bool
  | .load _ => true
  | _ => false

end Spec

theorem trail_runAll {b : Build} {info : StreamInfo} {level : Nat} : ∀ (xs : List Call) {c : AdhocCodec} (_ : Trail c info level)
    (_ : ∀ x ∈ xs, x.isLoad = false), Ens (Call.runAll b c xs) (fun r => Trail r.1 info level)
  | [], _, H, _ => Ens.ok H
  | x :: xs, c, H, hx => by
    unfold Call.runAll
    refine Ens.bind (P := fun r => Trail r.1 info level) ?_ fun r hr =>
      (trail_runAll xs hr fun y hy => hx y (by simp [hy])).bind fun r hr => Ens.ok hr
    have h0 := hx x (by simp)
    cases x with
    | encode pcm => exact (trail_encode H pcm).bind fun r hr => Ens.ok hr
    | decode buf => exact (trail_decode H buf).bind fun r hr => Ens.ok hr
    | rewind => exact Ens.ok H.init
    | seek t => exact (trail_seek H t).bind fun r hr => Ens.ok hr
    | load bytes => cases h0

namespace Spec

/-- `t` is `s` with old memory under it: as many bits written, all ones of `s`, beside them at most ones of the old memory -/
def Overlay (old s t : BitStream) : Prop :=
  t.bitCursor = s.bitCursor ∧ t.binary.length = max s.binary.length old.binary.length ∧ t.capacity = max s.capacity old.capacity ∧
    ∀ i, (bitAt s.binary i = true → bitAt t.binary i = true) ∧ (bitAt t.binary i = true → bitAt s.binary i = true ∨ bitAt old.binary i = true)

end Spec

/-- C21, at any level and after any calls (recording, playing, seeking, rewinding in any order): recording after a rewind panics exactly if
and as it would on a new codec with the same state of the noise, and otherwise returns the same, writes as many bits and the same headers. Behind them stay the
old headers that it has not reached. In the bits, beside the ones of the new recording, there can be ones of the old one. At level 0 the
state of the noise does not matter. -/
theorem C21_again_partial (b : Build) (info : StreamInfo) (level : Nat) (xs : List Call) (c : AdhocCodec) (os : List (List F32 × Option Nat))
    (h : Call.runAll b (fresh info level) xs = .ok (c, os)) (hx : ∀ x ∈ xs, x.isLoad = false) (f : AdhocCodec)
    (hf : f = { fresh info level with seq := c.seq } ∨ level = 0 ∧ f = fresh info level) (new : List (List F32)) :
    (∀ e, encodeAll b f new = .error e ↔ encodeAll b c.init new = .error e) ∧
    ∀ d, encodeAll b f new = .ok d → ∃ d', encodeAll b c.init new = .ok d' ∧ Overlay c.stream.stream d.stream.stream d'.stream.stream ∧ d'.stream.info = d.stream.info ∧
      ∀ i, d'.frameHeaderList.get i = if i < d.frameHeaderList.len then d.frameHeaderList.get i else c.frameHeaderList.get i := by
  have T : Trail c info level := trail_runAll xs (trail_fresh info level) hx _ h
  obtain ⟨log, k, hl⟩ := T.log
  have H : CodecOver c.stream.stream.binary c.stream.stream.capacity log f c.init := by
    rcases hf with rfl | ⟨rfl, rfl⟩
    · exact over_start T hl _ (.inl rfl)
    · exact over_start T hl (fresh info 0).seq (.inr ⟨rfl, 0, rfl⟩)
  have S := over_encodeAll (b := b) H new
  have fin : ∀ {d d' : AdhocCodec}, CodecOver c.stream.stream.binary c.stream.stream.capacity log d d' → Overlay c.stream.stream d.stream.stream d'.stream.stream ∧ d'.stream.info = d.stream.info ∧
      ∀ i, d'.frameHeaderList.get i = if i < d.frameHeaderList.len then d.frameHeaderList.get i else c.frameHeaderList.get i := by
    intro d d' K
    refine ⟨⟨K.stream.cursor, K.stream.length, K.stream.cap, fun i => ⟨K.stream.lower i, K.stream.upper i⟩⟩, K.info.symm, fun i => ?_⟩
    obtain ⟨l, h1, h2⟩ := K.log
    rw [isLog_get h2, isLog_get h1, isLog_get hl, h1.len]
    split_ifs with hi
    · rw [List.getElem?_append_left hi]
    · rw [List.getElem?_append_right (by omega), List.getElem?_drop]
      congr 2
      omega
  rcases S with ⟨e, e1, e2⟩ | ⟨d, d', e1, e2, K⟩
  · refine ⟨fun e' => ?_, fun d hd => ?_⟩
    · rw [e1, e2]
    · rw [e1] at hd; cases hd
  · refine ⟨fun e' => ?_, fun d0 hd => ?_⟩
    · rw [e1, e2]; constructor <;> intro h <;> cases h
    · rw [e1] at hd; cases hd
      exact ⟨d', e2, fin K⟩

/-- A recording made over old memory plays as the one on a new codec if no old header is left and where the old memory has a one, so has the
new recording. -/
theorem plays_over {b : Build} {info : StreamInfo} {level : Nat} (hn : 0 < info.channels) {new : List (List F32)} {d d' : AdhocCodec}
    {M : List (BitVec 128)} {C : Nat} {old : List FrameHeader} (hd : encodeAll b (fresh info level) new = .ok d) (hp : Proper info.channels new)
    (K : CodecOver M C old d d') (hlen : old.length ≤ d.frameHeaderList.len)
    (hbit : ∀ i < d.stream.stream.len, bitAt M i = true → bitAt d.stream.stream.binary i = true) (b' : Build) (bufs : List (List F32)) :
    (decodeAll b' d'.init bufs).map (·.2) = (decodeAll b' d.init bufs).map (·.2) := by
  obtain ⟨-, blocks, HE, HR, s⟩ := recorded_of_ok hn hd
  have hrec := HR.toRec hn
  have hsh := HR.short hn hp.short
  have hng := recorded_made HR hn hp.gap
  have D' : DecSt d'.init info blocks 0 0 := by
    refine ⟨⟨by rw [← HE.hinfo, K.info]; rfl, ?_, ?_, ?_, ?_⟩, by omega, by simp⟩
    · have := K.chans.length_eq
      have := HE.chans
      simp [AdhocCodec.init]
      omega
    · intro k hk
      have hk' : k < d'.channelStateList.length := by simpa [AdhocCodec.init] using hk
      have hk2 : k < d.channelStateList.length := by rw [K.chans.length_eq]; exact hk'
      simp only [AdhocCodec.init, List.getElem_map]
      have hr : Last (d'.channelStateList[k]).history [] := by
        rcases List.Forall₂.get K.chans hk2 hk' with ⟨-, -, -, h⟩ | ⟨-, -, P, -, h, -⟩
        · exact h
        · exact h.weaken
      exact ⟨by simp [FrameCodec.init], hr, by simp [FrameCodec.init]⟩
    · have hb := HE.bits
      refine ⟨by simp [AdhocCodec.init, BitStream.seekStart, bitsOf], ?_, by simp [bitsOf], ?_⟩
      · have h1 := hb.chunks
        have h2 := hb.cursor
        have h3 := K.stream.length
        show _ ≤ 128 * d'.stream.stream.binary.length
        omega
      · intro i hi
        show bitAt d'.stream.stream.binary i = _
        rw [← hb.bit i hi, Bool.eq_iff_iff]
        refine ⟨fun g => ?_, K.stream.lower i⟩
        rcases K.stream.upper i g with g | g
        · exact g
        · refine hbit i ?_ g
          show i < d.stream.stream.bitCursor
          rw [hb.cursor]
          exact hi
    · obtain ⟨l, h1, h2⟩ := K.log
      have h3 := h1.len
      have h4 := HE.log.len
      have e1 : l = hdrs 0 (flat info.channels blocks) := by
        apply List.ext_getElem?
        intro i
        have g1 := isLog_get h1 i
        rw [isLog_get HE.log] at g1
        exact (Except.ok.inj g1).symm
      rw [List.drop_eq_nil_of_le (by omega), List.append_nil, e1] at h2
      show IsLog d'.frameHeaderList.reset _ _
      rw [Nat.zero_mul]
      exact isLog_reset h2
  obtain ⟨c1, j1, m1, E1, -, -⟩ := decodeAll_ok (b := b') hn hrec hsh hng bufs (decSt_init HE)
  obtain ⟨c2, j2, m2, E2, -, -⟩ := decodeAll_ok (b := b') hn hrec hsh hng bufs D'
  rw [E1, E2]
  have hsc : d'.init.scale = d.init.scale := K.scale.symm
  rw [hsc]
  rfl

/-- C21 at level 0, what is enough for the new recording to play as on a new codec: the codec holds no more frames than the new recording
has, and where it has a one, so has the new recording. -/
theorem C21_level0_partial (b : Build) (info : StreamInfo) (hn : 0 < info.channels) (xs : List Call) (c d : AdhocCodec) (os : List (List F32 × Option Nat))
    (h : Call.runAll b (fresh info 0) xs = .ok (c, os)) (hx : ∀ x ∈ xs, x.isLoad = false) (new : List (List F32))
    (hd : encodeAll b (fresh info 0) new = .ok d) (hp : Proper info.channels new) (hlen : c.frameHeaderList.len ≤ d.frameHeaderList.len)
    (hbit : ∀ i < d.stream.stream.len, bitAt c.stream.stream.binary i = true → bitAt d.stream.stream.binary i = true) :
    ∃ d', encodeAll b c.init new = .ok d' ∧ ∀ b' bufs, (decodeAll b' d'.init bufs).map (·.2) = (decodeAll b' d.init bufs).map (·.2) := by
  have T : Trail c info 0 := trail_runAll xs (trail_fresh info 0) hx _ h
  obtain ⟨log, k, hl⟩ := T.log
  have H : CodecOver c.stream.stream.binary c.stream.stream.capacity log (fresh info 0) c.init :=
    over_start T hl (fresh info 0).seq (.inr ⟨rfl, 0, rfl⟩)
  obtain ⟨d', e, K⟩ : ∃ d', encodeAll b c.init new = .ok d' ∧ CodecOver c.stream.stream.binary c.stream.stream.capacity log d d' := by
    rcases over_encodeAll (b := b) H new with ⟨e, e1, e2⟩ | ⟨d0, d', e1, e2, K⟩
    · rw [hd] at e1; cases e1
    · rw [hd] at e1; cases e1; exact ⟨d', e2, K⟩
  refine ⟨d', e, plays_over hn hd hp K ?_ hbit⟩
  rw [← hl.len]
  exact hlen

theorem audioStream_ext {s t : AudioStream} (h1 : s.info = t.info) (h2 : s.stream.binary = t.stream.binary) (h3 : s.stream.bitCursor = t.stream.bitCursor)
    (h4 : s.stream.capacity = t.stream.capacity) : s = t := by
  obtain ⟨_, _, _, _⟩ := s
  obtain ⟨_, _, _, _⟩ := t
  dsimp only at h1 h2 h3 h4
  rw [h1, h2, h3, h4]

/-- C89. Recording the same again at level 0, after rewinding, changes nothing: neither the bits nor the headers nor what is played. -/
theorem C89_same_again (b : Build) (info : StreamInfo) (hn : 0 < info.channels) (calls : List (List F32)) (c : AdhocCodec)
    (h : encodeAll b (fresh info 0) calls = .ok c) :
    ∃ c', encodeAll b c.init calls = .ok c' ∧ c'.stream = c.stream ∧ (∀ i, c'.frameHeaderList.get i = c.frameHeaderList.get i) ∧
      (Proper info.channels calls → ∀ b' bufs, (decodeAll b' c'.init bufs).map (·.2) = (decodeAll b' c.init bufs).map (·.2)) := by
  have run : ∀ (calls : List (List F32)) (c0 c : AdhocCodec), encodeAll b c0 calls = .ok c → ∃ os, Call.runAll b c0 (calls.map .encode) = .ok (c, os) := by
    intro calls
    induction calls with
    | nil => intro c0 c h; cases h; exact ⟨[], rfl⟩
    | cons x calls ih =>
      intro c0 c h
      unfold encodeAll at h
      rw [List.foldlM_cons] at h
      obtain ⟨c1, h1, h2⟩ := bind_eq_ok.1 h
      obtain ⟨r, h3, h4⟩ := bind_eq_ok.1 h1
      cases h4
      obtain ⟨os, h5⟩ := ih _ _ h2
      refine ⟨([], r.2) :: os, ?_⟩
      rw [List.map_cons]
      unfold Call.runAll
      simp only [Call.run, h3, bind_ok, pure_eq_ok, h5]
  obtain ⟨os, hr⟩ := run _ _ _ h
  have hx : ∀ x ∈ calls.map Call.encode, x.isLoad = false := by
    intro x hx
    obtain ⟨y, -, rfl⟩ := List.mem_map.1 hx
    rfl
  obtain ⟨c', e, ⟨o1, o2, o3, o4⟩, oi, o5⟩ := (C21_again_partial b info 0 _ c os hr hx _ (.inr ⟨rfl, rfl⟩) calls).2 c h
  refine ⟨c', e, ?_, ?_, ?_⟩
  · have hb : c'.stream.stream.binary = c.stream.stream.binary := by
      rw [max_self] at o2
      refine List.ext_getElem o2 fun j h1 h2 => BitVec.eq_of_getLsbD_eq fun k hk => ?_
      have hbit : bitAt c'.stream.stream.binary (128 * j + k) = bitAt c.stream.stream.binary (128 * j + k) := by
        rw [Bool.eq_iff_iff]
        exact ⟨fun g => ((o4 _).2 g).elim id id, (o4 _).1⟩
      unfold bitAt at hbit
      rw [show (128 * j + k) / 128 = j by omega, show (128 * j + k) % 128 = k by omega, List.getElem?_eq_getElem h1, List.getElem?_eq_getElem h2] at hbit
      exact hbit
    rw [max_self] at o3
    exact audioStream_ext oi hb o1 o3
  · intro i
    rw [o5 i, ite_self]
  · intro hp b' bufs
    obtain ⟨d', e', hd⟩ := C21_level0_partial b info hn _ c c os hr hx calls h hp le_rfl (fun _ _ h => h)
    rw [e] at e'
    cases e'
    exact hd b' bufs

/-- a loud recording of two frames over a silent one of one frame: no one of the old memory is a zero of the new recording, and it has fewer headers -/
example : (do
    let (c, _) ← Call.runAll .debug (fresh { sampleRate := 8000, channels := 1 } 0) [.encode (pcmOf [0, 0, 0]), .rewind, .decode (pcmOf [1, 1])]
    let d ← encodeAll .debug (fresh { sampleRate := 8000, channels := 1 } 0) [pcmOf [500, -7, 3, 9000], pcmOf [8, 8]]
    let d' ← encodeAll .debug c.init [pcmOf [500, -7, 3, 9000], pcmOf [8, 8]]
    pure (c.frameHeaderList.len, d.frameHeaderList.len,
      decide (∀ i < d.stream.stream.len, bitAt c.stream.stream.binary i = true → bitAt d.stream.stream.binary i = true),
      decide (d'.stream.stream = d.stream.stream)) : R (Nat × Nat × Bool × Bool)) = .ok (1, 2, true, true) := by decide +kernel

/-- the same two frames of two channels twice -/
example : (do
    let c ← encodeAll .debug (fresh { sampleRate := 8000, channels := 2 } 0) [pcmOf [1, 2, 3, 4, 5, 6, 20000, -20000], pcmOf [8, 8]]
    let c' ← encodeAll .debug c.init [pcmOf [1, 2, 3, 4, 5, 6, 20000, -20000], pcmOf [8, 8]]
    pure (decide (100 < c.stream.stream.len), decide (c'.stream.stream = c.stream.stream), decide (c'.seq = c.seq)) : R (Bool × Bool × Bool)) =
    .ok (true, true, false) := by decide +kernel

end Adhoc
