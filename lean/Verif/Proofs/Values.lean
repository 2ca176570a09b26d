import Verif.Proofs.Codec

/-! Values the codec stores are values of their Rust types, whatever calls are made. -/

namespace Adhoc
open Spec

/-- every result of `x` is in `P` -/
def Ens {α : Type} (x : R α) (P : α → Prop) : Prop := ∀ a, x = .ok a → P a

namespace Ens

theorem ok {α : Type} {a : α} {P : α → Prop} (h : P a) : Ens (.ok a) P := by rintro _ ⟨⟩; exact h

theorem error {α : Type} {e : Panic} {P : α → Prop} : Ens (.error e) P := by rintro _ ⟨⟩

theorem any {α : Type} (x : R α) : Ens x (fun _ => True) := fun _ _ => trivial

theorem bind {α β : Type} {x : R α} {f : α → R β} {P : α → Prop} {Q : β → Prop} (hx : Ens x P) (hf : ∀ a, P a → Ens (f a) Q) :
    Ens (x >>= f) Q := by
  intro b hb
  obtain ⟨a, h1, h2⟩ := bind_eq_ok.1 hb
  exact hf a (hx a h1) b h2

theorem foldlM {α β : Type} {f : β → α → R β} {P : β → Prop} (hf : ∀ c a, P c → Ens (f c a) P) :
    ∀ (l : List α) (c : β) (_ : P c), Ens (l.foldlM f c) P
  | [], _, h => ok h
  | a :: l, c, h => by
    rw [List.foldlM_cons]
    exact (hf c a h).bind fun c' h' => foldlM hf l c' h'

end Ens

/-- the history of a channel is a ring of i16 values -/
structure Sound (fc : FrameCodec) : Prop where
  ring : Last fc.history []
  data : ∀ j, InI 16 (fc.history.data j)

/-- the header vectors hold u16, u64 and i16 values -/
structure TypedHeaders (h : FrameHeaders) : Prop where
  sizes : ∀ x ∈ h.frameSizeList, x < 2 ^ 16
  cursors : ∀ x ∈ h.bitCursorList, x < 2 ^ 64
  hist : ∀ x ∈ h.stackHistoryList, InI 16 x.1 ∧ InI 16 x.2.1 ∧ InI 16 x.2.2

theorem inI16' {x : Int} (h1 : -32768 ≤ x) (h2 : x ≤ 32767) : InI 16 x := inI16.2 ⟨h1, h2⟩

theorem sound_push {h : CircularStack Int} (H : Last h [] ∧ ∀ j, InI 16 (h.data j)) {x : Int} (hx : InI 16 x) :
    Last (h.push x) [] ∧ ∀ j, InI 16 ((h.push x).data j) := by
  refine ⟨(H.1.push x).weaken, ?_⟩
  intro j
  simp only [CircularStack.push]
  split
  · exact hx
  · exact H.2 j

theorem truncate_i16 (x : F32) : InI 16 (truncateSample x) := by
  have := truncateSample_range x
  exact inI16' (by omega) (by omega)

theorem clamp_i16 {x a : Int} (h : clampI x (-32768) 32767 = .ok a) : InI 16 a := by
  unfold clampI at h
  rw [if_neg (by norm_num)] at h
  cases h
  split
  · exact inI16' (by omega) (by omega)
  · split
    · exact inI16' (by omega) (by omega)
    · exact inI16' (by omega) (by omega)

theorem ens_push {h : FrameHeaders} (H : TypedHeaders h) {hdr : FrameHeader} (h1 : hdr.size < 2 ^ 16)
    (h2 : InI 16 hdr.history.1 ∧ InI 16 hdr.history.2.1 ∧ InI 16 hdr.history.2.2) : Ens (h.push hdr) TypedHeaders := by
  have h3 : hdr.bitCursor % 2 ^ 64 < 2 ^ 64 := Nat.mod_lt _ (by norm_num)
  unfold FrameHeaders.push
  dsimp only
  split
  · refine (Ens.any _).bind fun d _ => (Ens.any _).bind fun i _ => Ens.ok ⟨?_, ?_, ?_⟩
    · intro x hx; rcases List.mem_append.1 hx with hx | hx
      · exact H.sizes x hx
      · rw [List.mem_singleton.1 hx]; exact h1
    · intro x hx; rcases List.mem_append.1 hx with hx | hx
      · exact H.cursors x hx
      · rw [List.mem_singleton.1 hx]; exact h3
    · intro x hx; rcases List.mem_append.1 hx with hx | hx
      · exact H.hist x hx
      · rw [List.mem_singleton.1 hx]; exact h2
  · refine Ens.bind (P := fun l => ∀ x ∈ l, x < 2 ^ 16) ?_ fun a ha => Ens.bind (P := fun l => ∀ x ∈ l, x < 2 ^ 64) ?_ fun b hb =>
      Ens.bind (P := fun l => ∀ x ∈ l, InI 16 x.1 ∧ InI 16 x.2.1 ∧ InI 16 x.2.2) ?_ fun c hc => Ens.ok ⟨ha, hb, hc⟩
    · intro l hl x hx
      rw [(setIdx_eq_ok.1 hl).2] at hx
      rcases List.mem_or_eq_of_mem_set hx with hx | rfl
      · exact H.sizes x hx
      · exact h1
    · intro l hl x hx
      rw [(setIdx_eq_ok.1 hl).2] at hx
      rcases List.mem_or_eq_of_mem_set hx with hx | rfl
      · exact H.cursors x hx
      · exact h3
    · intro l hl x hx
      rw [(setIdx_eq_ok.1 hl).2] at hx
      rcases List.mem_or_eq_of_mem_set hx with hx | rfl
      · exact H.hist x hx
      · exact h2

theorem ens_encodeSamples {b : Build} {k : Nat} : ∀ (ys : List F32) {s : BitStream} {h : CircularStack Int}
    (_ : Last h [] ∧ ∀ j, InI 16 (h.data j)),
    Ens (FrameCodec.encodeSamples b k s h ys) (fun r => Last r.2 [] ∧ ∀ j, InI 16 (r.2.data j))
  | [], _, _, H => Ens.ok H
  | y :: ys, s, h, H => by
    unfold FrameCodec.encodeSamples
    dsimp only
    exact (Ens.any _).bind fun _ _ => (Ens.any _).bind fun _ _ => ens_encodeSamples ys (sound_push H (truncate_i16 y))

theorem historyOf_i16 {h : CircularStack Int} (H : ∀ j, InI 16 (h.data j)) :
    InI 16 (FrameCodec.historyOf h).1 ∧ InI 16 (FrameCodec.historyOf h).2.1 ∧ InI 16 (FrameCodec.historyOf h).2.2 := ⟨H _, H _, H _⟩

theorem ens_encodeFrame {b : Build} {fc : FrameCodec} {st : AudioStream} {hd : FrameHeaders} {pcm : List F32} (H : Sound fc)
    (Hh : TypedHeaders hd) : Ens (fc.encodeFrame b st hd pcm) (fun r => Sound r.1 ∧ r.2.1.info = st.info ∧ TypedHeaders r.2.2) := by
  have hm : pcm.length % 2 ^ 16 < 2 ^ 16 := Nat.mod_lt _ (by norm_num)
  unfold FrameCodec.encodeFrame
  split
  · refine (Ens.any _).bind fun p0 _ => (Ens.any _).bind fun s0 _ => (Ens.any _).bind fun p1 _ => (Ens.any _).bind fun s1 _ =>
      (Ens.any _).bind fun p2 _ => (Ens.any _).bind fun s2 _ => (Ens.any _).bind fun e _ => ?_
    have hh := sound_push (sound_push (sound_push ⟨H.ring, H.data⟩ (truncate_i16 p0)) (truncate_i16 p1)) (truncate_i16 p2)
    refine (ens_push Hh hm (historyOf_i16 hh.2)).bind fun hd' hhd => ?_
    refine (ens_encodeSamples _ hh).bind fun r hr => ?_
    exact Ens.ok ⟨⟨hr.1, hr.2⟩, rfl, hhd⟩
  · refine (Ens.any _).bind fun e _ => (ens_push Hh hm (historyOf_i16 H.data)).bind fun hd' hhd => ?_
    refine (ens_encodeSamples _ ⟨H.ring, H.data⟩).bind fun r hr => ?_
    exact Ens.ok ⟨⟨hr.1, hr.2⟩, rfl, hhd⟩
  · exact Ens.error

theorem ens_decodeSamples {b : Build} {k : Nat} : ∀ (n : Nat) {s : BitStream} {h : CircularStack Int} {buf : List F32}
    (_ : Last h [] ∧ ∀ j, InI 16 (h.data j)),
    Ens (FrameCodec.decodeSamples b k n s h buf) (fun r => Last r.2.1 [] ∧ ∀ j, InI 16 (r.2.1.data j))
  | 0, _, _, _, H => Ens.ok H
  | n + 1, s, h, buf, H => by
    unfold FrameCodec.decodeSamples
    refine (Ens.any _).bind fun r _ => Ens.bind (P := fun a => InI 16 a) (fun a ha => clamp_i16 ha) fun a ha => ?_
    exact ens_decodeSamples n (sound_push H ha)

theorem ens_next {h : FrameHeaders} (H : TypedHeaders h) : Ens h.next (fun r => TypedHeaders r.1) := by
  unfold FrameHeaders.next
  dsimp only
  split
  · exact (Ens.any _).bind fun _ _ => (Ens.any _).bind fun _ _ => (Ens.any _).bind fun _ _ => Ens.ok ⟨H.sizes, H.cursors, H.hist⟩
  · exact Ens.ok H

theorem ens_readRaw (s : BitStream) : Ens (FrameCodec.readRaw s) (fun r => InI 16 r.2) := by
  unfold FrameCodec.readRaw
  refine (Ens.any _).bind fun r _ => Ens.ok ?_
  have h1 := BitVec.toInt_lt (x := r.2.setWidth 16)
  have h2 := BitVec.le_toInt (x := r.2.setWidth 16)
  exact ⟨h2, h1⟩

theorem ens_decodeFrame {b : Build} {fc : FrameCodec} {st : AudioStream} {hd : FrameHeaders} (H : Sound fc) (Hh : TypedHeaders hd) :
    Ens (fc.decodeFrame b st hd) (fun r => Sound r.1 ∧ r.2.1.info = st.info ∧ TypedHeaders r.2.2.1) := by
  unfold FrameCodec.decodeFrame
  refine (ens_next Hh).bind fun r hr => ?_
  obtain ⟨hd', hdr?⟩ := r
  dsimp only at hr ⊢
  split
  · exact Ens.ok ⟨H, rfl, hr⟩
  · split
    · refine (ens_readRaw _).bind fun r0 h0 => (ens_readRaw _).bind fun r1 h1 => (ens_readRaw _).bind fun r2 h2 => ?_
      refine (ens_decodeSamples _ (sound_push (sound_push (sound_push ⟨H.ring, H.data⟩ h0) h1) h2)).bind fun r hh => ?_
      exact Ens.ok ⟨⟨hh.1, hh.2⟩, rfl, hr⟩
    · refine (ens_decodeSamples _ ⟨H.ring, H.data⟩).bind fun r hh => ?_
      exact Ens.ok ⟨⟨hh.1, hh.2⟩, rfl, hr⟩
    · exact Ens.error

/-- values in range, and the scale belongs to the level -/
structure Valued (c : AdhocCodec) (info : StreamInfo) (level : Nat) : Prop where
  hinfo : c.stream.info = some info
  chans : c.channelStateList.length = info.channels
  sound : ∀ fc ∈ c.channelStateList, Sound fc
  headers : TypedHeaders c.frameHeaderList
  lev : c.compressionLevel = min level 10
  scale : c.scale = F32.ofInt (2 ^ min level 10)
  inv : c.invScale = F32.ofInt 1 / F32.ofInt (2 ^ min level 10)

theorem valued_fresh (info : StreamInfo) (level : Nat) : Valued (fresh info level) info level where
  hinfo := rfl
  chans := by simp [fresh, AdhocCodec.withCompressionLevel, AdhocCodec.setInfo, AdhocCodec.resize, AdhocCodec.new]
  sound := by
    intro fc hfc
    have : fc = FrameCodec.new := by
      simp [fresh, AdhocCodec.withCompressionLevel, AdhocCodec.setInfo, AdhocCodec.resize, AdhocCodec.new] at hfc
      exact hfc.2
    subst this
    exact ⟨last_new, fun j => inI16' (show (-32768 : Int) ≤ 0 by norm_num) (show (0 : Int) ≤ 32767 by norm_num)⟩
  headers := by
    constructor <;> simp [fresh, AdhocCodec.withCompressionLevel, AdhocCodec.setInfo, AdhocCodec.new, FrameHeaders.new]
  lev := rfl
  scale := rfl
  inv := rfl

theorem sound_set {l l' : List FrameCodec} {i : Nat} {fc : FrameCodec} (h : setIdx l i fc = .ok l') (hl : ∀ x ∈ l, Sound x) (hf : Sound fc) :
    l'.length = l.length ∧ ∀ x ∈ l', Sound x := by
  obtain ⟨h1, rfl⟩ := setIdx_eq_ok.1 h
  refine ⟨by simp, ?_⟩
  intro x hx
  rcases List.mem_or_eq_of_mem_set hx with hx | rfl
  · exact hl x hx
  · exact hf

theorem ens_idx_sound {l : List FrameCodec} {i : Nat} (hl : ∀ x ∈ l, Sound x) : Ens (idx l i) Sound := by
  intro fc h
  exact hl fc (List.mem_of_getElem? (idx_eq_ok.1 h))

theorem Valued.upd {c c' : AdhocCodec} {info : StreamInfo} {level : Nat} (H : Valued c info level) (h1 : c'.stream.info = c.stream.info)
    (h2 : c'.channelStateList.length = c.channelStateList.length ∧ ∀ x ∈ c'.channelStateList, Sound x) (h3 : TypedHeaders c'.frameHeaderList)
    (h4 : c'.compressionLevel = c.compressionLevel) (h5 : c'.scale = c.scale) (h6 : c'.invScale = c.invScale) : Valued c' info level :=
  ⟨by rw [h1, H.hinfo], by rw [h2.1, H.chans], h2.2, h3, by rw [h4, H.lev], by rw [h5, H.scale], by rw [h6, H.inv]⟩

theorem ens_encode {b : Build} {c : AdhocCodec} {info : StreamInfo} {level : Nat} (H : Valued c info level) (pcm : List F32) :
    Ens (c.encode b pcm) (fun r => Valued r.1 info level) := by
  unfold AdhocCodec.encode
  refine Ens.bind (P := fun c => Valued c info level) ?_ fun c' h => Ens.ok h
  unfold AdhocCodec.encodeRaw
  refine (Ens.any _).bind fun i _ => (Ens.any _).bind fun q _ => ?_
  refine Ens.foldlM ?_ _ _ H
  intro c ch H
  unfold AdhocCodec.encodeChannel
  refine (Ens.any _).bind fun xs _ => (Ens.any _).bind fun ys _ => (ens_idx_sound H.sound).bind fun fc hfc => ?_
  refine (ens_encodeFrame hfc H.headers).bind fun r hr => ?_
  refine Ens.bind (P := fun l => l.length = c.channelStateList.length ∧ ∀ x ∈ l, Sound x) (fun l hl => sound_set hl H.sound hr.1) fun l hl => ?_
  exact Ens.ok (H.upd hr.2.1 hl hr.2.2 rfl rfl rfl)

theorem ens_decodeBlock {b : Build} {c : AdhocCodec} {info : StreamInfo} {level n : Nat} (H : Valued c info level) :
    Ens (c.decodeBlock b n) (fun c => Valued c info level) := by
  unfold AdhocCodec.decodeBlock
  refine Ens.foldlM ?_ _ _ H
  intro c ch H
  unfold AdhocCodec.decodeChannel
  refine (ens_idx_sound H.sound).bind fun fc hfc => ?_
  refine (ens_decodeFrame hfc H.headers).bind fun r hr => ?_
  refine Ens.bind (P := fun l => l.length = c.channelStateList.length ∧ ∀ x ∈ l, Sound x) (fun l hl => sound_set hl H.sound hr.1) fun l hl => ?_
  exact Ens.ok (H.upd hr.2.1 hl hr.2.2 rfl rfl rfl)

theorem ens_bufferAudio {b : Build} {info : StreamInfo} {level n : Nat} : ∀ (left : Nat) {c : AdhocCodec} (_ : Valued c info level),
    Ens (AdhocCodec.bufferAudio b n left c) (fun r => Valued r.1 info level)
  | 0, _, H => Ens.ok H
  | left + 1, c, H => by
    unfold AdhocCodec.bufferAudio
    split
    · exact (ens_decodeBlock H).bind fun c' H' => ens_bufferAudio left H'
    · exact Ens.ok H

theorem ens_popBlock {info : StreamInfo} {level legal : Nat} : ∀ (n ch : Nat) {c : AdhocCodec} (_ : Valued c info level) (pcm : List F32) (cursor : Nat),
    Ens (AdhocCodec.popBlock legal n ch c pcm cursor) (fun r => Valued r.1 info level)
  | 0, _, _, H, _, _ => Ens.ok H
  | n + 1, ch, c, H, pcm, cursor => by
    unfold AdhocCodec.popBlock
    split
    · refine (ens_idx_sound H.sound).bind fun fc hfc => ?_
      refine Ens.bind (P := fun l => l.length = c.channelStateList.length ∧ ∀ x ∈ l, Sound x)
        (fun l hl => sound_set hl H.sound ⟨hfc.ring, hfc.data⟩) fun l hl => ?_
      refine (Ens.any _).bind fun _ _ => ?_
      have H' : Valued { c with channelStateList := l } info level := H.upd rfl hl H.headers rfl rfl rfl
      exact ens_popBlock n (ch + 1) H' _ _
    · exact Ens.ok H

theorem ens_decodeLoop {b : Build} {info : StreamInfo} {level n legal : Nat} : ∀ (fuel : Nat) {c : AdhocCodec} (_ : Valued c info level)
    (pcm : List F32) (cursor : Nat), Ens (AdhocCodec.decodeLoop b n legal fuel c pcm cursor) (fun r => Valued r.1 info level)
  | 0, _, _, _, _ => Ens.error
  | fuel + 1, c, H, pcm, cursor => by
    unfold AdhocCodec.decodeLoop
    split
    · refine (ens_bufferAudio _ H).bind fun r hr => ?_
      obtain ⟨c', left⟩ := r
      dsimp only at hr ⊢
      split
      · exact Ens.ok hr
      · exact (ens_popBlock _ _ hr _ _).bind fun r hr => ens_decodeLoop fuel hr _ _
    · exact Ens.ok H

theorem ens_decode {b : Build} {c : AdhocCodec} {info : StreamInfo} {level : Nat} (H : Valued c info level) (buf : List F32) :
    Ens (c.decode b buf) (fun r => Valued r.1 info level) := by
  unfold AdhocCodec.decode
  refine Ens.bind (P := fun r => Valued r.1 info level) ?_ fun r hr => Ens.ok hr
  unfold AdhocCodec.decodeRaw
  refine (Ens.any _).bind fun i _ => (Ens.any _).bind fun q _ => ?_
  exact (ens_decodeLoop _ H _ _).bind fun r hr => Ens.ok hr

theorem Valued.init {c : AdhocCodec} {info : StreamInfo} {level : Nat} (H : Valued c info level) : Valued c.init info level := by
  refine H.upd rfl ⟨by simp [AdhocCodec.init], ?_⟩ ⟨H.headers.sizes, H.headers.cursors, H.headers.hist⟩ rfl rfl rfl
  intro fc hfc
  obtain ⟨x, hx, rfl⟩ := List.mem_map.1 hfc
  have := H.sound x hx
  exact ⟨this.ring, this.data⟩

end Adhoc
