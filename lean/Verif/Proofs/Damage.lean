import Verif.Proofs.Alike
import Verif.Proofs.Robust
import Verif.Props.Seek
import Verif.Spec.Tape

/-! Two codecs whose streams differ only before bit `p`: nothing that is read from `p` on shows the difference. -/

namespace Adhoc
open Spec

/-- the same stream from bit `p` on, and the cursor is there -/
structure From (p : Nat) (s t : BitStream) : Prop where
  cursor : s.bitCursor = t.bitCursor
  cap : s.capacity = t.capacity
  len : s.binary.length = t.binary.length
  bit : ∀ i, p ≤ i → bitAt s.binary i = bitAt t.binary i

theorem From.offset {p : Nat} {s t : BitStream} (H : From p s t) (n : Nat) : From p (s.offsetBitCursor n) (t.offsetBitCursor n) :=
  ⟨by simp [BitStream.offsetBitCursor, H.cursor], by simp [BitStream.offsetBitCursor, H.cursor, H.cap], H.len, H.bit⟩

theorem From.alloc {p : Nat} {s t : BitStream} (H : From p s t) (c : Nat) : From p (s.allocateIfNeeded c) (t.allocateIfNeeded c) :=
  ⟨by simp [H.cursor], by simp [H.cap], by rw [BitStream.allocate_length, BitStream.allocate_length, H.len], fun i hi => by rw [BitStream.allocate_bitAt, BitStream.allocate_bitAt]; exact H.bit i hi⟩

/-- the part of a chunk from a bit on -/
theorem From.chunk {p : Nat} {s t : BitStream} (H : From p s t) {c k : Nat} (hp : p ≤ 128 * c + k) (h1 : c < s.binary.length) (h2 : c < t.binary.length) :
    s.binary[c] >>> k = t.binary[c] >>> k := by
  apply BitVec.eq_of_getLsbD_eq
  intro j hj
  rw [BitVec.getLsbD_ushiftRight, BitVec.getLsbD_ushiftRight]
  by_cases hk : k + j < 128
  · have := H.bit (128 * c + (k + j)) (by omega)
    unfold bitAt at this
    rw [show (128 * c + (k + j)) / 128 = c by omega, show (128 * c + (k + j)) % 128 = k + j by omega, List.getElem?_eq_getElem h1,
      List.getElem?_eq_getElem h2] at this
    exact this
  · rw [BitVec.getLsbD_of_ge _ _ (by omega), BitVec.getLsbD_of_ge _ _ (by omega)]

/-- what two reads agree on -/
def ReadAlike {α : Type} (p : Nat) (r r' : BitStream × α) : Prop := From p r.1 r'.1 ∧ p ≤ r.1.bitCursor ∧ r.2 = r'.2

theorem from_peekBits {p : Nat} {s t : BitStream} (H : From p s t) (hp : p ≤ s.bitCursor) (n : Nat) :
    Same (s.peekBits n) (t.peekBits n) (ReadAlike p) := by
  unfold BitStream.peekBits
  dsimp only
  rw [show t.chunkIndex = s.chunkIndex by unfold BitStream.chunkIndex; rw [H.cursor],
    show t.chunkBitIndex = s.chunkBitIndex by unfold BitStream.chunkBitIndex; rw [H.cursor]]
  have hd : 128 * s.chunkIndex + s.chunkBitIndex = s.bitCursor := Nat.div_add_mod s.bitCursor 128
  have hbi : s.chunkBitIndex < 128 := Nat.mod_lt _ (by norm_num)
  generalize s.chunkIndex = cur at hd ⊢
  generalize s.chunkBitIndex = bi at hd hbi ⊢
  have H' := (H.alloc cur).alloc (cur + 1)
  have hc : p ≤ ((s.allocateIfNeeded cur).allocateIfNeeded (cur + 1)).bitCursor := by simpa using hp
  generalize (s.allocateIfNeeded cur).allocateIfNeeded (cur + 1) = s' at H' hc ⊢
  generalize (t.allocateIfNeeded cur).allocateIfNeeded (cur + 1) = t' at H' ⊢
  have hl := H'.len
  by_cases hge : cur ≥ s'.binary.length
  · rw [if_pos hge, if_pos (by omega)]
    exact Same.ok ⟨H', hc, rfl⟩
  · have hs1 : cur < s'.binary.length := by omega
    have ht1 : cur < t'.binary.length := by omega
    rw [if_neg hge, if_neg (show ¬ cur ≥ t'.binary.length by omega), idx_of_lt hs1, idx_of_lt ht1, bind_ok, bind_ok]
    rw [H'.chunk (c := cur) (k := bi) (by omega) (by omega) (by omega)]
    split
    · by_cases h2 : cur + 1 < s'.binary.length
      · rw [idx_of_lt h2, idx_of_lt (show cur + 1 < t'.binary.length by omega), bind_ok, bind_ok]
        have := H'.chunk (c := cur + 1) (k := 0) (by omega) h2 (by omega)
        simp only [BitVec.ushiftRight_zero] at this
        rw [this]
        exact Same.ok ⟨H', hc, rfl⟩
      · rw [idx_of_ge (by omega), idx_of_ge (by omega)]
        exact Same.error
    · exact Same.ok ⟨H', hc, rfl⟩

theorem from_readBits {p : Nat} {s t : BitStream} (H : From p s t) (hp : p ≤ s.bitCursor) (n : Nat) :
    Same (s.readBits n) (t.readBits n) (ReadAlike p) := by
  unfold BitStream.readBits
  refine (from_peekBits H hp n).bind ?_
  rintro ⟨s', v⟩ ⟨t', v'⟩ ⟨h1, h2, h3⟩
  dsimp only at h1 h2 h3 ⊢
  exact Same.ok ⟨h1.offset n, by simp [BitStream.offsetBitCursor]; omega, h3⟩

theorem from_readBit {p : Nat} {s t : BitStream} (H : From p s t) (hp : p ≤ s.bitCursor) :
    Same s.readBit t.readBit (ReadAlike p) := by
  unfold BitStream.readBit
  dsimp only
  rw [show t.chunkIndex = s.chunkIndex by unfold BitStream.chunkIndex; rw [H.cursor],
    show t.chunkBitIndex = s.chunkBitIndex by unfold BitStream.chunkBitIndex; rw [H.cursor]]
  have hd : 128 * s.chunkIndex + s.chunkBitIndex = s.bitCursor := Nat.div_add_mod s.bitCursor 128
  have hbi : s.chunkBitIndex < 128 := Nat.mod_lt _ (by norm_num)
  generalize s.chunkIndex = cur at hd ⊢
  generalize s.chunkBitIndex = bi at hd hbi ⊢
  have hl := H.len
  by_cases hge : cur ≥ s.binary.length
  · rw [if_pos hge, if_pos (by omega)]
    exact Same.ok ⟨H, hp, rfl⟩
  · rw [if_neg hge, if_neg (by omega)]
    have e1 : (s.offsetBitCursor 1).binary = s.binary := rfl
    have e2 : (t.offsetBitCursor 1).binary = t.binary := rfl
    rw [e1, e2, idx_of_lt (by omega), idx_of_lt (by omega), bind_ok, bind_ok, H.chunk (by omega) (by omega) (by omega)]
    exact Same.ok ⟨H.offset 1, by simp [BitStream.offsetBitCursor]; omega, rfl⟩

theorem from_readOnes {b : Build} {p : Nat} : ∀ (fuel : Nat) {s t : BitStream} (_ : From p s t) (_ : p ≤ s.bitCursor) (q : BitVec 16),
    Same (BitStream.readOnes b fuel s q) (BitStream.readOnes b fuel t q) (ReadAlike p)
  | 0, _, _, _, _, _ => Same.error
  | fuel + 1, s, t, H, hp, q => by
    unfold BitStream.readOnes
    refine (from_peekBits H hp 128).bind ?_
    rintro ⟨s', v⟩ ⟨t', v'⟩ ⟨h1, h2, h3⟩
    dsimp only at h1 h2 h3 ⊢
    subst h3
    split
    · refine (Same.refl _).bind ?_
      rintro q' _ rfl
      exact from_readOnes fuel (h1.offset 128) (by simp [BitStream.offsetBitCursor]; omega) q'
    · exact Same.ok ⟨h1, h2, rfl⟩

theorem from_readCompressed {b : Build} {p : Nat} {s t : BitStream} (H : From p s t) (hp : p ≤ s.bitCursor) (k : Nat) :
    Same (s.readCompressed b k) (t.readCompressed b k) (ReadAlike p) := by
  unfold BitStream.readCompressed
  refine (from_readBit H hp).bind ?_
  rintro ⟨s1, v⟩ ⟨t1, v'⟩ ⟨h1, h2, h3⟩
  dsimp only at h1 h2 h3 ⊢
  subst h3
  rw [h1.len]
  refine (from_readOnes _ h1 h2 _).bind ?_
  rintro ⟨s2, c, q⟩ ⟨t2, c', q'⟩ ⟨g1, g2, g3⟩
  dsimp only at g1 g2 g3 ⊢
  cases g3
  refine (Same.refl _).bind ?_
  rintro q2 _ rfl
  refine (from_readBits (g1.offset _) (by simp [BitStream.offsetBitCursor]; omega) _).bind ?_
  rintro ⟨s3, r⟩ ⟨t3, r'⟩ ⟨f1, f2, f3⟩
  dsimp only at f1 f2 f3 ⊢
  subst f3
  refine (Same.refl _).bind ?_
  rintro d1 _ rfl
  refine (Same.refl _).bind ?_
  rintro d2 _ rfl
  refine (Same.refl _).bind ?_
  rintro d3 _ rfl
  refine (Same.refl _).bind ?_
  rintro d4 _ rfl
  refine (Same.refl _).bind ?_
  rintro d5 _ rfl
  exact Same.ok ⟨f1, f2, rfl⟩

theorem from_decodeSamples {b : Build} {p k : Nat} : ∀ (n : Nat) {s t : BitStream} (_ : From p s t) (_ : p ≤ s.bitCursor) (h : CircularStack Int) (buf : List F32),
    Same (FrameCodec.decodeSamples b k n s h buf) (FrameCodec.decodeSamples b k n t h buf) (ReadAlike p)
  | 0, _, _, H, hp, _, _ => Same.ok ⟨H, hp, rfl⟩
  | n + 1, s, t, H, hp, h, buf => by
    unfold FrameCodec.decodeSamples
    refine (from_readCompressed H hp k).bind ?_
    rintro ⟨s1, v⟩ ⟨t1, v'⟩ ⟨h1, h2, h3⟩
    dsimp only at h1 h2 h3 ⊢
    subst h3
    refine (Same.refl _).bind ?_
    rintro d1 _ rfl
    exact from_decodeSamples n h1 h2 _ _

theorem from_readRaw {p : Nat} {s t : BitStream} (H : From p s t) (hp : p ≤ s.bitCursor) :
    Same (FrameCodec.readRaw s) (FrameCodec.readRaw t) (ReadAlike p) := by
  unfold FrameCodec.readRaw
  refine (from_readBits H hp 16).bind ?_
  rintro ⟨s1, v⟩ ⟨t1, v'⟩ ⟨h1, h2, h3⟩
  dsimp only at h1 h2 h3 ⊢
  subst h3
  exact Same.ok ⟨h1, h2, rfl⟩

theorem next_same {h h' : FrameHeaders} {x : Option FrameHeader} (e : h.next = .ok (h', x)) : SameHeaders h h' := by
  unfold FrameHeaders.next at e
  dsimp only at e
  split at e
  · cases e1 : idx h.frameSizeList h.headerCursor with
    | error y => rw [e1] at e; cases e
    | ok a1 =>
      cases e2 : idx h.bitCursorList h.headerCursor with
      | error y => rw [e1, bind_ok, e2] at e; cases e
      | ok a2 =>
        cases e3 : idx h.stackHistoryList h.headerCursor with
        | error y => rw [e1, bind_ok, e2, bind_ok, e3] at e; cases e
        | ok a3 =>
          rw [e1, bind_ok, e2, bind_ok, e3, bind_ok] at e
          cases e
          exact ⟨rfl⟩
  · cases e
    exact .refl h

/-- the same audio stream from bit `p` on -/
structure FromA (p : Nat) (info : Option StreamInfo) (s t : AudioStream) : Prop where
  left : s.info = info
  right : t.info = info
  stream : From p s.stream t.stream

theorem from_decodeFrame {b : Build} {p : Nat} {info : Option StreamInfo} {c : FrameCodec} {st st' : AudioStream} (H : FromA p info st st')
    (hp : p ≤ st.stream.bitCursor) (hd : FrameHeaders) :
    Same (c.decodeFrame b st hd) (c.decodeFrame b st' hd)
      (fun r r' => r.1 = r'.1 ∧ FromA p info r.2.1 r'.2.1 ∧ p ≤ r.2.1.stream.bitCursor ∧ r.2.2 = r'.2.2 ∧ SameHeaders hd r.2.2.1) := by
  unfold FrameCodec.decodeFrame
  cases hnx : hd.next with
  | error e => exact Same.error
  | ok nx =>
  obtain ⟨hd', hdr?⟩ := nx
  have hsame := next_same hnx
  rw [bind_ok, bind_ok]
  dsimp only
  cases hdr? with
  | none => exact Same.ok ⟨rfl, H, hp, rfl, hsame⟩
  | some hdr =>
    dsimp only
    cases hc : c.state with
    | init =>
      dsimp only
      refine (from_readRaw H.stream hp).bind ?_
      rintro ⟨s1, v⟩ ⟨t1, v'⟩ ⟨h1, h2, h3⟩
      dsimp only at h1 h2 h3 ⊢
      subst h3
      refine (from_readRaw h1 h2).bind ?_
      rintro ⟨s2, w⟩ ⟨t2, w'⟩ ⟨g1, g2, g3⟩
      dsimp only at g1 g2 g3 ⊢
      subst g3
      refine (from_readRaw g1 g2).bind ?_
      rintro ⟨s3, x⟩ ⟨t3, x'⟩ ⟨f1, f2, f3⟩
      dsimp only at f1 f2 f3 ⊢
      subst f3
      refine (from_decodeSamples _ f1 f2 _ _).bind ?_
      rintro ⟨s4, h, buf⟩ ⟨t4, h', buf'⟩ ⟨e1, e2, e3⟩
      dsimp only at e1 e2 e3 ⊢
      cases e3
      exact Same.ok ⟨rfl, ⟨H.left, H.right, e1⟩, e2, rfl, hsame⟩
    | decoding =>
      dsimp only
      refine (from_decodeSamples _ H.stream hp _ _).bind ?_
      rintro ⟨s4, h, buf⟩ ⟨t4, h', buf'⟩ ⟨e1, e2, e3⟩
      dsimp only at e1 e2 e3 ⊢
      cases e3
      exact Same.ok ⟨rfl, ⟨H.left, H.right, e1⟩, e2, rfl, hsame⟩
    | encoding => exact Same.error

/-- two codecs that differ only in bits before `p` -/
structure FromC (p : Nat) (info : Option StreamInfo) (base : FrameHeaders) (c c' : AdhocCodec) : Prop where
  headers : c.frameHeaderList = c'.frameHeaderList
  kept : SameHeaders base c.frameHeaderList
  stream : FromA p info c.stream c'.stream
  level : c.compressionLevel = c'.compressionLevel
  scale : c.scale = c'.scale
  chans : c.channelStateList = c'.channelStateList

/-- and both have read up to `p` -/
def Past (p : Nat) (info : Option StreamInfo) (base : FrameHeaders) (c c' : AdhocCodec) : Prop :=
  FromC p info base c c' ∧ p ≤ c.stream.stream.bitCursor

theorem from_decodeChannel {b : Build} {info : Option StreamInfo} {base : FrameHeaders} {p : Nat} {c c' : AdhocCodec} (H : Past p info base c c') (ch : Nat) :
    Same (c.decodeChannel b ch) (c'.decodeChannel b ch) (Past p info base) := by
  unfold AdhocCodec.decodeChannel
  rw [H.1.headers, H.1.chans]
  refine (Same.refl _).bind ?_
  rintro fc _ rfl
  refine (from_decodeFrame H.1.stream H.2 _).bind ?_
  rintro ⟨f, st, hd⟩ ⟨f', st', hd'⟩ ⟨g1, g2, g3, g4, g5⟩
  dsimp only at g1 g2 g3 g4 g5 ⊢
  subst g1 g4
  refine (Same.refl _).bind ?_
  rintro l _ rfl
  exact Same.ok ⟨⟨rfl, (H.1.headers ▸ H.1.kept).trans g5, g2, H.1.level, H.1.scale, rfl⟩, g3⟩

theorem from_bufferAudio {b : Build} {info : Option StreamInfo} {base : FrameHeaders} {p n : Nat} : ∀ (left : Nat) {c c' : AdhocCodec} (_ : Past p info base c c'),
    Same (AdhocCodec.bufferAudio b n left c) (AdhocCodec.bufferAudio b n left c') (fun r r' => Past p info base r.1 r'.1 ∧ r.2 = r'.2)
  | 0, _, _, H => Same.ok ⟨H, rfl⟩
  | left + 1, c, c', H => by
    unfold AdhocCodec.bufferAudio AdhocCodec.isBuffersEmpty
    rw [H.1.chans]
    split
    · unfold AdhocCodec.decodeBlock
      exact (Same.foldlM (P := Past p info base) (fun c c' ch h => from_decodeChannel h ch) _ _ _ H).bind fun d d' h => from_bufferAudio left h
    · exact Same.ok ⟨H, rfl⟩

theorem from_popBlock {info : Option StreamInfo} {base : FrameHeaders} {p legal : Nat} : ∀ (n ch : Nat) {c c' : AdhocCodec} (_ : Past p info base c c') (pcm : List F32) (cursor : Nat),
    Same (AdhocCodec.popBlock legal n ch c pcm cursor) (AdhocCodec.popBlock legal n ch c' pcm cursor) (fun r r' => Past p info base r.1 r'.1 ∧ r.2 = r'.2)
  | 0, _, _, _, H, _, _ => Same.ok ⟨H, rfl⟩
  | n + 1, ch, c, c', H, pcm, cursor => by
    unfold AdhocCodec.popBlock
    rw [H.1.chans]
    split
    · refine (Same.refl _).bind ?_
      rintro fc _ rfl
      refine (Same.refl _).bind ?_
      rintro l _ rfl
      refine (Same.refl _).bind ?_
      rintro r _ rfl
      have H' : Past p info base { c with channelStateList := l } { c' with channelStateList := l } :=
        ⟨⟨H.1.headers, H.1.kept, H.1.stream, H.1.level, H.1.scale, rfl⟩, H.2⟩
      exact from_popBlock n (ch + 1) H' _ _
    · exact Same.ok ⟨H, rfl⟩

theorem from_decodeLoop {b : Build} {info : Option StreamInfo} {base : FrameHeaders} {p n legal : Nat} : ∀ (fuel : Nat) {c c' : AdhocCodec} (_ : Past p info base c c') (pcm : List F32) (cursor : Nat),
    Same (AdhocCodec.decodeLoop b n legal fuel c pcm cursor) (AdhocCodec.decodeLoop b n legal fuel c' pcm cursor)
      (fun r r' => Past p info base r.1 r'.1 ∧ r.2 = r'.2)
  | 0, _, _, _, _, _ => Same.error
  | fuel + 1, c, c', H, pcm, cursor => by
    unfold AdhocCodec.decodeLoop
    split
    · refine (from_bufferAudio _ H).bind ?_
      rintro ⟨d, k⟩ ⟨d', k'⟩ ⟨h1, h2⟩
      dsimp only at h1 h2 ⊢
      subst h2
      split
      · exact Same.ok ⟨h1, rfl⟩
      · refine (from_popBlock _ _ h1 _ _).bind ?_
        rintro ⟨e, r⟩ ⟨e', r'⟩ ⟨h3, h4⟩
        dsimp only at h3 h4 ⊢
        subst h4
        exact from_decodeLoop fuel h3 _ _
    · exact Same.ok ⟨H, rfl⟩

theorem from_decode {b : Build} {info : Option StreamInfo} {base : FrameHeaders} {p : Nat} {c c' : AdhocCodec} (H : Past p info base c c') (buf : List F32) :
    Same (c.decode b buf) (c'.decode b buf) (fun r r' => Past p info base r.1 r'.1 ∧ r.2 = r'.2) := by
  unfold AdhocCodec.decode
  refine Same.bind (P := fun r r' => Past p info base r.1 r'.1 ∧ r.2 = r'.2) ?_ ?_
  · unfold AdhocCodec.decodeRaw
    rw [H.1.stream.left, H.1.stream.right]
    refine (Same.refl _).bind ?_
    rintro i _ rfl
    refine (Same.refl _).bind ?_
    rintro q _ rfl
    refine (from_decodeLoop _ H _ _).bind ?_
    rintro ⟨d, k⟩ ⟨d', k'⟩ ⟨h1, h2⟩
    dsimp only at h1 h2 ⊢
    subst h2
    refine Same.ok ⟨h1, ?_⟩
    dsimp only
    rw [h1.1.scale]
  · rintro ⟨d, k⟩ ⟨d', k'⟩ ⟨h1, h2⟩
    dsimp only at h1 h2 ⊢
    subst h2
    exact Same.ok ⟨h1, rfl⟩

/-! ## seeking -/

theorem FromC.init {info : Option StreamInfo} {base : FrameHeaders} {p : Nat} {c c' : AdhocCodec} (H : FromC p info base c c') : FromC p info base c.init c'.init where
  headers := by simp [AdhocCodec.init, H.headers]
  kept := H.kept.trans ⟨rfl⟩
  stream := ⟨H.stream.left, H.stream.right, ⟨rfl, H.stream.stream.cap, H.stream.stream.len, H.stream.stream.bit⟩⟩
  level := H.level
  scale := H.scale
  chans := by simp [AdhocCodec.init, H.chans]

theorem from_seekChannel {b : Build} {info : Option StreamInfo} {base : FrameHeaders} {p : Nat} {c c' : AdhocCodec} (H : Past p info base c c') (i off : Nat) :
    Same (c.seekChannel b i off) (c'.seekChannel b i off) (Past p info base) := by
  unfold AdhocCodec.seekChannel
  rw [H.1.headers, H.1.chans]
  refine (Same.refl _).bind ?_
  rintro h? _ rfl
  refine (Same.refl _).bind ?_
  rintro h _ rfl
  refine (Same.refl _).bind ?_
  rintro fc _ rfl
  dsimp only
  refine (from_decodeFrame H.1.stream H.2 _).bind ?_
  rintro ⟨f, st, hd⟩ ⟨f', st', hd'⟩ ⟨g1, g2, g3, g4, g5⟩
  dsimp only at g1 g2 g3 g4 g5 ⊢
  subst g1 g4
  refine (Same.refl _).bind ?_
  rintro l _ rfl
  exact Same.ok ⟨⟨rfl, (H.1.headers ▸ H.1.kept).trans g5, g2, H.1.level, H.1.scale, rfl⟩, g3⟩

theorem from_dropOne {info : Option StreamInfo} {base : FrameHeaders} {p n : Nat} {c c' : AdhocCodec} (H : Past p info base c c') : Same (c.dropOne n) (c'.dropOne n) (Past p info base) := by
  unfold AdhocCodec.dropOne
  refine Same.foldlM (P := Past p info base) ?_ _ _ _ H
  intro c c' off H
  rw [H.1.chans]
  refine (Same.refl _).bind ?_
  rintro fc _ rfl
  refine (Same.refl _).bind ?_
  rintro l _ rfl
  exact Same.ok ⟨⟨H.1.headers, H.1.kept, H.1.stream, H.1.level, H.1.scale, rfl⟩, H.2⟩

theorem from_prune {b : Build} {info : Option StreamInfo} {base : FrameHeaders} {p n target : Nat} : ∀ (fuel skipped : Nat) {c c' : AdhocCodec} (_ : Past p info base c c'),
    Same (AdhocCodec.prune b n target fuel skipped c) (AdhocCodec.prune b n target fuel skipped c') (Past p info base)
  | 0, _, _, _, _ => Same.error
  | fuel + 1, skipped, c, c', H => by
    unfold AdhocCodec.prune
    split
    · refine (from_dropOne H).bind fun d d' h => ?_
      refine (Same.refl _).bind ?_
      rintro k _ rfl
      exact from_prune fuel _ h
    · exact Same.ok H

/-- a seek that lands in a frame which starts at `p` or later -/
theorem from_seekTo {b : Build} {p : Nat} {info : StreamInfo} {base : FrameHeaders} {c c' : AdhocCodec} (H : FromC p (some info) base c c') (dt : Nat)
    (hl : ∀ target blockLen skipped block hdr, chkU b 64 ((AdhocCodec.seekOffset info dt * info.channels : Nat) : Int) = .ok target →
      udiv c.frameHeaderList.len info.channels = .ok blockLen →
      AdhocCodec.findBlock b c.frameHeaderList info.channels target blockLen (blockLen + 1) 0 0 = .ok (skipped, block) →
      c.frameHeaderList.get (block * info.channels) = .ok (some hdr) → p ≤ hdr.bitCursor) :
    Same (AdhocCodec.seekTo b info c dt) (AdhocCodec.seekTo b info c' dt) (Past p (some info) base) := by
  unfold AdhocCodec.seekTo
  dsimp only
  rw [← H.headers]
  cases h1 : chkU b 64 ((AdhocCodec.seekOffset info dt * info.channels : Nat) : Int) with
  | error e => exact Same.error
  | ok target =>
  rw [bind_ok, bind_ok]
  cases h2 : udiv c.frameHeaderList.len info.channels with
  | error e => exact Same.error
  | ok blockLen =>
  rw [bind_ok, bind_ok]
  cases h3 : AdhocCodec.findBlock b c.frameHeaderList info.channels target blockLen (blockLen + 1) 0 0 with
  | error e => exact Same.error
  | ok r =>
  obtain ⟨skipped, block⟩ := r
  rw [bind_ok, bind_ok]
  dsimp only
  cases h4 : c.frameHeaderList.get (block * info.channels) with
  | error e => exact Same.error
  | ok hdr? =>
  rw [bind_ok, bind_ok]
  cases hdr? with
  | none => exact Same.error
  | some hdr =>
  rw [show expect (some hdr) = .ok hdr from rfl, bind_ok, bind_ok]
  have hp := hl target blockLen skipped block hdr h1 h2 h3 h4
  refine Same.bind (P := Past p (some info) base) ?_ fun d d' h => from_prune _ _ h
  refine Same.foldlM (P := Past p (some info) base) (fun c c' off h => from_seekChannel h _ off) _ _ _ ?_
  refine ⟨⟨rfl, H.kept.trans ⟨rfl⟩, ⟨H.stream.left, H.stream.right, ⟨rfl, H.stream.stream.cap, H.stream.stream.len, H.stream.stream.bit⟩⟩, H.level, H.scale, H.chans⟩, hp⟩

/-- where a seek beyond the first `k` blocks lands -/
theorem lands {b : Build} {info : StreamInfo} (hn : 0 < info.channels) {blocks : List (Nat → Fr)} {hd : FrameHeaders} {i k dt : Nat}
    (hl : IsLog hd (hdrs 0 (flat info.channels blocks)) i) (hsh : Short blocks) (hbits : (bitsOf (flat info.channels blocks)).length < 2 ^ 64)
    (h64 : rowsIn blocks * info.channels < 2 ^ 64) (h1 : rowsIn (blocks.take k) < AdhocCodec.seekOffset info dt)
    (h2 : AdhocCodec.seekOffset info dt ≤ rowsIn blocks) (target blockLen skipped block : Nat) (hdr : FrameHeader)
    (e1 : chkU b 64 ((AdhocCodec.seekOffset info dt * info.channels : Nat) : Int) = .ok target) (e2 : udiv hd.len info.channels = .ok blockLen)
    (e3 : AdhocCodec.findBlock b hd info.channels target blockLen (blockLen + 1) 0 0 = .ok (skipped, block))
    (e4 : hd.get (block * info.channels) = .ok (some hdr)) : (bitsOf (flat info.channels (blocks.take k))).length ≤ hdr.bitCursor := by
  obtain ⟨t, ht⟩ : ∃ t, t = AdhocCodec.seekOffset info dt := ⟨_, rfl⟩
  rw [← ht] at h1 h2 e1
  have ht64 : t * info.channels < 2 ^ 64 := lt_of_le_of_lt (Nat.mul_le_mul_right _ h2) h64
  rw [chkU_nat ht64] at e1
  rw [udiv_of_pos hn, hl.len, length_hdrs, length_flat, Nat.mul_div_cancel _ hn] at e2
  cases e1
  cases e2
  obtain ⟨j, e, hj, hspec⟩ := findBlock_ok (b := b) hn hl hsh h64 t (blocks.length + 1) 0 (by omega) (by omega) (by simp; omega)
  rw [List.take_zero, rowsIn_nil, Nat.zero_mul] at e
  rw [e] at e3
  cases e3
  rw [isLog_get hl, hdrs_getElem?] at e4
  have hjl : block < blocks.length := by
    by_contra hc
    rw [List.getElem?_eq_none (by rw [length_flat]; exact Nat.mul_le_mul_right _ (by omega))] at e4
    cases e4
  have hk : k ≤ block := by
    by_contra hc
    rcases hspec with ⟨h, -⟩ | ⟨-, h⟩
    · omega
    · have h3 := h hjl
      have h4 : rowsIn (blocks.take (block + 1)) ≤ rowsIn (blocks.take k) := by
        have := rowsIn_take_le (blocks.take k) (block + 1)
        rwa [List.take_take, min_eq_left (by omega)] at this
      omega
  have hlt : block * info.channels < (flat info.channels blocks).length := by
    rw [length_flat]
    exact Nat.mul_lt_mul_of_pos_right hjl hn
  rw [List.getElem?_eq_getElem hlt] at e4
  have e5 := Option.some.inj (Except.ok.inj e4)
  rw [← e5]
  show _ ≤ (0 + (bitsOf ((flat info.channels blocks).take (block * info.channels))).length) % 2 ^ 64
  have hpre : ∀ m, (bitsOf ((flat info.channels blocks).take m)).length ≤ (bitsOf (flat info.channels blocks)).length := by
    intro m
    conv_rhs => rw [← List.take_append_drop m (flat info.channels blocks), bitsOf_append, List.length_append]
    omega
  rw [Nat.zero_add, Nat.mod_eq_of_lt (lt_of_le_of_lt (hpre _) hbits)]
  have hf : flat info.channels (blocks.take k) = ((flat info.channels blocks).take (block * info.channels)).take (k * info.channels) := by
    rw [List.take_take, min_eq_left (Nat.mul_le_mul_right _ hk)]
    have hlk : (flat info.channels (blocks.take k)).length = k * info.channels := by
      rw [length_flat, List.length_take, min_eq_left (by omega)]
    conv_rhs => rw [← List.take_append_drop k blocks, flat_append]
    rw [← hlk, List.take_left']
    rfl
  rw [hf]
  conv_rhs => rw [← List.take_append_drop (k * info.channels) ((flat info.channels blocks).take (block * info.channels)), bitsOf_append, List.length_append]
  omega

/-- reads and seeks behind the first `k` blocks -/
theorem from_winds {b : Build} {info : StreamInfo} (hn : 0 < info.channels) {blocks : List (Nat → Fr)} {base : FrameHeaders} {i k : Nat}
    (hl : IsLog base (hdrs 0 (flat info.channels blocks)) i) (hsh : Short blocks) (hbits : (bitsOf (flat info.channels blocks)).length < 2 ^ 64)
    (h64 : rowsIn blocks * info.channels < 2 ^ 64) : ∀ (acts : List Act)
    (_ : ∀ ms, Act.seek ms ∈ acts → rowsIn (blocks.take k) < AdhocCodec.seekOffset info ms ∧ AdhocCodec.seekOffset info ms ≤ rowsIn blocks)
    {c c' : AdhocCodec} (_ : FromC (bitsOf (flat info.channels (blocks.take k))).length (some info) base c c')
    (_ : (∃ ms, acts.head? = some (.seek ms)) ∨ (bitsOf (flat info.channels (blocks.take k))).length ≤ c.stream.stream.bitCursor),
    Same (winds b c acts) (winds b c' acts) Eq
  | [], _, _, _, _, _ => Same.refl _
  | .read buf :: acts, hs, c, c', H, h => by
    unfold winds
    have hp : Past (bitsOf (flat info.channels (blocks.take k))).length (some info) base c c' := ⟨H, by
      rcases h with ⟨ms, h⟩ | h
      · cases h
      · exact h⟩
    refine (from_decode hp buf).bind ?_
    rintro ⟨d, out⟩ ⟨d', out'⟩ ⟨h1, h2⟩
    dsimp only at h1 h2 ⊢
    subst h2
    refine (from_winds hn hl hsh hbits h64 acts (fun ms hm => hs ms (by simp [hm])) h1.1 (.inr h1.2)).bind ?_
    rintro outs _ rfl
    exact Same.refl _
  | .seek ms :: acts, hs, c, c', H, _ => by
    unfold winds
    obtain ⟨hs1, hs2⟩ := hs ms (by simp)
    refine Same.bind (P := Past (bitsOf (flat info.channels (blocks.take k))).length (some info) base) ?_ ?_
    · unfold AdhocCodec.seek
      rw [H.stream.left, H.stream.right, show expect (some info) = .ok info from rfl, bind_ok, bind_ok]
      dsimp only
      have h0 : ms ≠ 0 := by
        rintro rfl
        rw [seekOffset_zero] at hs1
        omega
      rw [if_neg h0, if_neg h0]
      have hk := H.init.kept.eq
      have hl' : IsLog c.init.frameHeaderList (hdrs 0 (flat info.channels blocks)) c.init.frameHeaderList.headerCursor := by
        rw [hk]
        exact isLog_setCursor hl _
      exact from_seekTo H.init ms (lands hn hl' hsh hbits h64 hs1 hs2)
    · intro d d' h
      exact from_winds hn hl hsh hbits h64 acts (fun ms hm => hs ms (by simp [hm])) h.1 (.inr h.2)

end Adhoc
