import Verif.Proofs.Codec
import Verif.Proofs.Terminate

/-! What keeps the codec from panicking, on any stream contents. -/

namespace Adhoc
open Spec

/-- the computation succeeds with a result in `P`, or it is an arithmetic overflow of a debug build -/
def Fine (b : Build) {α : Type} (x : R α) (P : α → Prop) : Prop := (∃ a, x = .ok a ∧ P a) ∨ (b = .debug ∧ x = .error .overflow)

namespace Fine

theorem ok {b : Build} {α : Type} {a : α} {P : α → Prop} (h : P a) : Fine b (.ok a) P := .inl ⟨a, rfl, h⟩

theorem bind {b : Build} {α β : Type} {x : R α} {f : α → R β} {P : α → Prop} {Q : β → Prop} (hx : Fine b x P)
    (hf : ∀ a, P a → Fine b (f a) Q) : Fine b (x >>= f) Q := by
  rcases hx with ⟨a, rfl, h⟩ | ⟨hb, rfl⟩
  · exact hf a h
  · exact .inr ⟨hb, rfl⟩

theorem mono {b : Build} {α : Type} {x : R α} {P Q : α → Prop} (hx : Fine b x P) (h : ∀ a, P a → Q a) : Fine b x Q := by
  rcases hx with ⟨a, e, hp⟩ | hx
  · exact .inl ⟨a, e, h a hp⟩
  · exact .inr hx

theorem release {α : Type} {x : R α} {P : α → Prop} (hx : Fine .release x P) : ∃ a, x = .ok a ∧ P a := by
  rcases hx with h | ⟨h, -⟩
  · exact h
  · cases h

theorem foldlM {b : Build} {α β : Type} {f : β → α → R β} {P : β → Prop} (hf : ∀ c a, P c → Fine b (f c a) P) :
    ∀ (l : List α) (c : β) (_ : P c), Fine b (l.foldlM f c) P
  | [], c, h => ok h
  | a :: l, c, h => by
    rw [List.foldlM_cons]
    exact (hf c a h).bind fun c' h' => foldlM hf l c' h'

end Fine

theorem fine_chkU (b : Build) (n : Nat) (x : Int) : Fine b (chkU b n x) (fun _ => True) := by
  unfold chkU
  split
  · exact Fine.ok trivial
  · cases b
    · exact .inr ⟨rfl, rfl⟩
    · exact Fine.ok trivial

theorem fine_i16op (b : Build) (x : Int) : Fine b (BitStream.i16op b x) (fun _ => True) := by
  have : Fine b (chkI b 16 x) (fun _ => True) := by
    unfold chkI
    split
    · exact Fine.ok trivial
    · cases b
      · exact .inr ⟨rfl, rfl⟩
      · exact Fine.ok trivial
  exact this.bind fun _ _ => Fine.ok trivial

/-- the cursor is inside or just behind the allocated chunks -/
def InBuf (s : BitStream) : Prop := s.bitCursor / 128 ≤ s.binary.length

theorem fine_idx {b : Build} {α : Type} {l : List α} {i : Nat} (h : i < l.length) : Fine b (idx l i) (fun a => a = l[i]) := by
  rw [idx_of_lt h]; exact Fine.ok rfl

theorem fine_setIdx {b : Build} {α : Type} {l : List α} {i : Nat} {a : α} (h : i < l.length) : Fine b (setIdx l i a) (fun l' => l' = l.set i a) := by
  rw [setIdx_of_lt h]; exact Fine.ok rfl

/-! ## the bit stream -/

theorem alloc_length (s : BitStream) (h : InBuf s) :
    s.chunkIndex < ((s.allocateIfNeeded s.chunkIndex).allocateIfNeeded (s.chunkIndex + 1)).binary.length ∧
    s.chunkIndex + 1 < ((s.allocateIfNeeded s.chunkIndex).allocateIfNeeded (s.chunkIndex + 1)).binary.length := by
  have h : s.chunkIndex ≤ s.binary.length := h
  rw [BitStream.allocate_length, BitStream.allocate_length]
  split <;> split <;> omega

theorem fine_writeBits {b : Build} {s : BitStream} (h : InBuf s) (v : BitVec 128) {n : Nat} (hn : n ≤ 128) :
    Fine b (s.writeBits v n) InBuf := by
  obtain ⟨h1, h2⟩ := alloc_length s h
  have hc : ((s.allocateIfNeeded s.chunkIndex).allocateIfNeeded (s.chunkIndex + 1)).bitCursor = s.bitCursor := by simp
  unfold BitStream.writeBits
  dsimp only
  generalize (s.allocateIfNeeded s.chunkIndex).allocateIfNeeded (s.chunkIndex + 1) = t at h1 h2 hc
  have hs : s.chunkIndex = s.bitCursor / 128 := rfl
  refine (fine_idx h1).bind fun _ _ => (fine_setIdx h1).bind ?_
  rintro _ rfl
  split
  · refine (fine_idx (by simpa using h2)).bind fun _ _ => (fine_setIdx (by simpa using h2)).bind ?_
    rintro _ rfl
    refine Fine.ok ?_
    show (t.bitCursor + n) / 128 ≤ _
    simp [BitStream.offsetBitCursor]
    omega
  · refine Fine.ok ?_
    show (t.bitCursor + n) / 128 ≤ _
    simp [BitStream.offsetBitCursor]
    omega

theorem fine_writeBit {b : Build} {s : BitStream} (h : InBuf s) (v : BitVec 8) : Fine b (s.writeBit v) InBuf := by
  have h' : s.chunkIndex ≤ s.binary.length := h
  have h1 : s.chunkIndex < (s.allocateIfNeeded s.chunkIndex).binary.length := by
    rw [BitStream.allocate_length]; split <;> omega
  have hc : (s.allocateIfNeeded s.chunkIndex).bitCursor = s.bitCursor := by simp
  unfold BitStream.writeBit
  dsimp only
  generalize s.allocateIfNeeded s.chunkIndex = t at h1 hc
  have hs : s.chunkIndex = s.bitCursor / 128 := rfl
  refine (fine_idx h1).bind fun _ _ => (fine_setIdx h1).bind ?_
  rintro _ rfl
  refine Fine.ok ?_
  show (t.bitCursor + 1) / 128 ≤ _
  simp [BitStream.offsetBitCursor]
  omega

theorem fine_writeUnary {b : Build} : ∀ (fuel : Nat) {s : BitStream} (q : Int) (_ : q < fuel) (_ : 0 < fuel) (_ : InBuf s),
    Fine b (BitStream.writeUnary fuel s q) InBuf
  | 0, _, _, _, h, _ => absurd h (by omega)
  | fuel + 1, s, q, hq, _, h => by
    unfold BitStream.writeUnary
    split
    · split
      · exact (fine_writeBits h _ le_rfl).bind fun s' h' => fine_writeUnary fuel _ (by omega) (by omega) h'
      · exact fine_writeBits h _ (by omega)
    · exact Fine.ok h

theorem fine_writeCompressed {b : Build} {s : BitStream} (h : InBuf s) {k : Nat} (hk : k ≤ 15) (e : BitVec 16) :
    Fine b (s.writeCompressed b k e) InBuf := by
  unfold BitStream.writeCompressed
  exact (fine_i16op _ _).bind fun _ _ => (fine_i16op _ _).bind fun _ _ => (fine_writeBit h _).bind fun _ h =>
    (fine_writeUnary _ _ (by omega) (by omega) h).bind fun _ h => (fine_writeBit h _).bind fun _ h => fine_writeBits h _ (by omega)

theorem fine_peekBits {b : Build} {s : BitStream} (h : InBuf s) {n : Nat} (hn : n ≤ 128) :
    Fine b (s.peekBits n) (fun r => r.1.bitCursor = s.bitCursor ∧ s.bitCursor / 128 + 2 ≤ r.1.binary.length) := by
  obtain ⟨s', v, e, h1, -, h2, -⟩ := BitStream.peekBits_spec hn h
  rw [e]
  exact Fine.ok ⟨h1, by rw [h2]; omega⟩

theorem inBuf_offset {s : BitStream} {p n : Nat} (h1 : s.bitCursor = p) (h2 : p / 128 + 2 ≤ s.binary.length) (hn : n ≤ 129) :
    InBuf (s.offsetBitCursor n) := by
  show (s.bitCursor + n) / 128 ≤ s.binary.length
  omega

theorem fine_readBits {b : Build} {s : BitStream} (h : InBuf s) {n : Nat} (hn : n ≤ 128) :
    Fine b (s.readBits n) (fun r => InBuf r.1) := by
  unfold BitStream.readBits
  refine (fine_peekBits h hn).bind ?_
  rintro ⟨s', v⟩ ⟨h1, h2⟩
  exact Fine.ok (inBuf_offset h1 h2 (by omega))

theorem fine_readBit {b : Build} {s : BitStream} (h : InBuf s) : Fine b s.readBit (fun r => InBuf r.1) := by
  unfold BitStream.readBit
  dsimp only
  split
  · exact Fine.ok h
  · next hc =>
    have hc : ¬ s.chunkIndex ≥ s.binary.length := hc
    have hs : s.chunkIndex = s.bitCursor / 128 := rfl
    refine (fine_idx (l := (s.offsetBitCursor 1).binary) (by show _ < s.binary.length; omega)).bind fun _ _ => Fine.ok ?_
    show (s.bitCursor + 1) / 128 ≤ s.binary.length
    omega

theorem readOnes_fine {b : Build} : ∀ (fuel : Nat) {s : BitStream} (q : BitVec 16) (_ : InBuf s),
    Fine b (BitStream.readOnes b fuel s q) (fun r => r.1.bitCursor / 128 + 2 ≤ r.1.binary.length) ∨
      BitStream.readOnes b fuel s q = .error .fuel
  | 0, _, _, _ => .inr rfl
  | fuel + 1, s, q, h => by
    unfold BitStream.readOnes
    rcases fine_peekBits (b := b) h (n := 128) le_rfl with ⟨⟨s', v⟩, e, h1, h2⟩ | ⟨hb, e⟩
    · rw [e, bind_ok]
      dsimp only at h1 h2 ⊢
      split
      · rcases fine_i16op b (q.toInt + 128) with ⟨q', e', -⟩ | ⟨hb, e'⟩
        · rw [e', bind_ok]
          exact readOnes_fine fuel q' (inBuf_offset h1 h2 (by omega))
        · rw [e']; exact .inl (.inr ⟨hb, rfl⟩)
      · exact .inl (Fine.ok (by show s'.bitCursor / 128 + 2 ≤ s'.binary.length; omega))
    · rw [e]; exact .inl (.inr ⟨hb, rfl⟩)

theorem firstZero_le : ∀ (fuel : Nat) (c : BitVec 128), BitStream.firstZero fuel c ≤ fuel
  | 0, _ => le_rfl
  | fuel + 1, c => by
    unfold BitStream.firstZero
    split
    · have := firstZero_le fuel (c >>> 1); omega
    · omega

theorem fine_readCompressed {b : Build} {s : BitStream} (h : InBuf s) {k : Nat} (hk : k ≤ 15) :
    Fine b (s.readCompressed b k) (fun r => InBuf r.1) := by
  unfold BitStream.readCompressed
  refine (fine_readBit h).bind ?_
  rintro ⟨s1, bit⟩ h1
  have h2 : Fine b (BitStream.readOnes b (s1.binary.length + 3) s1 0#16) (fun r => r.1.bitCursor / 128 + 2 ≤ r.1.binary.length) := by
    rcases readOnes_fine (b := b) (s1.binary.length + 3) 0#16 h1 with h2 | h2
    · exact h2
    · exact absurd h2 (BitStream.readOnes_ne_fuel (n := s1.binary.length) _ _ _ (fun i hi => BitStream.bitAt_beyond _ _ hi) (by omega) (by omega))
  refine h2.bind ?_
  rintro ⟨s2, c, q⟩ h3
  have h4 : InBuf (s2.offsetBitCursor (BitStream.firstZero 128 c + 1)) := inBuf_offset rfl h3 (by have := firstZero_le 128 c; omega)
  refine (fine_i16op _ _).bind fun _ _ => (fine_readBits h4 (by omega)).bind ?_
  rintro ⟨s3, r⟩ h5
  exact (fine_i16op _ _).bind fun _ _ => (fine_i16op _ _).bind fun _ _ => (fine_i16op _ _).bind fun _ _ =>
    (fine_i16op _ _).bind fun _ _ => (fine_i16op _ _).bind fun _ _ => Fine.ok h5

/-! ## headers -/

/-- the parallel vectors are long enough for reading -/
structure Readable (h : FrameHeaders) : Prop where
  sizes : h.len ≤ h.frameSizeList.length
  cursors : h.len ≤ h.bitCursorList.length
  hist : h.len ≤ h.stackHistoryList.length

/-- and for writing -/
structure Writable (h : FrameHeaders) : Prop extends Readable h where
  nibbles : h.divisorExpList.nibbleCount / 2 ≤ h.divisorExpList.data.length
  bits : h.isInitFrameList.bitCursor / 64 ≤ h.isInitFrameList.binary.length

theorem fine_push {b : Build} {h : FrameHeaders} (H : Writable h) (hc : h.headerCursor ≤ h.len) (x : FrameHeader) :
    Fine b (h.push x) (fun h' => Writable h' ∧ h'.headerCursor = h.headerCursor + 1 ∧ h'.len = max h.len (h.headerCursor + 1)) := by
  have hl : h.len = h.divisorExpList.nibbleCount := rfl
  have h1 := H.sizes
  have h2 := H.cursors
  have h3 := H.hist
  have h4 := H.nibbles
  have h5 := H.bits
  unfold FrameHeaders.push
  dsimp only
  split
  · next hge =>
    have hge : h.headerCursor ≥ h.divisorExpList.nibbleCount := hge
    have hp : Fine b (h.divisorExpList.push (BitVec.ofNat 8 x.exponent)) (fun d => d.nibbleCount = h.len + 1 ∧ d.nibbleCount / 2 ≤ d.data.length) := by
      unfold NibbleList.push
      dsimp only
      have hg := grow_length h.divisorExpList.data 0#8 _ h4
      refine (fine_idx (by rw [hg]; omega)).bind fun _ _ => (fine_setIdx (by rw [hg]; omega)).bind ?_
      rintro _ rfl
      refine Fine.ok ⟨rfl, ?_⟩
      simp only [List.length_set]
      rw [hg]
      omega
    have hq : Fine b (h.isInitFrameList.push (if x.isInit then 1#64 else 0#64)) (fun d => d.bitCursor / 64 ≤ d.binary.length) := by
      unfold BitVecU64.push
      dsimp only
      have hg := grow_length h.isInitFrameList.binary 0#64 _ h5
      refine (fine_idx (by rw [hg]; omega)).bind fun _ _ => (fine_setIdx (by rw [hg]; omega)).bind ?_
      rintro _ rfl
      refine Fine.ok ?_
      simp only [List.length_set]
      rw [hg]
      omega
    refine hp.bind fun d hd => hq.bind fun i hi => Fine.ok ⟨⟨⟨?_, ?_, ?_⟩, hd.2, hi⟩, rfl, ?_⟩
    · show d.nibbleCount ≤ _; simp; omega
    · show d.nibbleCount ≤ _; simp; omega
    · show d.nibbleCount ≤ _; simp; omega
    · show d.nibbleCount = _; omega
  · next hlt =>
    have hlt : ¬ h.headerCursor ≥ h.divisorExpList.nibbleCount := hlt
    refine (fine_setIdx (by omega)).bind ?_
    rintro _ rfl
    refine (fine_setIdx (by omega)).bind ?_
    rintro _ rfl
    refine (fine_setIdx (by omega)).bind ?_
    rintro _ rfl
    have hn : (h.divisorExpList.set h.headerCursor (BitVec.ofNat 8 x.exponent)).nibbleCount = h.len ∧
        (h.divisorExpList.set h.headerCursor (BitVec.ofNat 8 x.exponent)).data.length = h.divisorExpList.data.length := by
      unfold NibbleList.set
      dsimp only
      split
      · exact ⟨rfl, rfl⟩
      · exact ⟨rfl, by simp⟩
    have hi : (h.isInitFrameList.set h.headerCursor (if x.isInit then 1#64 else 0#64)).bitCursor = h.isInitFrameList.bitCursor ∧
        (h.isInitFrameList.set h.headerCursor (if x.isInit then 1#64 else 0#64)).binary.length = h.isInitFrameList.binary.length := by
      unfold BitVecU64.set
      split
      · exact ⟨rfl, rfl⟩
      · exact ⟨rfl, by simp⟩
    refine Fine.ok ⟨⟨⟨?_, ?_, ?_⟩, ?_, ?_⟩, rfl, ?_⟩
    · show NibbleList.nibbleCount _ ≤ _; rw [hn.1]; simpa using h1
    · show NibbleList.nibbleCount _ ≤ _; rw [hn.1]; simpa using h2
    · show NibbleList.nibbleCount _ ≤ _; rw [hn.1]; simpa using h3
    · show NibbleList.nibbleCount _ / 2 ≤ _; rw [hn.1, hn.2]; exact h4
    · show BitVecU64.bitCursor _ / 64 ≤ _; rw [hi.1, hi.2]; exact h5
    · show NibbleList.nibbleCount _ = _; rw [hn.1]; omega

/-- only the cursor moves when headers are read -/
structure SameHeaders (h h' : FrameHeaders) : Prop where
  eq : h' = h.setCursor h'.headerCursor

theorem SameHeaders.refl (h : FrameHeaders) : SameHeaders h h := ⟨rfl⟩
theorem SameHeaders.trans {a b c : FrameHeaders} (h : SameHeaders a b) (h' : SameHeaders b c) : SameHeaders a c :=
  ⟨by rw [h'.eq, h.eq]; rfl⟩
theorem SameHeaders.len {h h' : FrameHeaders} (H : SameHeaders h h') : h'.len = h.len := by rw [H.eq]; rfl
theorem SameHeaders.readable {h h' : FrameHeaders} (H : SameHeaders h h') (r : Readable h) : Readable h' := by
  rw [H.eq]; exact ⟨r.sizes, r.cursors, r.hist⟩
theorem SameHeaders.writable {h h' : FrameHeaders} (H : SameHeaders h h') (r : Writable h) : Writable h' := by
  rw [H.eq]; exact ⟨⟨r.sizes, r.cursors, r.hist⟩, r.nibbles, r.bits⟩

theorem nibble_le (l : NibbleList) (i : Nat) : (l.get i).toNat ≤ 15 := by
  unfold NibbleList.get
  split
  · simp
  · rw [BitVec.toNat_and]
    exact Nat.and_le_right

theorem next_end {h : FrameHeaders} (hc : h.len ≤ h.headerCursor) : h.next = .ok (h, none) := by
  unfold FrameHeaders.next
  dsimp only
  rw [if_neg (by show ¬ h.headerCursor < h.len; omega)]
  rfl

theorem next_some {h : FrameHeaders} (H : Readable h) (hc : h.headerCursor < h.len) :
    ∃ hdr, h.next = .ok (h.setCursor (h.headerCursor + 1), some hdr) ∧ hdr.exponent ≤ 15 := by
  unfold FrameHeaders.next
  dsimp only
  have h1 := H.sizes
  have h2 := H.cursors
  have h3 := H.hist
  rw [if_pos (show h.headerCursor < h.divisorExpList.len from hc), idx_of_lt (by omega), idx_of_lt (by omega), idx_of_lt (by omega)]
  exact ⟨_, rfl, nibble_le _ _⟩

/-! ## decoding -/

theorem fine_clampI {b : Build} {x lo hi : Int} (h : lo ≤ hi) : Fine b (clampI x lo hi) (fun _ => True) := by
  rw [clampI_ok h]; exact Fine.ok trivial

theorem fine_decodeSamples {b : Build} {k : Nat} (hk : k ≤ 15) : ∀ (n : Nat) {s : BitStream} (h : CircularStack Int) (buf : List F32) (_ : InBuf s),
    Fine b (FrameCodec.decodeSamples b k n s h buf) (fun r => InBuf r.1)
  | 0, _, _, _, hs => Fine.ok hs
  | n + 1, s, h, buf, hs => by
    unfold FrameCodec.decodeSamples
    refine (fine_readCompressed hs hk).bind ?_
    rintro ⟨s', e⟩ hs'
    exact (fine_clampI (by norm_num)).bind fun _ _ => fine_decodeSamples hk n _ _ hs'

theorem fine_readRaw {b : Build} {s : BitStream} (h : InBuf s) : Fine b (FrameCodec.readRaw s) (fun r => InBuf r.1) := by
  unfold FrameCodec.readRaw
  refine (fine_readBits h (by norm_num)).bind ?_
  rintro ⟨s', e⟩ hs'
  exact Fine.ok hs'

theorem fine_decodeFrame {b : Build} {fc : FrameCodec} {st : AudioStream} {hd : FrameHeaders} (hs : InBuf st.stream) (hr : Readable hd)
    (hc : hd.headerCursor < hd.len) (hst : fc.state ≠ .encoding) :
    Fine b (fc.decodeFrame b st hd) (fun r => r.1.state = .decoding ∧ InBuf r.2.1.stream ∧ r.2.1.info = st.info ∧
      r.2.2.1 = hd.setCursor (hd.headerCursor + 1)) := by
  obtain ⟨hdr, e, hk⟩ := next_some hr hc
  unfold FrameCodec.decodeFrame
  rw [e, bind_ok]
  dsimp only
  match hstate : fc.state with
  | .init =>
    dsimp only
    refine (fine_readRaw hs).bind ?_
    rintro ⟨s1, x1⟩ h1
    refine (fine_readRaw h1).bind ?_
    rintro ⟨s2, x2⟩ h2
    refine (fine_readRaw h2).bind ?_
    rintro ⟨s3, x3⟩ h3
    refine (fine_decodeSamples hk _ _ _ h3).bind ?_
    rintro ⟨s4, h, buf⟩ h4
    exact Fine.ok ⟨rfl, h4, rfl, rfl⟩
  | .decoding =>
    dsimp only
    refine (fine_decodeSamples hk _ _ _ hs).bind ?_
    rintro ⟨s4, h, buf⟩ h4
    exact Fine.ok ⟨rfl, h4, rfl, rfl⟩
  | .encoding => exact absurd hstate hst

/-- a codec that can be decoded from -/
structure Sane (c : AdhocCodec) (info : StreamInfo) : Prop where
  hinfo : c.stream.info = some info
  pos : 0 < info.channels
  chans : c.channelStateList.length = info.channels
  inBuf : InBuf c.stream.stream
  readable : Readable c.frameHeaderList
  state : ∀ fc ∈ c.channelStateList, fc.state ≠ .encoding

/-- at the end of the headers decoding a channel does nothing -/
theorem decodeChannel_done {b : Build} {c : AdhocCodec} {ch : Nat} (hch : ch < c.channelStateList.length)
    (h : c.frameHeaderList.len ≤ c.frameHeaderList.headerCursor) : c.decodeChannel b ch = .ok c := by
  unfold AdhocCodec.decodeChannel
  rw [idx_of_lt hch, bind_ok]
  unfold FrameCodec.decodeFrame
  rw [next_end h, bind_ok]
  simp only [pure_eq_ok, bind_ok]
  rw [setIdx_of_lt hch, bind_ok, List.set_getElem_self]

theorem foldlM_done {b : Build} {c : AdhocCodec} (h : c.frameHeaderList.len ≤ c.frameHeaderList.headerCursor) :
    ∀ (l : List Nat) (_ : ∀ ch ∈ l, ch < c.channelStateList.length), l.foldlM (fun c ch => c.decodeChannel b ch) c = .ok c
  | [], _ => rfl
  | ch :: l, hl => by
    rw [List.foldlM_cons, decodeChannel_done (hl ch (by simp)) h, bind_ok]
    exact foldlM_done h l (fun x hx => hl x (by simp [hx]))

/-- what a step of decoding keeps -/
structure Kept (c c' : AdhocCodec) : Prop where
  headers : SameHeaders c.frameHeaderList c'.frameHeaderList
  first : c.channelStateList[0]?.map FrameCodec.state = some .decoding → c'.channelStateList[0]?.map FrameCodec.state = some .decoding
  seq : c'.seq = c.seq

theorem Kept.refl (c : AdhocCodec) : Kept c c := ⟨.refl _, id, rfl⟩
theorem Kept.trans {a b c : AdhocCodec} (h : Kept a b) (h' : Kept b c) : Kept a c :=
  ⟨h.headers.trans h'.headers, fun x => h'.first (h.first x), h'.seq.trans h.seq⟩

theorem fine_decodeChannel {b : Build} {c : AdhocCodec} {info : StreamInfo} (H : Sane c info) {ch : Nat} (hch : ch < info.channels) :
    Fine b (c.decodeChannel b ch) (fun c' => Sane c' info ∧ Kept c c' ∧
      (ch = 0 → c.frameHeaderList.headerCursor < c.frameHeaderList.len → c'.channelStateList[0]?.map FrameCodec.state = some .decoding)) := by
  have hch' : ch < c.channelStateList.length := by rw [H.chans]; exact hch
  by_cases hc : c.frameHeaderList.headerCursor < c.frameHeaderList.len
  · unfold AdhocCodec.decodeChannel
    rw [idx_of_lt hch', bind_ok]
    refine (fine_decodeFrame H.inBuf H.readable hc (H.state _ (List.getElem_mem hch'))).bind ?_
    rintro ⟨fc, st, hd, r⟩ ⟨h1, h2, h3, h4⟩
    dsimp only at h1 h2 h3 h4 ⊢
    rw [setIdx_of_lt hch', bind_ok]
    have hsame : SameHeaders c.frameHeaderList hd := ⟨by rw [h4]; rfl⟩
    refine Fine.ok ⟨⟨h3.trans H.hinfo, H.pos, by simpa using H.chans, h2, hsame.readable H.readable, ?_⟩, ⟨hsame, ?_, rfl⟩, ?_⟩
    · intro x hx
      rcases List.mem_or_eq_of_mem_set hx with hx | rfl
      · exact H.state x hx
      · rw [h1]; simp
    · intro h0
      dsimp only
      rw [List.getElem?_set]
      split
      · simp [h1]
      · exact h0
    · rintro rfl -
      dsimp only
      rw [List.getElem?_set, if_pos rfl, if_pos hch']
      simp [h1]
  · rw [decodeChannel_done hch' (by omega)]
    exact Fine.ok ⟨H, .refl c, fun _ h => absurd h hc⟩

theorem fine_decodeBlock {b : Build} {c : AdhocCodec} {info : StreamInfo} (H : Sane c info) :
    Fine b (c.decodeBlock b info.channels) (fun c' => Sane c' info ∧ Kept c c' ∧
      (c.frameHeaderList.headerCursor < c.frameHeaderList.len → c'.channelStateList[0]?.map FrameCodec.state = some .decoding)) := by
  have key : ∀ (l : List Nat) (_ : ∀ ch ∈ l, ch < info.channels) (c : AdhocCodec) (_ : Sane c info),
      Fine b (l.foldlM (fun c ch => c.decodeChannel b ch) c) (fun c' => Sane c' info ∧ Kept c c') := by
    intro l
    induction l with
    | nil => intro _ c H; exact Fine.ok ⟨H, .refl c⟩
    | cons ch l ih =>
      intro hl c H
      rw [List.foldlM_cons]
      refine (fine_decodeChannel H (hl ch (by simp))).bind fun c' h => ?_
      exact (ih (fun x hx => hl x (by simp [hx])) c' h.1).mono fun c'' h' => ⟨h'.1, h.2.1.trans h'.2⟩
  unfold AdhocCodec.decodeBlock
  obtain ⟨n, hn⟩ : ∃ n, info.channels = n + 1 := ⟨info.channels - 1, by have := H.pos; omega⟩
  rw [show List.range info.channels = 0 :: (List.range n).map (· + 1) by rw [hn, List.range_succ_eq_map], List.foldlM_cons]
  refine (fine_decodeChannel H (by omega)).bind fun c1 h1 => ?_
  refine (key _ ?_ c1 h1.1).mono fun c2 h2 => ⟨h2.1, h1.2.1.trans h2.2, fun h => h2.2.first (h1.2.2 rfl h)⟩
  intro ch hch
  obtain ⟨x, hx, rfl⟩ := List.mem_map.1 hch
  have : x < n := by simpa using hx
  omega

theorem fine_bufferAudio {b : Build} {info : StreamInfo} : ∀ (left : Nat) {c : AdhocCodec} (_ : Sane c info),
    Fine b (AdhocCodec.bufferAudio b info.channels left c) (fun r => Sane r.1 info ∧ Kept c r.1 ∧
      (0 < left → c.isBuffersEmpty = true → c.frameHeaderList.headerCursor < c.frameHeaderList.len →
        r.1.channelStateList[0]?.map FrameCodec.state = some .decoding))
  | 0, c, H => Fine.ok ⟨H, .refl c, fun h => absurd h (by omega)⟩
  | left + 1, c, H => by
    unfold AdhocCodec.bufferAudio
    split
    · refine (fine_decodeBlock H).bind fun c1 h1 => ?_
      exact (fine_bufferAudio left h1.1).mono fun r h2 => ⟨h2.1, h1.2.1.trans h2.2.1, fun _ _ h => h2.2.1.first (h1.2.2 h)⟩
    · next hne => exact Fine.ok ⟨H, .refl c, fun _ h => absurd h hne⟩

theorem fine_popBlock {b : Build} {info : StreamInfo} {legal : Nat} : ∀ (n ch : Nat) {c : AdhocCodec} {pcm : List F32} (cursor : Nat) (_ : Sane c info)
    (_ : ch + n ≤ info.channels) (_ : legal ≤ pcm.length),
    Fine b (AdhocCodec.popBlock legal n ch c pcm cursor) (fun r => Sane r.1 info ∧ Kept c r.1 ∧ r.2.1.length = pcm.length ∧
      cursor ≤ r.2.2 ∧ (0 < n → cursor < legal → cursor < r.2.2) ∧ (cursor ≤ legal → r.2.2 ≤ legal))
  | 0, ch, c, pcm, cursor, H, _, _ => Fine.ok ⟨H, .refl c, rfl, le_rfl, fun h => absurd h (by omega), id⟩
  | n + 1, ch, c, pcm, cursor, H, hch, hl => by
    unfold AdhocCodec.popBlock
    split
    · next hc =>
      have hch' : ch < c.channelStateList.length := by rw [H.chans]; omega
      rw [idx_of_lt hch', bind_ok, setIdx_of_lt hch', bind_ok, setIdx_of_lt (by omega), bind_ok]
      have hst : ∀ i : Nat, (c.channelStateList.set ch { c.channelStateList[ch] with buffered := c.channelStateList[ch].buffered.tail })[i]?.map FrameCodec.state =
          c.channelStateList[i]?.map FrameCodec.state := by
        intro i
        rw [List.getElem?_set]
        split
        · next h => subst h; rw [List.getElem?_eq_getElem hch']; rfl
        · rfl
      have H' : Sane { c with channelStateList := c.channelStateList.set ch { c.channelStateList[ch] with buffered := c.channelStateList[ch].buffered.tail } } info := by
        refine ⟨H.hinfo, H.pos, by simpa using H.chans, H.inBuf, H.readable, ?_⟩
        intro x hx
        rcases List.mem_or_eq_of_mem_set hx with hx | rfl
        · exact H.state x hx
        · exact H.state c.channelStateList[ch] (List.getElem_mem hch')
      refine (fine_popBlock n (ch + 1) (cursor + 1) H' (by omega) (by simpa using hl)).mono ?_
      rintro ⟨c2, p2, k2⟩ ⟨g1, g2, g3, g4, -, g6⟩
      dsimp only at g1 g2 g3 g4 g6 ⊢
      refine ⟨g1, ⟨g2.headers, fun h => g2.first (by dsimp only; rw [hst]; exact h), g2.seq⟩, by simpa using g3, by omega, fun _ _ => by omega, fun _ => g6 hc⟩
    · next hc => exact Fine.ok ⟨H, .refl c, rfl, le_rfl, fun _ h => absurd h hc, id⟩

theorem fine_decodeLoop {b : Build} {info : StreamInfo} {legal : Nat} : ∀ (fuel : Nat) {c : AdhocCodec} {pcm : List F32} (cursor : Nat) (_ : Sane c info)
    (_ : legal ≤ pcm.length) (_ : legal < cursor + fuel) (_ : cursor ≤ legal),
    Fine b (AdhocCodec.decodeLoop b info.channels legal fuel c pcm cursor) (fun r => Sane r.1 info ∧ Kept c r.1 ∧
      (cursor < legal → c.isBuffersEmpty = true → c.frameHeaderList.headerCursor < c.frameHeaderList.len →
        r.1.channelStateList[0]?.map FrameCodec.state = some .decoding))
  | 0, c, pcm, cursor, H, _, hf, hle => absurd hf (by omega)
  | fuel + 1, c, pcm, cursor, H, hl, hf, hle => by
    unfold AdhocCodec.decodeLoop
    split
    · next hc =>
      refine (fine_bufferAudio MAX_DECODE_ATTEMPTS H).bind ?_
      rintro ⟨c1, left⟩ ⟨h1, h2, h3⟩
      dsimp only at h1 h2 h3 ⊢
      split
      · exact Fine.ok ⟨h1, h2, fun _ => h3 (by decide)⟩
      · refine (fine_popBlock info.channels 0 cursor h1 (by omega) hl).bind ?_
        rintro ⟨c2, p2, k2⟩ ⟨g1, g2, g3, g4, g5, g6⟩
        dsimp only at g1 g2 g3 g4 g5 g6 ⊢
        have := g5 H.pos hc
        exact (fine_decodeLoop fuel k2 g1 (by omega) (by omega) (g6 hle)).mono fun r h => ⟨h.1, (h2.trans g2).trans h.2.1, fun _ he hlt => h.2.1.first (g2.first (h3 (by decide) he hlt))⟩
    · next hc => exact Fine.ok ⟨H, .refl c, fun h => absurd h hc⟩

theorem fine_decode {b : Build} {c : AdhocCodec} {info : StreamInfo} (H : Sane c info) (buf : List F32) :
    Fine b (c.decode b buf) (fun r => Sane r.1 info ∧ Kept c r.1 ∧
      (info.channels ≤ buf.length → c.isBuffersEmpty = true → c.frameHeaderList.headerCursor < c.frameHeaderList.len →
        r.1.channelStateList[0]?.map FrameCodec.state = some .decoding)) := by
  unfold AdhocCodec.decode AdhocCodec.decodeRaw
  rw [H.hinfo]
  simp only [expect, bind_ok]
  rw [udiv_of_pos H.pos, bind_ok]
  have hp := H.pos
  refine Fine.bind (P := fun r : AdhocCodec × List F32 × Nat => Sane r.1 info ∧ Kept c r.1 ∧
      (info.channels ≤ buf.length → c.isBuffersEmpty = true → c.frameHeaderList.headerCursor < c.frameHeaderList.len →
        r.1.channelStateList[0]?.map FrameCodec.state = some .decoding)) ?_ ?_
  · refine (fine_decodeLoop _ 0 H (Nat.div_mul_le_self _ _) (by omega) (by omega)).bind ?_
    rintro ⟨c1, p1, k1⟩ ⟨h1, h2, h3⟩
    refine Fine.ok ⟨h1, h2, fun hb => h3 ?_⟩
    have : 0 < buf.length / info.channels := Nat.div_pos hb hp
    positivity
  · rintro ⟨c1, p1, k1⟩ h
    exact Fine.ok h

/-- short buffers take nothing -/
theorem decode_short {b : Build} {c : AdhocCodec} {info : StreamInfo} (hinfo : c.stream.info = some info) (hp : 0 < info.channels)
    {buf : List F32} (hb : buf.length < info.channels) : c.decode b buf = .ok (c, buf.map (· * c.scale), none) := by
  unfold AdhocCodec.decode AdhocCodec.decodeRaw
  rw [hinfo]
  simp only [expect, bind_ok]
  rw [udiv_of_pos hp, bind_ok, Nat.div_eq_of_lt hb]
  unfold AdhocCodec.decodeLoop
  simp

/-- at the end of the headers, with nothing buffered, decoding does nothing, whatever the state of the channels -/
theorem decode_done {b : Build} {c : AdhocCodec} {info : StreamInfo} (hinfo : c.stream.info = some info) (hp : 0 < info.channels)
    (hch : c.channelStateList.length = info.channels) (he : c.isBuffersEmpty = true)
    (h : c.frameHeaderList.len ≤ c.frameHeaderList.headerCursor) (buf : List F32) :
    c.decode b buf = .ok (c, buf.map (· * c.scale), none) := by
  have hbuf : ∀ left, AdhocCodec.bufferAudio b info.channels left c = .ok (c, 0) := by
    intro left
    induction left with
    | zero => rfl
    | succ left ih =>
      unfold AdhocCodec.bufferAudio
      rw [if_pos he, AdhocCodec.decodeBlock, foldlM_done h _ (fun ch hc => by rw [hch]; simpa using hc), bind_ok, ih]
  unfold AdhocCodec.decode AdhocCodec.decodeRaw
  rw [hinfo]
  simp only [expect, bind_ok]
  rw [udiv_of_pos hp, bind_ok]
  unfold AdhocCodec.decodeLoop
  rw [hbuf]
  split <;> simp

/-- decoding a channel that is recording panics if there are headers left -/
theorem decode_recording {b : Build} {c : AdhocCodec} {info : StreamInfo} (hinfo : c.stream.info = some info) (hp : 0 < info.channels)
    (he : c.isBuffersEmpty = true) (hst : c.channelStateList[0]?.map FrameCodec.state = some .encoding) (hr : Readable c.frameHeaderList)
    (h : c.frameHeaderList.headerCursor < c.frameHeaderList.len) {buf : List F32} (hb : info.channels ≤ buf.length) :
    c.decode b buf = .error .explicit := by
  have h0 : c.decodeChannel b 0 = .error .explicit := by
    obtain ⟨hdr, e, -⟩ := next_some hr h
    unfold AdhocCodec.decodeChannel
    cases hx : c.channelStateList[0]? with
    | none => rw [hx] at hst; cases hst
    | some fc =>
      rw [hx] at hst
      rw [idx_eq_ok.2 hx, bind_ok]
      unfold FrameCodec.decodeFrame
      rw [e, bind_ok]
      simp at hst
      dsimp only
      rw [hst]
      rfl
  unfold AdhocCodec.decode AdhocCodec.decodeRaw
  rw [hinfo]
  simp only [expect, bind_ok]
  rw [udiv_of_pos hp, bind_ok]
  have hq : 0 < buf.length / info.channels * info.channels := Nat.mul_pos (Nat.div_pos hb hp) hp
  unfold AdhocCodec.decodeLoop
  rw [if_pos hq, show MAX_DECODE_ATTEMPTS = 9 + 1 from rfl]
  unfold AdhocCodec.bufferAudio
  rw [if_pos he, AdhocCodec.decodeBlock]
  obtain ⟨n, hn⟩ : ∃ n, info.channels = n + 1 := ⟨info.channels - 1, by omega⟩
  rw [show List.range info.channels = 0 :: (List.range n).map (· + 1) by rw [hn, List.range_succ_eq_map], List.foldlM_cons, h0]
  rfl

/-! ## encoding -/

theorem fine_addCosts {b : Build} {e : Nat} : ∀ (n : Nat) (t : List Nat) (_ : n ≤ 15) (_ : t.length = 16),
    Fine b (FrameCodec.addCosts b e n t) (fun t' => t'.length = 16)
  | 0, t, _, hl => Fine.ok hl
  | n + 1, t, hn, hl => by
    unfold FrameCodec.addCosts
    refine (fine_idx (by omega)).bind fun _ _ => (fine_chkU _ _ _).bind fun _ _ => (fine_chkU _ _ _).bind fun _ _ =>
      (fine_chkU _ _ _).bind fun _ _ => (fine_chkU _ _ _).bind fun _ _ => (fine_setIdx (by omega)).bind ?_
    rintro _ rfl
    exact fine_addCosts n _ (by omega) (by simpa using hl)

theorem fine_costTable {b : Build} : ∀ (ys : List F32) (h : CircularStack Int) (t : List Nat) (_ : t.length = 16),
    Fine b (FrameCodec.costTable b h ys t) (fun t' => t'.length = 16)
  | [], _, _, hl => Fine.ok hl
  | y :: ys, h, t, hl => by
    unfold FrameCodec.costTable
    exact (fine_addCosts 15 t le_rfl hl).bind fun t' h' => fine_costTable ys _ t' h'

theorem fine_computeOptimal {b : Build} (h : CircularStack Int) (ys : List F32) :
    Fine b (FrameCodec.computeOptimalDivisorExponent b h ys) (fun k => k ≤ 15) := by
  unfold FrameCodec.computeOptimalDivisorExponent
  refine (fine_costTable ys h _ (by simp)).bind fun t ht => Fine.ok ?_
  cases e : FrameCodec.argminPos t with
  | none => simp
  | some k =>
    have := (argminPos_some e).2.1
    simp
    omega

theorem fine_encodeSamples {b : Build} {k : Nat} (hk : k ≤ 15) : ∀ (ys : List F32) {s : BitStream} (h : CircularStack Int) (_ : InBuf s),
    Fine b (FrameCodec.encodeSamples b k s h ys) (fun r => InBuf r.1)
  | [], _, _, hs => Fine.ok hs
  | y :: ys, s, h, hs => by
    unfold FrameCodec.encodeSamples
    exact (fine_clampI (by norm_num)).bind fun _ _ => (fine_writeCompressed hs hk _).bind fun s' hs' => fine_encodeSamples hk ys _ hs'

theorem fine_encodeFrame {b : Build} {fc : FrameCodec} {st : AudioStream} {hd : FrameHeaders} (hs : InBuf st.stream) (hw : Writable hd)
    (hc : hd.headerCursor ≤ hd.len) (ys : List F32) (hst : fc.state = .encoding ∨ (fc.state = .init ∧ 3 ≤ ys.length)) :
    Fine b (fc.encodeFrame b st hd ys) (fun r => r.1.state = .encoding ∧ r.1.buffered = fc.buffered ∧ InBuf r.2.1.stream ∧ r.2.1.info = st.info ∧
      Writable r.2.2 ∧ r.2.2.headerCursor = hd.headerCursor + 1 ∧ r.2.2.len = max hd.len (hd.headerCursor + 1)) := by
  unfold FrameCodec.encodeFrame
  rcases hst with hst | ⟨hst, h3⟩
  · rw [hst]
    dsimp only
    refine (fine_computeOptimal _ _).bind fun k hk => (fine_push hw hc _).bind fun hd' h' => (fine_encodeSamples hk _ _ hs).bind ?_
    rintro ⟨s, h⟩ h2
    exact Fine.ok ⟨rfl, rfl, h2, rfl, h'.1, h'.2.1, h'.2.2⟩
  · rw [hst]
    dsimp only
    refine (fine_idx (by omega)).bind fun _ _ => (fine_writeBits hs _ (by norm_num)).bind fun _ hs => ?_
    refine (fine_idx (by omega)).bind fun _ _ => (fine_writeBits hs _ (by norm_num)).bind fun _ hs => ?_
    refine (fine_idx (by omega)).bind fun _ _ => (fine_writeBits hs _ (by norm_num)).bind fun _ hs => ?_
    refine (fine_computeOptimal _ _).bind fun k hk => (fine_push hw hc _).bind fun hd' h' => (fine_encodeSamples hk _ _ hs).bind ?_
    rintro ⟨s, h⟩ h2
    exact Fine.ok ⟨rfl, rfl, h2, rfl, h'.1, h'.2.1, h'.2.2⟩

/-- a codec that can be encoded into; `k` of the channels are already recording, the others are in state `st` -/
structure Ready (c : AdhocCodec) (info : StreamInfo) (st : CodecState) (k cursor len : Nat) : Prop where
  hinfo : c.stream.info = some info
  pos : 0 < info.channels
  chans : c.channelStateList.length = info.channels
  inBuf : InBuf c.stream.stream
  writable : Writable c.frameHeaderList
  hcur : c.frameHeaderList.headerCursor = cursor
  hlen : c.frameHeaderList.len = len
  le : cursor ≤ len
  state : ∀ i (h : i < c.channelStateList.length), c.channelStateList[i].state = if i < k then .encoding else st
  empty : ∀ fc ∈ c.channelStateList, fc.buffered = []
  seq : c.seq.sequence < 507961

theorem fine_encodeChannel {b : Build} {c : AdhocCodec} {info : StreamInfo} {st : CodecState} {k cursor len : Nat} (H : Ready c info st k cursor len)
    (hk : k < info.channels) (pcm : List F32) (hst : st = .encoding ∨ (st = .init ∧ 3 ≤ pcm.length / info.channels)) :
    Fine b (c.encodeChannel b pcm info.channels (pcm.length / info.channels) k)
      (fun c' => Ready c' info st (k + 1) (cursor + 1) (max len (cursor + 1))) := by
  obtain ⟨seq', ys, e1, hseq, hd⟩ := dither_ok (b := b) (inv := c.invScale) (column info.channels k pcm) H.seq
  have hl : ys.length = pcm.length / info.channels := by rw [← hd.length_eq]; simp [column]
  have hk' : k < c.channelStateList.length := by rw [H.chans]; exact hk
  unfold AdhocCodec.encodeChannel
  rw [deinterleave_ok hk, bind_ok, e1, bind_ok]
  dsimp only
  rw [idx_of_lt hk', bind_ok]
  have hs := H.state k hk'
  rw [if_neg (by omega)] at hs
  have hle := H.le
  refine (fine_encodeFrame H.inBuf H.writable (by rw [H.hcur, H.hlen]; exact H.le) ys (by rw [hs, hl]; exact hst)).bind ?_
  rintro ⟨fc, s, hd⟩ ⟨h1, h2, h3, h4, h5, h6, h7⟩
  dsimp only at h1 h2 h3 h4 h5 h6 h7 ⊢
  rw [setIdx_of_lt hk', bind_ok]
  rw [H.hcur] at h6 h7
  rw [H.hlen] at h7
  refine Fine.ok ⟨h4.trans H.hinfo, H.pos, by simpa using H.chans, h3, h5, h6, h7, by omega, ?_, ?_, hseq⟩
  · intro i hi
    simp only [List.getElem_set]
    have hi' : i < c.channelStateList.length := by simpa using hi
    by_cases hik : k = i
    · rw [if_pos hik, if_pos (by omega)]; exact h1
    · rw [if_neg hik, H.state i hi']
      by_cases h : i < k
      · rw [if_pos h, if_pos (by omega)]
      · rw [if_neg h, if_neg (by omega)]
  · intro x hx
    rcases List.mem_or_eq_of_mem_set hx with hx | rfl
    · exact H.empty x hx
    · rw [h2]; exact H.empty _ (List.getElem_mem hk')

theorem fine_encode {b : Build} {c : AdhocCodec} {info : StreamInfo} {st : CodecState} {cursor len : Nat} (H : Ready c info st 0 cursor len)
    (pcm : List F32) (hst : st = .encoding ∨ (st = .init ∧ 3 ≤ pcm.length / info.channels)) :
    Fine b (c.encode b pcm) (fun r => Ready r.1 info .encoding 0 (cursor + info.channels) (max len (cursor + info.channels))) := by
  unfold AdhocCodec.encode AdhocCodec.encodeRaw
  rw [H.hinfo]
  simp only [expect, bind_ok]
  rw [udiv_of_pos H.pos, bind_ok]
  have hp := H.pos
  have key : ∀ m, m ≤ info.channels → Fine b ((List.range m).foldlM (fun c ch => c.encodeChannel b pcm info.channels (pcm.length / info.channels) ch) c)
      (fun c' => Ready c' info st m (cursor + m) (if m = 0 then len else max len (cursor + m))) := by
    intro m
    induction m with
    | zero => intro _; exact Fine.ok H
    | succ m ih =>
      intro hm
      rw [List.range_succ, List.foldlM_append]
      refine (ih (by omega)).bind fun c' h' => ?_
      rw [List.foldlM_cons]
      refine (fine_encodeChannel h' (by omega) pcm hst).bind fun c'' h'' => Fine.ok ?_
      have e : max (if m = 0 then len else max len (cursor + m)) (cursor + m + 1) = if m + 1 = 0 then len else max len (cursor + (m + 1)) := by
        rw [if_neg (show ¬ m + 1 = 0 by omega)]; split <;> omega
      rw [← e]
      exact h''
  refine (key info.channels le_rfl).bind fun c' h' => Fine.ok ?_
  rw [if_neg (show ¬ info.channels = 0 by omega)] at h'
  refine ⟨h'.hinfo, h'.pos, h'.chans, h'.inBuf, h'.writable, h'.hcur, h'.hlen, h'.le, ?_, h'.empty, h'.seq⟩
  intro i hi
  rw [h'.state i hi, if_pos (by rw [← h'.chans]; exact hi)]
  simp

/-- encoding panics at once if the first channel is playing -/
theorem encode_playing {b : Build} {c : AdhocCodec} {info : StreamInfo} (hinfo : c.stream.info = some info) (hp : 0 < info.channels)
    (hst : c.channelStateList[0]?.map FrameCodec.state = some .decoding) (hseq : c.seq.sequence < 507961) (pcm : List F32) :
    c.encode b pcm = .error .explicit := by
  have h0 : c.encodeChannel b pcm info.channels (pcm.length / info.channels) 0 = .error .explicit := by
    obtain ⟨seq', ys, e1, -⟩ := dither_ok (b := b) (inv := c.invScale) (column info.channels 0 pcm) hseq
    unfold AdhocCodec.encodeChannel
    rw [deinterleave_ok hp, bind_ok, e1, bind_ok]
    cases hx : c.channelStateList[0]? with
    | none => rw [hx] at hst; cases hst
    | some fc =>
      rw [hx] at hst
      dsimp only
      rw [idx_eq_ok.2 hx, bind_ok]
      unfold FrameCodec.encodeFrame
      simp at hst
      rw [hst]
      rfl
  unfold AdhocCodec.encode AdhocCodec.encodeRaw
  rw [hinfo]
  simp only [expect, bind_ok]
  rw [udiv_of_pos hp, bind_ok]
  obtain ⟨n, hn⟩ : ∃ n, info.channels = n + 1 := ⟨info.channels - 1, by omega⟩
  rw [show List.range info.channels = 0 :: (List.range n).map (· + 1) by rw [hn, List.range_succ_eq_map], List.foldlM_cons, h0]
  rfl

/-- the first channel needs three samples to start -/
theorem encode_start_panics {b : Build} {c : AdhocCodec} {info : StreamInfo} (hinfo : c.stream.info = some info) (hp : 0 < info.channels)
    (hst : c.channelStateList[0]?.map FrameCodec.state = some .init) (hseq : c.seq.sequence < 507961) (hb : InBuf c.stream.stream)
    {pcm : List F32} (h3 : pcm.length / info.channels < 3) : c.encode b pcm = .error .index := by
  have hw : ∀ (s : BitStream) (_ : InBuf s) (v : BitVec 16), ∃ s', s.writeU16 v = .ok s' ∧ InBuf s' := by
    intro s hs v
    exact (fine_writeBits (b := .release) hs (v.setWidth 128) (n := 16) (by norm_num)).release
  have h0 : c.encodeChannel b pcm info.channels (pcm.length / info.channels) 0 = .error .index := by
    obtain ⟨seq', ys, e1, -, hd⟩ := dither_ok (b := b) (inv := c.invScale) (column info.channels 0 pcm) hseq
    have hl : ys.length = pcm.length / info.channels := by rw [← hd.length_eq]; simp [column]
    unfold AdhocCodec.encodeChannel
    rw [deinterleave_ok hp, bind_ok, e1, bind_ok]
    cases hx : c.channelStateList[0]? with
    | none => rw [hx] at hst; cases hst
    | some fc =>
      rw [hx] at hst
      dsimp only
      rw [idx_eq_ok.2 hx, bind_ok]
      have : fc.encodeFrame b c.stream c.frameHeaderList ys = .error .index := by
        unfold FrameCodec.encodeFrame
        simp at hst
        rw [hst]
        dsimp only
        match ys, hl with
        | [], _ => rfl
        | [y0], _ =>
          rw [idx_of_lt (by simp), bind_ok]
          obtain ⟨s1, e1, h1⟩ := hw _ hb (BitVec.ofInt 16 (truncateSample y0))
          simp only [List.getElem_cons_zero]
          rw [e1]
          rfl
        | [y0, y1], _ =>
          rw [idx_of_lt (by simp), bind_ok]
          obtain ⟨s1, e1, h1⟩ := hw _ hb (BitVec.ofInt 16 (truncateSample y0))
          simp only [List.getElem_cons_zero]
          rw [e1, bind_ok, idx_of_lt (by simp), bind_ok]
          obtain ⟨s2, e2, h2⟩ := hw _ h1 (BitVec.ofInt 16 (truncateSample y1))
          simp only [List.getElem_cons_succ, List.getElem_cons_zero]
          rw [e2]
          rfl
        | _ :: _ :: _ :: _, hl => simp at hl; omega
      rw [this]
      rfl
  unfold AdhocCodec.encode AdhocCodec.encodeRaw
  rw [hinfo]
  simp only [expect, bind_ok]
  rw [udiv_of_pos hp, bind_ok]
  obtain ⟨n, hn⟩ : ∃ n, info.channels = n + 1 := ⟨info.channels - 1, by omega⟩
  rw [show List.range info.channels = 0 :: (List.range n).map (· + 1) by rw [hn, List.range_succ_eq_map], List.foldlM_cons, h0]
  rfl

end Adhoc
