import Verif.Model.Usize
import Verif.Proofs.Values

/-! # Running side by side on targets of different width -/

namespace Adhoc
open Spec

/-- a bit position whose chunk and the one behind it have indices of `w` bits -/
def Reach (w n : Nat) : Prop := n + 128 < 128 * 2 ^ w

/-- the two runs move forward from `c`, and have the same results among those within reach -/
structure Abreast {α : Type} (w c : Nat) (g : α → Nat) (x y : R α) : Prop where
  left : ∀ a, x = .ok a → c ≤ g a
  right : ∀ a, y = .ok a → c ≤ g a
  same : ∀ a, Reach w (g a) → (x = .ok a ↔ y = .ok a)

theorem Reach.mono {w m n : Nat} (h : Reach w n) (hm : m ≤ n) : Reach w m := by
  unfold Reach at *; omega

theorem Abreast.bind {α β : Type} {w c : Nat} {g : α → Nat} {g' : β → Nat} {x y : R α} {f f' : α → R β} (h : Abreast w c g x y)
    (hf : ∀ a, Abreast w (g a) g' (f a) (f' a)) : Abreast w c g' (x >>= f) (y >>= f') where
  left b hb := by
    obtain ⟨a, ha, hb⟩ := bind_eq_ok.mp hb
    exact (h.left a ha).trans ((hf a).left b hb)
  right b hb := by
    obtain ⟨a, ha, hb⟩ := bind_eq_ok.mp hb
    exact (h.right a ha).trans ((hf a).right b hb)
  same b hr := by
    constructor
    · intro hb
      obtain ⟨a, ha, hb⟩ := bind_eq_ok.mp hb
      exact bind_eq_ok.mpr ⟨a, (h.same a (hr.mono ((hf a).left b hb))).mp ha, ((hf a).same b hr).mp hb⟩
    · intro hb
      obtain ⟨a, ha, hb⟩ := bind_eq_ok.mp hb
      exact bind_eq_ok.mpr ⟨a, (h.same a (hr.mono ((hf a).right b hb))).mpr ha, ((hf a).same b hr).mpr hb⟩

/-- a step that is the same on both sides -/
theorem Abreast.step {α β : Type} {w c : Nat} {g' : β → Nat} {x : R α} {f f' : α → R β}
    (hf : ∀ a, x = .ok a → Abreast w c g' (f a) (f' a)) : Abreast w c g' (x >>= f) (x >>= f') where
  left b hb := by
    obtain ⟨a, ha, hb⟩ := bind_eq_ok.mp hb
    exact (hf a ha).left b hb
  right b hb := by
    obtain ⟨a, ha, hb⟩ := bind_eq_ok.mp hb
    exact (hf a ha).right b hb
  same b hr := by
    simp only [bind_eq_ok]
    exact exists_congr fun a => and_congr_right fun ha => (hf a ha).same b hr

theorem Abreast.ok {α : Type} {w c : Nat} {g : α → Nat} {a : α} (h : c ≤ g a) : Abreast w c g (.ok a) (.ok a) where
  left b hb := by rwa [← Except.ok.inj hb]
  right b hb := by rwa [← Except.ok.inj hb]
  same _ _ := Iff.rfl

theorem Abreast.error {α : Type} {w c : Nat} {g : α → Nat} {p : Panic} : Abreast w c g (.error p) (.error p) where
  left b hb := by cases hb
  right b hb := by cases hb
  same _ _ := Iff.rfl

theorem Abreast.refl {α : Type} {w c : Nat} {g : α → Nat} {x : R α} (h : Ens x fun a => c ≤ g a) : Abreast w c g x x where
  left := h
  right := h
  same _ _ := Iff.rfl

theorem Abreast.of_eq {α : Type} {w c : Nat} {g : α → Nat} {x y : R α} (hx : Ens x fun a => c ≤ g a) (hy : Ens y fun a => c ≤ g a)
    (h : Reach w c → x = y) : Abreast w c g x y where
  left := hx
  right := hy
  same a hr := by
    by_cases hc : Reach w c
    · rw [h hc]
    · constructor
      · exact fun e => absurd (hr.mono (hx a e)) hc
      · exact fun e => absurd (hr.mono (hy a e)) hc

theorem Abreast.from {α : Type} {w c d : Nat} {g : α → Nat} {x y : R α} (h : Abreast w c g x y) (hd : d ≤ c) : Abreast w d g x y :=
  ⟨fun a ha => hd.trans (h.left a ha), fun a ha => hd.trans (h.right a ha), h.same⟩

/-! ## the bit stream -/

theorem chunkIndexW_eq {w : Nat} {s : BitStream} (h : Reach w s.bitCursor) : s.chunkIndexW w = s.chunkIndex := by
  unfold BitStream.chunkIndexW BitStream.chunkIndex
  unfold Reach at h
  exact Nat.mod_eq_of_lt (by omega)

theorem next_eq {b : Build} {w : Nat} {s : BitStream} (h : Reach w s.bitCursor) :
    chkU b w ((s.chunkIndex + 1 : Nat) : Int) = .ok (s.chunkIndex + 1) := by
  unfold chkU
  rw [if_pos]
  · rfl
  · refine ⟨by omega, ?_⟩
    unfold Reach at h
    have : s.chunkIndex + 1 < 2 ^ w := by unfold BitStream.chunkIndex; omega
    exact_mod_cast this

theorem alloc_same (s : BitStream) (i : Nat) : (s.allocateIfNeeded i).bitCursor = s.bitCursor := by
  unfold BitStream.allocateIfNeeded
  split <;> rfl

theorem alloc_same2 (s : BitStream) (i j : Nat) : ((s.allocateIfNeeded i).allocateIfNeeded j).bitCursor = s.bitCursor := by
  rw [alloc_same, alloc_same]

theorem fwd_offset {s t : BitStream} (h : t.bitCursor = s.bitCursor) (n : Nat) : s.bitCursor ≤ (t.offsetBitCursor n).bitCursor := by
  unfold BitStream.offsetBitCursor
  dsimp only
  omega

theorem fwd_writeBits (s : BitStream) (v : BitVec 128) (n : Nat) : Ens (s.writeBits v n) fun t => s.bitCursor ≤ t.bitCursor := by
  unfold BitStream.writeBits
  refine (Ens.any _).bind fun c _ => (Ens.any _).bind fun bin _ => ?_
  dsimp only
  split
  · exact (Ens.any _).bind fun d _ => (Ens.any _).bind fun bin' _ => Ens.ok (fwd_offset (alloc_same2 s _ _) n)
  · exact Ens.ok (fwd_offset (alloc_same2 s _ _) n)

theorem fwd_writeBitsW (b : Build) (w : Nat) (s : BitStream) (v : BitVec 128) (n : Nat) :
    Ens (s.writeBitsW b w v n) fun t => s.bitCursor ≤ t.bitCursor := by
  unfold BitStream.writeBitsW
  refine (Ens.any _).bind fun nxt _ => (Ens.any _).bind fun c _ => (Ens.any _).bind fun bin _ => ?_
  dsimp only
  split
  · exact (Ens.any _).bind fun d _ => (Ens.any _).bind fun bin' _ => Ens.ok (fwd_offset (alloc_same2 s _ _) n)
  · exact Ens.ok (fwd_offset (alloc_same2 s _ _) n)

theorem writeBitsW_eq {b : Build} {w : Nat} {s : BitStream} (h : Reach w s.bitCursor) (v : BitVec 128) (n : Nat) :
    s.writeBitsW b w v n = s.writeBits v n := by
  unfold BitStream.writeBitsW
  rw [chunkIndexW_eq h]
  simp only [next_eq h]
  rfl

theorem abreast_writeBits (b : Build) (w : Nat) (s : BitStream) (v : BitVec 128) (n : Nat) :
    Abreast w s.bitCursor BitStream.bitCursor (s.writeBits v n) (s.writeBitsW b w v n) :=
  .of_eq (fwd_writeBits s v n) (fwd_writeBitsW b w s v n) fun h => (writeBitsW_eq h v n).symm

theorem fwd_writeBit (s : BitStream) (v : BitVec 8) : Ens (s.writeBit v) fun t => s.bitCursor ≤ t.bitCursor := by
  unfold BitStream.writeBit
  exact (Ens.any _).bind fun c _ => (Ens.any _).bind fun bin _ => Ens.ok (fwd_offset (alloc_same s _) 1)

theorem abreast_writeBit (w : Nat) (s : BitStream) (v : BitVec 8) :
    Abreast w s.bitCursor BitStream.bitCursor (s.writeBit v) (s.writeBitW w v) := by
  refine .of_eq (fwd_writeBit s v) ?_ fun h => ?_
  · unfold BitStream.writeBitW
    exact (Ens.any _).bind fun c _ => (Ens.any _).bind fun bin _ => Ens.ok (fwd_offset (alloc_same s _) 1)
  · unfold BitStream.writeBitW
    rw [chunkIndexW_eq h]
    rfl

/-- the cursor of a stream that comes with something else -/
abbrev cur1 {α : Type} (r : BitStream × α) : Nat := r.1.bitCursor

theorem fwd_peekBits (s : BitStream) (n : Nat) : Ens (s.peekBits n) fun r => s.bitCursor ≤ cur1 r := by
  unfold BitStream.peekBits
  dsimp only
  split
  · exact Ens.ok (alloc_same2 s _ _).ge
  · refine (Ens.any _).bind fun c _ => ?_
    split
    · exact (Ens.any _).bind fun d _ => Ens.ok (alloc_same2 s _ _).ge
    · exact Ens.ok (alloc_same2 s _ _).ge

theorem abreast_peekBits (b : Build) (w : Nat) (s : BitStream) (n : Nat) :
    Abreast w s.bitCursor cur1 (s.peekBits n) (s.peekBitsW b w n) := by
  refine .of_eq (fwd_peekBits s n) ?_ fun h => ?_
  · unfold BitStream.peekBitsW
    refine (Ens.any _).bind fun nxt _ => ?_
    dsimp only
    split
    · exact Ens.ok (alloc_same2 s _ _).ge
    · refine (Ens.any _).bind fun c _ => ?_
      split
      · exact (Ens.any _).bind fun d _ => Ens.ok (alloc_same2 s _ _).ge
      · exact Ens.ok (alloc_same2 s _ _).ge
  · unfold BitStream.peekBitsW
    rw [chunkIndexW_eq h]
    simp only [next_eq h]
    rfl

theorem abreast_readBits (b : Build) (w : Nat) (s : BitStream) (n : Nat) :
    Abreast w s.bitCursor cur1 (s.readBits n) (s.readBitsW b w n) := by
  unfold BitStream.readBits BitStream.readBitsW
  refine (abreast_peekBits b w s n).bind ?_
  rintro ⟨t, v⟩
  exact .ok (fwd_offset rfl n)

theorem abreast_readBit (w : Nat) (s : BitStream) : Abreast w s.bitCursor cur1 s.readBit (s.readBitW w) := by
  refine .of_eq ?_ ?_ fun h => ?_
  · unfold BitStream.readBit
    dsimp only
    split
    · exact Ens.ok (Nat.le_refl _)
    · exact (Ens.any _).bind fun c _ => Ens.ok (fwd_offset rfl 1)
  · unfold BitStream.readBitW
    dsimp only
    split
    · exact Ens.ok (Nat.le_refl _)
    · exact (Ens.any _).bind fun c _ => Ens.ok (fwd_offset rfl 1)
  · unfold BitStream.readBitW
    rw [chunkIndexW_eq h]
    rfl

theorem abreast_writeUnary (b : Build) (w : Nat) : ∀ (fuel : Nat) (s : BitStream) (q : Int),
    Abreast w s.bitCursor BitStream.bitCursor (BitStream.writeUnary fuel s q) (BitStream.writeUnaryW b w fuel s q)
  | 0, _, _ => .error
  | fuel + 1, s, q => by
    unfold BitStream.writeUnary BitStream.writeUnaryW
    split
    · split
      · exact (abreast_writeBits b w s _ _).bind fun t => abreast_writeUnary b w fuel t _
      · exact abreast_writeBits b w s _ _
    · exact .ok (Nat.le_refl _)

theorem abreast_writeCompressed (b : Build) (w : Nat) (s : BitStream) (k : Nat) (v : BitVec 16) :
    Abreast w s.bitCursor BitStream.bitCursor (s.writeCompressed b k v) (s.writeCompressedW b w k v) := by
  unfold BitStream.writeCompressed BitStream.writeCompressedW
  refine .step fun a _ => .step fun m _ => ?_
  refine (abreast_writeBit w s _).bind fun t => ?_
  refine (abreast_writeUnary b w _ t _).bind fun u => ?_
  refine (abreast_writeBit w u _).bind fun x => ?_
  exact abreast_writeBits b w x _ _

theorem abreast_readOnes (b : Build) (w : Nat) : ∀ (fuel : Nat) (s : BitStream) (q : BitVec 16),
    Abreast w s.bitCursor cur1 (BitStream.readOnes b fuel s q) (BitStream.readOnesW b w fuel s q)
  | 0, _, _ => .error
  | fuel + 1, s, q => by
    unfold BitStream.readOnes BitStream.readOnesW
    refine (abreast_peekBits b w s 128).bind ?_
    rintro ⟨t, v⟩
    dsimp only
    split
    · exact .step fun q' _ => (abreast_readOnes b w fuel _ q').from (fwd_offset rfl 128)
    · exact .ok (Nat.le_refl _)

theorem abreast_readCompressed (b : Build) (w : Nat) (s : BitStream) (k : Nat) :
    Abreast w s.bitCursor cur1 (s.readCompressed b k) (s.readCompressedW b w k) := by
  unfold BitStream.readCompressed BitStream.readCompressedW
  refine (abreast_readBit w s).bind ?_
  rintro ⟨t, v⟩
  dsimp only
  refine (abreast_readOnes b w _ t _).bind ?_
  rintro ⟨u, chunk, q⟩
  dsimp only
  refine .step fun q' _ => ?_
  refine Abreast.from (c := (u.offsetBitCursor (BitStream.firstZero 128 chunk + 1)).bitCursor) ?_ (fwd_offset rfl _)
  refine (abreast_readBits b w _ k).bind ?_
  rintro ⟨x, r⟩
  dsimp only
  refine .step fun _ _ => .step fun _ _ => .step fun _ _ => .step fun _ _ => .step fun _ _ => ?_
  exact .ok (Nat.le_refl _)

/-! ## frames -/

theorem abreast_encodeSamples (b : Build) (w k : Nat) : ∀ (xs : List F32) (s : BitStream) (h : CircularStack Int),
    Abreast w s.bitCursor cur1 (FrameCodec.encodeSamples b k s h xs) (FrameCodec.encodeSamplesW b w k s h xs)
  | [], _, _ => .ok (Nat.le_refl _)
  | x :: xs, s, h => by
    unfold FrameCodec.encodeSamples FrameCodec.encodeSamplesW
    refine .step fun e _ => ?_
    exact (abreast_writeCompressed b w s k _).bind fun t => abreast_encodeSamples b w k xs t _

/-- the cursor after a frame -/
abbrev cur2 {α β : Type} (r : α × AudioStream × β) : Nat := r.2.1.stream.bitCursor

theorem abreast_encodeFrame (b : Build) (w : Nat) (c : FrameCodec) (st : AudioStream) (hs : FrameHeaders) (pcm : List F32) :
    Abreast w st.stream.bitCursor cur2 (c.encodeFrame b st hs pcm) (c.encodeFrameW b w st hs pcm) := by
  unfold FrameCodec.encodeFrame FrameCodec.encodeFrameW
  cases c.state
  all_goals dsimp only
  · refine .step fun p0 _ => (abreast_writeBits b w st.stream _ 16).bind fun s0 => ?_
    refine .step fun p1 _ => (abreast_writeBits b w s0 _ 16).bind fun s1 => ?_
    refine .step fun p2 _ => (abreast_writeBits b w s1 _ 16).bind fun s2 => ?_
    refine .step fun e _ => .step fun hs' _ => ?_
    refine (abreast_encodeSamples b w e _ s2 _).bind ?_
    rintro ⟨s, h⟩
    exact .ok (Nat.le_refl _)
  · refine .step fun e _ => .step fun hs' _ => ?_
    refine (abreast_encodeSamples b w e _ st.stream _).bind ?_
    rintro ⟨s, h⟩
    exact .ok (Nat.le_refl _)
  · exact .error

theorem abreast_decodeSamples (b : Build) (w k : Nat) : ∀ (n : Nat) (s : BitStream) (h : CircularStack Int) (buf : List F32),
    Abreast w s.bitCursor cur1 (FrameCodec.decodeSamples b k n s h buf) (FrameCodec.decodeSamplesW b w k n s h buf)
  | 0, _, _, _ => .ok (Nat.le_refl _)
  | n + 1, s, h, buf => by
    unfold FrameCodec.decodeSamples FrameCodec.decodeSamplesW
    refine (abreast_readCompressed b w s k).bind ?_
    rintro ⟨t, v⟩
    exact .step fun x _ => abreast_decodeSamples b w k n t _ _

theorem abreast_readRaw (b : Build) (w : Nat) (s : BitStream) : Abreast w s.bitCursor cur1 (FrameCodec.readRaw s) (FrameCodec.readRawW b w s) := by
  unfold FrameCodec.readRaw FrameCodec.readRawW
  refine (abreast_readBits b w s 16).bind ?_
  rintro ⟨t, v⟩
  exact .ok (Nat.le_refl _)

theorem abreast_decodeFrame (b : Build) (w : Nat) (c : FrameCodec) (st : AudioStream) (hs : FrameHeaders) :
    Abreast w st.stream.bitCursor cur2 (c.decodeFrame b st hs) (c.decodeFrameW b w st hs) := by
  unfold FrameCodec.decodeFrame FrameCodec.decodeFrameW
  refine .step ?_
  rintro ⟨hs', hdr?⟩ -
  dsimp only
  cases hdr? with
  | none => exact .ok (Nat.le_refl _)
  | some hdr =>
    cases c.state
    all_goals dsimp only
    · refine (abreast_readRaw b w st.stream).bind ?_
      rintro ⟨s0, x0⟩
      refine (abreast_readRaw b w s0).bind ?_
      rintro ⟨s1, x1⟩
      refine (abreast_readRaw b w s1).bind ?_
      rintro ⟨s2, x2⟩
      refine (abreast_decodeSamples b w _ _ s2 _ _).bind ?_
      rintro ⟨s, h, buf⟩
      exact .ok (Nat.le_refl _)
    · exact .error
    · refine (abreast_decodeSamples b w _ _ st.stream _ _).bind ?_
      rintro ⟨s, h, buf⟩
      exact .ok (Nat.le_refl _)

/-! ## the codec -/

/-- where the bit stream of a codec stands -/
abbrev AdhocCodec.cur (c : AdhocCodec) : Nat := c.stream.stream.bitCursor

theorem abreast_foldlM {α : Type} {w : Nat} {f f' : AdhocCodec → α → R AdhocCodec}
    (hf : ∀ c a, Abreast w c.cur AdhocCodec.cur (f c a) (f' c a)) : ∀ (l : List α) (c : AdhocCodec),
    Abreast w c.cur AdhocCodec.cur (l.foldlM f c) (l.foldlM f' c)
  | [], _ => .ok (Nat.le_refl _)
  | a :: l, c => by
    rw [List.foldlM_cons, List.foldlM_cons]
    exact (hf c a).bind fun d => abreast_foldlM hf l d

theorem abreast_encode (b : Build) (w : Nat) (c : AdhocCodec) (pcm : List F32) :
    Abreast w c.cur (fun r => r.1.cur) (c.encode b pcm) (c.encodeW b w pcm) := by
  unfold AdhocCodec.encode AdhocCodec.encodeW AdhocCodec.encodeRaw AdhocCodec.encodeRawW
  refine Abreast.bind (g := AdhocCodec.cur) (.step fun info _ => .step fun n _ => abreast_foldlM (fun c ch => ?_) _ c) fun d => .ok (Nat.le_refl _)
  unfold AdhocCodec.encodeChannel AdhocCodec.encodeChannelW
  refine .step fun xs _ => .step ?_
  rintro ⟨seq, ys⟩ -
  refine .step fun fc _ => (abreast_encodeFrame b w fc c.stream _ ys).bind ?_
  rintro ⟨fc', st, hs⟩
  exact .step fun chs _ => .ok (Nat.le_refl _)

theorem abreast_decodeBlock (b : Build) (w : Nat) (n : Nat) (c : AdhocCodec) :
    Abreast w c.cur AdhocCodec.cur (c.decodeBlock b n) (c.decodeBlockW b w n) := by
  refine abreast_foldlM (fun c ch => ?_) _ c
  unfold AdhocCodec.decodeChannel AdhocCodec.decodeChannelW
  refine .step fun fc _ => (abreast_decodeFrame b w fc c.stream _).bind ?_
  rintro ⟨fc', st, hs, r⟩
  exact .step fun chs _ => .ok (Nat.le_refl _)

theorem abreast_bufferAudio (b : Build) (w : Nat) (n : Nat) : ∀ (left : Nat) (c : AdhocCodec),
    Abreast w c.cur (fun r => r.1.cur) (AdhocCodec.bufferAudio b n left c) (AdhocCodec.bufferAudioW b w n left c)
  | 0, _ => .ok (Nat.le_refl _)
  | left + 1, c => by
    unfold AdhocCodec.bufferAudio AdhocCodec.bufferAudioW
    split
    · exact (abreast_decodeBlock b w n c).bind fun d => abreast_bufferAudio b w n left d
    · exact .ok (Nat.le_refl _)

theorem popBlock_cur {legal : Nat} : ∀ (n ch : Nat) (c : AdhocCodec) (pcm : List F32) (cursor : Nat),
    Ens (AdhocCodec.popBlock legal n ch c pcm cursor) fun r => c.cur ≤ r.1.cur
  | 0, _, _, _, _ => Ens.ok (Nat.le_refl _)
  | n + 1, ch, c, pcm, cursor => by
    unfold AdhocCodec.popBlock
    split
    · exact (Ens.any _).bind fun _ _ => (Ens.any _).bind fun _ _ => (Ens.any _).bind fun _ _ => popBlock_cur n (ch + 1) _ _ _
    · exact Ens.ok (Nat.le_refl _)

theorem abreast_decodeLoop (b : Build) (w n legal : Nat) : ∀ (fuel : Nat) (c : AdhocCodec) (pcm : List F32) (cursor : Nat),
    Abreast w c.cur (fun r => r.1.cur) (AdhocCodec.decodeLoop b n legal fuel c pcm cursor) (AdhocCodec.decodeLoopW b w n legal fuel c pcm cursor)
  | 0, _, _, _ => .error
  | fuel + 1, c, pcm, cursor => by
    unfold AdhocCodec.decodeLoop AdhocCodec.decodeLoopW
    split
    · refine (abreast_bufferAudio b w n _ c).bind ?_
      rintro ⟨d, left⟩
      dsimp only
      split
      · exact .ok (Nat.le_refl _)
      · refine (Abreast.refl (popBlock_cur n 0 d pcm cursor)).bind ?_
        rintro ⟨e, pcm', cursor'⟩
        exact abreast_decodeLoop b w n legal fuel e pcm' cursor'
    · exact .ok (Nat.le_refl _)

theorem abreast_decode (b : Build) (w : Nat) (c : AdhocCodec) (buf : List F32) :
    Abreast w c.cur (fun r => r.1.cur) (c.decode b buf) (c.decodeW b w buf) := by
  unfold AdhocCodec.decode AdhocCodec.decodeW AdhocCodec.decodeRaw AdhocCodec.decodeRawW
  refine Abreast.bind (g := fun r => r.1.cur) (.step fun info _ => .step fun q _ => (abreast_decodeLoop b w _ _ _ c buf 0).bind ?_) ?_
  · rintro ⟨d, pcm, cursor⟩
    exact .ok (Nat.le_refl _)
  · rintro ⟨d, pcm, n⟩
    exact .ok (Nat.le_refl _)

theorem dropOne_cur (c : AdhocCodec) (n : Nat) : Ens (c.dropOne n) fun d => c.cur ≤ d.cur := by
  unfold AdhocCodec.dropOne
  generalize List.range n = l
  induction l generalizing c with
  | nil => exact Ens.ok (Nat.le_refl _)
  | cons a l ih =>
    rw [List.foldlM_cons]
    refine Ens.bind (P := fun d : AdhocCodec => c.cur ≤ d.cur) ?_ fun d hd => ?_
    · exact (Ens.any _).bind fun _ _ => (Ens.any _).bind fun _ _ => Ens.ok (Nat.le_refl _)
    · exact fun e he => hd.trans (ih d e he)

theorem prune_cur {b : Build} {n target : Nat} : ∀ (fuel skipped : Nat) (c : AdhocCodec),
    Ens (AdhocCodec.prune b n target fuel skipped c) fun d => c.cur ≤ d.cur
  | 0, _, _ => Ens.error
  | fuel + 1, skipped, c => by
    unfold AdhocCodec.prune
    split
    · refine (dropOne_cur c n).bind fun d hd => (Ens.any _).bind fun k _ => ?_
      exact fun e he => hd.trans (prune_cur fuel k d e he)
    · exact Ens.ok (Nat.le_refl _)

theorem abreast_seek (b : Build) (w : Nat) (c : AdhocCodec) (dt : SeekFrom) :
    Abreast w 0 AdhocCodec.cur (c.seek b dt) (c.seekW b w dt) := by
  unfold AdhocCodec.seek AdhocCodec.seekW
  refine .step fun info _ => ?_
  dsimp only
  cases dt with
  | start t =>
    dsimp only
    split
    · exact .ok (Nat.zero_le _)
    · unfold AdhocCodec.seekTo AdhocCodec.seekToW
      refine .step fun target _ => .step fun len _ => .step ?_
      rintro ⟨skipped, block⟩ -
      refine .step fun hdr? _ => .step fun hdr _ => ?_
      refine Abreast.from (Abreast.bind (g := AdhocCodec.cur) (abreast_foldlM (fun c off => ?_) _ _) fun d => Abreast.refl (prune_cur _ _ d)) (Nat.zero_le _)
      unfold AdhocCodec.seekChannel AdhocCodec.seekChannelW
      refine .step fun hdr? _ => .step fun hdr _ => .step fun fc _ => ?_
      refine (abreast_decodeFrame b w _ c.stream _).bind ?_
      rintro ⟨fc', st, hs, r⟩
      exact .step fun chs _ => .ok (Nat.le_refl _)
  | current t => exact .error
  | «end» t => exact .error

end Adhoc
