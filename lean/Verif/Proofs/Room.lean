import Verif.Proofs.Basic
import Verif.Model.Frame

/-! How many chunks writing allocates, and that reading allocates none below the last write. -/

namespace Adhoc

/-- after the write `s` to `s'` that ended with `w` bits there is a chunk behind the one in which these `w` bits start -/
structure Grown (s s' : BitStream) (w : Nat) : Prop where
  mono : s.binary.length ≤ s'.binary.length
  room : (s'.bitCursor - w) / 128 + 2 ≤ s'.binary.length
  inside : s'.bitCursor ≤ 128 * s'.binary.length

/-- the read from `s` to `s'` that ended with `w` bits allocates nothing if there is a chunk behind the one in which these `w` bits start -/
structure Gentle (s s' : BitStream) (w : Nat) : Prop where
  ahead : s.bitCursor + w ≤ s'.bitCursor
  keep : (s'.bitCursor - w) / 128 + 2 ≤ s.binary.length → s'.binary = s.binary
  cap1 : s.capacity ≤ s'.capacity
  cap2 : s'.capacity ≤ max s.capacity s'.bitCursor
  pad : ∃ n, s'.binary = s.binary ++ List.replicate n 0#128

theorem alloc_len (s : BitStream) (i : Nat) :
    (s.allocateIfNeeded i).binary.length = if i ≥ s.binary.length then s.binary.length + 1 else s.binary.length := by
  unfold BitStream.allocateIfNeeded
  split <;> simp

theorem alloc_cursor (s : BitStream) (i : Nat) : (s.allocateIfNeeded i).bitCursor = s.bitCursor := by
  unfold BitStream.allocateIfNeeded
  split <;> rfl

theorem alloc_capacity (s : BitStream) (i : Nat) : (s.allocateIfNeeded i).capacity = s.capacity := by
  unfold BitStream.allocateIfNeeded
  split <;> rfl

theorem alloc_pad (s : BitStream) (i : Nat) : ∃ n, (s.allocateIfNeeded i).binary = s.binary ++ List.replicate n 0#128 := by
  unfold BitStream.allocateIfNeeded
  split
  · exact ⟨1, rfl⟩
  · exact ⟨0, by simp⟩

theorem alloc_id {s : BitStream} {i : Nat} (h : i < s.binary.length) : s.allocateIfNeeded i = s := by
  unfold BitStream.allocateIfNeeded
  rw [if_neg (by omega)]

theorem setIdx_inv {α : Type} {l l' : List α} {i : Nat} {a : α} (h : setIdx l i a = .ok l') : i < l.length ∧ l'.length = l.length := by
  unfold setIdx at h
  split at h
  · rename_i hi
    exact ⟨hi, by rw [← Except.ok.inj h]; simp⟩
  · cases h

/-! ## writing -/

theorem writeBits_inv {s s' : BitStream} {v : BitVec 128} {n : Nat} (hn : n ≤ 128) (hi : s.bitCursor ≤ 128 * s.binary.length)
    (h : s.writeBits v n = .ok s') : Grown s s' n := by
  unfold BitStream.writeBits at h
  dsimp only at h
  obtain ⟨c, -, h⟩ := bind_eq_ok.1 h
  obtain ⟨bin, hb, h⟩ := bind_eq_ok.1 h
  obtain ⟨hlt, hbl⟩ := setIdx_inv hb
  have h1 := alloc_len s s.chunkIndex
  have h2 := alloc_len (s.allocateIfNeeded s.chunkIndex) (s.chunkIndex + 1)
  generalize hA : (s.allocateIfNeeded s.chunkIndex).allocateIfNeeded (s.chunkIndex + 1) = A at *
  have hc : A.bitCursor = s.bitCursor := by rw [← hA, alloc_cursor, alloc_cursor]
  obtain ⟨t, rfl, key⟩ : ∃ t : BitStream, s' = t.offsetBitCursor n ∧ t.binary.length = bin.length ∧ t.bitCursor = A.bitCursor := by
    split at h
    · obtain ⟨d, -, h⟩ := bind_eq_ok.1 h
      obtain ⟨bin2, hb2, h⟩ := bind_eq_ok.1 h
      exact ⟨_, (Except.ok.inj h).symm, (setIdx_inv hb2).2, rfl⟩
    · exact ⟨_, (Except.ok.inj h).symm, rfl, rfl⟩
  have hlen : A.binary.length = t.binary.length := by omega
  have hcu : (t.offsetBitCursor n).bitCursor = s.bitCursor + n := by rw [← hc, ← key.2]; rfl
  have hci : s.chunkIndex = s.bitCursor / 128 := rfl
  have hr : s.bitCursor / 128 + 2 ≤ t.binary.length := by split at h1 <;> split at h2 <;> omega
  refine ⟨?_, ?_, ?_⟩
  · show s.binary.length ≤ t.binary.length
    split at h1 <;> split at h2 <;> omega
  · rw [hcu, Nat.add_sub_cancel]
    exact hr
  · rw [hcu]
    show _ ≤ 128 * t.binary.length
    omega

/-- a write keeps the cursor within or at the end of the chunks -/
structure Within (s s' : BitStream) : Prop where
  mono : s.binary.length ≤ s'.binary.length
  inside : s'.bitCursor ≤ 128 * s'.binary.length

theorem Grown.within {s s' : BitStream} {w : Nat} (h : Grown s s' w) : Within s s' := ⟨h.mono, h.inside⟩

theorem writeBit_inv {s s' : BitStream} {v : BitVec 8} (h : s.writeBit v = .ok s') : Within s s' := by
  unfold BitStream.writeBit at h
  dsimp only at h
  obtain ⟨c, -, h⟩ := bind_eq_ok.1 h
  obtain ⟨bin, hb, h⟩ := bind_eq_ok.1 h
  obtain ⟨hlt, hbl⟩ := setIdx_inv hb
  have h1 := alloc_len s s.chunkIndex
  have hci : s.chunkIndex = s.bitCursor / 128 := rfl
  rw [← Except.ok.inj h]
  constructor
  · show s.binary.length ≤ bin.length
    split at h1 <;> omega
  · show (s.allocateIfNeeded s.chunkIndex).bitCursor + 1 ≤ 128 * bin.length
    rw [alloc_cursor]
    split at h1 <;> omega

theorem writeUnary_inv : ∀ (fuel : Nat) {s s' : BitStream} {q : Int}, s.bitCursor ≤ 128 * s.binary.length →
    BitStream.writeUnary fuel s q = .ok s' → Within s s'
  | 0, _, _, _, _, h => by simp [BitStream.writeUnary] at h
  | fuel + 1, s, s', q, hi, h => by
    unfold BitStream.writeUnary at h
    split at h
    · split at h
      · obtain ⟨t, ht, h⟩ := bind_eq_ok.1 h
        have h1 := writeBits_inv le_rfl hi ht
        have h2 := writeUnary_inv fuel h1.inside h
        exact ⟨h1.mono.trans h2.mono, h2.inside⟩
      · exact (writeBits_inv (by omega) hi h).within
    · rw [← Except.ok.inj h]; exact ⟨le_rfl, hi⟩

theorem writeCompressed_inv {b : Build} {s s' : BitStream} {k : Nat} (hk : k ≤ 15) {v : BitVec 16}
    (h : s.writeCompressed b k v = .ok s') : Grown s s' k := by
  unfold BitStream.writeCompressed at h
  dsimp only at h
  obtain ⟨a, -, h⟩ := bind_eq_ok.1 h
  obtain ⟨m, -, h⟩ := bind_eq_ok.1 h
  obtain ⟨s1, h1, h⟩ := bind_eq_ok.1 h
  obtain ⟨s2, h2, h⟩ := bind_eq_ok.1 h
  obtain ⟨s3, h3, h⟩ := bind_eq_ok.1 h
  have g1 := writeBit_inv h1
  have g2 := writeUnary_inv _ g1.inside h2
  have g3 := writeBit_inv h3
  have g4 := writeBits_inv (by omega) g3.inside h
  exact ⟨g1.mono.trans (g2.mono.trans (g3.mono.trans g4.mono)), g4.room, g4.inside⟩

theorem encodeSamples_inv {b : Build} {k : Nat} (hk : k ≤ 15) (ys : List F32) : ∀ {s s' : BitStream} {h h' : CircularStack Int},
    FrameCodec.encodeSamples b k s h ys = .ok (s', h') →
    (ys = [] → s' = s) ∧ (ys ≠ [] → Grown s s' k) := by
  induction ys with
  | nil =>
    intro s s' h h' e
    unfold FrameCodec.encodeSamples at e
    rw [← (Prod.mk.inj (Except.ok.inj e)).1]
    exact ⟨fun _ => rfl, fun h => absurd rfl h⟩
  | cons y ys ih =>
    intro s s' h h' e
    unfold FrameCodec.encodeSamples at e
    dsimp only at e
    obtain ⟨x, -, e⟩ := bind_eq_ok.1 e
    obtain ⟨s1, e1, e⟩ := bind_eq_ok.1 e
    have g1 := writeCompressed_inv hk e1
    refine ⟨fun h => by simp at h, fun _ => ?_⟩
    obtain ⟨i1, i2⟩ := ih e
    by_cases hy : ys = []
    · rw [i1 hy]; exact g1
    · have g2 := i2 hy
      exact ⟨g1.mono.trans g2.mono, g2.room, g2.inside⟩

/-! ## reading -/

theorem Gentle.trans {s t u : BitStream} {w w' : Nat} (h : Gentle s t w) (h' : Gentle t u w') : Gentle s u w' where
  ahead := by have := h.ahead; have := h'.ahead; omega
  keep := by
    intro hr
    have h1 := h.ahead
    have h2 := h'.ahead
    have e1 := h.keep (le_trans (by gcongr ?_ / _ + _; omega) hr)
    rw [← e1]
    exact h'.keep (by rw [e1]; exact hr)
  cap1 := h.cap1.trans h'.cap1
  cap2 := by have := h.cap2; have := h'.cap2; have := h'.ahead; omega
  pad := by
    obtain ⟨n, e⟩ := h.pad
    obtain ⟨m, e'⟩ := h'.pad
    exact ⟨n + m, by rw [e', e, List.append_assoc, List.replicate_add]⟩

theorem peekBits_inv {s s' : BitStream} {n : Nat} {v : BitVec 128} (h : s.peekBits n = .ok (s', v)) :
    s'.bitCursor = s.bitCursor ∧ s'.capacity = s.capacity ∧ (s.bitCursor / 128 + 2 ≤ s.binary.length → s'.binary = s.binary) ∧
    ∃ n, s'.binary = s.binary ++ List.replicate n 0#128 := by
  have key : s' = (s.allocateIfNeeded s.chunkIndex).allocateIfNeeded (s.chunkIndex + 1) := by
    unfold BitStream.peekBits at h
    dsimp only at h
    generalize (s.allocateIfNeeded s.chunkIndex).allocateIfNeeded (s.chunkIndex + 1) = A at *
    split at h
    · exact (Prod.mk.inj (Except.ok.inj h)).1.symm
    · obtain ⟨c, -, h⟩ := bind_eq_ok.1 h
      split at h
      · obtain ⟨d, -, h⟩ := bind_eq_ok.1 h
        exact (Prod.mk.inj (Except.ok.inj h)).1.symm
      · exact (Prod.mk.inj (Except.ok.inj h)).1.symm
  rw [key]
  refine ⟨by rw [alloc_cursor, alloc_cursor], by rw [alloc_capacity, alloc_capacity], ?_, ?_⟩
  · intro hr
    have : s.chunkIndex = s.bitCursor / 128 := rfl
    rw [alloc_id (s := s) (by omega), alloc_id (by omega)]
  · obtain ⟨n, e⟩ := alloc_pad s s.chunkIndex
    obtain ⟨m, e'⟩ := alloc_pad (s.allocateIfNeeded s.chunkIndex) (s.chunkIndex + 1)
    exact ⟨n + m, by rw [e', e, List.append_assoc, List.replicate_add]⟩

theorem calm_offset (s : BitStream) (n : Nat) : Gentle s (s.offsetBitCursor n) n where
  ahead := le_rfl
  keep _ := rfl
  cap1 := le_max_right _ _
  cap2 := by rw [max_comm]; exact le_rfl
  pad := ⟨0, by simp [BitStream.offsetBitCursor]⟩

theorem calm_peek {s s' : BitStream} {n : Nat} {v : BitVec 128} (h : s.peekBits n = .ok (s', v)) : Gentle s s' 0 := by
  obtain ⟨h1, h2, h3, h4⟩ := peekBits_inv h
  exact ⟨by omega, by simpa [h1] using h3, by omega, by omega, h4⟩

theorem readBits_inv {s s' : BitStream} {n : Nat} {v : BitVec 128} (h : s.readBits n = .ok (s', v)) : Gentle s s' n := by
  unfold BitStream.readBits at h
  obtain ⟨⟨t, w⟩, ht, h⟩ := bind_eq_ok.1 h
  rw [← (Prod.mk.inj (Except.ok.inj h)).1]
  exact (calm_peek ht).trans (calm_offset t n)

theorem Gentle.loosen {s t : BitStream} {w : Nat} (h : Gentle s t w) : Gentle s t 0 where
  ahead := by have := h.ahead; omega
  keep hr := h.keep (le_trans (by gcongr ?_ / _ + _; omega) hr)
  cap1 := h.cap1
  cap2 := h.cap2
  pad := h.pad

theorem Gentle.refl (s : BitStream) : Gentle s s 0 := ⟨le_rfl, fun _ => rfl, le_rfl, le_max_left _ _, 0, by simp⟩

theorem readBit_inv {s s' : BitStream} {v : BitVec 128} (h : s.readBit = .ok (s', v)) : Gentle s s' 0 := by
  unfold BitStream.readBit at h
  dsimp only at h
  split at h
  · rw [← (Prod.mk.inj (Except.ok.inj h)).1]; exact .refl s
  · obtain ⟨c, -, h⟩ := bind_eq_ok.1 h
    rw [← (Prod.mk.inj (Except.ok.inj h)).1]
    exact (calm_offset s 1).loosen

theorem readOnes_inv {b : Build} : ∀ (fuel : Nat) {s s' : BitStream} {q q' : BitVec 16} {v : BitVec 128},
    BitStream.readOnes b fuel s q = .ok (s', v, q') → Gentle s s' 0
  | 0, _, _, _, _, _, h => by simp [BitStream.readOnes] at h
  | fuel + 1, s, s', q, q', v, h => by
    unfold BitStream.readOnes at h
    obtain ⟨⟨t, w⟩, ht, h⟩ := bind_eq_ok.1 h
    dsimp only at h
    split at h
    · obtain ⟨a, -, h⟩ := bind_eq_ok.1 h
      exact ((calm_peek ht).trans (calm_offset t 128)).trans (readOnes_inv fuel h)
    · rw [← (Prod.mk.inj (Except.ok.inj h)).1]
      exact calm_peek ht

theorem readCompressed_inv {b : Build} {s s' : BitStream} {k : Nat} {v : BitVec 16} (h : s.readCompressed b k = .ok (s', v)) : Gentle s s' k := by
  unfold BitStream.readCompressed at h
  obtain ⟨⟨s1, w1⟩, h1, h⟩ := bind_eq_ok.1 h
  dsimp only at h
  obtain ⟨⟨s2, w2, q2⟩, h2, h⟩ := bind_eq_ok.1 h
  dsimp only at h
  obtain ⟨a, -, h⟩ := bind_eq_ok.1 h
  obtain ⟨⟨s3, w3⟩, h3, h⟩ := bind_eq_ok.1 h
  dsimp only at h
  obtain ⟨a1, -, h⟩ := bind_eq_ok.1 h
  obtain ⟨a2, -, h⟩ := bind_eq_ok.1 h
  obtain ⟨a3, -, h⟩ := bind_eq_ok.1 h
  obtain ⟨a4, -, h⟩ := bind_eq_ok.1 h
  obtain ⟨a5, -, h⟩ := bind_eq_ok.1 h
  rw [← (Prod.mk.inj (Except.ok.inj h)).1]
  exact (((readBit_inv h1).trans (readOnes_inv _ h2)).trans (calm_offset s2 _)).trans (readBits_inv h3)

theorem decodeSamples_inv {b : Build} {k : Nat} : ∀ (n : Nat) {s s' : BitStream} {h h' : CircularStack Int} {buf buf' : List F32},
    FrameCodec.decodeSamples b k n s h buf = .ok (s', h', buf') → (n = 0 → s' = s) ∧ (n ≠ 0 → Gentle s s' k)
  | 0, s, s', h, h', buf, buf', e => by
    unfold FrameCodec.decodeSamples at e
    rw [← (Prod.mk.inj (Except.ok.inj e)).1]
    exact ⟨fun _ => rfl, fun h => absurd rfl h⟩
  | n + 1, s, s', h, h', buf, buf', e => by
    unfold FrameCodec.decodeSamples at e
    obtain ⟨⟨s1, x⟩, e1, e⟩ := bind_eq_ok.1 e
    dsimp only at e
    obtain ⟨y, -, e⟩ := bind_eq_ok.1 e
    have g1 := readCompressed_inv e1
    refine ⟨fun h => absurd h (by omega), fun _ => ?_⟩
    obtain ⟨g2, g3⟩ := decodeSamples_inv n e
    rcases Nat.eq_zero_or_pos n with hn | hn
    · rw [g2 hn]; exact g1
    · exact g1.trans (g3 (by omega))

theorem readRaw_inv {s s' : BitStream} {x : Int} (h : FrameCodec.readRaw s = .ok (s', x)) : Gentle s s' 16 := by
  unfold FrameCodec.readRaw at h
  obtain ⟨⟨s1, v⟩, h1, h⟩ := bind_eq_ok.1 h
  rw [← (Prod.mk.inj (Except.ok.inj h)).1]
  exact readBits_inv h1

/-- the headers are only walked through -/
theorem next_inv {h h' : FrameHeaders} {r : Option FrameHeader} (e : h.next = .ok (h', r)) : h'.reset = h.reset := by
  unfold FrameHeaders.next at e
  dsimp only at e
  split at e
  · obtain ⟨a, -, e⟩ := bind_eq_ok.1 e
    obtain ⟨a, -, e⟩ := bind_eq_ok.1 e
    obtain ⟨a, -, e⟩ := bind_eq_ok.1 e
    rw [← (Prod.mk.inj (Except.ok.inj e)).1]
    rfl
  · rw [← (Prod.mk.inj (Except.ok.inj e)).1]

/-- how a frame is read: `w` is the number of bits read last -/
theorem decodeFrame_inv {b : Build} {fc fc' : FrameCodec} {st st' : AudioStream} {hd hd' hd1 : FrameHeaders} {n : Option Nat} {hdr : FrameHeader}
    (hnext : hd.next = .ok (hd1, some hdr)) (e : fc.decodeFrame b st hd = .ok (fc', st', hd', n)) :
    hd'.reset = hd.reset ∧ st'.info = st.info ∧
    (fc.state = .init → Gentle st.stream st'.stream (if hdr.size ≤ 3 then 16 else hdr.exponent)) ∧
    (fc.state ≠ .init → (hdr.size = 0 → st'.stream = st.stream) ∧ (hdr.size ≠ 0 → Gentle st.stream st'.stream hdr.exponent)) := by
  unfold FrameCodec.decodeFrame at e
  rw [hnext, show ∀ (f : FrameHeaders × Option FrameHeader → R (FrameCodec × AudioStream × FrameHeaders × Option Nat)), (Except.ok (hd1, some hdr) >>= f) = f (hd1, some hdr) from fun _ => rfl] at e
  dsimp only at e
  have hr := next_inv hnext
  split at e
  · rename_i hst
    obtain ⟨⟨s1, x1⟩, e1, e⟩ := bind_eq_ok.1 e
    dsimp only at e
    obtain ⟨⟨s2, x2⟩, e2, e⟩ := bind_eq_ok.1 e
    dsimp only at e
    obtain ⟨⟨s3, x3⟩, e3, e⟩ := bind_eq_ok.1 e
    dsimp only at e
    obtain ⟨⟨s4, x4, y4⟩, e4, e⟩ := bind_eq_ok.1 e
    have hr := Prod.mk.inj (Except.ok.inj e)
    have hr2 := Prod.mk.inj hr.2
    have hr3 := Prod.mk.inj hr2.2
    rw [← hr2.1, ← hr3.1]
    refine ⟨next_inv hnext, rfl, fun _ => ?_, fun h => absurd hst h⟩
    have g3 := ((readRaw_inv e1).trans (readRaw_inv e2)).trans (readRaw_inv e3)
    obtain ⟨g4, g5⟩ := decodeSamples_inv _ e4
    by_cases h3 : hdr.size ≤ 3
    · rw [if_pos h3]
      show Gentle st.stream s4 16
      rw [g4 (by omega)]; exact g3
    · rw [if_neg h3]
      exact g3.trans (g5 (by omega))
  · rename_i hst
    obtain ⟨⟨s4, x4, y4⟩, e4, e⟩ := bind_eq_ok.1 e
    have hr := Prod.mk.inj (Except.ok.inj e)
    have hr2 := Prod.mk.inj hr.2
    have hr3 := Prod.mk.inj hr2.2
    rw [← hr2.1, ← hr3.1]
    obtain ⟨g4, g5⟩ := decodeSamples_inv _ e4
    exact ⟨next_inv hnext, rfl, fun h => (by rw [hst] at h; cases h), fun _ => ⟨g4, g5⟩⟩
  · cases e

end Adhoc
