import Verif.Proofs.Alike
import Verif.Proofs.Terminate
import Verif.Props.Bounds

/-! # C118: a cleared bit stream is as good as new -/

namespace Adhoc
open Spec

namespace Spec

/-- a call together with what it answers -/
def answer (b : Build) (s : BitStream) : StreamCall → R (BitStream × Option Nat)
  | .writeBit v => (fun s => (s, none)) <$> s.writeBit v
  | .writeBits v n => (fun s => (s, none)) <$> s.writeBits v n
  | .writeU16 v => (fun s => (s, none)) <$> s.writeU16 v
  | .writeCompressed k v => (fun s => (s, none)) <$> s.writeCompressed b k v
  | .writeCapped d v => (fun s => (s, none)) <$> s.writeCompressedCapped b d v
  | .readBit => (fun r => (r.1, some r.2.toNat)) <$> s.readBit
  | .readBits n => (fun r => (r.1, some r.2.toNat)) <$> s.readBits n
  | .peekBits n => (fun r => (r.1, some r.2.toNat)) <$> s.peekBits n
  | .readCompressed k => (fun r => (r.1, some r.2.toNat)) <$> s.readCompressed b k
  | .readCapped d => (fun r => (r.1, some r.2.toNat)) <$> s.readCompressedCapped b d
  | .seekStart => pure (s.seekStart, none)
  | .zero => pure (s.zero, none)

/-- what a sequence of calls shows: the answer of each call and the cursor after it (`len`), and the bits in memory in the end -/
def shown (b : Build) : BitStream → List StreamCall → R (List (Option Nat × Nat) × (Nat → Bool))
  | s, [] => pure ([], bitAt s.binary)
  | s, c :: cs => do
    let r ← answer b s c
    let rest ← shown b r.1 cs
    pure ((r.2, r.1.len) :: rest.1, rest.2)

/-- single bits, which every call that reads a compressed number begins with, are read within the memory of the stream -/
def within (b : Build) : BitStream → List StreamCall → Prop
  | _, [] => True
  | s, c :: cs =>
    (match c with
      | .readBit | .readCompressed _ => s.len < s.capacityUpperbound
      | .readCapped _ => s.len + 1 < s.capacityUpperbound
      | _ => True) ∧ ∀ r, answer b s c = .ok r → within b r.1 cs

end Spec

/-- the answers belong to the calls of C74 and C117 -/
theorem answer_run (b : Build) (s : BitStream) (c : StreamCall) : (·.1) <$> answer b s c = c.run b s := by
  cases c <;> simp [answer, StreamCall.run]

/-- **C118**: after `zero` and `seek_start` a stream shows what a new one shows -/
def C118_statement : Prop :=
  ∀ (b : Build) (s : BitStream) (calls : List StreamCall), (∀ c ∈ calls, c.legal) → shown b s.zero.seekStart calls = shown b .new calls

/-- C118 is false: reading a bit from a new stream stays where it is, reading one from a cleared stream moves on -/
theorem C118_false : ¬ C118_statement := by
  intro h
  have := h .release { binary := [1#128], bitCursor := 1, capacity := 1 } [.readBit] (by simp [StreamCall.legal])
  have e1 : shown .release (BitStream.seekStart (BitStream.zero { binary := [1#128], bitCursor := 1, capacity := 1 })) [.readBit] =
    .ok ([(some 0, 1)], bitAt [0#128]) := rfl
  have e2 : shown .release .new [.readBit] = .ok ([(some 0, 0)], bitAt []) := rfl
  rw [e1, e2] at this
  injection this with this
  have := (Prod.mk.inj this).1
  revert this
  decide

/-- a stream and another with the same bits and cursor, but more memory -/
structure Roomier (s t : BitStream) : Prop where
  cursor : s.bitCursor = t.bitCursor
  inS : InBuf s
  len : s.binary.length ≤ t.binary.length
  chunk : ∀ i : Nat, s.binary[i]?.getD 0#128 = t.binary[i]?.getD 0#128

theorem Roomier.inT {s t : BitStream} (H : Roomier s t) : InBuf t := by
  have h1 := H.inS
  have h2 := H.cursor
  have h3 := H.len
  unfold InBuf at *
  omega

theorem alloc_getD (s : BitStream) (c i : Nat) : (s.allocateIfNeeded c).binary[i]?.getD 0#128 = s.binary[i]?.getD 0#128 := by
  unfold BitStream.allocateIfNeeded
  split
  · dsimp only
    rcases lt_trichotomy i s.binary.length with h | h | h
    · rw [List.getElem?_append_left h]
    · subst h; simp
    · rw [List.getElem?_eq_none (by simp; omega), List.getElem?_eq_none (by omega)]
  · rfl

theorem Roomier.alloc {s t : BitStream} (H : Roomier s t) :
    Roomier ((s.allocateIfNeeded s.chunkIndex).allocateIfNeeded (s.chunkIndex + 1)) ((t.allocateIfNeeded s.chunkIndex).allocateIfNeeded (s.chunkIndex + 1)) ∧
    s.chunkIndex + 2 ≤ ((s.allocateIfNeeded s.chunkIndex).allocateIfNeeded (s.chunkIndex + 1)).binary.length := by
  have h1 : s.chunkIndex ≤ s.binary.length := H.inS
  have h3 := H.len
  have e : s.bitCursor / 128 = s.chunkIndex := rfl
  refine ⟨⟨by simp [H.cursor], ?_, ?_, fun i => by simp only [alloc_getD]; exact H.chunk i⟩, ?_⟩
  · show ((s.allocateIfNeeded s.chunkIndex).allocateIfNeeded (s.chunkIndex + 1)).bitCursor / 128 ≤ _
    rw [BitStream.allocate_cursor, BitStream.allocate_cursor, e, BitStream.allocate_length, BitStream.allocate_length]
    split_ifs <;> omega
  · simp only [BitStream.allocate_length]
    split_ifs <;> omega
  · simp only [BitStream.allocate_length]
    split_ifs <;> omega

theorem Roomier.get {s t : BitStream} (H : Roomier s t) {i : Nat} (h1 : i < s.binary.length) (h2 : i < t.binary.length) : s.binary[i] = t.binary[i] := by
  have := H.chunk i
  rwa [List.getElem?_eq_getElem h1, List.getElem?_eq_getElem h2] at this

theorem Roomier.set {s t : BitStream} (H : Roomier s t) {i : Nat} (h1 : i < s.binary.length) (c : BitVec 128) :
    Roomier { s with binary := s.binary.set i c } { t with binary := t.binary.set i c } := by
  refine ⟨H.cursor, by simpa [InBuf] using H.inS, by simpa using H.len, fun j => ?_⟩
  have := H.len
  dsimp only
  by_cases hj : i = j
  · subst hj
    rw [List.getElem?_set_self h1, List.getElem?_set_self (by omega)]
  · rw [List.getElem?_set_ne hj, List.getElem?_set_ne hj]
    exact H.chunk j

theorem Roomier.offset {s t : BitStream} (H : Roomier s t) {n : Nat} (h : (s.bitCursor + n) / 128 ≤ s.binary.length) : Roomier (s.offsetBitCursor n) (t.offsetBitCursor n) :=
  ⟨by simp [BitStream.offsetBitCursor, H.cursor], h, H.len, H.chunk⟩

/-- two answers that agree -/
def Agree {α : Type} (r r' : BitStream × α) : Prop := Roomier r.1 r'.1 ∧ r.2 = r'.2

theorem Roomier.index {s t : BitStream} (H : Roomier s t) : t.chunkIndex = s.chunkIndex ∧ t.chunkBitIndex = s.chunkBitIndex := by
  unfold BitStream.chunkIndex BitStream.chunkBitIndex
  rw [H.cursor]
  exact ⟨rfl, rfl⟩

theorem roomier_peekBits {s t : BitStream} (H : Roomier s t) (n : Nat) :
    Same (s.peekBits n) (t.peekBits n) (fun r r' => Agree r r' ∧ r.1.bitCursor / 128 + 2 ≤ r.1.binary.length) := by
  unfold BitStream.peekBits
  dsimp only
  rw [H.index.1, H.index.2]
  obtain ⟨H', hl⟩ := H.alloc
  have hc : ((s.allocateIfNeeded s.chunkIndex).allocateIfNeeded (s.chunkIndex + 1)).bitCursor / 128 = s.chunkIndex := by simp [BitStream.chunkIndex]
  generalize (s.allocateIfNeeded s.chunkIndex).allocateIfNeeded (s.chunkIndex + 1) = s' at H' hl hc ⊢
  generalize (t.allocateIfNeeded s.chunkIndex).allocateIfNeeded (s.chunkIndex + 1) = t' at H' ⊢
  have := H'.len
  rw [if_neg (show ¬ s.chunkIndex ≥ s'.binary.length by omega), if_neg (show ¬ s.chunkIndex ≥ t'.binary.length by omega), idx_of_lt (show s.chunkIndex < s'.binary.length by omega),
    idx_of_lt (show s.chunkIndex < t'.binary.length by omega), bind_ok, bind_ok, H'.get (i := s.chunkIndex) (by omega) (by omega)]
  split
  · rw [idx_of_lt (by omega), idx_of_lt (by omega), bind_ok, bind_ok, H'.get (i := s.chunkIndex + 1) (by omega) (by omega)]
    exact Same.ok ⟨⟨H', rfl⟩, by dsimp only; omega⟩
  · rw [pure_bind, pure_bind]
    exact Same.ok ⟨⟨H', rfl⟩, by dsimp only; omega⟩

theorem roomier_readBits {s t : BitStream} (H : Roomier s t) {n : Nat} (hn : n ≤ 128) : Same (s.readBits n) (t.readBits n) Agree := by
  unfold BitStream.readBits
  refine (roomier_peekBits H n).bind ?_
  rintro ⟨s', v⟩ ⟨t', v'⟩ ⟨⟨h1, h2⟩, h3⟩
  dsimp only at h1 h2 h3 ⊢
  exact Same.ok ⟨h1.offset (by omega), h2⟩

theorem roomier_readBit {s t : BitStream} (H : Roomier s t) (h : s.bitCursor / 128 < s.binary.length) :
    Same s.readBit t.readBit (fun r r' => Agree r r' ∧ r.1.bitCursor = s.bitCursor + 1 ∧ r.1.binary = s.binary) := by
  have h' : s.chunkIndex < s.binary.length := h
  have := H.len
  unfold BitStream.readBit
  dsimp only
  rw [H.index.1, H.index.2, if_neg (by omega), if_neg (by omega)]
  have e1 : (s.offsetBitCursor 1).binary = s.binary := rfl
  have e2 : (t.offsetBitCursor 1).binary = t.binary := rfl
  rw [e1, e2, idx_of_lt h', idx_of_lt (by omega), bind_ok, bind_ok, H.get h' (by omega)]
  exact Same.ok ⟨⟨H.offset (by omega), rfl⟩, rfl, rfl⟩

theorem roomier_writeBit {s t : BitStream} (H : Roomier s t) (v : BitVec 8) : Same (s.writeBit v) (t.writeBit v) Roomier := by
  have h1 : s.chunkIndex ≤ s.binary.length := H.inS
  have h3 := H.len
  have e : s.bitCursor / 128 = s.chunkIndex := rfl
  unfold BitStream.writeBit
  dsimp only
  rw [H.index.1, H.index.2]
  have hl : s.chunkIndex + 1 ≤ (s.allocateIfNeeded s.chunkIndex).binary.length := by
    rw [BitStream.allocate_length]
    split_ifs <;> omega
  have H' : Roomier (s.allocateIfNeeded s.chunkIndex) (t.allocateIfNeeded s.chunkIndex) := by
    refine ⟨by simp [H.cursor], ?_, ?_, fun i => by simp only [alloc_getD]; exact H.chunk i⟩
    · show (s.allocateIfNeeded s.chunkIndex).bitCursor / 128 ≤ _
      rw [BitStream.allocate_cursor, e]
      omega
    · simp only [BitStream.allocate_length]
      split_ifs <;> omega
  have hc : (s.allocateIfNeeded s.chunkIndex).bitCursor / 128 = s.chunkIndex := by simp [BitStream.chunkIndex]
  generalize s.allocateIfNeeded s.chunkIndex = s' at H' hl hc ⊢
  generalize t.allocateIfNeeded s.chunkIndex = t' at H' ⊢
  have := H'.len
  rw [idx_of_lt (by omega), idx_of_lt (by omega), bind_ok, bind_ok, H'.get (i := s.chunkIndex) (by omega) (by omega), setIdx_of_lt (by omega), setIdx_of_lt (by omega),
    bind_ok, bind_ok]
  exact Same.ok ((H'.set (by omega) _).offset (by simp only [List.length_set]; omega))

theorem roomier_writeBits {s t : BitStream} (H : Roomier s t) (v : BitVec 128) {n : Nat} (hn : n ≤ 128) : Same (s.writeBits v n) (t.writeBits v n) Roomier := by
  unfold BitStream.writeBits
  dsimp only
  rw [H.index.1, H.index.2]
  obtain ⟨H', hl⟩ := H.alloc
  have hc : ((s.allocateIfNeeded s.chunkIndex).allocateIfNeeded (s.chunkIndex + 1)).bitCursor / 128 = s.chunkIndex := by simp [BitStream.chunkIndex]
  generalize (s.allocateIfNeeded s.chunkIndex).allocateIfNeeded (s.chunkIndex + 1) = s' at H' hl hc ⊢
  generalize (t.allocateIfNeeded s.chunkIndex).allocateIfNeeded (s.chunkIndex + 1) = t' at H' ⊢
  have := H'.len
  rw [idx_of_lt (by omega), idx_of_lt (by omega), bind_ok, bind_ok, H'.get (i := s.chunkIndex) (by omega) (by omega), setIdx_of_lt (by omega), setIdx_of_lt (by omega),
    bind_ok, bind_ok]
  have H2 := H'.set (i := s.chunkIndex) (by omega) (t'.binary[s.chunkIndex] &&& ((1#128 <<< s.chunkBitIndex) - 1#128) ||| v <<< s.chunkBitIndex)
  generalize t'.binary[s.chunkIndex] &&& ((1#128 <<< s.chunkBitIndex) - 1#128) ||| v <<< s.chunkBitIndex = x at H2 ⊢
  split
  · have hl2 : s.chunkIndex + 1 < (s'.binary.set s.chunkIndex x).length := by simp only [List.length_set]; omega
    have hl3 : s.chunkIndex + 1 < (t'.binary.set s.chunkIndex x).length := by simp only [List.length_set]; omega
    have eg := H2.get (i := s.chunkIndex + 1) hl2 hl3
    dsimp only at eg
    rw [idx_of_lt hl2, idx_of_lt hl3, bind_ok, bind_ok, eg, setIdx_of_lt hl2, setIdx_of_lt hl3, bind_ok, bind_ok, pure_bind, pure_bind]
    exact Same.ok ((H2.set hl2 _).offset (by simp only [List.length_set]; omega))
  · rw [pure_bind, pure_bind]
    exact Same.ok (H2.offset (by simp only [List.length_set]; omega))

theorem roomier_writeUnary : ∀ (fuel : Nat) {s t : BitStream} (_ : Roomier s t) (q : Int), Same (BitStream.writeUnary fuel s q) (BitStream.writeUnary fuel t q) Roomier
  | 0, _, _, _, _ => Same.error
  | fuel + 1, s, t, H, q => by
    unfold BitStream.writeUnary
    split
    · split
      · exact (roomier_writeBits H _ le_rfl).bind fun s' t' h => roomier_writeUnary fuel h _
      · exact roomier_writeBits H _ (by omega)
    · exact Same.ok H

theorem roomier_writeCompressed {b : Build} {s t : BitStream} (H : Roomier s t) {k : Nat} (hk : k ≤ 15) (e : BitVec 16) :
    Same (s.writeCompressed b k e) (t.writeCompressed b k e) Roomier := by
  unfold BitStream.writeCompressed
  dsimp only
  refine (Same.refl _).bind ?_
  rintro a _ rfl
  refine (Same.refl _).bind ?_
  rintro m _ rfl
  exact (roomier_writeBit H _).bind fun s1 t1 H1 => (roomier_writeUnary _ H1 _).bind fun s2 t2 H2 => (roomier_writeBit H2 _).bind fun s3 t3 H3 => roomier_writeBits H3 _ (by omega)

theorem roomier_readOnes {b : Build} : ∀ (fuel : Nat) {s t : BitStream} (_ : Roomier s t) (q : BitVec 16),
    Same (BitStream.readOnes b fuel s q) (BitStream.readOnes b fuel t q) (fun r r' => Agree r r' ∧ r.1.bitCursor / 128 + 2 ≤ r.1.binary.length)
  | 0, _, _, _, _ => Same.error
  | fuel + 1, s, t, H, q => by
    unfold BitStream.readOnes
    refine (roomier_peekBits H 128).bind ?_
    rintro ⟨s', v⟩ ⟨t', v'⟩ ⟨⟨h1, h2⟩, h3⟩
    dsimp only at h1 h2 h3 ⊢
    subst h2
    split
    · refine (Same.refl _).bind ?_
      rintro q' _ rfl
      exact roomier_readOnes fuel (h1.offset (by omega)) q'
    · exact Same.ok ⟨⟨h1, rfl⟩, h3⟩

theorem roomier_readCompressed {b : Build} {s t : BitStream} (H : Roomier s t) (h : s.bitCursor / 128 < s.binary.length) {k : Nat} (hk : k ≤ 15) :
    Same (s.readCompressed b k) (t.readCompressed b k) Agree := by
  unfold BitStream.readCompressed
  refine (roomier_readBit H h).bind ?_
  rintro ⟨s1, v⟩ ⟨t1, v'⟩ ⟨⟨h1, h2⟩, -⟩
  dsimp only at h1 h2 ⊢
  subst h2
  have h3 := h1.len
  have hone := roomier_readOnes (b := b) (s1.binary.length + 3) h1 0#16
  have hne : BitStream.readOnes b (s1.binary.length + 3) t1 0#16 ≠ .error .fuel := by
    have h0 := BitStream.readOnes_ne_fuel (b := b) (n := s1.binary.length) (s1.binary.length + 3) s1 0#16 (fun i hi => BitStream.bitAt_beyond _ _ hi) (by omega) (by omega)
    rcases hone with ⟨e, e1, e2⟩ | ⟨a, a', e1, e2, -⟩
    · rw [e2]; rwa [e1] at h0
    · rw [e2]; simp
  have hst := BitStream.readOnes_stable (s1.binary.length + 3) (t1.binary.length - s1.binary.length) t1 0#16 hne
  rw [show s1.binary.length + 3 + (t1.binary.length - s1.binary.length) = t1.binary.length + 3 by omega] at hst
  rw [hst]
  refine hone.bind ?_
  rintro ⟨s2, c, q⟩ ⟨t2, c', q'⟩ ⟨⟨g1, g2⟩, g3⟩
  dsimp only at g1 g2 g3 ⊢
  cases g2
  have hz := firstZero_le 128 c
  refine (Same.refl _).bind ?_
  rintro q2 _ rfl
  refine (roomier_readBits (g1.offset (by omega)) (by omega)).bind ?_
  rintro ⟨s3, r⟩ ⟨t3, r'⟩ ⟨f1, f3⟩
  dsimp only at f1 f3 ⊢
  subst f3
  refine (Same.refl _).bind ?_
  rintro d1 _ rfl
  refine (Same.refl _).bind ?_
  rintro d2 _ rfl
  refine (Same.refl _).bind ?_
  rintro d3 _ rfl
  refine (Same.refl _).bind ?_
  rintro d4 _ rfl
  refine (Same.refl _).bind ?_
  rintro d5 _ rfl
  exact Same.ok ⟨f1, rfl⟩

theorem same_map {α β : Type} {x y : R α} {f : α → β} {P : α → α → Prop} {Q : β → β → Prop} (h : Same x y P) (hf : ∀ a a', P a a' → Q (f a) (f a')) : Same (f <$> x) (f <$> y) Q := by
  rw [map_eq_pure_bind, map_eq_pure_bind]
  exact h.bind fun a a' ha => Same.ok (hf a a' ha)

theorem roomier_answer {b : Build} {s t : BitStream} (H : Roomier s t) (c : StreamCall) (cs : List StreamCall) (hl : c.legal) (hw : within b s (c :: cs)) :
    Same (answer b s c) (answer b t c) Agree := by
  have hin : s.len < s.capacityUpperbound → s.bitCursor / 128 < s.binary.length := by
    intro h
    have h : s.bitCursor < s.binary.length * 128 := h
    omega
  cases c with
  | writeBit v => exact same_map (roomier_writeBit H v) fun a a' h => ⟨h, rfl⟩
  | writeBits v n => exact same_map (roomier_writeBits H v hl) fun a a' h => ⟨h, rfl⟩
  | writeU16 v => exact same_map (roomier_writeBits H _ (by omega)) fun a a' h => ⟨h, rfl⟩
  | writeCompressed k v => exact same_map (roomier_writeCompressed H hl v) fun a a' h => ⟨h, rfl⟩
  | writeCapped d v =>
    have hk : BitStream.countOnes 16 (d - 1) ≤ 15 := countOnes_le 16 15 _ (by have := hl.2; omega)
    refine same_map (P := Roomier) ?_ fun a a' h => ⟨h, rfl⟩
    unfold BitStream.writeCompressedCapped
    refine (Same.refl _).bind ?_
    rintro a _ rfl
    refine (roomier_writeBit H _).bind fun s1 t1 H1 => ?_
    split
    · exact roomier_writeCompressed H1 hk v
    · refine (Same.refl _).bind ?_
      rintro x _ rfl
      exact roomier_writeBits H1 _ (by decide)
  | readBit => exact same_map (roomier_readBit H (hin hw.1)) fun a a' h => ⟨h.1.1, congrArg (fun x => some x.toNat) h.1.2⟩
  | readBits n => exact same_map (roomier_readBits H hl) fun a a' h => ⟨h.1, congrArg (fun x => some x.toNat) h.2⟩
  | peekBits n => exact same_map (roomier_peekBits H n) fun a a' h => ⟨h.1.1, congrArg (fun x => some x.toNat) h.1.2⟩
  | readCompressed k => exact same_map (roomier_readCompressed H (hin hw.1) hl) fun a a' h => ⟨h.1, congrArg (fun x => some x.toNat) h.2⟩
  | readCapped d =>
    have hk : BitStream.countOnes 16 (d - 1) ≤ 15 := countOnes_le 16 15 _ (by have := hl.2; omega)
    refine same_map (P := Agree) ?_ fun a a' h => ⟨h.1, congrArg (fun x => some x.toNat) h.2⟩
    have hw : s.bitCursor + 1 < s.binary.length * 128 := hw.1
    unfold BitStream.readCompressedCapped
    refine (roomier_readBit H (by omega)).bind ?_
    rintro ⟨s1, v⟩ ⟨t1, v'⟩ ⟨⟨h1, h2⟩, h3, h4⟩
    dsimp only at h1 h2 h3 h4 ⊢
    subst h2
    split
    · refine (roomier_readBits h1 (by decide)).bind ?_
      rintro ⟨s2, w⟩ ⟨t2, w'⟩ ⟨g1, g2⟩
      dsimp only at g1 g2 ⊢
      subst g2
      exact Same.ok ⟨g1, rfl⟩
    · exact roomier_readCompressed h1 (by rw [h3, h4]; omega) hk
  | seekStart => exact Same.ok ⟨⟨rfl, by simp [InBuf, BitStream.seekStart], H.len, H.chunk⟩, rfl⟩
  | zero =>
    refine Same.ok ⟨⟨H.cursor, by simpa [InBuf, BitStream.zero] using H.inS, by simpa [BitStream.zero] using H.len, fun i => ?_⟩, rfl⟩
    simp only [BitStream.zero, List.getElem?_map]
    cases s.binary[i]? <;> cases t.binary[i]? <;> rfl

theorem roomier_shown {b : Build} : ∀ (calls : List StreamCall) {s t : BitStream} (_ : Roomier s t) (_ : ∀ c ∈ calls, c.legal) (_ : within b s calls),
    shown b s calls = shown b t calls
  | [], s, t, H, _, _ => by
    have : bitAt s.binary = bitAt t.binary := by
      funext i
      unfold bitAt
      rw [H.chunk]
    show Except.ok _ = Except.ok _
    rw [this]
  | c :: cs, s, t, H, hl, hw => by
    unfold shown
    rcases roomier_answer H c cs (hl c (by simp)) hw with ⟨e, e1, e2⟩ | ⟨a, a', e1, e2, h1, h2⟩
    · rw [e1, e2]
    · rw [e1, e2, bind_ok, bind_ok, roomier_shown cs h1 (fun c hc => hl c (by simp [hc])) (hw.2 a e1), h2]
      unfold BitStream.len
      rw [h1.cursor]

/-- C118 while single bits and compressed numbers are read only where the new stream has memory: a cleared stream then gives the same answers,
has the same cursor after every call and the same bits in the end, or panics alike. Any sequence of calls, any earlier contents. -/
theorem C118_cleared_partial (b : Build) (s : BitStream) (calls : List StreamCall) (hl : ∀ c ∈ calls, c.legal) (hw : within b .new calls) :
    shown b s.zero.seekStart calls = shown b .new calls := by
  refine (roomier_shown calls ?_ hl hw).symm
  refine ⟨rfl, Nat.zero_le _, Nat.zero_le _, fun i => ?_⟩
  simp only [BitStream.new, BitStream.seekStart, BitStream.zero, List.getElem?_map]
  cases s.binary[i]? <;> rfl

/-- without `zero` it fails: stale bits show through a number that straddles two chunks -/
theorem C118_zero_needed : ∃ (s : BitStream) (calls : List StreamCall), (∀ c ∈ calls, c.legal) ∧ within .release .new calls ∧
    shown .release s.seekStart calls ≠ shown .release .new calls := by
  refine ⟨{ binary := [0#128, 1#128], bitCursor := 0, capacity := 0 }, [.writeBits 0#128 127, .writeBits 0#128 2, .seekStart, .readBits 127, .readBits 2], ?_, ?_, ?_⟩
  · simp [StreamCall.legal]
  · refine ⟨trivial, fun r _ => ⟨trivial, fun r _ => ⟨trivial, fun r _ => ⟨trivial, fun r _ => ⟨trivial, fun r _ => trivial⟩⟩⟩⟩⟩
  · intro h
    have := congrArg (fun x : R (List (Option Nat × Nat) × (Nat → Bool)) => match x with | .ok r => r.1 | .error _ => []) h
    revert this
    decide +kernel

-- non-vacuity: a stream full of ones is cleared, written to and read back
example : shown .debug (BitStream.seekStart (BitStream.zero { binary := [BitVec.allOnes 128, BitVec.allOnes 128], bitCursor := 200, capacity := 200 }))
    [.writeCompressed 2 (BitVec.ofInt 16 (-7)), .seekStart, .readCompressed 2] =
    shown .debug .new [.writeCompressed 2 (BitVec.ofInt 16 (-7)), .seekStart, .readCompressed 2] ∧
    ∃ bits, shown .debug .new [.writeCompressed 2 (BitVec.ofInt 16 (-7)), .seekStart, .readCompressed 2] = .ok ([(none, 5), (none, 0), (some 65529, 5)], bits) := by
  have e1 : answer .debug .new (.writeCompressed 2 (BitVec.ofInt 16 (-7))) = .ok ({ binary := [27#128, 0#128], bitCursor := 5, capacity := 5 }, none) := by decide +kernel
  have e2 : answer .debug { binary := [27#128, 0#128], bitCursor := 0, capacity := 5 } (.readCompressed 2) =
    .ok ({ binary := [27#128, 0#128], bitCursor := 5, capacity := 5 }, some 65529) := by decide +kernel
  refine ⟨C118_cleared_partial _ _ _ (by simp [StreamCall.legal]) ⟨trivial, fun r hr => ?_⟩, ?_⟩
  · rw [e1] at hr
    obtain rfl := Except.ok.inj hr
    refine ⟨trivial, fun r hr => ?_⟩
    obtain rfl := Except.ok.inj hr
    exact ⟨by decide, fun r _ => trivial⟩
  · refine ⟨bitAt [27#128, 0#128], ?_⟩
    unfold shown
    rw [e1]
    have e3 : shown .debug { binary := [27#128, 0#128], bitCursor := 0, capacity := 5 } [.readCompressed 2] = .ok ([(some 65529, 5)], bitAt [27#128, 0#128]) := by
      unfold shown
      rw [e2]
      rfl
    rw [bind_ok]
    unfold shown
    show ((shown .debug { binary := [27#128, 0#128], bitCursor := 0, capacity := 5 } [.readCompressed 2] >>= fun rest => pure ((none, 0) :: rest.1, rest.2)) >>= _) = _
    rw [e3]
    rfl

end Adhoc
