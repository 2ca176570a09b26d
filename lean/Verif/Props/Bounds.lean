import Verif.Proofs.Robust
import Verif.Props.Capacity

/-! # C117: where the cursor of a bit stream may stand -/

namespace Adhoc
open Spec

/-- arguments that the types and the documentation allow: at most 128 bits, exponents below 16, positive 16-bit divisors -/
def StreamCall.legal : StreamCall → Prop
  | .writeBits _ n | .readBits n | .peekBits n => n ≤ 128
  | .writeCompressed k _ | .readCompressed k => k ≤ 15
  | .writeCapped d _ | .readCapped d => 0 < d ∧ d ≤ 32767
  | _ => True

/-- the full claim: every legal call succeeds at every cursor position, but for overflow checks of a debug build -/
def C117_statement : Prop :=
  ∀ (b : Build) (s : BitStream) (i : Nat) (call : StreamCall), call.legal →
    (∃ s', call.run b (s.setBitCursor i) = .ok s') ∨ (b = .debug ∧ call.run b (s.setBitCursor i) = .error .overflow)

theorem countOnes_le : ∀ (fuel j n : Nat), n < 2 ^ j → BitStream.countOnes fuel n ≤ j
  | 0, _, _, _ => Nat.zero_le _
  | fuel + 1, 0, n, h => by
    obtain rfl : n = 0 := by simpa using h
    have := countOnes_le fuel 0 0 (by simp)
    unfold BitStream.countOnes
    simpa using this
  | fuel + 1, j + 1, n, h => by
    have := countOnes_le fuel j (n / 2) (by rw [Nat.pow_succ] at h; omega)
    unfold BitStream.countOnes
    omega

theorem fine_map {b : Build} {α β : Type} {x : R α} {f : α → β} {P : β → Prop} (h : Fine b x (fun a => P (f a))) : Fine b (f <$> x) P := by
  rw [map_eq_pure_bind]
  exact h.bind fun a ha => Fine.ok ha

theorem fine_call {b : Build} {s : BitStream} (h : InBuf s) : ∀ (call : StreamCall) (_ : call.legal), Fine b (call.run b s) InBuf
  | .writeBit v, _ => fine_writeBit h v
  | .writeBits v _, hl => fine_writeBits h v hl
  | .writeU16 v, _ => fine_writeBits h _ (by omega)
  | .writeCompressed _ v, hl => fine_writeCompressed h hl v
  | .writeCapped d v, hl => by
    have hk : BitStream.countOnes 16 (d - 1) ≤ 15 := countOnes_le 16 15 _ (by have := hl.2; omega)
    show Fine b (s.writeCompressedCapped b d v) InBuf
    unfold BitStream.writeCompressedCapped
    refine (fine_i16op _ _).bind fun a _ => (fine_writeBit h _).bind fun t ht => ?_
    split
    · exact fine_writeCompressed ht hk v
    · exact (fine_clampI (by decide)).bind fun c _ => fine_writeBits ht _ (by decide)
  | .readBit, _ => fine_map (fine_readBit h)
  | .readBits _, hl => fine_map (fine_readBits h hl)
  | .peekBits n, hl => by
    refine fine_map ((fine_peekBits h hl).mono ?_)
    rintro ⟨t, v⟩ ⟨h1, h2⟩
    show t.bitCursor / 128 ≤ t.binary.length
    dsimp only at h1 h2
    omega
  | .readCompressed _, hl => fine_map (fine_readCompressed h hl)
  | .readCapped d, hl => by
    have hk : BitStream.countOnes 16 (d - 1) ≤ 15 := countOnes_le 16 15 _ (by have := hl.2; omega)
    refine fine_map ?_
    unfold BitStream.readCompressedCapped
    refine (fine_readBit h).bind ?_
    rintro ⟨t, v⟩ ht
    dsimp only at ht ⊢
    split
    · refine (fine_readBits ht (by decide)).bind ?_
      rintro ⟨u, w⟩ hu
      exact Fine.ok hu
    · exact fine_readCompressed ht hk
  | .seekStart, _ => Fine.ok (by simp [InBuf, BitStream.seekStart])
  | .zero, _ => Fine.ok (by simpa [InBuf, BitStream.zero] using h)

theorem fine_states {b : Build} : ∀ (calls : List StreamCall) {s : BitStream} (_ : InBuf s) (_ : ∀ c ∈ calls, c.legal),
    Fine b (streamStates b s calls) (fun states => states.length = calls.length ∧ ∀ s ∈ states, InBuf s)
  | [], _, _, _ => Fine.ok ⟨rfl, by simp⟩
  | c :: cs, s, h, hl => by
    unfold streamStates
    refine (fine_call h c (hl c (by simp))).bind fun t ht => ?_
    refine (fine_states cs ht (fun c hc => hl c (by simp [hc]))).bind ?_
    rintro rest ⟨h1, h2⟩
    refine Fine.ok ⟨by simp [h1], ?_⟩
    intro u hu
    rcases List.mem_cons.1 hu with rfl | hu
    · exact ht
    · exact h2 u hu

/-- C117 while the cursor is only moved by the calls themselves: any sequence of legal calls, from a new stream or from any stream whose
cursor is not beyond the chunk after its last, succeeds and keeps the cursor there. Only the overflow checks of a debug build can stop it. -/
theorem C117_calls_partial (b : Build) (s : BitStream) (hs : s.bitCursor / 128 ≤ s.blocksAllocated) (calls : List StreamCall)
    (hl : ∀ c ∈ calls, c.legal) :
    (∃ states, streamStates b s calls = .ok states ∧ states.length = calls.length ∧ ∀ s ∈ states, s.bitCursor / 128 ≤ s.blocksAllocated) ∨
    (b = .debug ∧ streamStates b s calls = .error .overflow) :=
  fine_states calls hs hl

/-! ## anywhere -/

theorem alloc_twice (s : BitStream) : ((s.allocateIfNeeded s.chunkIndex).allocateIfNeeded (s.chunkIndex + 1)).binary.length =
    if s.chunkIndex + 1 < s.binary.length then s.binary.length else if s.chunkIndex < s.binary.length then s.binary.length + 1 else s.binary.length + 2 := by
  rw [BitStream.allocate_length, BitStream.allocate_length]
  split_ifs <;> omega

theorem idx_far {α : Type} {l : List α} {i : Nat} (h : l.length ≤ i) : idx l i = .error .index := by
  unfold idx; rw [List.getElem?_eq_none h]

/-- beyond the chunk after the last -/
theorem writeBits_far {s : BitStream} {v : BitVec 128} {n : Nat} (h : s.binary.length < s.bitCursor / 128) :
    if s.bitCursor / 128 = s.binary.length + 1 ∧ s.bitCursor % 128 + n ≤ 128 then ∃ s', s.writeBits v n = .ok s'
      else s.writeBits v n = .error .index := by
  have hc : s.chunkIndex = s.bitCursor / 128 := rfl
  have hb : s.chunkBitIndex = s.bitCursor % 128 := rfl
  have hlt : s.bitCursor % 128 < 128 := Nat.mod_lt _ (by norm_num)
  have hlen := alloc_twice s
  rw [if_neg (by omega), if_neg (by omega)] at hlen
  unfold BitStream.writeBits
  dsimp only
  generalize (s.allocateIfNeeded s.chunkIndex).allocateIfNeeded (s.chunkIndex + 1) = t at *
  by_cases h1 : s.bitCursor / 128 = s.binary.length + 1
  · rw [idx_of_lt (by omega), bind_ok, setIdx_of_lt (by omega), bind_ok]
    by_cases h2 : s.bitCursor % 128 + n ≤ 128
    · rw [if_pos ⟨h1, h2⟩, if_neg (by rw [hb]; unfold CHUNK_SIZE_IN_BITS; omega)]
      exact ⟨_, rfl⟩
    · rw [if_neg (by tauto), if_pos (by rw [hb]; unfold CHUNK_SIZE_IN_BITS; omega), idx_far (by rw [List.length_set]; omega)]
      rfl
  · rw [if_neg (by tauto), idx_far (by omega)]
    rfl

theorem peekBits_far {s : BitStream} {n : Nat} (h : s.binary.length < s.bitCursor / 128) :
    if s.bitCursor / 128 = s.binary.length + 1 ∧ 128 < s.bitCursor % 128 + n then s.peekBits n = .error .index
      else ∃ s', s.peekBits n = .ok (s', 0#128) ∧ s'.bitCursor = s.bitCursor ∧ s'.binary = s.binary ++ [0#128, 0#128] := by
  have hc : s.chunkIndex = s.bitCursor / 128 := rfl
  have hb : s.chunkBitIndex = s.bitCursor % 128 := rfl
  have hlt : s.bitCursor % 128 < 128 := Nat.mod_lt _ (by norm_num)
  have hbin : ((s.allocateIfNeeded s.chunkIndex).allocateIfNeeded (s.chunkIndex + 1)).binary = s.binary ++ [0#128, 0#128] := by
    have h1 : s.allocateIfNeeded s.chunkIndex = { s with binary := s.binary ++ [0#128] } := by
      unfold BitStream.allocateIfNeeded
      rw [if_pos (by omega)]
    rw [h1]
    unfold BitStream.allocateIfNeeded
    rw [if_pos (by simp only [List.length_append, List.length_singleton]; omega)]
    simp
  have hcur : ((s.allocateIfNeeded s.chunkIndex).allocateIfNeeded (s.chunkIndex + 1)).bitCursor = s.bitCursor := by simp
  unfold BitStream.peekBits
  dsimp only
  generalize (s.allocateIfNeeded s.chunkIndex).allocateIfNeeded (s.chunkIndex + 1) = t at *
  have hl : t.binary.length = s.binary.length + 2 := by rw [hbin]; simp
  by_cases h1 : s.bitCursor / 128 = s.binary.length + 1
  · have h0 : t.binary[s.chunkIndex]'(by omega) = 0#128 := by
      simp only [hbin, hc, h1]
      simp
    have hge : ¬ s.chunkIndex ≥ t.binary.length := by omega
    rw [if_neg hge, idx_of_lt (by omega), bind_ok, h0]
    by_cases h2 : 128 < s.bitCursor % 128 + n
    · rw [if_pos ⟨h1, h2⟩, if_pos (by rw [hb]; omega), idx_far (by omega)]
      rfl
    · have hc2 : ¬ (s.bitCursor / 128 = s.binary.length + 1 ∧ 128 < s.bitCursor % 128 + n) := fun h => h2 h.2
      have hs2 : ¬ 128 - s.chunkBitIndex < n := by rw [hb]; omega
      rw [if_neg hc2, if_neg hs2]
      exact ⟨t, by simp [bind_ok, pure_eq_ok], hcur, hbin⟩
  · have hc2 : ¬ (s.bitCursor / 128 = s.binary.length + 1 ∧ 128 < s.bitCursor % 128 + n) := fun h => h1 h.1
    have hge : s.chunkIndex ≥ t.binary.length := by omega
    rw [if_neg hc2, if_pos hge]
    exact ⟨t, rfl, hcur, hbin⟩

/-- C117 after `set_bit_cursor`, exactly: with `B` chunks allocated and the cursor at position `p`,
* `write_bits` succeeds if `p` is in chunk `B` or before, or if the bits fit into chunk `B + 1`; otherwise it is an index panic;
* `read_bits` fails only if its bits straddle chunks `B + 1` and `B + 2`, and returns the bits at `p` (zero where there are none) otherwise;
* `write_bit` succeeds if and only if `p` is in chunk `B` or before;
* `read_bit` always succeeds, and returns the bit at `p`, but does not move beyond the last chunk. -/
theorem C117_exact_partial (s : BitStream) (n : Nat) (hn : n ≤ 128) :
    (∀ v, if s.bitCursor / 128 ≤ s.blocksAllocated ∨ (s.bitCursor / 128 = s.blocksAllocated + 1 ∧ s.bitCursor % 128 + n ≤ 128)
      then ∃ s', s.writeBits v n = .ok s' else s.writeBits v n = .error .index) ∧
    (if s.bitCursor / 128 = s.blocksAllocated + 1 ∧ 128 < s.bitCursor % 128 + n then s.readBits n = .error .index
      else ∃ s' v, s.readBits n = .ok (s', v) ∧ s'.bitCursor = s.bitCursor + n ∧
        ∀ j, v.getLsbD j = (decide (j < n) && bitAt s.binary (s.bitCursor + j))) ∧
    (∀ v, if s.bitCursor / 128 ≤ s.blocksAllocated then ∃ s', s.writeBit v = .ok s' else s.writeBit v = .error .index) ∧
    (∃ s' v, s.readBit = .ok (s', v) ∧ s'.bitCursor = s.bitCursor + (if s.bitCursor / 128 < s.blocksAllocated then 1 else 0) ∧
      v = if bitAt s.binary s.bitCursor then 1#128 else 0#128) := by
  unfold BitStream.blocksAllocated
  refine ⟨?_, ?_, ?_, ?_⟩
  · intro v
    by_cases h : s.bitCursor / 128 ≤ s.binary.length
    · rw [if_pos (.inl h)]
      obtain ⟨s', e, -⟩ := (fine_writeBits (b := .release) h v hn).release
      exact ⟨s', e⟩
    · have := writeBits_far (v := v) (n := n) (show s.binary.length < s.bitCursor / 128 by omega)
      simpa only [h, false_or] using this
  · by_cases h : s.bitCursor / 128 ≤ s.binary.length
    · rw [if_neg (by omega)]
      obtain ⟨s', v, e, h1, -, -, -, h2⟩ := BitStream.peekBits_spec hn h
      refine ⟨s'.offsetBitCursor n, v, ?_, ?_, h2⟩
      · unfold BitStream.readBits
        rw [e]; rfl
      · show s'.bitCursor + n = _
        rw [h1]
    · have := peekBits_far (n := n) (show s.binary.length < s.bitCursor / 128 by omega)
      unfold BitStream.readBits
      split at this
      · rename_i hc
        rw [if_pos hc, this]; rfl
      · rename_i hc
        rw [if_neg hc]
        obtain ⟨s', e, h1, -⟩ := this
        refine ⟨s'.offsetBitCursor n, 0#128, by rw [e]; rfl, by show s'.bitCursor + n = _; rw [h1], ?_⟩
        intro j
        rw [BitStream.bitAt_beyond _ _ (by omega)]
        simp
  · intro v
    by_cases h : s.bitCursor / 128 ≤ s.binary.length
    · rw [if_pos h]
      obtain ⟨s', e, -⟩ := (fine_writeBit (b := .release) h v).release
      exact ⟨s', e⟩
    · rw [if_neg h]
      unfold BitStream.writeBit
      dsimp only
      rw [idx_far]
      · rfl
      · rw [BitStream.allocate_length]
        show _ ≤ s.bitCursor / 128
        split <;> omega
  · unfold BitStream.readBit
    dsimp only
    by_cases h : s.bitCursor / 128 < s.binary.length
    · rw [if_neg (by show ¬ s.bitCursor / 128 ≥ _; omega), if_pos h]
      have h' : s.chunkIndex < (s.offsetBitCursor 1).binary.length := h
      rw [idx_of_lt h', bind_ok]
      refine ⟨_, _, rfl, rfl, ?_⟩
      unfold bitAt
      rw [List.getElem?_eq_getElem h]
      simp only [Option.getD_some]
      have hm : s.bitCursor % 128 < 128 := Nat.mod_lt _ (by norm_num)
      generalize hx : s.binary[s.bitCursor / 128] = x
      have hx' : (s.offsetBitCursor 1).binary[s.chunkIndex] = x := hx
      rw [hx']
      show x >>> (s.bitCursor % 128) &&& 1#128 = _
      generalize s.bitCursor % 128 = m at *
      apply BitVec.eq_of_getLsbD_eq
      intro i hi
      rw [BitVec.getLsbD_and, BitVec.getLsbD_ushiftRight]
      by_cases hi0 : i = 0
      · subst hi0
        by_cases hxm : x.getLsbD m = true <;> simp [hxm]
      · have : (1#128 : BitVec 128).getLsbD i = false := by
          rw [BitVec.getLsbD_one]; simp [hi0]
        rw [this, Bool.and_false]
        split
        · exact this.symm
        · simp
    · rw [if_pos (by show s.bitCursor / 128 ≥ _; omega), if_neg h]
      refine ⟨_, _, rfl, rfl, ?_⟩
      rw [BitStream.bitAt_beyond _ _ (by omega)]
      rfl

/-- C117 as stated fails: a new stream whose cursor is set to bit 256 cannot be written. -/
theorem C117_false : ¬ C117_statement := by
  intro h
  rcases h .release .new 256 (.writeBit 1#8) trivial with ⟨s', e⟩ | ⟨hb, -⟩
  · have : (BitStream.new.setBitCursor 256).writeBit 1#8 = .error .index := by decide +kernel
    rw [show StreamCall.run .release (BitStream.new.setBitCursor 256) (.writeBit 1#8) = (BitStream.new.setBitCursor 256).writeBit 1#8 from rfl, this] at e
    cases e
  · cases hb

/-- the corner cases of the exact theorem, on a new stream: 120 bits can be written at 130 but not at 140, and 20 bits cannot be read at 250 -/
example : (∃ s', (BitStream.new.setBitCursor 130).writeBits 5#128 120 = .ok s') ∧ (BitStream.new.setBitCursor 140).writeBits 5#128 120 = .error .index ∧
    (BitStream.new.setBitCursor 250).readBits 20 = .error .index ∧ (∃ s', (BitStream.new.setBitCursor 260).readBits 20 = .ok (s', 0#128)) := by
  refine ⟨⟨_, rfl⟩, by decide +kernel, by decide +kernel, ⟨_, rfl⟩⟩

/-- a sequence of calls of all kinds on a new stream, reading beyond what was written -/
example : (∀ c ∈ ([.writeU16 77#16, .readBits 128, .readCompressed 3, .peekBits 100, .writeCapped 8 5#16, .seekStart, .readCapped 8] : List StreamCall), c.legal) ∧
    BitStream.new.bitCursor / 128 ≤ BitStream.new.blocksAllocated := by
  refine ⟨?_, by decide⟩
  intro c hc
  simp only [List.mem_cons, List.not_mem_nil, or_false] at hc
  rcases hc with rfl | rfl | rfl | rfl | rfl | rfl | rfl <;> simp [StreamCall.legal]

end Adhoc
