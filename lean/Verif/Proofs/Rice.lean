import Verif.Proofs.BitStream

/-! Bit streams as bit lists: writing appends, reading consumes. -/

namespace Adhoc
open Spec

/-- `s` is a stream being written that holds exactly `bits` -/
structure Holds (s : BitStream) (bits : List Bool) : Prop where
  cursor : s.bitCursor = bits.length
  chunks : s.bitCursor ≤ 128 * s.binary.length
  bound : s.binary.length ≤ s.bitCursor / 128 + 2
  cap : s.capacity = s.bitCursor
  bit : ∀ i (h : i < bits.length), bitAt s.binary i = bits[i]
  fresh : ∀ i, 128 * (s.bitCursor / 128 + 1) ≤ i → bitAt s.binary i = false

/-- `s` is a stream holding `bits` (and possibly more) that is being read at position `p` -/
structure Reads (s : BitStream) (bits : List Bool) (p : Nat) : Prop where
  cursor : s.bitCursor = p
  chunks : bits.length ≤ 128 * s.binary.length
  inside : p ≤ bits.length
  bit : ∀ i (h : i < bits.length), bitAt s.binary i = bits[i]

theorem holds_new : Holds BitStream.new [] where
  cursor := rfl
  chunks := by simp [BitStream.new]
  bound := by simp [BitStream.new]
  cap := rfl
  bit := by simp
  fresh := by intro i _; simp [BitStream.new, bitAt]

theorem Holds.reads {s : BitStream} {bits : List Bool} (h : Holds s bits) {t : BitStream}
    (hb : t.binary = s.binary) {p : Nat} (hp : p ≤ bits.length) (hc : t.bitCursor = p) : Reads t bits p where
  cursor := hc
  chunks := by rw [hb, ← h.cursor]; exact h.chunks
  inside := hp
  bit := by rw [hb]; exact h.bit

theorem holds_writeBits {s : BitStream} {bits : List Bool} (h : Holds s bits) (v : BitVec 128) {n : Nat} (hn : n ≤ 128) :
    ∃ s', s.writeBits v n = .ok s' ∧ Holds s' (bits ++ (List.range n).map v.getLsbD) := by
  have hch := h.chunks
  have hbd := h.bound
  have hcu := h.cursor
  obtain ⟨s', h1, h2, h3, h4, h5, h6, h7⟩ := BitStream.writeBits_spec (v := v) hn (by omega) h.fresh
  refine ⟨s', h1, ?_, ?_, ?_, ?_, ?_, h7⟩
  · simp [h2, hcu]
  · omega
  · omega
  · rw [h3, h.cap, h2]; omega
  · intro i hi
    simp at hi
    by_cases hlt : i < bits.length
    · rw [List.getElem_append_left hlt, h5 i (by omega), h.bit i hlt]
    · obtain ⟨j, rfl⟩ := Nat.exists_eq_add_of_le (Nat.le_of_not_lt hlt)
      rw [List.getElem_append_right (by omega)]
      have := h6 j (by omega)
      rw [hcu] at this
      rw [this]
      simp

theorem holds_writeBit {s : BitStream} {bits : List Bool} (h : Holds s bits) (v : BitVec 8) :
    ∃ s', s.writeBit v = .ok s' ∧ Holds s' (bits ++ [v.getLsbD 0]) := by
  have hch := h.chunks
  have hbd := h.bound
  have hcu := h.cursor
  obtain ⟨s', h1, h2, h3, h4, h5, h6, h7⟩ := BitStream.writeBit_spec (v := v) (by omega) h.fresh
  refine ⟨s', h1, ?_, ?_, ?_, ?_, ?_, h7⟩
  · simp [h2, hcu]
  · omega
  · omega
  · rw [h3, h.cap, h2]; omega
  · intro i hi
    simp at hi
    by_cases hlt : i < bits.length
    · rw [List.getElem_append_left hlt, h5 i (by omega), h.bit i hlt]
    · have : i = s.bitCursor := by omega
      subst this
      rw [List.getElem_append_right (by omega), h6]
      simp

theorem range_map_allOnes (n : Nat) (hn : n ≤ 128) :
    (List.range n).map (BitVec.allOnes 128).getLsbD = List.replicate n true := by
  apply List.ext_getElem
  · simp
  · intro i h1 h2
    have h1' : i < n := by simpa using h1
    rw [List.getElem_map, List.getElem_range, List.getElem_replicate, BitVec.getLsbD_allOnes]
    simp; omega

theorem holds_writeUnary : ∀ (fuel : Nat) {s : BitStream} {bits : List Bool} (_ : Holds s bits) (q : Nat) (_ : q < fuel),
    ∃ s', BitStream.writeUnary fuel s (q : Int) = .ok s' ∧ Holds s' (bits ++ List.replicate q true)
  | 0, _, _, _, q, hq => absurd hq (by omega)
  | fuel + 1, s, bits, h, q, hq => by
    unfold BitStream.writeUnary
    by_cases h0 : q = 0
    · subst h0; exact ⟨s, by simp, by simpa using h⟩
    · rw [if_pos (by omega)]
      by_cases h1 : q > 128
      · rw [if_pos (by omega)]
        obtain ⟨s', e1, h2⟩ := holds_writeBits h (BitVec.allOnes 128) (n := 128) (by norm_num)
        rw [range_map_allOnes _ (by norm_num)] at h2
        obtain ⟨s'', e2, h3⟩ := holds_writeUnary fuel h2 (q - 128) (by omega)
        refine ⟨s'', ?_, ?_⟩
        · rw [e1, bind_ok, show ((q : Int) - 128) = ((q - 128 : Nat) : Int) by omega]; exact e2
        · rw [List.append_assoc, List.replicate_append_replicate, show 128 + (q - 128) = q by omega] at h3
          exact h3
      · rw [if_neg (by omega)]
        obtain ⟨s', e1, h2⟩ := holds_writeBits h (BitVec.allOnes 128) (n := q) (by omega)
        rw [range_map_allOnes _ (by omega)] at h2
        exact ⟨s', by simpa using e1, h2⟩

theorem i16op_of {b : Build} {x : Int} (h : InI 16 x) : BitStream.i16op b x = .ok (BitVec.ofInt 16 x) := by
  simp [BitStream.i16op, chkI_of h]

theorem inI16 {x : Int} : InI 16 x ↔ -32768 ≤ x ∧ x ≤ 32767 := by
  unfold InI; norm_num; omega

theorem toInt_ofInt16 {x : Int} (h : -32768 ≤ x ∧ x ≤ 32767) : (BitVec.ofInt 16 x).toInt = x := by
  rw [BitVec.toInt_ofInt]
  apply Int.bmod_eq_of_le <;> omega

theorem toNat_ofInt16 {x : Nat} (h : x ≤ 32767) : (BitVec.ofInt 16 (x : Int)).toNat = x := by
  rw [BitVec.toNat_ofInt]; omega

/-- `(1 << k) - 1` in i16, wrapping -/
theorem mask16 {b : Build} {k : Nat} (hk : k ≤ 14 ∨ (k = 15 ∧ b = .release)) :
    BitStream.i16op b ((1#16 <<< k).toInt - 1) = .ok (BitVec.ofNat 16 (2 ^ k - 1)) := by
  rcases hk with hk | ⟨hk, hb⟩
  · have : k = 0 ∨ k = 1 ∨ k = 2 ∨ k = 3 ∨ k = 4 ∨ k = 5 ∨ k = 6 ∨ k = 7 ∨ k = 8 ∨ k = 9 ∨ k = 10 ∨ k = 11 ∨ k = 12 ∨
        k = 13 ∨ k = 14 := by omega
    rcases this with h | h | h | h | h | h | h | h | h | h | h | h | h | h | h <;> subst h <;> cases b <;> rfl
  · subst hk; subst hb; rfl

theorem holds_writeCompressed {b : Build} {s : BitStream} {bits : List Bool} (h : Holds s bits) {k : Nat}
    (hk : k ≤ 14 ∨ (k = 15 ∧ b = .release)) {v : Int} (hv : -32767 ≤ v ∧ v ≤ 32767) :
    ∃ s', s.writeCompressed b k (BitVec.ofInt 16 v) = .ok s' ∧ Holds s' (bits ++ riceBits k v) := by
  have hk15 : k ≤ 15 := by omega
  have hti : (BitVec.ofInt 16 v).toInt = v := toInt_ofInt16 (by omega)
  have hna : v.natAbs ≤ 32767 := by omega
  set a : BitVec 16 := BitVec.ofInt 16 (v.natAbs : Int) with ha
  have hatn : a.toNat = v.natAbs := toNat_ofInt16 hna
  have hamsb : a.msb = false := by
    rw [BitVec.msb_eq_decide, hatn]; simp; omega
  have hq : (a.sshiftRight k).toInt = ((v.natAbs / 2 ^ k : Nat) : Int) := by
    rw [BitVec.sshiftRight_eq_of_msb_false hamsb, BitVec.toInt_eq_toNat_of_lt]
    · rw [BitVec.toNat_ushiftRight, hatn, Nat.shiftRight_eq_div_pow]
    · rw [BitVec.toNat_ushiftRight, hatn, Nat.shiftRight_eq_div_pow]
      have := Nat.div_le_self v.natAbs (2 ^ k); omega
  -- sign bit
  have hsign : ((((BitVec.ofInt 16 v).sshiftRight 15) &&& 1#16).setWidth 8).getLsbD 0 = decide (v < 0) := by
    have hm : (BitVec.ofInt 16 v).msb = decide (v < 0) := by rw [BitVec.msb_eq_toInt, hti]
    have : (BitVec.ofInt 16 v).getLsbD 15 = (BitVec.ofInt 16 v).msb := by rw [BitVec.msb_eq_getLsbD_last]
    rw [← hm, ← this]
    rw [BitVec.getLsbD_setWidth, BitVec.getLsbD_and, BitVec.getLsbD_sshiftRight]
    simp
  obtain ⟨s1, e1, h1⟩ := holds_writeBit h ((((BitVec.ofInt 16 v).sshiftRight 15) &&& 1#16).setWidth 8)
  rw [hsign] at h1
  obtain ⟨s2, e2, h2⟩ := holds_writeUnary ((v.natAbs / 2 ^ k) + 1) h1 (v.natAbs / 2 ^ k) (by omega)
  obtain ⟨s3, e3, h3⟩ := holds_writeBit h2 0#8
  obtain ⟨s4, e4, h4⟩ := holds_writeBits h3
    (((a &&& BitVec.ofNat 16 (2 ^ k - 1)).signExtend 32).setWidth 128) (n := k) (by omega)
  refine ⟨s4, ?_, ?_⟩
  · unfold BitStream.writeCompressed
    rw [hti, i16op_of (inI16.2 (by omega)), mask16 hk, ← ha]
    simp only [bind_ok]
    rw [e1, bind_ok, hq]
    simp only [Int.toNat_natCast]
    rw [e2, bind_ok, e3, bind_ok, e4]
  · have hrem : (List.range k).map
        (((a &&& BitVec.ofNat 16 (2 ^ k - 1)).signExtend 32).setWidth 128).getLsbD = natBits k v.natAbs := by
      unfold natBits
      apply List.map_congr_left
      intro j hj
      rw [List.mem_range] at hj
      have hj16 : j < 16 := by omega
      rw [BitVec.getLsbD_setWidth, BitVec.getLsbD_signExtend, BitVec.getLsbD_and, BitVec.getLsbD_ofNat,
        Nat.testBit_two_pow_sub_one, ← hatn, BitVec.testBit_toNat]
      simp [hj, hj16, show j < 128 by omega, show j < 32 by omega]
    rw [hrem] at h4
    have hz : (0#8).getLsbD 0 = false := rfl
    rw [hz] at h4
    simpa [riceBits, List.append_assoc] using h4

/-! ## reading -/

theorem reads_readBit {s : BitStream} {bits : List Bool} {p : Nat} (h : Reads s bits p) (hp : p < bits.length) :
    ∃ s', s.readBit = .ok (s', if bits[p] then 1#128 else 0#128) ∧ Reads s' bits (p + 1) := by
  have hcu := h.cursor
  have hch := h.chunks
  obtain ⟨s', v, h1, h2, h3, h4, h5⟩ := BitStream.readBit_spec (s := s) (by omega)
  refine ⟨s', ?_, ?_, ?_, ?_, ?_⟩
  · rw [h1, h5, hcu, h.bit p hp]
  · omega
  · rw [h3]; exact hch
  · omega
  · rw [h3]; exact h.bit

theorem reads_peek {s : BitStream} {bits : List Bool} {p n : Nat} (h : Reads s bits p) (hn : n ≤ 128) :
    ∃ s' v, s.peekBits n = .ok (s', v) ∧ Reads s' bits p ∧ s'.binary.length ≥ s.binary.length ∧
      (∀ j (hj : p + j < bits.length), v.getLsbD j = (decide (j < n) && bits[p + j])) := by
  have hcu := h.cursor
  have hch := h.chunks
  have hin := h.inside
  obtain ⟨s', v, h1, h2, h3, h4, h5, h6⟩ := BitStream.peekBits_spec (s := s) hn (by omega)
  refine ⟨s', v, h1, ⟨by omega, by omega, hin, ?_⟩, by omega, ?_⟩
  · intro i hi; rw [h5]; exact h.bit i hi
  · intro j hj; rw [h6, hcu, h.bit _ hj]

theorem reads_offset {s : BitStream} {bits : List Bool} {p n : Nat} (h : Reads s bits p) (hp : p + n ≤ bits.length) :
    Reads (s.offsetBitCursor n) bits (p + n) :=
  ⟨by simp [BitStream.offsetBitCursor, h.cursor], h.chunks, hp, h.bit⟩

theorem reads_readBits {s : BitStream} {bits : List Bool} {p n : Nat} (h : Reads s bits p) (hn : n ≤ 128)
    (hp : p + n ≤ bits.length) :
    ∃ s' v, s.readBits n = .ok (s', v) ∧ Reads s' bits (p + n) ∧
      (∀ j, v.getLsbD j = (decide (j < n) && bits.getD (p + j) false)) := by
  have hcu := h.cursor
  have hch := h.chunks
  have hin := h.inside
  obtain ⟨s', v, h1, h2, h3, h4, h5, h6⟩ := BitStream.readBits_spec (s := s) hn (by omega)
  refine ⟨s', v, h1, ⟨by omega, by omega, hp, ?_⟩, ?_⟩
  · intro i hi; rw [h5]; exact h.bit i hi
  · intro j
    rw [h6, hcu]
    by_cases hj : j < n
    · rw [h.bit _ (by omega), List.getD_eq_getElem?_getD, List.getElem?_eq_getElem (by omega)]; rfl
    · simp [hj]

theorem firstZero_eq : ∀ (fuel : Nat) (c : BitVec 128) (r : Nat) (_ : r < fuel) (_ : ∀ j < r, c.getLsbD j = true)
    (_ : c.getLsbD r = false), BitStream.firstZero fuel c = r
  | 0, _, _, h, _, _ => absurd h (by omega)
  | fuel + 1, c, r, h, h1, h0 => by
    unfold BitStream.firstZero
    have hbit : (c &&& 1#128 ≠ 0#128) ↔ c.getLsbD 0 = true := by
      constructor
      · intro hne
        by_contra hc
        apply hne
        apply BitVec.eq_of_getLsbD_eq
        intro j hj
        rcases Nat.eq_zero_or_pos j with rfl | hpos
        · simp only [Bool.not_eq_true] at hc; rw [BitVec.getLsbD_and, hc]; simp
        · have : (1#128).getLsbD j = false := by simp [BitVec.getLsbD_one]; omega
          simp [this]
      · intro hc he
        have := congrArg (fun x => x.getLsbD 0) he
        rw [BitVec.getLsbD_and, hc] at this
        simp at this
    rcases Nat.eq_zero_or_pos r with rfl | hpos
    · rw [if_neg (by rw [hbit, h0]; simp)]
    · rw [if_pos (hbit.2 (h1 0 hpos))]
      rw [firstZero_eq fuel (c >>> 1) (r - 1) (by omega)]
      · omega
      · intro j hj
        rw [BitVec.getLsbD_ushiftRight]; exact h1 _ (by omega)
      · rw [BitVec.getLsbD_ushiftRight, show 1 + (r - 1) = r by omega]; exact h0

theorem readOnes_eq {b : Build} {bits : List Bool} {q : Nat} :
    ∀ (fuel : Nat) {s : BitStream} {p m : Nat} (_ : Reads s bits p) (_ : m ≤ q) (_ : (q - m) / 128 < fuel)
      (hz : p + (q - m) < bits.length) (_ : ∀ j (hj : j < q - m), bits[p + j] = true) (_ : bits[p + (q - m)] = false)
      (_ : q ≤ 32767),
      ∃ s' c, BitStream.readOnes b fuel s (BitVec.ofInt 16 (m : Int)) =
          .ok (s', c, BitVec.ofInt 16 ((m + 128 * ((q - m) / 128) : Nat) : Int)) ∧
        Reads s' bits (p + 128 * ((q - m) / 128)) ∧ BitStream.firstZero 128 c = (q - m) % 128
  | 0, _, _, _, _, _, hf, _, _, _, _ => absurd hf (by omega)
  | fuel + 1, s, p, m, h, hm, hf, hz, h1, h0, hq => by
    obtain ⟨s', c, e1, h2, hl, hc⟩ := reads_peek h (n := 128) (by norm_num)
    unfold BitStream.readOnes
    rw [e1]
    simp only [bind_ok]
    by_cases hbig : 128 ≤ q - m
    · have hall : c = BitVec.allOnes 128 := by
        apply BitVec.eq_of_getLsbD_eq
        intro j hj
        rw [hc j (by omega), h1 j (by omega), BitVec.getLsbD_allOnes]; simp [hj]
      rw [if_pos hall]
      have hmt : (BitVec.ofInt 16 (m : Int)).toInt = m := toInt_ofInt16 (by omega)
      rw [hmt, i16op_of (inI16.2 (by omega))]
      simp only [bind_ok]
      have hr : Reads (s'.offsetBitCursor 128) bits (p + 128) := reads_offset h2 (by omega)
      obtain ⟨s'', c', e2, h3, h4⟩ := readOnes_eq (m := m + 128) fuel hr (by omega) (by omega) (by omega)
        (by intro j hj; have := h1 (128 + j) (by omega); simpa [Nat.add_assoc] using this)
        (by simpa [show p + 128 + (q - (m + 128)) = p + (q - m) by omega] using h0) hq
      refine ⟨s'', c', ?_, ?_, ?_⟩
      · rw [show ((m : Int) + 128) = ((m + 128 : Nat) : Int) by push_cast; rfl, e2]
        rw [show m + 128 + 128 * ((q - (m + 128)) / 128) = m + 128 * ((q - m) / 128) by omega]
      · rw [show p + 128 * ((q - m) / 128) = p + 128 + 128 * ((q - (m + 128)) / 128) by omega]; exact h3
      · rw [h4]; omega
    · have hlt : q - m < 128 := by omega
      have hzero : c.getLsbD (q - m) = false := by rw [hc _ hz, h0]; simp
      have hne : c ≠ BitVec.allOnes 128 := by
        intro he; rw [he, BitVec.getLsbD_allOnes] at hzero; simp at hzero; omega
      rw [if_neg hne]
      have hd : (q - m) / 128 = 0 := by omega
      refine ⟨s', c, by simp [hd], by simpa [hd] using h2, ?_⟩
      rw [show (q - m) % 128 = q - m by omega]
      exact firstZero_eq _ _ _ hlt (by intro j hj; rw [hc j (by omega), h1 j (by omega)]; simp; omega) hzero

theorem length_riceBits (k : Nat) (v : Int) : (riceBits k v).length = v.natAbs / 2 ^ k + k + 2 := by
  simp [riceBits, natBits]; omega

theorem toNat_of_bits {k n : Nat} (hn : n < 2 ^ k) (hk : k ≤ 128) {v : BitVec 128}
    (h : ∀ j, v.getLsbD j = (decide (j < k) && n.testBit j)) : v.toNat = n := by
  have : v = BitVec.ofNat 128 n := by
    apply BitVec.eq_of_getLsbD_eq
    intro j hj
    rw [h, BitVec.getLsbD_ofNat]
    by_cases hjk : j < k
    · simp [hjk, hj]
    · simp only [hjk, decide_false, Bool.false_and, hj, decide_true, Bool.true_and]
      rw [Nat.testBit_lt_two_pow]
      exact lt_of_lt_of_le hn (Nat.pow_le_pow_right (by norm_num) (by omega))
  rw [this, BitVec.toNat_ofNat, Nat.mod_eq_of_lt]
  exact lt_of_lt_of_le hn (Nat.pow_le_pow_right (by norm_num) hk)

theorem shift16_toInt {k : Nat} (hk : k ≤ 14) : (1#16 <<< k).toInt = ((2 ^ k : Nat) : Int) := by
  have : k = 0 ∨ k = 1 ∨ k = 2 ∨ k = 3 ∨ k = 4 ∨ k = 5 ∨ k = 6 ∨ k = 7 ∨ k = 8 ∨ k = 9 ∨ k = 10 ∨ k = 11 ∨ k = 12 ∨
        k = 13 ∨ k = 14 := by omega
  rcases this with h | h | h | h | h | h | h | h | h | h | h | h | h | h | h <;> subst h <;> rfl

theorem reads_readCompressed {b : Build} {s : BitStream} {pre post : List Bool} {k : Nat} {v : Int}
    (h : Reads s (pre ++ riceBits k v ++ post) pre.length) (hk : k ≤ 15) (hv : -32767 ≤ v ∧ v ≤ 32767) :
    ∃ s', s.readCompressed b k = .ok (s', BitVec.ofInt 16 v) ∧
      Reads s' (pre ++ riceBits k v ++ post) (pre.length + (riceBits k v).length) := by
  set bits := pre ++ riceBits k v ++ post with hbits
  obtain ⟨q, hq⟩ : ∃ q, q = v.natAbs / 2 ^ k := ⟨_, rfl⟩
  set p := pre.length with hp
  have hpow : 0 < 2 ^ k := by positivity
  have hql : q ≤ v.natAbs := hq ▸ Nat.div_le_self _ _
  have hlen : bits.length = p + (q + k + 2) + post.length := by
    simp [hbits, length_riceBits, hp, hq]; omega
  have hget : ∀ j (hj : j < q + k + 2), bits[p + j]'(by omega) = (riceBits k v)[j]'(by rw [length_riceBits]; omega) := by
    intro j hj
    simp only [hbits]
    rw [List.getElem_append_left (by simp [length_riceBits]; omega), List.getElem_append_right (by omega)]
    simp [hp]
  have hb0 : bits[p]'(by omega) = decide (v < 0) := by
    have := hget 0 (by omega); simpa [riceBits] using this
  have hb1 : ∀ j (hj : j < q), bits[p + 1 + j]'(by omega) = true := by
    intro j hj
    have := hget (1 + j) (by omega)
    simp only [show p + 1 + j = p + (1 + j) by omega]
    rw [this]
    simp only [riceBits, ← hq]
    rw [List.getElem_cons, dif_neg (by omega), List.getElem_append_left (by simp; omega)]
    simp
  have hb2 : bits[p + 1 + q]'(by omega) = false := by
    have := hget (1 + q) (by omega)
    simp only [show p + 1 + q = p + (1 + q) by omega]
    rw [this]
    simp only [riceBits, ← hq]
    rw [List.getElem_cons, dif_neg (by omega), List.getElem_append_right (by simp)]
    simp
  have hb3 : ∀ j (hj : j < k), bits.getD (p + 1 + q + 1 + j) false = v.natAbs.testBit j := by
    intro j hj
    have := hget (1 + q + 1 + j) (by omega)
    rw [List.getD_eq_getElem?_getD, List.getElem?_eq_getElem (by omega), Option.getD_some]
    simp only [show p + 1 + q + 1 + j = p + (1 + q + 1 + j) by omega]
    rw [this]
    simp only [riceBits, ← hq, natBits]
    rw [List.getElem_cons, dif_neg (by omega), List.getElem_append_right (by simp; omega)]
    simp only [List.length_replicate]
    rw [List.getElem_cons, dif_neg (by omega)]
    simp only [List.getElem_map, List.getElem_range]
    congr 1; omega
  obtain ⟨s1, e1, h1⟩ := reads_readBit h (by omega)
  have hs1 := h1.chunks
  obtain ⟨s2, c, e2, h2, hz⟩ := readOnes_eq (b := b) (q := q) (m := 0) (s1.binary.length + 3) h1 (by omega) (by omega)
    (by omega) (by simpa using hb1) (by simpa using hb2) (by omega)
  simp only [Nat.sub_zero, Nat.zero_add] at e2 h2 hz
  have h3 : Reads (s2.offsetBitCursor (q % 128 + 1)) bits (p + 1 + q + 1) := by
    have := reads_offset (n := q % 128 + 1) h2 (by omega)
    rwa [show p + 1 + 128 * (q / 128) + (q % 128 + 1) = p + 1 + q + 1 by omega] at this
  obtain ⟨s3, r, e3, h4, hr⟩ := reads_readBits h3 (n := k) (by omega) (by omega)
  have hrem : r.toNat = v.natAbs % 2 ^ k := by
    apply toNat_of_bits (k := k) (Nat.mod_lt _ hpow) (by omega)
    intro j
    rw [hr]
    by_cases hj : j < k
    · rw [hb3 j hj, Nat.testBit_mod_two_pow]; simp [hj]
    · simp [hj]
  have hmodlt : v.natAbs % 2 ^ k ≤ v.natAbs := Nat.mod_le _ _
  have hremI : (r.setWidth 16 : BitVec 16).toInt = ((v.natAbs % 2 ^ k : Nat) : Int) := by
    rw [BitVec.toInt_eq_toNat_of_lt]
    · rw [BitVec.toNat_setWidth, hrem, Nat.mod_eq_of_lt (by omega)]
    · rw [BitVec.toNat_setWidth, hrem, Nat.mod_eq_of_lt (by omega)]; omega
  have hqI : BitStream.i16op b ((BitVec.ofInt 16 ((128 * (q / 128) : Nat) : Int)).toInt + ((q % 128 : Nat) : Int)) =
      .ok (BitVec.ofInt 16 (q : Int)) := by
    rw [toInt_ofInt16 (by omega), i16op_of (inI16.2 (by omega))]
    congr 2; push_cast; omega
  have hqi : (BitVec.ofInt 16 (q : Int)).toInt = q := toInt_ofInt16 (by omega)
  have hdm : 2 ^ k * q + v.natAbs % 2 ^ k = v.natAbs := hq ▸ Nat.div_add_mod _ _
  have hdq : BitStream.i16op b ((1#16 <<< k).toInt * (BitVec.ofInt 16 (q : Int)).toInt) =
      .ok (BitVec.ofInt 16 ((2 ^ k * q : Nat) : Int)) := by
    rw [hqi]
    by_cases hk14 : k ≤ 14
    · rw [shift16_toInt hk14, i16op_of (inI16.2 ?_)]
      · norm_num
      · constructor
        · have : (0 : Int) ≤ ((2 ^ k : Nat) : Int) * q := by positivity
          omega
        · have : ((2 ^ k * q : Nat) : Int) ≤ 32767 := by omega
          push_cast at this ⊢; exact this
    · have hk' : k = 15 := by omega
      have hq0 : q = 0 := by
        rw [hq, hk']; exact Nat.div_eq_of_lt (by omega)
      rw [hq0]; simp [i16op_of (inI16.2 (show (-32768 : Int) ≤ 0 ∧ (0 : Int) ≤ 32767 by omega))]
  have hdqi : (BitVec.ofInt 16 ((2 ^ k * q : Nat) : Int)).toInt = ((2 ^ k * q : Nat) : Int) := toInt_ofInt16 (by omega)
  have hu : BitStream.i16op b (((2 ^ k * q : Nat) : Int) + ((v.natAbs % 2 ^ k : Nat) : Int)) =
      .ok (BitVec.ofInt 16 (v.natAbs : Int)) := by
    rw [← Int.natCast_add, hdm, i16op_of (inI16.2 (by omega))]
  have hui : (BitVec.ofInt 16 (v.natAbs : Int)).toInt = v.natAbs := toInt_ofInt16 (by omega)
  refine ⟨s3, ?_, ?_⟩
  · unfold BitStream.readCompressed
    rw [e1]
    simp only [bind_ok]
    rw [show (0#16) = BitVec.ofInt 16 ((0 : Nat) : Int) from rfl, e2]
    simp only [bind_ok, hz]
    rw [hqI]
    simp only [bind_ok]
    rw [e3]
    simp only [bind_ok]
    rw [hdq]
    simp only [bind_ok]
    rw [hdqi, hremI, hu]
    simp only [bind_ok]
    rw [hui, hb0]
    by_cases hneg : v < 0
    · simp only [hneg, decide_true, if_true]
      have e1 : (BitVec.setWidth 16 1#128).toInt = 1 := rfl
      rw [e1, show ((v.natAbs : Int) * -1) = v by omega, i16op_of (inI16.2 (by omega))]
      simp only [bind_ok, sub_self, mul_zero]
      rw [i16op_of (inI16.2 (by omega))]
      simp only [bind_ok]
      rw [toInt_ofInt16 (by omega), show (BitVec.ofInt 16 0).toInt = 0 from rfl, add_zero, i16op_of (inI16.2 (by omega))]
      simp
    · simp only [hneg, decide_false, Bool.false_eq_true, if_false]
      have e1 : (BitVec.setWidth 16 0#128).toInt = 0 := rfl
      rw [e1]
      simp only [neg_zero, mul_zero, sub_zero, mul_one]
      rw [i16op_of (inI16.2 (by omega)), i16op_of (inI16.2 (by omega))]
      simp only [bind_ok]
      rw [toInt_ofInt16 (x := (v.natAbs : Int)) (by omega), show (BitVec.ofInt 16 0).toInt = 0 from rfl, zero_add,
        i16op_of (inI16.2 (by omega))]
      simp only [bind_ok, pure_eq_ok]
      rw [show (v.natAbs : Int) = v by omega]
  · rw [length_riceBits]
    rwa [← hq, show p + (q + k + 2) = p + 1 + q + 1 + k by omega]

end Adhoc
