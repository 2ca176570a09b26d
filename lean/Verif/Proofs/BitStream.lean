import Verif.Model.BitStream
import Verif.Proofs.Basic
import Verif.Spec.Bits
import Mathlib.Tactic.Linarith

/-! Bit-level description of `BitStream`. -/

namespace Adhoc

/-- bit `i` of a chunk list (0 outside) -/
def bitAt (l : List (BitVec 128)) (i : Nat) : Bool := ((l[i / 128]?).getD 0#128).getLsbD (i % 128)

theorem bitAt_append_zero (l : List (BitVec 128)) (i : Nat) : bitAt (l ++ [0#128]) i = bitAt l i := by
  unfold bitAt
  rcases lt_trichotomy (i / 128) l.length with h | h | h
  · rw [List.getElem?_append_left h]
  · rw [List.getElem?_append_right (by omega)]; simp [h]
  · rw [List.getElem?_eq_none (by simp; omega), List.getElem?_eq_none (by omega)]

theorem bitAt_set {l : List (BitVec 128)} {c : Nat} (hc : c < l.length) (x : BitVec 128) (i : Nat) :
    bitAt (l.set c x) i = if i / 128 = c then x.getLsbD (i % 128) else bitAt l i := by
  unfold bitAt
  rw [List.getElem?_set]
  split
  · next h => subst h; simp [hc]
  · next h => rw [if_neg (fun e => h e.symm)]

namespace BitStream

theorem allocate_bitAt (s : BitStream) (c i : Nat) : bitAt (s.allocateIfNeeded c).binary i = bitAt s.binary i := by
  unfold allocateIfNeeded
  split
  · exact bitAt_append_zero _ _
  · rfl

theorem allocate_length (s : BitStream) (c : Nat) :
    (s.allocateIfNeeded c).binary.length = if c ≥ s.binary.length then s.binary.length + 1 else s.binary.length := by
  unfold allocateIfNeeded; split <;> simp

@[simp] theorem allocate_cursor (s : BitStream) (c : Nat) : (s.allocateIfNeeded c).bitCursor = s.bitCursor := by
  unfold allocateIfNeeded; split <;> rfl

@[simp] theorem allocate_capacity (s : BitStream) (c : Nat) : (s.allocateIfNeeded c).capacity = s.capacity := by
  unfold allocateIfNeeded; split <;> rfl

theorem getLsbD_mask (a : Nat) (ha : a ≤ 128) (j : Nat) :
    ((1#128 <<< a) - 1#128).getLsbD j = decide (j < a) := by
  have : ((1#128 <<< a) - 1#128) = BitVec.ofNat 128 (2 ^ a - 1) := by
    apply BitVec.eq_of_toNat_eq
    rcases Nat.lt_or_eq_of_le ha with h | h
    · have h1 : 2 ^ a < 2 ^ 128 := Nat.pow_lt_pow_right (by norm_num) h
      have h0 : 1 ≤ 2 ^ a := Nat.one_le_two_pow
      simp only [BitVec.toNat_sub, BitVec.toNat_shiftLeft, BitVec.toNat_ofNat, Nat.shiftLeft_eq]
      norm_num at h1 ⊢
      omega
    · subst h; decide
  rw [this, BitVec.getLsbD_ofNat, Nat.testBit_two_pow_sub_one]
  by_cases h : j < a
  · simp [h]; omega
  · simp [h]

/-- what one `write_bits` call does -/
theorem writeBits_spec {s : BitStream} {v : BitVec 128} {n : Nat} (hn : n ≤ 128)
    (hlen : s.bitCursor / 128 ≤ s.binary.length)
    (hfresh : ∀ i, 128 * (s.bitCursor / 128 + 1) ≤ i → bitAt s.binary i = false) :
    ∃ s', s.writeBits v n = .ok s' ∧ s'.bitCursor = s.bitCursor + n ∧ s'.capacity = max (s.bitCursor + n) s.capacity ∧
      s'.binary.length = max s.binary.length (s.bitCursor / 128 + 2) ∧
      (∀ i < s.bitCursor, bitAt s'.binary i = bitAt s.binary i) ∧
      (∀ j < n, bitAt s'.binary (s.bitCursor + j) = v.getLsbD j) ∧
      (∀ i, 128 * (s'.bitCursor / 128 + 1) ≤ i → bitAt s'.binary i = false) := by
  set cur := s.bitCursor / 128 with hcur
  set bi := s.bitCursor % 128 with hbi
  have hbi' : bi < 128 := Nat.mod_lt _ (by norm_num)
  have hsplit : s.bitCursor = 128 * cur + bi := (Nat.div_add_mod _ _).symm
  set t := (s.allocateIfNeeded cur).allocateIfNeeded (cur + 1) with ht
  have htlen : t.binary.length = max s.binary.length (cur + 2) := by
    rw [ht, allocate_length, allocate_length]; split_ifs <;> omega
  have htbit : ∀ i, bitAt t.binary i = bitAt s.binary i := by
    intro i; rw [ht, allocate_bitAt, allocate_bitAt]
  have htc : t.bitCursor = s.bitCursor := by simp [ht]
  have htcap : t.capacity = s.capacity := by simp [ht]
  have hc : cur < t.binary.length := by omega
  have hd : cur + 1 < t.binary.length := by omega
  set c1 := (t.binary[cur] &&& ((1#128 <<< bi) - 1#128)) ||| (v <<< bi) with hc1
  have hcb : ∀ j < 128, c1.getLsbD j = if j < bi then bitAt s.binary (128 * cur + j) else v.getLsbD (j - bi) := by
    intro j hj
    have hbj : bitAt s.binary (128 * cur + j) = t.binary[cur].getLsbD j := by
      rw [← htbit]; unfold bitAt
      rw [show (128 * cur + j) / 128 = cur by omega, show (128 * cur + j) % 128 = j by omega, List.getElem?_eq_getElem hc]
      rfl
    rw [hc1, BitVec.getLsbD_or, BitVec.getLsbD_and, getLsbD_mask _ (by omega), BitVec.getLsbD_shiftLeft, hbj]
    by_cases h : j < bi <;> simp [h, hj]
  by_cases hst : 128 - bi < n
  · -- straddles
    set d0 := t.binary[cur + 1] with hd0
    set d1 := (d0 &&& ((1#128 <<< (n - (128 - bi))) - 1#128)) ||| (v >>> (128 - bi)) with hd1
    have hdz : ∀ j < 128, d0.getLsbD j = false := by
      intro j hj
      have := hfresh (128 * (cur + 1) + j) (by omega)
      rw [← htbit] at this
      unfold bitAt at this
      rw [show (128 * (cur + 1) + j) / 128 = cur + 1 by omega, show (128 * (cur + 1) + j) % 128 = j by omega,
        List.getElem?_eq_getElem hd] at this
      exact this
    have hdb : ∀ j < 128, d1.getLsbD j = v.getLsbD (128 - bi + j) := by
      intro j hj
      rw [hd1, BitVec.getLsbD_or, BitVec.getLsbD_and, hdz j hj, BitVec.getLsbD_ushiftRight]; simp
    refine ⟨({ t with binary := (t.binary.set cur c1).set (cur + 1) d1 }).offsetBitCursor n, ?_, ?_, ?_, ?_, ?_, ?_, ?_⟩
    · unfold writeBits
      simp only [chunkIndex, chunkBitIndex, ← hcur, ← hbi, ← ht, CHUNK_SIZE_IN_BITS]
      rw [idx_of_lt hc]
      simp only [bind_ok]
      rw [setIdx_of_lt hc]
      simp only [bind_ok, hst, if_true]
      rw [idx_of_lt (by simpa using hd)]
      simp only [bind_ok]
      rw [setIdx_of_lt (by simpa using hd)]
      have : (t.binary.set cur c1)[cur + 1]'(by simpa using hd) = t.binary[cur + 1] := by simp
      simp only [bind_ok, pure_eq_ok, ← hc1, this, ← hd0, ← hd1]
    · simp [offsetBitCursor, htc]
    · simp [offsetBitCursor, htc, htcap]
    · simp [offsetBitCursor, htlen]
    · intro i hi
      simp only [offsetBitCursor]
      rw [bitAt_set (by simpa using hd), bitAt_set hc, htbit]
      rw [if_neg (by omega)]
      split_ifs with h
      · rw [hcb _ (Nat.mod_lt _ (by norm_num)), if_pos (by omega)]; congr 1; omega
      · rfl
    · intro j hj
      simp only [offsetBitCursor]
      rw [bitAt_set (by simpa using hd), bitAt_set hc]
      by_cases h : bi + j < 128
      · rw [if_neg (by omega), if_pos (by omega), show (s.bitCursor + j) % 128 = bi + j by omega, hcb _ h,
          if_neg (by omega)]
        congr 1; omega
      · rw [if_pos (by omega), show (s.bitCursor + j) % 128 = bi + j - 128 by omega, hdb _ (by omega),
          show 128 - bi + (bi + j - 128) = j by omega]
    · intro i hi
      simp only [offsetBitCursor, htc] at hi ⊢
      rw [bitAt_set (by simpa using hd), bitAt_set hc]
      rw [if_neg (by omega), if_neg (by omega), htbit]
      exact hfresh _ (by omega)
  · refine ⟨({ t with binary := t.binary.set cur c1 }).offsetBitCursor n, ?_, ?_, ?_, ?_, ?_, ?_, ?_⟩
    · unfold writeBits
      simp only [chunkIndex, chunkBitIndex, ← hcur, ← hbi, ← ht, CHUNK_SIZE_IN_BITS]
      rw [idx_of_lt hc]
      simp only [bind_ok]
      rw [setIdx_of_lt hc]
      simp only [bind_ok, hst, if_false, pure_eq_ok, ← hc1]
    · simp [offsetBitCursor, htc]
    · simp [offsetBitCursor, htc, htcap]
    · simp [offsetBitCursor, htlen]
    · intro i hi
      simp only [offsetBitCursor]
      rw [bitAt_set hc, htbit]
      split_ifs with h
      · rw [hcb _ (Nat.mod_lt _ (by norm_num)), if_pos (by omega)]; congr 1; omega
      · rfl
    · intro j hj
      simp only [offsetBitCursor]
      rw [bitAt_set hc]
      rw [if_pos (by omega), show (s.bitCursor + j) % 128 = bi + j by omega, hcb _ (by omega), if_neg (by omega)]
      congr 1; omega
    · intro i hi
      simp only [offsetBitCursor, htc] at hi ⊢
      rw [bitAt_set hc, htbit, if_neg (by omega)]
      exact hfresh _ (by omega)

/-- what one `write_bit` call does -/
theorem writeBit_spec {s : BitStream} {v : BitVec 8}
    (hlen : s.bitCursor / 128 ≤ s.binary.length)
    (hfresh : ∀ i, 128 * (s.bitCursor / 128 + 1) ≤ i → bitAt s.binary i = false) :
    ∃ s', s.writeBit v = .ok s' ∧ s'.bitCursor = s.bitCursor + 1 ∧ s'.capacity = max (s.bitCursor + 1) s.capacity ∧
      s'.binary.length = max s.binary.length (s.bitCursor / 128 + 1) ∧
      (∀ i < s.bitCursor, bitAt s'.binary i = bitAt s.binary i) ∧
      bitAt s'.binary s.bitCursor = v.getLsbD 0 ∧
      (∀ i, 128 * (s'.bitCursor / 128 + 1) ≤ i → bitAt s'.binary i = false) := by
  set cur := s.bitCursor / 128 with hcur
  set bi := s.bitCursor % 128 with hbi
  have hbi' : bi < 128 := Nat.mod_lt _ (by norm_num)
  have hsplit : s.bitCursor = 128 * cur + bi := (Nat.div_add_mod _ _).symm
  set t := s.allocateIfNeeded cur with ht
  have htlen : t.binary.length = max s.binary.length (cur + 1) := by
    rw [ht, allocate_length]; split_ifs <;> omega
  have htbit : ∀ i, bitAt t.binary i = bitAt s.binary i := by
    intro i; rw [ht, allocate_bitAt]
  have htc : t.bitCursor = s.bitCursor := by simp [ht]
  have htcap : t.capacity = s.capacity := by simp [ht]
  have hc : cur < t.binary.length := by omega
  set c1 := (t.binary[cur] &&& ((1#128 <<< bi) - 1#128)) ||| ((v.setWidth 128 &&& 1#128) <<< bi) with hc1
  have hcb : ∀ j < 128, c1.getLsbD j =
      if j < bi then bitAt s.binary (128 * cur + j) else (v.setWidth 128 &&& 1#128).getLsbD (j - bi) := by
    intro j hj
    have hbj : bitAt s.binary (128 * cur + j) = t.binary[cur].getLsbD j := by
      rw [← htbit]; unfold bitAt
      rw [show (128 * cur + j) / 128 = cur by omega, show (128 * cur + j) % 128 = j by omega, List.getElem?_eq_getElem hc]
      rfl
    rw [hc1, BitVec.getLsbD_or, BitVec.getLsbD_and, getLsbD_mask _ (by omega), BitVec.getLsbD_shiftLeft, hbj]
    by_cases h : j < bi <;> simp [h, hj]
  refine ⟨({ t with binary := t.binary.set cur c1 }).offsetBitCursor 1, ?_, ?_, ?_, ?_, ?_, ?_, ?_⟩
  · unfold writeBit
    simp only [chunkIndex, chunkBitIndex, ← hcur, ← hbi, ← ht]
    rw [idx_of_lt hc]
    simp only [bind_ok]
    rw [setIdx_of_lt hc]
    simp only [bind_ok, pure_eq_ok, ← hc1]
  · simp [offsetBitCursor, htc]
  · simp [offsetBitCursor, htc, htcap]
  · simp [offsetBitCursor, htlen]
  · intro i hi
    simp only [offsetBitCursor]
    rw [bitAt_set hc, htbit]
    split_ifs with h
    · rw [hcb _ (Nat.mod_lt _ (by norm_num)), if_pos (by omega)]; congr 1; omega
    · rfl
  · simp only [offsetBitCursor]
    rw [bitAt_set hc, if_pos (by omega), hcb _ (by omega), if_neg (by omega)]
    simp [BitVec.getLsbD_setWidth, ← hbi]
  · intro i hi
    simp only [offsetBitCursor, htc] at hi ⊢
    rw [bitAt_set hc, htbit, if_neg (by omega)]
    exact hfresh _ (by omega)

/-- `write_bits` at any place of any memory, bit by bit -/
theorem writeBits_all {s : BitStream} {v : BitVec 128} {n : Nat} (hn : n ≤ 128) (hlen : s.bitCursor / 128 ≤ s.binary.length) :
    ∃ s', s.writeBits v n = .ok s' ∧ s'.bitCursor = s.bitCursor + n ∧ s'.capacity = max (s.bitCursor + n) s.capacity ∧
      s'.binary.length = max s.binary.length (s.bitCursor / 128 + 2) ∧
      ∀ i, bitAt s'.binary i =
        if i / 128 = s.bitCursor / 128 then (if i % 128 < s.bitCursor % 128 then bitAt s.binary i else v.getLsbD (i % 128 - s.bitCursor % 128))
        else if i / 128 = s.bitCursor / 128 + 1 ∧ 128 - s.bitCursor % 128 < n then
          (decide (i % 128 < n - (128 - s.bitCursor % 128)) && bitAt s.binary i || v.getLsbD (128 - s.bitCursor % 128 + i % 128))
        else bitAt s.binary i := by
  set cur := s.bitCursor / 128 with hcur
  set bi := s.bitCursor % 128 with hbi
  have hbi' : bi < 128 := Nat.mod_lt _ (by norm_num)
  set t := (s.allocateIfNeeded cur).allocateIfNeeded (cur + 1) with ht
  have htlen : t.binary.length = max s.binary.length (cur + 2) := by
    rw [ht, allocate_length, allocate_length]; split_ifs <;> omega
  have htbit : ∀ i, bitAt t.binary i = bitAt s.binary i := by
    intro i; rw [ht, allocate_bitAt, allocate_bitAt]
  have htc : t.bitCursor = s.bitCursor := by simp [ht]
  have htcap : t.capacity = s.capacity := by simp [ht]
  have hc : cur < t.binary.length := by omega
  have hd : cur + 1 < t.binary.length := by omega
  have word : ∀ {c : Nat} (h : c < t.binary.length) {i : Nat}, i / 128 = c → t.binary[c].getLsbD (i % 128) = bitAt s.binary i := by
    intro c h i hi
    rw [← htbit]; unfold bitAt
    rw [hi, List.getElem?_eq_getElem h]
    rfl
  set c1 := (t.binary[cur] &&& ((1#128 <<< bi) - 1#128)) ||| (v <<< bi) with hc1
  have hcb : ∀ i, i / 128 = cur → c1.getLsbD (i % 128) = if i % 128 < bi then bitAt s.binary i else v.getLsbD (i % 128 - bi) := by
    intro i hi
    have hj : i % 128 < 128 := Nat.mod_lt _ (by norm_num)
    rw [hc1, BitVec.getLsbD_or, BitVec.getLsbD_and, getLsbD_mask _ (by omega), BitVec.getLsbD_shiftLeft, word hc hi]
    by_cases h : i % 128 < bi <;> simp [h, hj]
  by_cases hst : 128 - bi < n
  · set d1 := (t.binary[cur + 1] &&& ((1#128 <<< (n - (128 - bi))) - 1#128)) ||| (v >>> (128 - bi)) with hd1
    have hdb : ∀ i, i / 128 = cur + 1 → d1.getLsbD (i % 128) = (decide (i % 128 < n - (128 - bi)) && bitAt s.binary i || v.getLsbD (128 - bi + i % 128)) := by
      intro i hi
      rw [hd1, BitVec.getLsbD_or, BitVec.getLsbD_and, word hd hi, BitVec.getLsbD_ushiftRight, getLsbD_mask _ (by omega), Bool.and_comm]
    refine ⟨({ t with binary := (t.binary.set cur c1).set (cur + 1) d1 }).offsetBitCursor n, ?_, ?_, ?_, ?_, ?_⟩
    · unfold BitStream.writeBits
      simp only [chunkIndex, chunkBitIndex, ← hcur, ← hbi, ← ht, CHUNK_SIZE_IN_BITS]
      rw [idx_of_lt hc]
      simp only [bind_ok]
      rw [setIdx_of_lt hc]
      simp only [bind_ok, hst, if_true]
      rw [idx_of_lt (by simpa using hd)]
      simp only [bind_ok]
      rw [setIdx_of_lt (by simpa using hd)]
      have : (t.binary.set cur c1)[cur + 1]'(by simpa using hd) = t.binary[cur + 1] := by simp
      simp only [bind_ok, pure_eq_ok, ← hc1, this, ← hd1]
    · simp [offsetBitCursor, htc]
    · simp [offsetBitCursor, htc, htcap]
    · simp [offsetBitCursor, htlen]
    · intro i
      simp only [offsetBitCursor]
      rw [bitAt_set (by simpa using hd), bitAt_set hc, htbit]
      by_cases h1 : i / 128 = cur
      · rw [if_neg (by omega), if_pos h1, if_pos h1, hcb i h1]
      · by_cases h2 : i / 128 = cur + 1
        · rw [if_pos h2, if_neg h1, if_pos ⟨h2, hst⟩, hdb i h2]
        · rw [if_neg h2, if_neg h1, if_neg h1, if_neg (fun h => h2 h.1)]
  · refine ⟨({ t with binary := t.binary.set cur c1 }).offsetBitCursor n, ?_, ?_, ?_, ?_, ?_⟩
    · unfold BitStream.writeBits
      simp only [chunkIndex, chunkBitIndex, ← hcur, ← hbi, ← ht, CHUNK_SIZE_IN_BITS]
      rw [idx_of_lt hc]
      simp only [bind_ok]
      rw [setIdx_of_lt hc]
      simp only [bind_ok, hst, if_false, pure_eq_ok, ← hc1]
    · simp [offsetBitCursor, htc]
    · simp [offsetBitCursor, htc, htcap]
    · simp [offsetBitCursor, htlen]
    · intro i
      simp only [offsetBitCursor]
      rw [bitAt_set hc, htbit]
      by_cases h1 : i / 128 = cur
      · rw [if_pos h1, if_pos h1, hcb i h1]
      · rw [if_neg h1, if_neg h1, if_neg (fun h => hst h.2)]

/-- `write_bit` at any place of any memory, bit by bit -/
theorem writeBit_all {s : BitStream} {v : BitVec 8} (hlen : s.bitCursor / 128 ≤ s.binary.length) :
    ∃ s', s.writeBit v = .ok s' ∧ s'.bitCursor = s.bitCursor + 1 ∧ s'.capacity = max (s.bitCursor + 1) s.capacity ∧
      s'.binary.length = max s.binary.length (s.bitCursor / 128 + 1) ∧
      ∀ i, bitAt s'.binary i =
        if i / 128 = s.bitCursor / 128 then
          (if i % 128 < s.bitCursor % 128 then bitAt s.binary i else (v.setWidth 128 &&& 1#128).getLsbD (i % 128 - s.bitCursor % 128))
        else bitAt s.binary i := by
  set cur := s.bitCursor / 128 with hcur
  set bi := s.bitCursor % 128 with hbi
  have hbi' : bi < 128 := Nat.mod_lt _ (by norm_num)
  set t := s.allocateIfNeeded cur with ht
  have htlen : t.binary.length = max s.binary.length (cur + 1) := by
    rw [ht, allocate_length]; split_ifs <;> omega
  have htbit : ∀ i, bitAt t.binary i = bitAt s.binary i := by
    intro i; rw [ht, allocate_bitAt]
  have htc : t.bitCursor = s.bitCursor := by simp [ht]
  have htcap : t.capacity = s.capacity := by simp [ht]
  have hc : cur < t.binary.length := by omega
  set c1 := (t.binary[cur] &&& ((1#128 <<< bi) - 1#128)) ||| ((v.setWidth 128 &&& 1#128) <<< bi) with hc1
  have hcb : ∀ i, i / 128 = cur → c1.getLsbD (i % 128) =
      if i % 128 < bi then bitAt s.binary i else (v.setWidth 128 &&& 1#128).getLsbD (i % 128 - bi) := by
    intro i hi
    have hj : i % 128 < 128 := Nat.mod_lt _ (by norm_num)
    have hbj : bitAt s.binary i = t.binary[cur].getLsbD (i % 128) := by
      rw [← htbit]; unfold bitAt
      rw [hi, List.getElem?_eq_getElem hc]
      rfl
    rw [hc1, BitVec.getLsbD_or, BitVec.getLsbD_and, getLsbD_mask _ (by omega), BitVec.getLsbD_shiftLeft, hbj]
    by_cases h : i % 128 < bi <;> simp [h, hj]
  refine ⟨({ t with binary := t.binary.set cur c1 }).offsetBitCursor 1, ?_, ?_, ?_, ?_, ?_⟩
  · unfold writeBit
    simp only [chunkIndex, chunkBitIndex, ← hcur, ← hbi, ← ht]
    rw [idx_of_lt hc]
    simp only [bind_ok]
    rw [setIdx_of_lt hc]
    simp only [bind_ok, pure_eq_ok, ← hc1]
  · simp [offsetBitCursor, htc]
  · simp [offsetBitCursor, htc, htcap]
  · simp [offsetBitCursor, htlen]
  · intro i
    simp only [offsetBitCursor]
    rw [bitAt_set hc, htbit]
    by_cases h1 : i / 128 = cur
    · rw [if_pos h1, if_pos h1, hcb i h1]
    · rw [if_neg h1, if_neg h1]

/-- what one `peek_bits` call does when the cursor is not beyond the next chunk -/
theorem peekBits_spec {s : BitStream} {n : Nat} (hn : n ≤ 128) (hlen : s.bitCursor / 128 ≤ s.binary.length) :
    ∃ s' v, s.peekBits n = .ok (s', v) ∧ s'.bitCursor = s.bitCursor ∧ s'.capacity = s.capacity ∧
      s'.binary.length = max s.binary.length (s.bitCursor / 128 + 2) ∧
      (∀ i, bitAt s'.binary i = bitAt s.binary i) ∧
      (∀ j, v.getLsbD j = (decide (j < n) && bitAt s.binary (s.bitCursor + j))) := by
  set cur := s.bitCursor / 128 with hcur
  set bi := s.bitCursor % 128 with hbi
  have hbi' : bi < 128 := Nat.mod_lt _ (by norm_num)
  have hsplit : s.bitCursor = 128 * cur + bi := (Nat.div_add_mod _ _).symm
  set t := (s.allocateIfNeeded cur).allocateIfNeeded (cur + 1) with ht
  have htlen : t.binary.length = max s.binary.length (cur + 2) := by
    rw [ht, allocate_length, allocate_length]; split_ifs <;> omega
  have htbit : ∀ i, bitAt t.binary i = bitAt s.binary i := by
    intro i; rw [ht, allocate_bitAt, allocate_bitAt]
  have hc : cur < t.binary.length := by omega
  have hd : cur + 1 < t.binary.length := by omega
  set mask : BitVec 128 := if n < 128 then (1#128 <<< n) - 1#128 else BitVec.allOnes 128 with hmask
  have hm : ∀ j, mask.getLsbD j = decide (j < n) := by
    intro j
    rw [hmask]
    split
    · exact getLsbD_mask _ hn _
    · rw [BitVec.getLsbD_allOnes]; congr 1; apply propext; omega
  have hcbit : ∀ j < 128, t.binary[cur].getLsbD j = bitAt s.binary (128 * cur + j) := by
    intro j hj
    rw [← htbit]; unfold bitAt
    rw [show (128 * cur + j) / 128 = cur by omega, show (128 * cur + j) % 128 = j by omega, List.getElem?_eq_getElem hc]
    rfl
  have hdbit : ∀ j < 128, t.binary[cur + 1].getLsbD j = bitAt s.binary (128 * (cur + 1) + j) := by
    intro j hj
    rw [← htbit]; unfold bitAt
    rw [show (128 * (cur + 1) + j) / 128 = cur + 1 by omega, show (128 * (cur + 1) + j) % 128 = j by omega,
      List.getElem?_eq_getElem hd]
    rfl
  by_cases hst : 128 - bi < n
  · refine ⟨t, ((t.binary[cur] >>> bi) ||| (t.binary[cur + 1] <<< (128 - bi))) &&& mask, ?_, ?_, ?_, htlen, htbit, ?_⟩
    · unfold peekBits
      simp only [chunkIndex, chunkBitIndex, ← hcur, ← hbi, ← ht, ← hmask]
      rw [if_neg (by omega), idx_of_lt hc]
      simp only [bind_ok, hst, if_true]
      rw [idx_of_lt hd]
      simp
    · simp [ht]
    · simp [ht]
    · intro j
      rw [BitVec.getLsbD_and, hm, BitVec.getLsbD_or, BitVec.getLsbD_ushiftRight, BitVec.getLsbD_shiftLeft]
      by_cases hjn : j < n
      · simp only [hjn, decide_true, Bool.and_true, Bool.true_and]
        by_cases h : bi + j < 128
        · rw [hcbit _ h, decide_eq_true (show j < 128 - bi by omega)]
          simp; congr 1; omega
        · rw [BitVec.getLsbD_of_ge _ _ (by omega), decide_eq_true (show j < 128 by omega),
            decide_eq_false (show ¬ j < 128 - bi by omega), hdbit _ (by omega)]
          simp; congr 1; omega
      · simp [hjn]
  · refine ⟨t, (t.binary[cur] >>> bi) &&& mask, ?_, ?_, ?_, htlen, htbit, ?_⟩
    · unfold peekBits
      simp only [chunkIndex, chunkBitIndex, ← hcur, ← hbi, ← ht, ← hmask]
      rw [if_neg (by omega), idx_of_lt hc]
      simp only [bind_ok, hst, if_false]
      simp
    · simp [ht]
    · simp [ht]
    · intro j
      rw [BitVec.getLsbD_and, hm, BitVec.getLsbD_ushiftRight]
      by_cases hjn : j < n
      · simp only [hjn, decide_true, Bool.and_true, Bool.true_and]
        rw [hcbit _ (by omega)]; congr 1; omega
      · simp [hjn]

/-- what `read_bits` does -/
theorem readBits_spec {s : BitStream} {n : Nat} (hn : n ≤ 128) (hlen : s.bitCursor / 128 ≤ s.binary.length) :
    ∃ s' v, s.readBits n = .ok (s', v) ∧ s'.bitCursor = s.bitCursor + n ∧
      s'.capacity = max (s.bitCursor + n) s.capacity ∧
      s'.binary.length = max s.binary.length (s.bitCursor / 128 + 2) ∧
      (∀ i, bitAt s'.binary i = bitAt s.binary i) ∧
      (∀ j, v.getLsbD j = (decide (j < n) && bitAt s.binary (s.bitCursor + j))) := by
  obtain ⟨s', v, h1, h2, h3, h4, h5, h6⟩ := peekBits_spec hn hlen
  refine ⟨s'.offsetBitCursor n, v, ?_, ?_, ?_, ?_, ?_, h6⟩
  · unfold readBits; rw [h1]; rfl
  · simp [offsetBitCursor, h2]
  · simp [offsetBitCursor, h2, h3]
  · simpa [offsetBitCursor] using h4
  · simpa [offsetBitCursor] using h5

/-- what `read_bit` does inside the stream -/
theorem readBit_spec {s : BitStream} (hlen : s.bitCursor / 128 < s.binary.length) :
    ∃ s' v, s.readBit = .ok (s', v) ∧ s'.bitCursor = s.bitCursor + 1 ∧ s'.binary = s.binary ∧
      s'.capacity = max (s.bitCursor + 1) s.capacity ∧
      v = if bitAt s.binary s.bitCursor then 1#128 else 0#128 := by
  refine ⟨s.offsetBitCursor 1, _, ?_, rfl, rfl, rfl, rfl⟩
  unfold readBit
  simp only [chunkIndex, chunkBitIndex]
  have hno : ¬ (s.bitCursor / 128 ≥ s.binary.length) := by omega
  simp only [hno, if_false]
  have : (s.offsetBitCursor 1).binary = s.binary := rfl
  rw [this, idx_of_lt hlen]
  simp only [bind_ok, pure_eq_ok]
  congr 2
  apply BitVec.eq_of_getLsbD_eq
  intro j hj
  unfold bitAt
  rw [List.getElem?_eq_getElem hlen]
  simp only [Option.getD_some, BitVec.getLsbD_and, BitVec.getLsbD_ushiftRight]
  rcases Nat.eq_zero_or_pos j with h | h
  · subst h
    by_cases hb : (s.binary[s.bitCursor / 128]).getLsbD (s.bitCursor % 128) <;> simp [hb]
  · have h1 : (1#128).getLsbD j = false := by simp [BitVec.getLsbD_one]; omega
    rw [h1]
    split
    · simp [h1]
    · simp

end BitStream
end Adhoc
