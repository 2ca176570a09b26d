import Verif.Proofs.Over
import Verif.Props.Reuse
import Verif.Props.Bits

/-! # C110: a number written over whatever is in the bit stream -/

namespace Adhoc
open Spec BitStream

namespace Spec

/-- the number made of the old bits at the places `p` to `p + k - 1` that lie beyond the first 128-bit boundary after `p` -/
def leftover (s : BitStream) (p k : Nat) : Nat := Nat.ofBits fun j : Fin k => decide (128 ≤ p % 128 + j) && bitAt s.binary (p + j)

/-- `v` with the bits of `n` set in its absolute value -/
def smear (v : Int) (n : Nat) : Int := if v < 0 then -((v.natAbs ||| n : Nat) : Int) else ((v.natAbs ||| n : Nat) : Int)

end Spec

/-- `quotient` ones over any memory; chunks beyond the end of them stay -/
theorem writeUnary_over : ∀ (fuel : Nat) {s : BitStream} (_ : s.bitCursor / 128 ≤ s.binary.length) (q : Nat) (_ : q < fuel),
    ∃ s', BitStream.writeUnary fuel s (q : Int) = .ok s' ∧ s'.bitCursor = s.bitCursor + q ∧ s'.bitCursor / 128 ≤ s'.binary.length ∧
      (∀ i < s.bitCursor, bitAt s'.binary i = bitAt s.binary i) ∧ (∀ j < q, bitAt s'.binary (s.bitCursor + j) = true) ∧
      ∀ i, (s.bitCursor + q) / 128 < i / 128 → bitAt s'.binary i = bitAt s.binary i
  | 0, _, _, q, hq => absurd hq (by omega)
  | fuel + 1, s, hin, q, hq => by
    have one : ∀ n ≤ 128, ∃ s', s.writeBits (BitVec.allOnes 128) n = .ok s' ∧ s'.bitCursor = s.bitCursor + n ∧ s'.bitCursor / 128 ≤ s'.binary.length ∧
        (∀ i < s.bitCursor, bitAt s'.binary i = bitAt s.binary i) ∧ (∀ j < n, bitAt s'.binary (s.bitCursor + j) = true) ∧
        ∀ i, (s.bitCursor + n) / 128 < i / 128 → bitAt s'.binary i = bitAt s.binary i := by
      intro n hn
      obtain ⟨s', e, h1, -, h3, h4⟩ := writeBits_all (v := BitVec.allOnes 128) hn hin
      refine ⟨s', e, h1, by omega, ?_, ?_, ?_⟩
      · intro i hi
        rw [h4]
        split_ifs with c1 c2 c3
        · rfl
        · omega
        · omega
        · rfl
      · intro j hj
        rw [h4]
        split_ifs with c1 c2 c3
        · omega
        · rw [BitVec.getLsbD_allOnes, decide_eq_true]; omega
        · rw [BitVec.getLsbD_allOnes, decide_eq_true (p := 128 - s.bitCursor % 128 + (s.bitCursor + j) % 128 < 128) (by omega), Bool.or_true]
        · omega
      · intro i hi
        rw [h4, if_neg (by omega), if_neg (by omega)]
    unfold BitStream.writeUnary
    by_cases h0 : q = 0
    · subst h0
      exact ⟨s, by simp, by simp, hin, fun _ _ => rfl, by simp, fun _ _ => rfl⟩
    rw [if_pos (by omega)]
    by_cases h1 : q > 128
    · rw [if_pos (by omega)]
      obtain ⟨s1, e1, c1, i1, b1, o1, k1⟩ := one 128 le_rfl
      obtain ⟨s2, e2, c2, i2, b2, o2, k2⟩ := writeUnary_over fuel i1 (q - 128) (by omega)
      refine ⟨s2, ?_, by omega, i2, ?_, ?_, ?_⟩
      · rw [e1, bind_ok, show ((q : Int) - 128) = ((q - 128 : Nat) : Int) by omega]; exact e2
      · intro i hi
        rw [b2 i (by omega), b1 i hi]
      · intro j hj
        by_cases hj' : j < 128
        · rw [b2 _ (by omega), o1 j hj']
        · have := o2 (j - 128) (by omega)
          rwa [c1, show s.bitCursor + 128 + (j - 128) = s.bitCursor + j by omega] at this
      · intro i hi
        rw [k2 i (by omega), k1 i (by omega)]
    · rw [if_neg (by omega)]
      simpa using one q (by omega)

theorem or_div_pow {a n k : Nat} (h : n < 2 ^ k) : (a ||| n) / 2 ^ k = a / 2 ^ k := by
  rw [← Nat.shiftRight_eq_div_pow, ← Nat.shiftRight_eq_div_pow, Nat.shiftRight_or_distrib, Nat.shiftRight_eq_div_pow n, Nat.div_eq_of_lt h, Nat.or_zero]

theorem leftover_lt (s : BitStream) (p k : Nat) : leftover s p k < 2 ^ k := Nat.ofBits_lt_two_pow _

theorem testBit_leftover (s : BitStream) (p : Nat) {k j : Nat} (hj : j < k) :
    (leftover s p k).testBit j = (decide (128 ≤ p % 128 + j) && bitAt s.binary (p + j)) := Nat.testBit_ofBits_lt _ _ hj

theorem smear_range {v : Int} (hv : -32767 ≤ v ∧ v ≤ 32767) {k n : Nat} (hk : k ≤ 15) (hn : n < 2 ^ k) : -32767 ≤ smear v n ∧ smear v n ≤ 32767 := by
  have h1 : n < 2 ^ 15 := lt_of_lt_of_le hn (Nat.pow_le_pow_right (by norm_num) hk)
  have h2 : (v.natAbs ||| n) < 2 ^ 15 := Nat.or_lt_two_pow (by norm_num; omega) h1
  norm_num at h2
  unfold smear
  split <;> omega

theorem smear_natAbs (v : Int) (n : Nat) : (smear v n).natAbs = (v.natAbs ||| n) := by
  unfold smear
  split <;> simp

theorem smear_neg (v : Int) (n : Nat) : smear v n < 0 ↔ v < 0 := by
  unfold smear
  split
  · rename_i h
    have := Nat.left_le_or (n := v.natAbs) (m := n)
    constructor
    · intro; exact h
    · intro; omega
  · rename_i h
    constructor
    · intro; omega
    · intro; omega

/-- the code written by `write_compressed` at any place of any memory: the code of the number smeared with the old bits beyond the boundary
that its remainder crosses -/
theorem writeCompressed_over {b : Build} {s : BitStream} (hin : s.bitCursor / 128 ≤ s.binary.length) {k : Nat} (hk : k ≤ 14 ∨ (k = 15 ∧ b = .release))
    {v : Int} (hv : -32767 ≤ v ∧ v ≤ 32767) :
    ∃ s', s.writeCompressed b k (BitVec.ofInt 16 v) = .ok s' ∧
      Reads s' ((List.range s.bitCursor).map (bitAt s.binary) ++ riceBits k (smear v (leftover s (s.bitCursor + v.natAbs / 2 ^ k + 2) k)))
        (s.bitCursor + v.natAbs / 2 ^ k + 2 + k) := by
  have hk15 : k ≤ 15 := by omega
  have hti : (BitVec.ofInt 16 v).toInt = v := toInt_ofInt16 (by omega)
  have hna : v.natAbs ≤ 32767 := by omega
  set a : BitVec 16 := BitVec.ofInt 16 (v.natAbs : Int) with ha
  have hatn : a.toNat = v.natAbs := toNat_ofInt16 hna
  have hamsb : a.msb = false := by
    rw [BitVec.msb_eq_decide, hatn]; simp; omega
  obtain ⟨q, hqd⟩ : ∃ q, q = v.natAbs / 2 ^ k := ⟨_, rfl⟩
  have hq : (a.sshiftRight k).toInt = ((v.natAbs / 2 ^ k : Nat) : Int) := by
    rw [BitVec.sshiftRight_eq_of_msb_false hamsb, BitVec.toInt_eq_toNat_of_lt]
    · rw [BitVec.toNat_ushiftRight, hatn, Nat.shiftRight_eq_div_pow]
    · rw [BitVec.toNat_ushiftRight, hatn, Nat.shiftRight_eq_div_pow]
      have := Nat.div_le_self v.natAbs (2 ^ k); omega
  have hsign : ((((BitVec.ofInt 16 v).sshiftRight 15) &&& 1#16).setWidth 8).getLsbD 0 = decide (v < 0) := by
    have hm : (BitVec.ofInt 16 v).msb = decide (v < 0) := by rw [BitVec.msb_eq_toInt, hti]
    have : (BitVec.ofInt 16 v).getLsbD 15 = (BitVec.ofInt 16 v).msb := by rw [BitVec.msb_eq_getLsbD_last]
    rw [← hm, ← this]
    rw [BitVec.getLsbD_setWidth, BitVec.getLsbD_and, BitVec.getLsbD_sshiftRight]
    simp
  obtain ⟨s1, e1, c1, -, l1, b1⟩ := writeBit_all (s := s) (v := (((BitVec.ofInt 16 v).sshiftRight 15) &&& 1#16).setWidth 8) hin
  obtain ⟨s2, e2, c2, i2, b2, o2, k2⟩ := writeUnary_over (s := s1) (q + 1) (by omega) q (by omega)
  obtain ⟨s3, e3, c3, -, l3, b3⟩ := writeBit_all (s := s2) (v := 0#8) i2
  obtain ⟨s4, e4, c4, -, l4, b4⟩ := writeBits_all (s := s3) (v := ((a &&& BitVec.ofNat 16 (2 ^ k - 1)).signExtend 32).setWidth 128) (n := k) (by omega)
    (by rw [c3, l3, c2, c1]; omega)
  have hrem : ∀ j < k, (((a &&& BitVec.ofNat 16 (2 ^ k - 1)).signExtend 32).setWidth 128 : BitVec 128).getLsbD j = v.natAbs.testBit j := by
    intro j hj
    have hj16 : j < 16 := by omega
    rw [BitVec.getLsbD_setWidth, BitVec.getLsbD_signExtend, BitVec.getLsbD_and, BitVec.getLsbD_ofNat,
      Nat.testBit_two_pow_sub_one, ← hatn, BitVec.testBit_toNat]
    simp [hj, hj16, show j < 128 by omega, show j < 32 by omega]
  set r : BitVec 128 := ((a &&& BitVec.ofNat 16 (2 ^ k - 1)).signExtend 32).setWidth 128 with hr
  clear_value r
  rw [c3, c2, c1] at c4 b4 l4
  rw [c2, c1] at b3 l3
  rw [c1] at b2 o2 k2
  set n := leftover s (s.bitCursor + v.natAbs / 2 ^ k + 2) k with hn
  have hqs : (v.natAbs ||| n) / 2 ^ k = q := by rw [or_div_pow (leftover_lt _ _ _), hqd]
  have hlen : (riceBits k (smear v n)).length = q + k + 2 := by
    rw [length_riceBits, smear_natAbs, hqs]
  refine ⟨s4, ?_, ?_, ?_, ?_, ?_⟩
  · unfold BitStream.writeCompressed
    rw [hti, i16op_of (inI16.2 (by omega)), mask16 hk, ← ha]
    simp only [bind_ok]
    rw [e1, bind_ok, hq]
    simp only [Int.toNat_natCast]
    rw [← hqd, e2, bind_ok, e3, bind_ok, ← hr, e4]
  · rw [c4]; omega
  · rw [List.length_append, List.length_map, List.length_range, hlen]
    omega
  · rw [List.length_append, List.length_map, List.length_range, hlen]
    omega
  -- the bits
  have before : ∀ i < s.bitCursor + 1 + q + 1, bitAt s4.binary i = bitAt s3.binary i := by
    intro i hi
    rw [b4]
    split_ifs with d1 d2 d3
    · rfl
    · omega
    · omega
    · rfl
  have start : ∀ i < s.bitCursor, bitAt s4.binary i = bitAt s.binary i := by
    intro i hi
    rw [before i (by omega), b3]
    have : bitAt s2.binary i = bitAt s.binary i := by
      rw [b2 i (by omega), b1]
      split_ifs <;> first | rfl | omega
    split_ifs <;> first | exact this | omega
  have sign : bitAt s4.binary s.bitCursor = decide (v < 0) := by
    have h2 : bitAt s2.binary s.bitCursor = decide (v < 0) := by
      rw [b2 _ (by omega), b1, if_pos rfl, if_neg (by omega), Nat.sub_self, ← hsign]
      rw [BitVec.getLsbD_and, BitVec.getLsbD_setWidth]
      simp
    rw [before _ (by omega), b3]
    split_ifs <;> first | exact h2 | omega
  have ones : ∀ j < q, bitAt s4.binary (s.bitCursor + 1 + j) = true := by
    intro j hj
    rw [before _ (by omega), b3]
    split_ifs <;> first | exact o2 j hj | omega
  have zero : bitAt s4.binary (s.bitCursor + 1 + q) = false := by
    rw [before _ (by omega), b3, if_pos rfl, if_neg (by omega), Nat.sub_self]
    rfl
  have rest : ∀ j < k, bitAt s4.binary (s.bitCursor + q + 2 + j) = (v.natAbs ||| n).testBit j := by
    intro j hj
    rw [Nat.testBit_or, hn, testBit_leftover _ _ hj, ← hqd, b4]
    split_ifs with d1 d2 d3
    · omega
    · rw [show (s.bitCursor + q + 2 + j) % 128 - (s.bitCursor + 1 + q + 1) % 128 = j by omega, hrem j hj,
        decide_eq_false (p := 128 ≤ (s.bitCursor + q + 2) % 128 + j) (by omega), Bool.false_and, Bool.or_false]
    · rw [show 128 - (s.bitCursor + 1 + q + 1) % 128 + (s.bitCursor + q + 2 + j) % 128 = j by omega, hrem j hj,
        decide_eq_true (p := (s.bitCursor + q + 2 + j) % 128 < k - (128 - (s.bitCursor + 1 + q + 1) % 128)) (by omega),
        decide_eq_true (p := 128 ≤ (s.bitCursor + q + 2) % 128 + j) (by omega), Bool.true_and, Bool.true_and, b3, if_neg (by omega),
        k2 _ (by omega), b1, if_neg (by omega), Bool.or_comm]
    · omega
  intro i hi
  rw [List.length_append, List.length_map, List.length_range, hlen] at hi
  by_cases h1 : i < s.bitCursor
  · rw [List.getElem_append_left (by simpa using h1), start i h1]
    simp
  rw [List.getElem_append_right (by simpa using h1)]
  simp only [List.length_map, List.length_range, riceBits, smear_natAbs, hqs, smear_neg]
  obtain ⟨j, rfl⟩ : ∃ j, i = s.bitCursor + j := ⟨i - s.bitCursor, by omega⟩
  simp only [Nat.add_sub_cancel_left]
  cases j with
  | zero => simpa using sign
  | succ j =>
    simp only [List.getElem_cons_succ]
    by_cases h2 : j < q
    · rw [List.getElem_append_left (by simpa using h2), List.getElem_replicate]
      have := ones j h2
      rwa [show s.bitCursor + 1 + j = s.bitCursor + (j + 1) by omega] at this
    · rw [List.getElem_append_right (by simpa using h2)]
      obtain ⟨j, rfl⟩ : ∃ m, j = q + m := ⟨j - q, by omega⟩
      simp only [List.length_replicate, Nat.add_sub_cancel_left]
      cases j with
      | zero =>
        simp only [List.getElem_cons_zero]
        rwa [show s.bitCursor + 1 + q = s.bitCursor + (q + 0 + 1) by omega] at zero
      | succ j =>
        simp only [List.getElem_cons_succ, natBits, List.getElem_map, List.getElem_range]
        have := rest j (by omega)
        rwa [show s.bitCursor + q + 2 + j = s.bitCursor + (q + (j + 1) + 1) by omega] at this

/-- C110, exactly: a number written with `write_compressed` at any place of any memory and read back from there comes back with the old bits set
in its remainder that lie beyond the 128-bit boundary the remainder crosses. What lies before it stays, and the cursor ends where it ended
when writing. -/
theorem C110_exact_partial (b : Build) (s : BitStream) (hin : s.bitCursor / 128 ≤ s.binary.length) (k : Nat) (hk : k ≤ 14 ∨ (k = 15 ∧ b = .release))
    (v : Int) (hv : -32767 ≤ v ∧ v ≤ 32767) :
    ∃ s' s'', s.writeCompressed b k (BitVec.ofInt 16 v) = .ok s' ∧ (s'.setBitCursor s.bitCursor).readCompressed b k =
        .ok (s'', BitVec.ofInt 16 (smear v (leftover s (s.bitCursor + v.natAbs / 2 ^ k + 2) k))) ∧
      s'.bitCursor = s.bitCursor + v.natAbs / 2 ^ k + 2 + k ∧ s''.bitCursor = s'.bitCursor ∧ ∀ i < s.bitCursor, bitAt s'.binary i = bitAt s.binary i := by
  obtain ⟨s', e, h⟩ := writeCompressed_over hin hk hv
  set n := leftover s (s.bitCursor + v.natAbs / 2 ^ k + 2) k with hn
  have hlen : (riceBits k (smear v n)).length = v.natAbs / 2 ^ k + k + 2 := by
    rw [length_riceBits, smear_natAbs, or_div_pow (leftover_lt _ _ _)]
  have hr : Reads (s'.setBitCursor s.bitCursor) ((List.range s.bitCursor).map (bitAt s.binary) ++ riceBits k (smear v n) ++ [])
      ((List.range s.bitCursor).map (bitAt s.binary)).length :=
    ⟨by simp [BitStream.setBitCursor], by simpa [BitStream.setBitCursor] using h.chunks, by simp, by simpa [BitStream.setBitCursor] using h.bit⟩
  obtain ⟨s'', e2, h2⟩ := reads_readCompressed (b := b) hr (by omega) (smear_range hv (by omega) (leftover_lt _ _ _))
  refine ⟨s', s'', e, e2, h.cursor, ?_, ?_⟩
  · rw [h2.cursor, h.cursor, hlen]
    simp
    omega
  · intro i hi
    have := h.bit i (by simp; omega)
    rw [this, List.getElem_append_left (by simpa using hi)]
    simp

/-- C110, when the number survives -/
theorem C110_survives_partial (b : Build) (s : BitStream) (hin : s.bitCursor / 128 ≤ s.binary.length) (k : Nat) (hk : k ≤ 14 ∨ (k = 15 ∧ b = .release))
    (v : Int) (hv : -32767 ≤ v ∧ v ≤ 32767) :
    ∃ s' s'' r, s.writeCompressed b k (BitVec.ofInt 16 v) = .ok s' ∧ (s'.setBitCursor s.bitCursor).readCompressed b k = .ok (s'', BitVec.ofInt 16 r) ∧
      v.natAbs ≤ r.natAbs ∧ (r < 0 ↔ v < 0) ∧ -32767 ≤ r ∧ r ≤ 32767 ∧
      (r = v ↔ ∀ j < k, 128 ≤ (s.bitCursor + v.natAbs / 2 ^ k + 2) % 128 + j → bitAt s.binary (s.bitCursor + v.natAbs / 2 ^ k + 2 + j) = true →
        v.natAbs.testBit j = true) ∧
      (k ≤ 1 → r = v) := by
  obtain ⟨s', s'', e, e2, -, -, -⟩ := C110_exact_partial b s hin k hk v hv
  set n := leftover s (s.bitCursor + v.natAbs / 2 ^ k + 2) k with hn
  have iff : smear v n = v ↔ ∀ j < k, 128 ≤ (s.bitCursor + v.natAbs / 2 ^ k + 2) % 128 + j → bitAt s.binary (s.bitCursor + v.natAbs / 2 ^ k + 2 + j) = true →
      v.natAbs.testBit j = true := by
    have h1 : smear v n = v ↔ (v.natAbs ||| n) = v.natAbs := by
      constructor
      · intro h
        rw [← smear_natAbs, h]
      · intro h
        unfold smear
        rw [h]
        split <;> omega
    rw [h1]
    constructor
    · intro h j hj hb ho
      have := congrArg (·.testBit j) h
      rw [Nat.testBit_or, hn, testBit_leftover _ _ hj, decide_eq_true hb, ho] at this
      simpa using this.symm
    · intro h
      refine Nat.eq_of_testBit_eq fun j => ?_
      rw [Nat.testBit_or]
      by_cases hj : j < k
      · rw [hn, testBit_leftover _ _ hj]
        by_cases hb : 128 ≤ (s.bitCursor + v.natAbs / 2 ^ k + 2) % 128 + j
        · cases ho : bitAt s.binary (s.bitCursor + v.natAbs / 2 ^ k + 2 + j) with
          | false => simp
          | true => simp [h j hj hb ho]
        · simp [hb]
      · rw [Nat.testBit_lt_two_pow (x := n) (lt_of_lt_of_le (leftover_lt _ _ _) (Nat.pow_le_pow_right (by norm_num) (by omega))), Bool.or_false]
  have hr := smear_range hv (show k ≤ 15 by omega) (leftover_lt s (s.bitCursor + v.natAbs / 2 ^ k + 2) k)
  refine ⟨s', s'', smear v n, e, e2, by rw [smear_natAbs]; exact Nat.left_le_or, smear_neg v n, hr.1, hr.2, iff, ?_⟩
  intro h
  rw [iff]
  intro j hj hb _
  have := Nat.mod_lt (s.bitCursor + v.natAbs / 2 ^ k + 2) (show 0 < 128 by norm_num)
  omega

/-- bits beyond the next 128-bit boundary are not touched by writing one bit, so they are left over all the same -/
theorem leftover_writeBit {s s1 : BitStream} {x : BitVec 8} (hin : s.bitCursor / 128 ≤ s.binary.length) (e : s.writeBit x = .ok s1) {p k : Nat}
    (hp : s.bitCursor ≤ p) : leftover s1 p k = leftover s p k := by
  obtain ⟨s1', e1, -, -, -, b1⟩ := writeBit_all (s := s) (v := x) hin
  obtain rfl := Except.ok.inj (e1.symm.trans e)
  unfold leftover
  congr 1
  funext j
  by_cases h : 128 ≤ p % 128 + j
  · rw [b1, if_neg (by omega)]
  · simp [h]

/-- C110 for `write_compressed_capped`: with a quotient below 16 as for `write_compressed`, one bit later; otherwise the number is clamped to 14 bits
and the old bits beyond the boundary are set in these -/
theorem C110_capped_partial (b : Build) (s : BitStream) (hin : s.bitCursor / 128 ≤ s.binary.length) (k : Nat) (hk : k ≤ 14)
    (v : Int) (hv : -32767 ≤ v ∧ v ≤ 32767) :
    ∃ s' s'' r, s.writeCompressedCapped b (2 ^ k) (BitVec.ofInt 16 v) = .ok s' ∧
      (s'.setBitCursor s.bitCursor).readCompressedCapped b (2 ^ k) = .ok (s'', r) ∧ s''.bitCursor = s'.bitCursor ∧
      (v.natAbs / 2 ^ k < 16 → r = BitVec.ofInt 16 (smear v (leftover s (s.bitCursor + v.natAbs / 2 ^ k + 3) k))) ∧
      (16 ≤ v.natAbs / 2 ^ k → (∀ j < 14, r.getLsbD j = ((BitVec.ofInt 16 (max (-8192) (min v 8191))).getLsbD j ||
        (leftover s (s.bitCursor + 1) 14).testBit j)) ∧ r.getLsbD 14 = r.getLsbD 13 ∧ r.getLsbD 15 = r.getLsbD 13) := by
  have hquo := capped_quotient k v
  have hti : (BitVec.ofInt 16 v).toInt = v := toInt_ofInt16 (by omega)
  by_cases hq : v.natAbs / 2 ^ k < 16
  · obtain ⟨s1, e1, c1, -, l1, b1⟩ := writeBit_all (s := s) (v := 0#8) hin
    obtain ⟨s2, e2, h2⟩ := writeCompressed_over (b := b) (s := s1) (by rw [c1, l1]; omega) (Or.inl hk) hv
    rw [leftover_writeBit hin e1 (by rw [c1, Nat.add_assoc, Nat.add_assoc]; exact Nat.le_add_right _ _), c1, show s.bitCursor + 1 + v.natAbs / 2 ^ k + 2 = s.bitCursor + v.natAbs / 2 ^ k + 3 by omega] at h2
    set n := leftover s (s.bitCursor + v.natAbs / 2 ^ k + 3) k with hn
    set bits := (List.range (s.bitCursor + 1)).map (bitAt s1.binary) with hbits
    have hlb : bits.length = s.bitCursor + 1 := by simp [hbits]
    have hlen : (riceBits k (smear v n)).length = v.natAbs / 2 ^ k + k + 2 := by
      rw [length_riceBits, smear_natAbs, or_div_pow (leftover_lt _ _ _)]
    have hr : Reads (s2.setBitCursor s.bitCursor) (bits ++ riceBits k (smear v n) ++ []) s.bitCursor :=
      ⟨rfl, by simpa [BitStream.setBitCursor] using h2.chunks, by simp [hlb]; omega, by simpa [BitStream.setBitCursor] using h2.bit⟩
    obtain ⟨t1, f1, g1⟩ := reads_readBit hr (by simp [hlb]; omega)
    rw [show s.bitCursor + 1 = bits.length from hlb.symm] at g1
    obtain ⟨t2, f2, g2⟩ := reads_readCompressed (b := b) g1 (by omega) (smear_range hv (by omega) (leftover_lt _ _ _))
    have hbit : (bits ++ riceBits k (smear v n) ++ [])[s.bitCursor]'(by simp [hlb]; omega) = false := by
      simp only [List.append_nil]
      rw [List.getElem_append_left (by omega)]
      simp only [hbits, List.getElem_map, List.getElem_range]
      rw [b1, if_pos rfl, if_neg (by omega)]
      simp
    rw [hbit] at f1
    refine ⟨s2, t2, _, ?_, ?_, ?_, fun _ => rfl, fun h => absurd hq (by omega)⟩
    · unfold BitStream.writeCompressedCapped
      rw [hti, i16op_of (inI16.2 (by omega))]
      simp only [bind_ok]
      rw [toInt_ofInt16 (by omega)]
      rw [decide_eq_true (hquo.2 hq)]
      simp only [if_true]
      rw [e1]
      rw [bind_ok, writeDivisor_pow hk, e2]
    · unfold BitStream.readCompressedCapped
      simp only [f1, bind_ok, BitStream.readCompressedDivisor, countOnes_mask hk, f2, Bool.false_eq_true, if_false]
      rw [if_neg (by decide)]
    · rw [g2.cursor, h2.cursor, hlb, hlen]; omega
  · obtain ⟨s1, e1, c1, -, l1, b1⟩ := writeBit_all (s := s) (v := 1#8) hin
    have hcl := capped_clamp v
    obtain ⟨c, hc⟩ : ∃ c, c = max (-8192) (min v 8191) := ⟨_, rfl⟩
    rw [← hc] at hcl ⊢
    obtain ⟨s2, e2, c2, b2, o2, l2⟩ := writeBits_over (s := s1) (v := (BitVec.ofInt 16 c).setWidth 128) (n := 14) (by norm_num) (by rw [c1, l1]; omega)
    rw [c1] at c2 b2 o2 l2
    obtain ⟨t1, w1, f1, g2, g3, -, g4⟩ := BitStream.readBit_spec (s := s2.setBitCursor s.bitCursor) (by
      show s.bitCursor / 128 < s2.binary.length
      omega)
    have hbit : bitAt s2.binary s.bitCursor = true := by
      rw [b2 _ (by omega), b1, if_pos rfl, if_neg (by omega)]
      simp
    have g2' : t1.bitCursor = s.bitCursor + 1 := g2
    have g3' : t1.binary = s2.binary := g3
    have g4' : w1 = 1#128 := by
      rw [g4]
      show (if bitAt s2.binary s.bitCursor then 1#128 else 0#128) = _
      rw [hbit]; rfl
    obtain ⟨t2, w, f2, i2, -, -, -, hw⟩ := BitStream.readBits_spec (s := t1) (n := 14) (by norm_num) (by rw [g2', g3']; omega)
    rw [g2', g3'] at hw
    have key : ∀ j < 14, w.getLsbD j = ((BitVec.ofInt 16 c).getLsbD j || (leftover s (s.bitCursor + 1) 14).testBit j) := by
      intro j hj
      rw [hw, o2 j hj, ← leftover_writeBit hin e1 (show s.bitCursor ≤ s.bitCursor + 1 by omega), testBit_leftover _ _ hj, BitVec.getLsbD_setWidth]
      simp [hj, show j < 128 by omega]
    have h114 : CAPPED_SHIFT_FACTOR = 114 := rfl
    have low : ∀ j < 14, (((w <<< CAPPED_SHIFT_FACTOR).sshiftRight CAPPED_SHIFT_FACTOR).setWidth 16).getLsbD j = w.getLsbD j := by
      intro j hj
      rw [BitVec.getLsbD_setWidth, BitVec.getLsbD_sshiftRight, h114, if_pos (by omega), BitVec.getLsbD_shiftLeft]
      simp [show 114 + j < 128 by omega, show j < 16 by omega, show j < 128 by omega]
    have high : ∀ j, 14 ≤ j → j < 16 → (((w <<< CAPPED_SHIFT_FACTOR).sshiftRight CAPPED_SHIFT_FACTOR).setWidth 16).getLsbD j = w.getLsbD 13 := by
      intro j h1 h2
      rw [BitVec.getLsbD_setWidth, BitVec.getLsbD_sshiftRight, h114, if_neg (by omega), BitVec.msb_eq_getLsbD_last, BitVec.getLsbD_shiftLeft]
      simp [h2, show j < 128 by omega]
    refine ⟨s2, t2, ((w <<< CAPPED_SHIFT_FACTOR).sshiftRight CAPPED_SHIFT_FACTOR).setWidth 16, ?_, ?_, ?_, fun h => absurd h hq, fun _ => ⟨?_, ?_, ?_⟩⟩
    · unfold BitStream.writeCompressedCapped
      rw [hti, i16op_of (inI16.2 (by omega))]
      simp only [bind_ok]
      rw [toInt_ofInt16 (by omega)]
      have : ¬ ((v.natAbs : Int).tdiv ((2 ^ k : Nat) : Int) < 16) := fun h => hq (hquo.1 h)
      simp only [this, decide_false, Bool.false_eq_true, if_false, e1, bind_ok, hcl, CAPPED_BITS, e2]
    · unfold BitStream.readCompressedCapped
      simp only [f1, g4', bind_ok]
      rw [if_pos (by decide)]
      simp only [CAPPED_BITS, f2, bind_ok, pure_eq_ok]
    · rw [i2, g2', c2]
    · intro j hj
      rw [low j hj, key j hj]
    · rw [high 14 le_rfl (by norm_num), low 13 (by norm_num)]
    · rw [high 15 (by norm_num) (by norm_num), low 13 (by norm_num)]

/-- a stream whose memory is all ones, with the cursor at the start -/
def onesMemory : BitStream := { binary := List.replicate 3 (BitVec.allOnes 128), bitCursor := 0, capacity := 384 }

/-- C110 is false: 30976 written over ones with `write_compressed` and 256 as the divisor is read back as 31200. -/
theorem C110_false : ¬ ∀ (b : Build) (s s' : BitStream) (k : Nat) (v : BitVec 16), k ≤ 14 → s.bitCursor ≤ 128 * s.binary.length →
    s.writeCompressed b k v = .ok s' → ∃ s'', (s'.setBitCursor s.bitCursor).readCompressed b k = .ok (s'', v) := by
  intro h
  obtain ⟨s', s'', e, e2, -, -, -⟩ := C110_exact_partial .release onesMemory (by decide) 8 (by decide) 30976 (by decide)
  obtain ⟨t, f⟩ := h .release onesMemory s' 8 _ (by decide) (by decide) e
  rw [e2] at f
  have := (Prod.mk.inj (Except.ok.inj f)).2
  exact absurd this (by decide +kernel)

example : smear 30976 (leftover onesMemory (0 + (30976 : Int).natAbs / 2 ^ 8 + 2) 8) = 31200 := by decide +kernel
-- the crate's own tests use the divisor 2: 12345 over ones
example : ∃ s' s'', onesMemory.writeCompressed .debug 1 (BitVec.ofInt 16 12345) = .ok s' ∧
    (s'.setBitCursor 0).readCompressed .debug 1 = .ok (s'', BitVec.ofInt 16 12345) := by
  obtain ⟨s', s'', r, e, e2, -, -, -, -, -, h⟩ := C110_survives_partial .debug onesMemory (by decide) 1 (by decide) 12345 (by decide)
  rw [h le_rfl] at e2
  exact ⟨s', s'', e, e2⟩
-- an escaped number over ones, behind 120 bits
example : ∃ s' s'', BitStream.writeCompressedCapped .debug (onesMemory.setBitCursor 120) (2 ^ 1) (BitVec.ofInt 16 4096) = .ok s' ∧
    BitStream.readCompressedCapped .debug (s'.setBitCursor 120) (2 ^ 1) = .ok (s'', BitVec.ofInt 16 (-128)) := by
  obtain ⟨s', s'', r, e, e2, -, -, h⟩ := C110_capped_partial .debug (onesMemory.setBitCursor 120) (by decide) 1 (by decide) 4096 (by decide)
  obtain ⟨h1, h2, h3⟩ := h (by decide)
  refine ⟨s', s'', e, ?_⟩
  rw [show r = BitVec.ofInt 16 (-128) from ?_] at e2
  · exact e2
  apply BitVec.eq_of_getLsbD_eq
  intro j hj
  have key : ∀ j < 14, r.getLsbD j = (BitVec.ofInt 16 (-128)).getLsbD j := by
    intro j hj
    rw [h1 j hj]
    revert j
    decide +kernel
  by_cases hj' : j < 14
  · exact key j hj'
  · rcases (by omega : j = 14 ∨ j = 15) with rfl | rfl
    · rw [h2, key 13 (by norm_num)]; rfl
    · rw [h3, key 13 (by norm_num)]; rfl

end Adhoc
