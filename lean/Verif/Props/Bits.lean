import Verif.Proofs.Terminate

/-! # C28–C31: the bit stream and the Rice code -/

namespace Adhoc
open Spec

namespace Spec

/-- one item a user of the bit stream can write -/
inductive Field
  | bit (v : Bool)
  /-- the `n` low bits of a 128-bit value -/
  | bits (n : Nat) (v : BitVec 128)
  /-- a Rice coded value -/
  | rice (k : Nat) (v : Int)

/-- the fields covered by C28 -/
def Field.Valid (b : Build) : Field → Prop
  | .bit _ => True
  | .bits n _ => n ≤ 128
  | .rice k v => (k ≤ 14 ∨ (k = 15 ∧ b = .release)) ∧ -32767 ≤ v ∧ v ≤ 32767

/-- the bits of a field -/
def Field.code : Field → List Bool
  | .bit v => [v]
  | .bits n v => natBits n v.toNat
  | .rice k v => riceBits k v

/-- the width of a field -/
def Field.width : Field → Nat
  | .bit _ => 1
  | .bits n _ => n
  | .rice k v => 1 + v.natAbs / 2 ^ k + 1 + k

/-- what reading the field back must return -/
def Field.value : Field → Int
  | .bit v => if v then 1 else 0
  | .bits n v => ((v.toNat % 2 ^ n : Nat) : Int)
  | .rice _ v => v

end Spec

/-- write a field with the matching method of the stream -/
def writeField (b : Build) (s : BitStream) : Field → R BitStream
  | .bit v => s.writeBit (if v then 1#8 else 0#8)
  | .bits n v => s.writeBits v n
  | .rice k v => s.writeCompressed b k (BitVec.ofInt 16 v)

/-- read a field with the matching method of the stream -/
def readField (b : Build) (s : BitStream) : Field → R (BitStream × Int)
  | .bit _ => do
    let (s, v) ← s.readBit
    pure (s, (v.toNat : Int))
  | .bits n _ => do
    let (s, v) ← s.readBits n
    pure (s, (v.toNat : Int))
  | .rice k _ => do
    let (s, v) ← s.readCompressed b k
    pure (s, v.toInt)

/-- write a sequence of fields -/
def writeFields (b : Build) : BitStream → List Field → R BitStream
  | s, [] => pure s
  | s, f :: fs => do
    let s ← writeField b s f
    writeFields b s fs

/-- read a sequence of fields -/
def readFields (b : Build) : BitStream → List Field → R (List Int)
  | _, [] => pure []
  | s, f :: fs => do
    let (s, v) ← readField b s f
    let vs ← readFields b s fs
    pure (v :: vs)

theorem length_code (f : Field) : f.code.length = f.width := by
  cases f <;> simp [Field.code, Field.width, natBits, length_riceBits]; omega

theorem writeField_holds {b : Build} {s : BitStream} {bits : List Bool} (h : Holds s bits) {f : Field} (hf : f.Valid b) :
    ∃ s', writeField b s f = .ok s' ∧ Holds s' (bits ++ f.code) := by
  cases f with
  | bit v =>
    obtain ⟨s', e, h'⟩ := holds_writeBit h (if v then 1#8 else 0#8)
    refine ⟨s', e, ?_⟩
    cases v <;> exact h'
  | bits n v =>
    obtain ⟨s', e, h'⟩ := holds_writeBits h v hf
    exact ⟨s', e, h'⟩
  | rice k v => exact holds_writeCompressed h hf.1 hf.2

theorem writeFields_holds {b : Build} : ∀ (fs : List Field) {s : BitStream} {bits : List Bool} (_ : Holds s bits)
    (_ : ∀ f ∈ fs, f.Valid b), ∃ s', writeFields b s fs = .ok s' ∧ Holds s' (bits ++ fs.flatMap Field.code)
  | [], s, bits, h, _ => ⟨s, rfl, by simpa using h⟩
  | f :: fs, s, bits, h, hv => by
    obtain ⟨s1, e1, h1⟩ := writeField_holds h (hv f (by simp))
    obtain ⟨s2, e2, h2⟩ := writeFields_holds fs h1 (fun g hg => hv g (by simp [hg]))
    exact ⟨s2, by simp [writeFields, e1, e2], by simpa using h2⟩

theorem readField_reads {b : Build} {s : BitStream} {pre post : List Bool} {f : Field}
    (h : Reads s (pre ++ f.code ++ post) pre.length) (hf : f.Valid b) :
    ∃ s', readField b s f = .ok (s', f.value) ∧ Reads s' (pre ++ f.code ++ post) (pre.length + f.code.length) := by
  cases f with
  | bit v =>
    obtain ⟨s', e, h'⟩ := reads_readBit h (by simp [Field.code])
    refine ⟨s', ?_, by simpa [Field.code] using h'⟩
    have : (pre ++ Field.code (.bit v) ++ post)[pre.length]'(by simp [Field.code]) = v := by
      simp [Field.code]
    simp only [readField, e, bind_ok, this]
    cases v <;> rfl
  | bits n v =>
    have hn : n ≤ 128 := hf
    obtain ⟨s', w, e, h', hw⟩ := reads_readBits (n := n) h hn (by simp [Field.code, natBits])
    refine ⟨s', ?_, by simpa [Field.code, natBits] using h'⟩
    have : w.toNat = v.toNat % 2 ^ n := by
      apply toNat_of_bits (Nat.mod_lt _ (by positivity)) hn
      intro j
      rw [hw]
      by_cases hj : j < n
      · rw [List.getD_eq_getElem?_getD, List.append_assoc, List.getElem?_append_right (by omega),
          List.getElem?_append_left (by simp [Field.code, natBits]; omega)]
        simp [Field.code, natBits, hj, Nat.testBit_mod_two_pow]
      · simp [hj]
    simp [readField, e, this, Field.value]
  | rice k v =>
    have hk : k ≤ 15 := by have := hf.1; omega
    obtain ⟨s', e, h'⟩ := reads_readCompressed (b := b) h hk hf.2
    refine ⟨s', ?_, h'⟩
    have hv := hf.2
    simp [readField, e, Field.value, toInt_ofInt16 (show -32768 ≤ v ∧ v ≤ 32767 by omega)]

theorem readFields_reads {b : Build} : ∀ (fs : List Field) {s : BitStream} {pre post : List Bool}
    (_ : Reads s (pre ++ fs.flatMap Field.code ++ post) pre.length) (_ : ∀ f ∈ fs, f.Valid b),
    readFields b s fs = .ok (fs.map Field.value)
  | [], s, pre, post, _, _ => rfl
  | f :: fs, s, pre, post, h, hv => by
    have h' : Reads s (pre ++ f.code ++ (fs.flatMap Field.code ++ post)) pre.length := by
      simpa [List.append_assoc] using h
    obtain ⟨s1, e1, h1⟩ := readField_reads h' (hv f (by simp))
    have h2 : Reads s1 ((pre ++ f.code) ++ fs.flatMap Field.code ++ post) (pre ++ f.code).length := by
      simpa [List.append_assoc] using h1
    have e2 := readFields_reads fs h2 (fun g hg => hv g (by simp [hg]))
    simp [readFields, e1, e2]

/-- C28. Any sequence of valid writes on a fresh stream succeeds, occupies exactly the sum of the field widths, and after a
rewind the matching reads return the written values. -/
theorem C28_bitstream_roundtrip (b : Build) (fs : List Field) (hv : ∀ f ∈ fs, f.Valid b) :
    ∃ s, writeFields b BitStream.new fs = .ok s ∧ s.len = (fs.map Field.width).sum ∧
      readFields b s.seekStart fs = .ok (fs.map Field.value) := by
  obtain ⟨s, e, h⟩ := writeFields_holds fs holds_new hv
  refine ⟨s, e, ?_, ?_⟩
  · show s.bitCursor = _
    rw [h.cursor]
    simp only [List.nil_append, List.length_flatMap]
    congr 1
    exact List.map_congr_left fun f _ => length_code f
  · apply readFields_reads fs (pre := []) (post := []) _ hv
    simpa using h.reads (t := s.seekStart) rfl (Nat.zero_le _) rfl

/-- C28, stronger: the stream holds exactly the concatenated field codes, bit `i` of the stream being bit `i % 128` of chunk `i / 128`. -/
theorem C28_bitstream_bits (b : Build) (fs : List Field) (hv : ∀ f ∈ fs, f.Valid b) :
    ∃ s, writeFields b BitStream.new fs = .ok s ∧
      ∀ i (h : i < (fs.flatMap Field.code).length), (s.binary[i / 128]?.getD 0#128).getLsbD (i % 128) = (fs.flatMap Field.code)[i] := by
  obtain ⟨s, e, h⟩ := writeFields_holds fs holds_new hv
  exact ⟨s, e, fun i hi => by simpa [bitAt] using h.bit i (by simpa using hi)⟩

/-- a sequence crossing a chunk boundary meets the hypotheses -/
example : (∀ f ∈ [Field.bit true, .bits 128 5#128, .rice 3 (-32767), .bits 0 9#128], f.Valid .debug) ∧
    ([Field.bit true, .bits 128 5#128, .rice 3 (-32767), .bits 0 9#128].map Field.width).sum = 4229 := by
  refine ⟨?_, by decide⟩
  intro f hf
  simp at hf
  rcases hf with rfl | rfl | rfl | rfl <;> simp [Field.Valid]

/-- C29. A Rice coded value written at the end of any stream content is read back, with any content following it; and the
cursor lands exactly after the code. Valid for the parameters the encoder uses, 15 included in release builds. -/
theorem C29_rice_roundtrip (b : Build) (before after : List Field) (hb : ∀ f ∈ before, f.Valid b) (ha : ∀ f ∈ after, f.Valid b)
    (k : Nat) (v : Int) (hk : k ≤ 14 ∨ (k = 15 ∧ b = .release)) (hv : -32767 ≤ v ∧ v ≤ 32767) :
    ∃ s, writeFields b BitStream.new (before ++ .rice k v :: after) = .ok s ∧
      ∃ s', (s.setBitCursor (before.map Field.width).sum).readCompressed b k = .ok (s', BitVec.ofInt 16 v) ∧
        s'.len = (before.map Field.width).sum + (1 + v.natAbs / 2 ^ k + 1 + k) := by
  obtain ⟨s, e, h⟩ := writeFields_holds (b := b) (before ++ .rice k v :: after) holds_new (by
    intro f hf
    simp at hf
    rcases hf with hf | rfl | hf
    · exact hb f hf
    · exact ⟨hk, hv⟩
    · exact ha f hf)
  refine ⟨s, e, ?_⟩
  have hl : (before.flatMap Field.code).length = (before.map Field.width).sum := by
    rw [List.length_flatMap]; congr 1; exact List.map_congr_left fun f _ => length_code f
  have hr : Reads (s.setBitCursor (before.map Field.width).sum)
      (before.flatMap Field.code ++ riceBits k v ++ after.flatMap Field.code) (before.flatMap Field.code).length := by
    have := h.reads (t := s.setBitCursor (before.map Field.width).sum) rfl (p := (before.flatMap Field.code).length)
      (by simp) (by simp [BitStream.setBitCursor, hl])
    simpa [Field.code, List.append_assoc] using this
  obtain ⟨s', e', h'⟩ := reads_readCompressed (b := b) hr (by omega) hv
  refine ⟨s', e', ?_⟩
  show s'.bitCursor = _
  rw [h'.cursor, length_riceBits, hl]; omega

/-- the hypotheses hold for the largest magnitude after a 7-bit field -/
example : (∀ f ∈ [Field.bits 7 3#128], f.Valid .release) ∧ ((15 : Nat) ≤ 14 ∨ ((15 : Nat) = 15 ∧ Build.release = .release)) ∧
    ((-32767 : Int) ≤ -32767 ∧ (-32767 : Int) ≤ 32767) := by
  simp [Field.Valid]

/-- C29, the excluded cases are real: parameter 15 overflows in a debug build. -/
theorem C29_param15_debug_panics (s : BitStream) (v : BitVec 16) (hv : v ≠ BitVec.intMin 16) :
    s.writeCompressed .debug 15 v = .error .overflow := by
  have hna : (v.toInt.natAbs : Int) ≤ 32767 := by
    have h1 := v.toInt_lt
    have h2 := v.le_toInt
    have h3 : v.toInt ≠ -32768 := by
      intro h
      apply hv
      apply BitVec.eq_of_toInt_eq
      rw [h]; rfl
    norm_num at h1 h2
    omega
  unfold BitStream.writeCompressed
  rw [i16op_of (inI16.2 (by omega))]
  rfl

theorem capped_signExtend {c : Int} (hcr : -8192 ≤ c ∧ c ≤ 8191) {w : BitVec 128}
    (hwj : ∀ j < 14, w.getLsbD j = (BitVec.ofInt 16 c).getLsbD j) :
    ((w <<< CAPPED_SHIFT_FACTOR).sshiftRight CAPPED_SHIFT_FACTOR).setWidth 16 = BitVec.ofInt 16 c := by
  have h114 : CAPPED_SHIFT_FACTOR = 114 := rfl
  apply BitVec.eq_of_getLsbD_eq
  intro j hj
  have hsign : ∀ j, 13 ≤ j → j < 16 → (BitVec.ofInt 16 c).getLsbD j = (BitVec.ofInt 16 c).getLsbD 13 := by
    have key : BitVec.ofInt 16 c = (BitVec.ofInt 14 c).signExtend 16 := by
      apply BitVec.eq_of_toInt_eq
      rw [toInt_ofInt16 (by omega), BitVec.toInt_signExtend_of_le (by norm_num), BitVec.toInt_ofInt]
      symm; apply Int.bmod_eq_of_le <;> norm_num <;> omega
    intro j h13 h16
    rw [key, BitVec.getLsbD_signExtend, BitVec.getLsbD_signExtend]
    rcases (by omega : j = 13 ∨ j = 14 ∨ j = 15) with rfl | rfl | rfl
    · rfl
    · simp [BitVec.msb_eq_getLsbD_last]
    · simp [BitVec.msb_eq_getLsbD_last]
  rw [BitVec.getLsbD_setWidth, BitVec.getLsbD_sshiftRight, h114]
  by_cases hj14 : j < 14
  · rw [if_pos (by omega), BitVec.getLsbD_shiftLeft, ← hwj j hj14]
    simp [show 114 + j < 128 by omega, hj, show j < 128 by omega]
  · rw [if_neg (by omega), BitVec.msb_eq_getLsbD_last, BitVec.getLsbD_shiftLeft, hsign j (by omega) hj, ← hwj 13 (by norm_num)]
    simp [hj, show j < 128 by omega]

theorem countOnes_mask {k : Nat} (hk : k ≤ 14) : BitStream.countOnes 16 (2 ^ k - 1) = k := by
  have : k = 0 ∨ k = 1 ∨ k = 2 ∨ k = 3 ∨ k = 4 ∨ k = 5 ∨ k = 6 ∨ k = 7 ∨ k = 8 ∨ k = 9 ∨ k = 10 ∨ k = 11 ∨ k = 12 ∨
      k = 13 ∨ k = 14 := by omega
  rcases this with h | h | h | h | h | h | h | h | h | h | h | h | h | h | h <;> subst h <;> rfl

theorem capped_quotient (k : Nat) (v : Int) :
    ((v.natAbs : Int).tdiv ((2 ^ k : Nat) : Int) < 16) ↔ v.natAbs / 2 ^ k < 16 := by
  have : (v.natAbs : Int).tdiv ((2 ^ k : Nat) : Int) = ((v.natAbs / 2 ^ k : Nat) : Int) := by
    rw [Int.tdiv_eq_ediv_of_nonneg (by omega)]; norm_cast
  rw [this]; omega

theorem capped_clamp (v : Int) : clampI v CAPPED_MIN CAPPED_MAX = .ok (max (-8192) (min v 8191)) := by
  have e1 : CAPPED_MIN = -8192 := by decide
  have e2 : CAPPED_MAX = 8191 := by decide
  rw [e1, e2]
  unfold clampI
  rw [if_neg (by omega)]
  congr 1
  split
  · omega
  · split <;> omega

theorem writeDivisor_pow {b : Build} {s : BitStream} {k : Nat} (hk : k ≤ 14) (e : BitVec 16) :
    s.writeCompressedDivisor b (2 ^ k) e = s.writeCompressed b k e := by
  unfold BitStream.writeCompressedDivisor
  rw [countOnes_mask hk]

theorem capped_plain {b : Build} {s : BitStream} {bits : List Bool} (h : Holds s bits) {k : Nat} (hk : k ≤ 14) {v : Int}
    (hv : -32767 ≤ v ∧ v ≤ 32767) (hq : v.natAbs / 2 ^ k < 16) :
    ∃ s1, s.writeCompressedCapped b (2 ^ k) (BitVec.ofInt 16 v) = .ok s1 ∧
      ∃ s2, (s1.setBitCursor bits.length).readCompressedCapped b (2 ^ k) =
          .ok (s2, BitVec.ofInt 16 v) ∧ s2.len = s1.len := by
  have hco := countOnes_mask hk
  have hquo := capped_quotient k v
  have hti : (BitVec.ofInt 16 v).toInt = v := toInt_ofInt16 (by omega)
  obtain ⟨s1, e1, h1⟩ := holds_writeBit h 0#8
  obtain ⟨s2, e2, h2⟩ := holds_writeCompressed (b := b) h1 (k := k) (Or.inl hk) hv
  refine ⟨s2, ?_, ?_⟩
  · unfold BitStream.writeCompressedCapped
    rw [hti, i16op_of (inI16.2 (by omega))]
    simp only [bind_ok]
    rw [toInt_ofInt16 (by omega)]
    rw [decide_eq_true (hquo.2 hq)]
    simp only [if_true]
    rw [e1]
    rw [bind_ok, writeDivisor_pow hk, e2]
  · have hr := h2.reads (t := s2.setBitCursor bits.length) rfl (p := bits.length)
      (by simp) (by simp [BitStream.setBitCursor])
    obtain ⟨t1, f1, g1⟩ := reads_readBit hr (by simp)
    have hr2 : Reads t1 ((bits ++ [(0#8).getLsbD 0]) ++ riceBits k v ++ [])
        (bits ++ [(0#8).getLsbD 0]).length := by simpa using g1
    obtain ⟨t2, f2, g2⟩ := reads_readCompressed (b := b) hr2 (by omega) hv
    refine ⟨t2, ?_, ?_⟩
    · unfold BitStream.readCompressedCapped
      have hbit : (bits ++ [(0#8).getLsbD 0] ++ riceBits k v)[bits.length]'(by
          simp) = false := by simp
      rw [hbit] at f1
      simp only [f1, bind_ok, BitStream.readCompressedDivisor, hco, f2, Bool.false_eq_true, if_false]
      rw [if_neg (by decide)]
    · show t2.bitCursor = s2.bitCursor
      rw [g2.cursor, h2.cursor]; simp; omega

theorem capped_escape {b : Build} {s : BitStream} {bits : List Bool} (h : Holds s bits) {k : Nat} {v : Int}
    (hv : -32767 ≤ v ∧ v ≤ 32767) (hq : ¬ v.natAbs / 2 ^ k < 16) :
    ∃ s1, s.writeCompressedCapped b (2 ^ k) (BitVec.ofInt 16 v) = .ok s1 ∧
      ∃ s2, (s1.setBitCursor bits.length).readCompressedCapped b (2 ^ k) =
          .ok (s2, BitVec.ofInt 16 (max (-8192) (min v 8191))) ∧ s2.len = s1.len := by
  have hquo := capped_quotient k v
  have hti : (BitVec.ofInt 16 v).toInt = v := toInt_ofInt16 (by omega)
  obtain ⟨s1, e1, h1⟩ := holds_writeBit h 1#8
  have hcl := capped_clamp v
  obtain ⟨c, hc⟩ : ∃ c, c = max (-8192) (min v 8191) := ⟨_, rfl⟩
  rw [← hc] at hcl ⊢
  have hcr : -8192 ≤ c ∧ c ≤ 8191 := by omega
  obtain ⟨s2, e2, h2⟩ := holds_writeBits h1 ((BitVec.ofInt 16 c).setWidth 128) (n := 14) (by norm_num)
  refine ⟨s2, ?_, ?_⟩
  · unfold BitStream.writeCompressedCapped
    rw [hti, i16op_of (inI16.2 (by omega))]
    simp only [bind_ok]
    rw [toInt_ofInt16 (by omega)]
    have : ¬ ((v.natAbs : Int).tdiv ((2 ^ k : Nat) : Int) < 16) := fun h => hq (hquo.1 h)
    simp only [this, decide_false, Bool.false_eq_true, if_false, e1, bind_ok, hcl, CAPPED_BITS, e2]
  · have hr := h2.reads (t := s2.setBitCursor bits.length) rfl (p := bits.length)
      (by simp) (by simp [BitStream.setBitCursor])
    obtain ⟨t1, f1, g1⟩ := reads_readBit hr (by simp)
    obtain ⟨t2, w, f2, g2, hw⟩ := reads_readBits g1 (n := 14) (by norm_num) (by simp)
    have hbit : (bits ++ [(1#8).getLsbD 0] ++
        (List.range 14).map ((BitVec.ofInt 16 c).setWidth 128 : BitVec 128).getLsbD)[bits.length]'(by
          simp) = true := by simp
    rw [hbit] at f1
    have hwv : ((w <<< CAPPED_SHIFT_FACTOR).sshiftRight CAPPED_SHIFT_FACTOR).setWidth 16 = BitVec.ofInt 16 c := by
      apply capped_signExtend hcr
      intro j hj
      rw [hw, List.getD_eq_getElem?_getD, List.getElem?_append_right (by simp)]
      simp only [List.length_append, List.length_singleton, Nat.add_sub_cancel_left, List.getElem?_map,
        List.getElem?_range hj]
      simp [hj, show j < 128 by omega]
    refine ⟨t2, ?_, ?_⟩
    · unfold BitStream.readCompressedCapped
      simp only [f1, bind_ok, if_true]
      rw [if_pos (by decide)]
      simp only [CAPPED_BITS, f2, bind_ok, pure_eq_ok]
      rw [hwv]
    · show t2.bitCursor = s2.bitCursor
      rw [g2.cursor, h2.cursor]; simp


/-- C30. The capped code is decoded to the value itself when the quotient is below 16 and to the value clamped to 14 bits
otherwise, in any surroundings. -/
theorem C30_capped_roundtrip (b : Build) (before : List Field) (hb : ∀ f ∈ before, f.Valid b)
    (k : Nat) (hk : k ≤ 14) (v : Int) (hv : -32767 ≤ v ∧ v ≤ 32767) :
    ∃ s s1, writeFields b BitStream.new before = .ok s ∧ s.writeCompressedCapped b (2 ^ k) (BitVec.ofInt 16 v) = .ok s1 ∧
      ∃ s2, (s1.setBitCursor (before.map Field.width).sum).readCompressedCapped b (2 ^ k) =
          .ok (s2, BitVec.ofInt 16 (if v.natAbs / 2 ^ k < 16 then v else max (-8192) (min v 8191))) ∧
        s2.len = s1.len := by
  obtain ⟨s, e, h⟩ := writeFields_holds (b := b) before holds_new hb
  simp only [List.nil_append] at h
  have hl : (before.flatMap Field.code).length = (before.map Field.width).sum := by
    rw [List.length_flatMap]; congr 1; exact List.map_congr_left fun f _ => length_code f
  by_cases hq : v.natAbs / 2 ^ k < 16
  · rw [if_pos hq]
    obtain ⟨s1, e1, s2, e2, h2⟩ := capped_plain (b := b) h hk hv hq
    rw [hl] at e2
    exact ⟨s, s1, e, e1, s2, e2, h2⟩
  · rw [if_neg hq]
    obtain ⟨s1, e1, s2, e2, h2⟩ := capped_escape (b := b) h hv hq
    rw [hl] at e2
    exact ⟨s, s1, e, e1, s2, e2, h2⟩

/-- both branches of C30 occur -/
example : ((100 : Int).natAbs / 2 ^ 4 < 16) ∧ ¬ ((-32767 : Int).natAbs / 2 ^ 4 < 16) ∧ (-32767 : Int) ≤ -32767 := by decide

/-- C31. On any stream whatsoever (any chunks, any cursor) reading a compressed value finishes: the all-ones refill loop stops
within `number of chunks + 3` rounds, allowing more rounds changes nothing, and writing finishes too. -/
theorem C31_read_terminates (b : Build) (s : BitStream) (k : Nat) :
    s.readCompressed b k ≠ .error .fuel ∧
    (∀ q extra, BitStream.readOnes b (s.binary.length + 3 + extra) s q = BitStream.readOnes b (s.binary.length + 3) s q) ∧
    (∀ q, BitStream.readOnes b (s.binary.length + 3) s q ≠ .error .fuel) ∧
    (∀ e, s.writeCompressed b k e ≠ .error .fuel) := by
  have h : ∀ q, BitStream.readOnes b (s.binary.length + 3) s q ≠ .error .fuel := fun q =>
    BitStream.readOnes_ne_fuel (n := s.binary.length) _ _ _ (fun i hi => BitStream.bitAt_beyond _ _ hi) (by omega) (by omega)
  exact ⟨BitStream.readCompressed_ne_fuel b s k, fun q extra => BitStream.readOnes_stable _ _ _ _ (h q), h,
    fun e => BitStream.writeCompressed_ne_fuel b s k e⟩

/-- a stream full of ones needs several rounds -/
example : (BitStream.readOnes .release 1 { binary := [BitVec.allOnes 128, BitVec.allOnes 128], bitCursor := 0, capacity := 256 } 0#16 =
    .error .fuel) ∧
    ∃ r, BitStream.readCompressed .release { binary := [BitVec.allOnes 128, BitVec.allOnes 128], bitCursor := 0, capacity := 256 } 2 = .ok r := by
  refine ⟨by decide +kernel, ?_⟩
  cases h : BitStream.readCompressed .release { binary := [BitVec.allOnes 128, BitVec.allOnes 128], bitCursor := 0, capacity := 256 } 2 with
  | ok r => exact ⟨r, rfl⟩
  | error e => exact absurd h (by revert e; intro e; cases e <;> decide +kernel)

end Adhoc
