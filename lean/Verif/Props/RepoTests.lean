import Verif.Props.Overwrite
import Verif.Props.Containers
import Verif.Props.Quiet
import Verif.Props.Config
import Verif.Props.Generations

/-! # C125: the project's own unit tests, whatever data they use -/

namespace Adhoc
open Spec F32 BitStream

/-! ## the tests -/

namespace Spec

/-- bitstream.rs 394-417: `compressed_test_negative` and `compressed_test_positive`, for the numbers in the list; the result says whether the
assertions held -/
def compressedTest (b : Build) : BitStream → List Int → R Bool
  | _, [] => pure true
  | s, k :: ks => do
    let s ← s.writeCompressedDivisor b 2 (BitVec.ofInt 16 k)
    let (s, result) ← s.seekStart.readCompressedDivisor b 2
    if BitVec.ofInt 16 k = result then compressedTest b s.seekStart ks else pure false

/-- bitstream.rs 382-392: `compressed_capped`, for the numbers in the list -/
def cappedTest (b : Build) : BitStream → List Int → R Bool
  | _, [] => pure true
  | s, k :: ks => do
    let s ← s.writeCompressedCapped b 2 (BitVec.ofInt 16 k)
    let (s, result) ← s.seekStart.readCompressedCapped b 2
    if BitVec.ofInt 16 k = result then cappedTest b s.seekStart ks else pure false

/-- bitstream.rs 466-468: write the numbers, 32 bits each -/
def writeNumbers (s : BitStream) (xs : List (BitVec 32)) : R BitStream := xs.foldlM (fun s x => s.writeBits (x.setWidth 128) 32) s

/-- bitstream.rs 473-475: read so many numbers of 32 bits -/
def readNumbers : BitStream → Nat → R (BitStream × List (BitVec 32))
  | s, 0 => pure (s, [])
  | s, n + 1 => do
    let (s, x) ← s.readBits 32
    let (s, xs) ← readNumbers s n
    pure (s, x.setWidth 32 :: xs)

/-- bitstream.rs 445-478: `shotgun_aligned`, with the numbers of each trial given -/
def alignedTest : BitStream → List (List (BitVec 32)) → R Bool
  | _, [] => pure true
  | s, xs :: trials => do
    let s ← writeNumbers s.seekStart xs
    let (s, ys) ← readNumbers s.seekStart xs.length
    if xs = ys then alignedTest s trials else pure false

/-- bitstream.rs 480-514: `shotgun_unaligned`, with the numbers of each trial given (after the leading 1, which is one bit wide) -/
def unalignedTest : BitStream → List (List (BitVec 32)) → R Bool
  | _, [] => pure true
  | s, xs :: trials => do
    let s ← s.seekStart.writeBit 1#8
    let s ← writeNumbers s xs
    let (s, one) ← s.seekStart.readBit
    let (s, ys) ← readNumbers s xs.length
    if 1#32 :: xs = one.setWidth 32 :: ys then unalignedTest s trials else pure false

/-- bitvec.rs 151-164: `read_back_sequence`, for the bits in the list -/
def readBackTest (bits : List Bool) : R Bool := do
  let seq := bits.map fun x => if x then 1#64 else 0#64
  let v ← seq.foldlM (fun v x => v.push x) BitVecU64.new
  pure (decide (seq = v.iter) && decide (bits.length = v.len) && decide (BitVecU64.computeBitsRequired bits.length = v.capacity))

/-- adhoc.rs 452-520: `sanity` and `sanity2` for the codec and the data of the encode calls given: what `decode` leaves in the buffer is less than 0.01 away
from the data everywhere (`|x - y| < t` is written as `-t < x - y < t`) -/
def sanityTest (b : Build) (c : AdhocCodec) (calls : List (List F32)) : R Bool := do
  let c ← encodeAll b c calls
  let (_, out, _) ← c.init.decodeRaw b calls.flatten
  pure ((calls.flatten.zip out).all fun p => (p.1 - p.2).lt (F32.ofRat (1 / 100)) && (F32.ofRat (-1 / 100)).lt (p.1 - p.2))

end Spec

/-! ## bitstream.rs -/

theorem seekStart_cursor (s : BitStream) : s.seekStart.bitCursor = 0 := rfl

theorem countOnes_one : BitStream.countOnes 16 (2 - 1) = 1 := by decide

/-- C125. The tests of the Rice code with divisor 2 pass on a stream with any contents, for any numbers but -32768 in any order. -/
theorem C125_compressed (b : Build) (s : BitStream) (h0 : s.bitCursor = 0) (ks : List Int) (hk : ∀ k ∈ ks, -32767 ≤ k ∧ k ≤ 32767) :
    compressedTest b s ks = .ok true := by
  induction ks generalizing s with
  | nil => rfl
  | cons k ks ih =>
    obtain ⟨s', s'', r, e1, e2, -, -, -, -, -, hr⟩ := C110_survives_partial b s (by rw [h0]; omega) 1 (by omega) k (hk k (by simp))
    rw [h0] at e2
    rw [hr le_rfl] at e2
    unfold compressedTest BitStream.writeCompressedDivisor BitStream.readCompressedDivisor
    rw [countOnes_one, e1, bind_ok, show s'.seekStart = s'.setBitCursor 0 from rfl, e2, bind_ok]
    dsimp only
    rw [if_pos rfl]
    exact ih _ rfl fun k h => hk k (by simp [h])

/-- C125. The test of the capped Rice code with divisor 2 passes on a stream with any contents, for any numbers of 14 bits in any order. -/
theorem C125_capped (b : Build) (s : BitStream) (h0 : s.bitCursor = 0) (ks : List Int) (hk : ∀ k ∈ ks, -8192 ≤ k ∧ k ≤ 8191) :
    cappedTest b s ks = .ok true := by
  induction ks generalizing s with
  | nil => rfl
  | cons k ks ih =>
    have hkk := hk k (by simp)
    obtain ⟨s', s'', r, e1, e2, -, h1, h2⟩ := C110_capped_partial b s (by rw [h0]; omega) 1 (by omega) k (by omega)
    rw [h0] at e2 h1 h2
    have hl : ∀ p n, p + n ≤ 128 → leftover s p n = 0 := by
      intro p n hpn
      apply Nat.eq_of_testBit_eq
      intro j
      rw [Nat.zero_testBit]
      by_cases hj : j < n
      · rw [testBit_leftover _ _ hj, decide_eq_false (by rw [Nat.mod_eq_of_lt (by omega)]; omega), Bool.false_and]
      · exact Nat.testBit_lt_two_pow (lt_of_lt_of_le (leftover_lt _ _ _) (Nat.pow_le_pow_right (by norm_num) (by omega)))
    have hr : BitVec.ofInt 16 k = r := by
      by_cases hq : k.natAbs / 2 ^ 1 < 16
      · rw [h1 hq, hl _ _ (by omega)]
        unfold smear
        rw [Nat.or_zero]
        have : k = if k < 0 then -(k.natAbs : Int) else (k.natAbs : Int) := by split <;> omega
        rw [← this]
      · obtain ⟨a, a14, a15⟩ := h2 (by omega)
        rw [hl _ _ (by omega)] at a
        have hc : max (-8192) (min k 8191) = k := by omega
        rw [hc] at a
        simp only [Nat.zero_testBit, Bool.or_false] at a
        have hbit : ∀ j, 13 ≤ j → j < 16 → (BitVec.ofInt 16 k).getLsbD j = decide (k < 0) := by
          intro j h3 h4
          have hsx : BitVec.ofInt 16 k = (BitVec.ofInt 14 k).signExtend 16 := by
            apply BitVec.eq_of_toInt_eq
            rw [BitVec.toInt_signExtend_of_le (by norm_num), BitVec.toInt_ofInt, BitVec.toInt_ofInt, Int.bmod_eq_of_le (by norm_num; omega) (by norm_num; omega),
              Int.bmod_eq_of_le (by norm_num; omega) (by norm_num; omega)]
          have hti : (BitVec.ofInt 14 k).toInt = k := by
            rw [BitVec.toInt_ofInt, Int.bmod_eq_of_le (by norm_num; omega) (by norm_num; omega)]
          have hm : (BitVec.ofInt 14 k).msb = decide (k < 0) := by
            rw [BitVec.msb_eq_toInt, hti]
          rw [hsx, BitVec.getLsbD_signExtend, ← hm]
          simp only [h4, decide_true, Bool.true_and]
          split
          · rw [BitVec.msb_eq_getLsbD_last, show j = 13 by omega]
          · rfl
        apply BitVec.eq_of_getLsbD_eq
        intro j hj
        by_cases h14 : j < 14
        · exact (a j h14).symm
        · rw [hbit j (by omega) hj]
          have h13 := a 13 (by norm_num)
          rw [hbit 13 le_rfl (by norm_num)] at h13
          obtain rfl | rfl : j = 14 ∨ j = 15 := by omega
          · rw [a14, h13]
          · rw [a15, h13]
    unfold cappedTest
    rw [show (2 : Nat) = 2 ^ 1 from rfl, e1, bind_ok, show s'.seekStart = s'.setBitCursor 0 from rfl, e2, bind_ok]
    dsimp only
    rw [if_pos hr]
    exact ih _ rfl fun k h => hk k (by simp [h])

/-- the first bits of all 128-bit words but the first are 0 -/
def Clean (s : BitStream) : Prop := ∀ m, 1 ≤ m → bitAt s.binary (128 * m) = false

/-- when 32 bits of `x` can be written at the cursor without harm -/
def Safe (s : BitStream) (xs : List (BitVec 32)) : Prop :=
  s.bitCursor % 32 = 0 ∨ (s.bitCursor % 32 = 1 ∧ Clean s ∧ ∀ x ∈ xs, x.getLsbD 31 = false)

theorem writeNumber {s : BitStream} {x : BitVec 32} {xs : List (BitVec 32)} (hin : s.bitCursor / 128 ≤ s.binary.length) (h : Safe s (x :: xs)) :
    ∃ s', s.writeBits (x.setWidth 128) 32 = .ok s' ∧ s'.bitCursor = s.bitCursor + 32 ∧ s'.bitCursor / 128 ≤ s'.binary.length ∧ Safe s' xs ∧
      (∀ i < s.bitCursor, bitAt s'.binary i = bitAt s.binary i) ∧ ∀ j < 32, bitAt s'.binary (s.bitCursor + j) = x.getLsbD j := by
  obtain ⟨s', e, h1, -, h3, h4⟩ := writeBits_all (v := x.setWidth 128) (n := 32) (by norm_num) hin
  obtain ⟨s1, e1, c1, b1, o1, l1⟩ := writeBits_over (v := x.setWidth 128) (n := 32) (by norm_num) hin
  obtain rfl := Except.ok.inj (e1.symm.trans e)
  have hw : ∀ j, (x.setWidth 128).getLsbD j = x.getLsbD j := by
    intro j
    rw [BitVec.getLsbD_setWidth]
    by_cases hj : j < 32
    · rw [decide_eq_true (by omega), Bool.true_and]
    · rw [BitVec.getLsbD_of_ge x j (by omega), Bool.and_false]
  refine ⟨s1, e, h1, by omega, ?_, b1, ?_⟩
  · rcases h with h | ⟨h, hc, hx⟩
    · left; omega
    · refine .inr ⟨by omega, ?_, fun y hy => hx y (by simp [hy])⟩
      intro m hm
      rw [h4]
      split_ifs with c1 c2 c3
      · exact hc m hm
      · omega
      · rw [hc m hm, hw, show 128 - s.bitCursor % 128 + 128 * m % 128 = 31 by omega, hx x (by simp), Bool.and_false, Bool.or_false]
      · exact hc m hm
  · intro j hj
    rw [o1 j hj, hw]
    rcases h with h | ⟨h, hc, -⟩
    · rw [decide_eq_false (by omega), Bool.false_and, Bool.or_false]
    · by_cases h128 : 128 ≤ s.bitCursor % 128 + j
      · rw [show s.bitCursor + j = 128 * ((s.bitCursor + j) / 128) by omega, hc _ (by omega), Bool.and_false, Bool.or_false]
      · rw [decide_eq_false h128, Bool.false_and, Bool.or_false]

theorem writeNumbers_spec : ∀ (xs : List (BitVec 32)) {s : BitStream} (_ : s.bitCursor / 128 ≤ s.binary.length) (_ : Safe s xs),
    ∃ s', writeNumbers s xs = .ok s' ∧ s'.bitCursor = s.bitCursor + 32 * xs.length ∧ s'.bitCursor / 128 ≤ s'.binary.length ∧ Safe s' [] ∧
      (∀ i < s.bitCursor, bitAt s'.binary i = bitAt s.binary i) ∧
      ∀ k (hk : k < xs.length), ∀ j < 32, bitAt s'.binary (s.bitCursor + 32 * k + j) = xs[k].getLsbD j
  | [], s, hin, h => ⟨s, rfl, rfl, hin, h, fun _ _ => rfl, by simp⟩
  | x :: xs, s, hin, h => by
    obtain ⟨s1, e1, c1, i1, f1, b1, o1⟩ := writeNumber hin h
    obtain ⟨s2, e2, c2, i2, f2, b2, o2⟩ := writeNumbers_spec xs i1 f1
    refine ⟨s2, ?_, by rw [c2, c1, List.length_cons]; omega, i2, f2, fun i hi => by rw [b2 i (by omega), b1 i hi], ?_⟩
    · unfold writeNumbers
      rw [List.foldlM_cons, e1]
      exact e2
    · intro k hk j hj
      cases k with
      | zero => rw [Nat.mul_zero, Nat.add_zero, b2 _ (by omega), o1 j hj]; rfl
      | succ k =>
        have := o2 k (by simpa using hk) j hj
        rw [c1] at this
        rw [List.getElem_cons_succ, ← this]
        congr 1
        omega

theorem readNumbers_spec : ∀ (xs : List (BitVec 32)) {s : BitStream}, s.bitCursor / 128 ≤ s.binary.length →
    (∀ k (hk : k < xs.length), ∀ j < 32, bitAt s.binary (s.bitCursor + 32 * k + j) = xs[k].getLsbD j) →
    ∃ s', readNumbers s xs.length = .ok (s', xs) ∧ ∀ i, bitAt s'.binary i = bitAt s.binary i
  | [], s, _, _ => ⟨s, rfl, fun _ => rfl⟩
  | x :: xs, s, hin, h => by
    obtain ⟨s1, v, e1, c1, -, l1, b1, hv⟩ := readBits_spec (n := 32) (by norm_num) hin
    obtain ⟨s2, e2, b2⟩ := readNumbers_spec xs (s := s1) (by omega) (by
      intro k hk j hj
      rw [b1, c1, ← List.getElem_cons_succ (a := x) (h := by simpa using hk), ← h (k + 1) (by simpa using hk) j hj]
      congr 1
      omega)
    have hx : v.setWidth 32 = x := by
      apply BitVec.eq_of_getLsbD_eq
      intro j hj
      rw [BitVec.getLsbD_setWidth, hv, decide_eq_true hj, Bool.true_and, Bool.true_and]
      exact h 0 (by simp) j hj
    refine ⟨s2, ?_, fun i => by rw [b2, b1]⟩
    rw [List.length_cons]
    unfold readNumbers
    rw [e1, bind_ok]
    dsimp only
    rw [e2, bind_ok, hx]
    rfl

/-- C125. The test with aligned numbers passes for any numbers of 32 bits in any trials, on a stream with any contents. -/
theorem C125_aligned (s : BitStream) (trials : List (List (BitVec 32))) : alignedTest s trials = .ok true := by
  induction trials generalizing s with
  | nil => rfl
  | cons xs trials ih =>
    obtain ⟨s1, e1, -, i1, -, -, o1⟩ := writeNumbers_spec xs (s := s.seekStart) (by rw [seekStart_cursor]; omega) (.inl rfl)
    obtain ⟨s2, e2, -⟩ := readNumbers_spec xs (s := s1.seekStart) (by rw [seekStart_cursor]; omega) o1
    unfold alignedTest
    rw [e1, bind_ok, e2, bind_ok]
    dsimp only
    rw [if_pos rfl]
    exact ih s2

/-- C125. The test with unaligned numbers passes for any numbers of 31 bits in any trials. -/
theorem C125_unaligned (trials : List (List (BitVec 32))) (h : ∀ xs ∈ trials, ∀ x ∈ xs, x.toNat < 2 ^ 31) : unalignedTest .new trials = .ok true := by
  have key : ∀ (s : BitStream), Clean s → unalignedTest s trials = .ok true := by
    induction trials with
    | nil => intro s _; rfl
    | cons xs trials ih =>
      intro s hc
      obtain ⟨s1, e1, c1, -, l1, b1⟩ := writeBit_all (s := s.seekStart) (v := 1#8) (by rw [seekStart_cursor]; omega)
      rw [seekStart_cursor] at c1 l1 b1
      have hc1 : Clean s1 := by
        intro m hm
        rw [b1, if_neg (by omega)]
        exact hc m hm
      obtain ⟨s2, e2, c2, i2, f2, b2, o2⟩ := writeNumbers_spec xs (s := s1) (by rw [c1, l1]; omega) (.inr ⟨by omega, hc1, fun x hx => by
        rw [← BitVec.testBit_toNat]
        exact Nat.testBit_lt_two_pow (h xs (by simp) x hx)⟩)
      rw [c1] at o2 c2 b2
      have hc2 : Clean s2 := by
        rcases f2 with f | ⟨-, f, -⟩
        · omega
        · exact f
      have hl2 : 0 < s2.binary.length := by
        by_contra h0
        have : bitAt s2.binary 0 = true := by
          rw [b2 0 (by omega), b1, if_pos rfl, if_neg (by omega)]
          rfl
        rw [List.length_eq_zero_iff.1 (by omega : s2.binary.length = 0)] at this
        simp [bitAt] at this
      obtain ⟨s3, v, e3, c3, b3, -, hv⟩ := readBit_spec (s := s2.seekStart) (by rw [seekStart_cursor]; exact hl2)
      have hv1 : v = 1#128 := by
        rw [hv, seekStart_cursor]
        have : bitAt s2.seekStart.binary 0 = true := by
          show bitAt s2.binary 0 = true
          rw [b2 0 (by omega), b1, if_pos rfl, if_neg (by omega)]
          rfl
        rw [if_pos this]
      have c3 : s3.bitCursor = 1 := c3
      have b3 : s3.binary = s2.binary := b3
      obtain ⟨s4, e4, b4⟩ := readNumbers_spec xs (s := s3) (by rw [c3]; omega) (by rw [c3, b3]; exact o2)
      unfold unalignedTest
      rw [e1, bind_ok, e2, bind_ok, e3, bind_ok]
      dsimp only
      rw [e4, bind_ok]
      dsimp only
      rw [hv1, if_pos (show 1#32 :: xs = BitVec.setWidth 32 1#128 :: xs from rfl)]
      refine ih (fun xs hxs => h xs (by simp [hxs])) s4 fun m hm => ?_
      rw [b4, b3]
      exact hc2 m hm
  exact key _ (fun m _ => by simp [BitStream.new, bitAt])

/-- C125: without `% 10u32` the test with unaligned numbers would fail -/
theorem C125_unaligned_sharp : unalignedTest .new [[0#32, 0#32, 0#32, 0x80000000#32], [0#32, 0#32, 0#32, 0#32]] = .ok false := by
  decide +kernel

/-! ## bitvec.rs -/

/-- C125. The test of the bit vector passes for any bits. -/
theorem C125_read_back (bits : List Bool) : readBackTest bits = .ok true := by
  have key : ∀ (bits : List Bool) (v : BitVecU64) (bs : List Bool) (m : Nat), IsBits v bs m → m = bs.length →
      ∃ v', (bits.map fun x => if x then 1#64 else 0#64).foldlM (fun v x => v.push x) v = Except.ok v' ∧ IsBits v' (bs ++ bits) (bs ++ bits).length := by
    intro bits
    induction bits with
    | nil => intro v bs m h hm; exact ⟨v, rfl, by rw [List.append_nil, ← hm]; exact h⟩
    | cons x bits ih =>
      intro v bs m h hm
      obtain ⟨v1, e1, h1⟩ := isBits_push h (if x then 1#64 else 0#64)
      obtain ⟨v2, e2, h2⟩ := ih v1 _ _ h1 (by simp; omega)
      refine ⟨v2, ?_, ?_⟩
      · rw [List.map_cons, List.foldlM_cons, e1]
        exact e2
      · have : bs ++ [(if x then 1#64 else 0#64 : BitVec 64).getLsbD 0] ++ bits = bs ++ x :: bits := by cases x <;> simp
        rwa [this] at h2
  obtain ⟨v, e, h⟩ := key bits .new [] 0 isBits_new rfl
  rw [List.nil_append] at h
  have h1 : (bits.map fun x => if x then 1#64 else 0#64) = v.iter := by
    unfold BitVecU64.iter BitVecU64.len
    rw [h.cursor]
    apply List.ext_getElem (by simp)
    intro i h1 h2
    simp only [List.getElem_map, List.getElem_range]
    rw [h.get (by simpa using h1)]
  have h2 : BitVecU64.computeBitsRequired bits.length = v.capacity := by
    unfold BitVecU64.capacity BitVecU64.computeBitsRequired
    rw [h.words]
    omega
  unfold readBackTest
  simp only [e, bind_ok]
  rw [decide_eq_true h1, decide_eq_true (show bits.length = v.len from h.cursor.symm), decide_eq_true h2]
  rfl

/-! ## adhoc.rs -/

theorem new_level (info : StreamInfo) : AdhocCodec.new.setInfo info = fresh info 0 := by
  have := C91_any_order .release [.info info] info rfl rfl
  exact Except.ok.inj this

/-- values less than 0.0099 apart pass the assertion of the tests -/
theorem near_close {e : ℚ} (he : e ≤ 0.0099) {x y : F32} (h : Near e x y) :
    ((x - y).lt (F32.ofRat (1 / 100)) && (F32.ofRat (-1 / 100)).lt (x - y)) = true := by
  obtain ⟨p, q, hp, hq, hpq⟩ := h
  have hs := Is.sub hp hq rep_one (by linarith)
  have herr := roundQ_err (p - q)
  have h1 : |roundQ (p - q)| ≤ 0.00995 := by
    have := abs_sub_abs_le_abs_sub (roundQ (p - q)) (p - q)
    have h24 : |p - q| / 2 ^ 24 ≤ 0.00001 := by
      rw [div_le_iff₀ (by positivity)]
      norm_num
      linarith
    have h150 : (1 : ℚ) / 2 ^ 150 ≤ 0.00001 := by norm_num
    linarith
  rw [abs_le] at h1
  obtain ⟨hr, e1⟩ := hs
  have hpos : Is (F32.ofRat (1 / 100)) (roundQ (1 / 100)) := is_rounded rfl (by decide +kernel)
  have hneg : Is (F32.ofRat (-1 / 100)) (roundQ (-1 / 100)) := is_rounded rfl (by decide +kernel)
  obtain ⟨r1, e2⟩ := hpos
  obtain ⟨r2, e3⟩ := hneg
  rw [e1, e2, e3]
  have k1 : (0.00999 : ℚ) < roundQ (1 / 100) := by decide +kernel
  have k2 : roundQ (-1 / 100) < (-0.00999 : ℚ) := by decide +kernel
  show (decide (roundQ (p - q) < roundQ (1 / 100)) && decide (roundQ (-1 / 100) < roundQ (p - q))) = true
  rw [decide_eq_true (by linarith), decide_eq_true (by linarith)]
  rfl

/-- C125. The tests of the codec pass for any data in [-1, 1] recorded in whole blocks, at any level up to 8 (the tests use level 0), whenever the
codec is in sync, which at levels 4 to 8 it always is; in both builds. -/
theorem C125_sanity (b : Build) (info : StreamInfo) (hn : 0 < info.channels) (L : Nat) (hL : L ≤ 8) (calls : List (List F32))
    (hp : Proper info.channels calls) (hu : ∀ pcm ∈ calls, ∀ x ∈ pcm, Unit x) (hd : ∀ pcm ∈ calls, info.channels ∣ pcm.length)
    (hsync : L < 4 → ∀ ch < info.channels, InSync (stored (down L) info.channels ch 0 calls)) : sanityTest b (fresh info L) calls = .ok true := by
  obtain ⟨c, sig, e, hnear, hdec⟩ := C04_error_bound b b info hn L (by omega) calls hp hu (fun ch hch => by
    by_cases h4 : L < 4
    · exact hsync h4 ch hch
    · exact inSync_high (by omega) (by omega) hch (wide_of_unit hu))
  obtain ⟨c', e'⟩ := hdec [calls.flatten]
  have hflat : (signal info.channels calls).flatten = calls.flatten := by
    unfold signal
    rw [List.flatMap_def, List.flatten_flatten, List.map_map]
    congr 1
    conv_rhs => rw [← List.map_id calls]
    exact List.map_congr_left fun pcm h => blocksOf_flatten hn pcm (hd pcm h)
  have hlen : calls.flatten.length = (signal info.channels calls).length * info.channels := by
    rw [← hflat, List.length_flatten, List.map_congr_left (g := fun _ => info.channels) (fun blk h => signal_width _ h), List.map_const', List.sum_replicate]
    rfl
  have hsig : sig.length = (signal info.channels calls).length := hnear.length_eq.symm
  have hout : readBlocks info.channels sig ([calls.flatten].map (·.map (· * up L))) =
      [(sig.flatten, if sig.length = 0 then none else some (sig.length * info.channels))] := by
    simp only [List.map_cons, List.map_nil, readBlocks, List.length_map]
    rw [hlen, Nat.mul_div_cancel _ hn, hsig, min_self, List.take_of_length_le (by omega), List.drop_of_length_le (by rw [List.length_map, hlen]), List.append_nil]
  rw [hout] at e'
  unfold sanityTest
  rw [e, bind_ok]
  simp only [decodeAll] at e'
  obtain ⟨⟨c1, out, n⟩, e1, e'⟩ := bind_eq_ok.1 e'
  have e' := Except.ok.inj e'
  have hout2 := (List.cons.inj (Prod.mk.inj e').2).1
  unfold AdhocCodec.decode at e1
  obtain ⟨⟨c2, out2, n2⟩, e2, e1⟩ := bind_eq_ok.1 e1
  have e1 := (Prod.mk.inj (Prod.mk.inj (Except.ok.inj e1)).2).1
  rw [e2, bind_ok]
  dsimp only at e1 hout2 ⊢
  have ho : out2 = sig.flatten := e1.trans (Prod.mk.inj hout2).1
  subst ho
  have hall := List.rel_flatten hnear
  rw [hflat] at hall
  have hle : levelError L ≤ 0.0099 := by
    unfold levelError
    interval_cases L <;> norm_num
  have : ((calls.flatten.zip sig.flatten).all fun p => (p.1 - p.2).lt (F32.ofRat (1 / 100)) && (F32.ofRat (-1 / 100)).lt (p.1 - p.2)) = true := by
    rw [List.all_eq_true]
    rintro ⟨x, y⟩ hxy
    exact near_close hle (List.forall₂_zip hall hxy)
  rw [this]
  rfl

/-- adhoc.rs 455-457: the data of `sanity` -/
def sanityData : List (List F32) :=
  [[0, 0, 0.01, 0.01, 0.02, 0.02, 0.03, 0.03, 0.019, 0.020, 0.019, 0.018, 0.017].map F32.ofRat]

/-- adhoc.rs 490-500: the data of `sanity2` -/
def sanity2Data : List (List F32) :=
  [[0, 0, 0.1, 0.01, 0.2, 0.02, 0.3, 0.03].map F32.ofRat, [0.4, 0.020, 0.5, 0.018, 0.6, 0.019].map F32.ofRat]

/-- C125. `sanity` and `sanity2` pass as they are. -/
theorem C125_sanity_tests (b : Build) : sanityTest b (AdhocCodec.new.setInfo { sampleRate := 44100, channels := 1 }) sanityData = .ok true ∧
    sanityTest b (AdhocCodec.new.setInfo { sampleRate := 44100, channels := 2 }) sanity2Data = .ok true := by
  have h1 : down 0 = ofInt 1 := by simp [down, ofInt]
  rw [new_level, new_level]
  constructor
  · refine C125_sanity b _ (by norm_num) 0 (by norm_num) _ ?_ (unit_all _ (by decide +kernel)) (by simp) ?_
    · refine ⟨by simp [sanityData], by simp [sanityData], ?_⟩
      intro j
      match j with
      | 0 => exact .inl ⟨0, by simp, by simp [sanityData]⟩
      | j + 1 => exact .inr fun t => by simp [sanityData, Nat.add_right_comm j 1 t]
    · intro _ ch hch
      rw [h1, stored_one hch]
      obtain rfl : ch = 0 := by simpa using hch
      exact inSync_of_all (by decide +kernel)
  · refine C125_sanity b _ (by norm_num) 0 (by norm_num) _ ?_ (unit_all _ (by decide +kernel)) (by simp [sanity2Data]) ?_
    · refine ⟨by simp [sanity2Data], by simp [sanity2Data], ?_⟩
      intro j
      match j with
      | 0 => exact .inl ⟨0, by simp, by simp [sanity2Data]⟩
      | 1 => exact .inl ⟨0, by simp, by simp [sanity2Data]⟩
      | j + 2 => exact .inr fun t => by simp [sanity2Data, Nat.add_right_comm j 2 t]
    · intro _ ch hch
      rw [h1, stored_one hch]
      dsimp only at hch ⊢
      obtain rfl | rfl : ch = 0 ∨ ch = 1 := by omega
      · exact inSync_of_all (by decide +kernel)
      · exact inSync_of_all (by decide +kernel)

/-! ## the other tests, as they are -/

/-- bitstream.rs 419-433, `sanity` -/
example : (do
    let s ← writeNumbers .new [1, 10, 15, 20, 25]
    let (_, ys) ← readNumbers (s.setBitCursor 0) 5
    pure ys) = .ok [1, 10, 15, 20, 25] := by decide +kernel

/-- bitstream.rs 435-443, `boundary` -/
example : (do
    let s ← (BitStream.new.setBitCursor 126).writeBits 7#128 8
    let (_, y) ← (s.setBitCursor 126).readBits 8
    pure y) = .ok 7#128 := by decide +kernel

/-- bitvec.rs 124-149, `sanity` -/
example : (do
    let v ← [0#64, 1#64, 1#64, 0#64].foldlM BitVecU64.push BitVecU64.new
    let v2 ← v.push 1#64
    let v3 := (v2.set 1 0#64).set 4 0#64
    pure ([v.iter, v2.iter, v3.iter, v3.clear.iter], [v2.len, v2.capacity, v3.clear.capacity])) =
    .ok ([[0#64, 1#64, 1#64, 0#64], [0#64, 1#64, 1#64, 0#64, 1#64], [0#64, 0#64, 1#64, 0#64, 0#64], []], [5, 64, 64]) := by decide +kernel

/-- nibble_list.rs 75-100, `sanity` -/
example : (do
    let l ← [1#8, 2#8, 3#8, 4#8, 5#8, 6#8, 7#8].foldlM NibbleList.push NibbleList.new
    let l1 := l.set 6 10#8
    let l2 := l1.set 5 1#8
    let l3 := l2.set 0 10#8
    pure (l.iter, l.len, l1.iter, l2.iter, l3.iter)) =
    .ok ([1#8, 2#8, 3#8, 4#8, 5#8, 6#8, 7#8], 7, [1#8, 2#8, 3#8, 4#8, 5#8, 6#8, 10#8], [1#8, 2#8, 3#8, 4#8, 5#8, 1#8, 10#8],
      [10#8, 2#8, 3#8, 4#8, 5#8, 1#8, 10#8]) := by decide +kernel

/-- queue.rs 130-173, `sanity` -/
example : (do
    let q ← FixedRingBuffer.new (List.replicate 32 (0 : Int)) 32
    let q0 ← [0, 1, 2, 3].foldlM FixedRingBuffer.pushRear q
    let i0 ← q0.iter
    let (q1, r1) ← q0.popFront
    let i1 ← q1.iter
    let (q2, r2) ← q1.popFront
    let i2 ← q2.iter
    let (q3, r3) ← q2.popFront
    let i3 ← q3.iter
    let (q4, r4) ← q3.popRear
    let i4 ← q4.iter
    let (q5, r5) ← q4.popRear
    let i5 ← q5.iter
    pure ([i0, i1, i2, i3, i4, i5], [r1, r2, r3, r4, r5], [q0.len, q3.len, q4.len, q5.len])) =
    .ok ([[0, 1, 2, 3], [1, 2, 3], [2, 3], [3], [], []], [some 0, some 1, some 2, some 3, none], [4, 1, 0, 0]) := by decide +kernel

/-- stack.rs 75-107, `sanity`, `sanity_2` and `sanity_3` -/
example :
    let s1 := (CircularStack.new 0).push 1
    let s2 := s1.push 2
    s2.prev 1 = 2 ∧ s2.prev 2 = 1 ∧ s1.prev 1 = 1 ∧ s2.pop.2 = 2 ∧ s2.pop.1.pop.2 = 1 ∧ s2.pop.1.pop.1.len = 0 := by decide +kernel

/-- parabola.rs 49-70, `fixed_parabolla` (exactly, not only up to 0.001) -/
example :
    let p := (FixedParabola.fromSamples (F32.ofInt 10) (F32.ofInt 12) (F32.ofInt 15)).computeCoefs
    [0, 1, 2].map (fun x => p.eval (F32.ofInt x)) = [F32.ofInt 10, F32.ofInt 12, F32.ofInt 15] := by decide +kernel

end Adhoc
