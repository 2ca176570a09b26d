import Verif.Proofs.Room
import Verif.Proofs.BitStream

/-! What recording leaves behind the last bit: nothing; and how many chunks it allocates exactly. -/

namespace Adhoc

/-- no more chunks than needed, and nothing behind the current one -/
structure Loose (s : BitStream) : Prop where
  chunks : s.bitCursor ≤ 128 * s.binary.length
  bound : s.binary.length ≤ s.bitCursor / 128 + 2
  fresh : ∀ i, 128 * (s.bitCursor / 128 + 1) ≤ i → bitAt s.binary i = false

/-- nothing behind the cursor -/
structure Tidy (s : BitStream) : Prop extends Loose s where
  clean : ∀ i, s.bitCursor ≤ i → bitAt s.binary i = false

theorem tidy_new : Tidy .new where
  chunks := by simp [BitStream.new]
  bound := by simp [BitStream.new]
  fresh := by intro i _; simp [BitStream.new, bitAt]
  clean := by intro i _; simp [BitStream.new, bitAt]

theorem loose_writeBits {s s' : BitStream} {v : BitVec 128} {n : Nat} (hn : n ≤ 128) (h : Loose s) (e : s.writeBits v n = .ok s') :
    Loose s' := by
  have hc := h.chunks
  have hb := h.bound
  obtain ⟨t, e1, h1, -, h3, -, -, h4⟩ := BitStream.writeBits_spec (s := s) (v := v) hn (by omega) h.fresh
  obtain rfl : s' = t := Except.ok.inj (e.symm.trans e1)
  exact ⟨by omega, by omega, h4⟩

theorem tidy_writeBits {s s' : BitStream} {v : BitVec 128} {n : Nat} (hn : n ≤ 128) (h : Tidy s) (hv : ∀ j, n ≤ j → v.getLsbD j = false)
    (e : s.writeBits v n = .ok s') : Tidy s' ∧ s'.binary.length = (s'.bitCursor - n) / 128 + 2 := by
  have hc := h.chunks
  have hb := h.bound
  obtain ⟨t, e1, h1, -, h3, h4⟩ := BitStream.writeBits_all (s := s) (v := v) hn (by omega)
  obtain rfl : s' = t := Except.ok.inj (e.symm.trans e1)
  refine ⟨⟨loose_writeBits hn h.toLoose e, ?_⟩, by rw [h1, Nat.add_sub_cancel]; omega⟩
  intro i hi
  rw [h4]
  split_ifs with g1 g2 g3
  · omega
  · exact hv _ (by omega)
  · rw [h.clean i (by omega), hv _ (by omega), Bool.and_false, Bool.or_false]
  · exact h.clean i (by omega)

theorem tidy_writeBit {s s' : BitStream} {v : BitVec 8} (h : Loose s) (e : s.writeBit v = .ok s') : Tidy s' := by
  have hc := h.chunks
  have hb := h.bound
  obtain ⟨t, e1, h1, -, h3, h4⟩ := BitStream.writeBit_all (s := s) (v := v) (by omega)
  obtain rfl : s' = t := Except.ok.inj (e.symm.trans e1)
  have key : ∀ i, s'.bitCursor ≤ i → bitAt s'.binary i = false := by
    intro i hi
    rw [h4]
    split_ifs with g1 g2
    · omega
    · rw [BitVec.getLsbD_and, BitVec.getLsbD_one]
      simp; omega
    · exact h.fresh i (by omega)
  exact ⟨⟨by omega, by omega, fun i hi => key i (by omega)⟩, key⟩

theorem loose_writeUnary : ∀ (fuel : Nat) {s s' : BitStream} {q : Int}, Loose s → BitStream.writeUnary fuel s q = .ok s' → Loose s'
  | 0, _, _, _, _, h => by simp [BitStream.writeUnary] at h
  | fuel + 1, s, s', q, hi, h => by
    unfold BitStream.writeUnary at h
    split at h
    · split at h
      · obtain ⟨t, ht, h⟩ := bind_eq_ok.1 h
        exact loose_writeUnary fuel (loose_writeBits le_rfl hi ht) h
      · exact loose_writeBits (by omega) hi h
    · rw [← Except.ok.inj h]; exact hi

theorem mask_clean {b : Build} {k : Nat} (hk : k ≤ 15) {m : BitVec 16} (e : BitStream.i16op b ((1#16 <<< k).toInt - 1) = .ok m) :
    ∀ j, k ≤ j → m.getLsbD j = false := by
  have hm : m = BitVec.ofNat 16 (2 ^ k - 1) := by
    have hk' : k = 0 ∨ k = 1 ∨ k = 2 ∨ k = 3 ∨ k = 4 ∨ k = 5 ∨ k = 6 ∨ k = 7 ∨ k = 8 ∨ k = 9 ∨ k = 10 ∨ k = 11 ∨ k = 12 ∨
        k = 13 ∨ k = 14 ∨ k = 15 := by omega
    rcases hk' with h | h | h | h | h | h | h | h | h | h | h | h | h | h | h | h <;> subst h <;> cases b <;>
      first | exact (Except.ok.inj e).symm | cases e
  intro j hj
  rw [hm, BitVec.getLsbD_ofNat, Nat.testBit_two_pow_sub_one]
  simp; omega

theorem tidy_writeCompressed {b : Build} {s s' : BitStream} {k : Nat} (hk : k ≤ 15) {v : BitVec 16} (hs : Loose s)
    (h : s.writeCompressed b k v = .ok s') : Tidy s' ∧ s'.binary.length = (s'.bitCursor - k) / 128 + 2 := by
  unfold BitStream.writeCompressed at h
  dsimp only at h
  obtain ⟨a, -, h⟩ := bind_eq_ok.1 h
  obtain ⟨m, hm, h⟩ := bind_eq_ok.1 h
  obtain ⟨s1, h1, h⟩ := bind_eq_ok.1 h
  obtain ⟨s2, h2, h⟩ := bind_eq_ok.1 h
  obtain ⟨s3, h3, h⟩ := bind_eq_ok.1 h
  have g1 := tidy_writeBit hs h1
  have g2 := loose_writeUnary _ g1.toLoose h2
  have g3 := tidy_writeBit g2 h3
  refine tidy_writeBits (by omega) g3 ?_ h
  have hc := mask_clean hk hm
  intro j hj
  have hmsb : (a &&& m).msb = false := by
    rw [BitVec.msb_eq_getLsbD_last, BitVec.getLsbD_and, hc _ (by omega), Bool.and_false]
  rw [BitVec.getLsbD_setWidth, BitVec.getLsbD_signExtend, BitVec.getLsbD_and, hc _ hj, hmsb]
  simp

theorem tidy_encodeSamples {b : Build} {k : Nat} (hk : k ≤ 15) (ys : List F32) : ∀ {s s' : BitStream} {h h' : CircularStack Int}, Loose s →
    FrameCodec.encodeSamples b k s h ys = .ok (s', h') →
    (ys = [] → s' = s) ∧ (ys ≠ [] → Tidy s' ∧ s'.binary.length = (s'.bitCursor - k) / 128 + 2) := by
  induction ys with
  | nil =>
    intro s s' h h' _ e
    unfold FrameCodec.encodeSamples at e
    rw [← (Prod.mk.inj (Except.ok.inj e)).1]
    exact ⟨fun _ => rfl, fun h => absurd rfl h⟩
  | cons y ys ih =>
    intro s s' h h' hs e
    unfold FrameCodec.encodeSamples at e
    dsimp only at e
    obtain ⟨x, -, e⟩ := bind_eq_ok.1 e
    obtain ⟨s1, e1, e⟩ := bind_eq_ok.1 e
    have g1 := tidy_writeCompressed hk hs e1
    refine ⟨fun h => by simp at h, fun _ => ?_⟩
    obtain ⟨i1, i2⟩ := ih g1.1.toLoose e
    by_cases hy : ys = []
    · rw [i1 hy]; exact g1
    · exact i2 hy

theorem tidy_writeU16 {s s' : BitStream} {v : BitVec 16} (h : Tidy s) (e : s.writeU16 v = .ok s') :
    Tidy s' ∧ s'.binary.length = (s'.bitCursor - 16) / 128 + 2 := by
  unfold BitStream.writeU16 at e
  refine tidy_writeBits (by omega) h ?_ e
  intro j hj
  rw [BitVec.getLsbD_setWidth, BitVec.getLsbD_of_ge _ _ hj, Bool.and_false]

end Adhoc
