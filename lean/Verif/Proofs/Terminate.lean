import Verif.Proofs.Rice

/-! Reading a compressed value terminates on every stream content. -/

namespace Adhoc
namespace BitStream

theorem bind_ne_fuel {α β} {x : R α} {f : α → R β} (hx : x ≠ .error .fuel) (hf : ∀ a, x = .ok a → f a ≠ .error .fuel) :
    (x >>= f) ≠ .error .fuel := by
  cases x with
  | error e => simpa using hx
  | ok a => simpa using hf a rfl

theorem idx_ne_fuel {α} (l : List α) (i : Nat) : idx l i ≠ .error .fuel := by
  unfold idx; split <;> simp

theorem setIdx_ne_fuel {α} (l : List α) (i : Nat) (a : α) : setIdx l i a ≠ .error .fuel := by
  unfold setIdx; split <;> simp

theorem chkI_ne_fuel (b : Build) (n : Nat) (x : Int) : chkI b n x ≠ .error .fuel := by
  unfold chkI; split
  · simp
  · cases b <;> simp

theorem i16op_ne_fuel (b : Build) (x : Int) : i16op b x ≠ .error .fuel := by
  unfold i16op
  exact bind_ne_fuel (chkI_ne_fuel _ _ _) (by simp)

theorem peekBits_ne_fuel (s : BitStream) (n : Nat) : s.peekBits n ≠ .error .fuel := by
  unfold peekBits
  dsimp only
  split
  · simp
  · refine bind_ne_fuel (idx_ne_fuel _ _) fun a _ => ?_
    split
    · exact bind_ne_fuel (idx_ne_fuel _ _) (by simp)
    · simp

theorem readBit_ne_fuel (s : BitStream) : s.readBit ≠ .error .fuel := by
  unfold readBit
  dsimp only
  split
  · simp
  · exact bind_ne_fuel (idx_ne_fuel _ _) (by simp)

theorem readBits_ne_fuel (s : BitStream) (n : Nat) : s.readBits n ≠ .error .fuel := by
  unfold readBits
  exact bind_ne_fuel (peekBits_ne_fuel _ _) (by simp)

theorem writeBits_ne_fuel (s : BitStream) (v : BitVec 128) (n : Nat) : s.writeBits v n ≠ .error .fuel := by
  unfold writeBits
  dsimp only
  refine bind_ne_fuel (idx_ne_fuel _ _) fun a _ => bind_ne_fuel (setIdx_ne_fuel _ _ _) fun a _ => ?_
  split
  · exact bind_ne_fuel (idx_ne_fuel _ _) fun a _ => bind_ne_fuel (setIdx_ne_fuel _ _ _) (by simp)
  · simp

theorem writeBit_ne_fuel (s : BitStream) (v : BitVec 8) : s.writeBit v ≠ .error .fuel := by
  unfold writeBit
  dsimp only
  exact bind_ne_fuel (idx_ne_fuel _ _) fun a _ => bind_ne_fuel (setIdx_ne_fuel _ _ _) (by simp)

theorem writeUnary_ne_fuel : ∀ (fuel : Nat) (s : BitStream) (q : Int), q < fuel → 0 < fuel → writeUnary fuel s q ≠ .error .fuel
  | 0, _, _, _, h => absurd h (by omega)
  | fuel + 1, s, q, h, _ => by
    unfold writeUnary
    split
    · split
      · exact bind_ne_fuel (writeBits_ne_fuel _ _ _) fun a _ => writeUnary_ne_fuel fuel a _ (by omega) (by omega)
      · exact writeBits_ne_fuel _ _ _
    · simp

theorem writeCompressed_ne_fuel (b : Build) (s : BitStream) (k : Nat) (e : BitVec 16) :
    s.writeCompressed b k e ≠ .error .fuel := by
  unfold writeCompressed
  refine bind_ne_fuel (i16op_ne_fuel _ _) fun a _ => bind_ne_fuel (i16op_ne_fuel _ _) fun m _ =>
    bind_ne_fuel (writeBit_ne_fuel _ _) fun s _ => bind_ne_fuel ?_ fun s _ => bind_ne_fuel (writeBit_ne_fuel _ _) fun s _ =>
    writeBits_ne_fuel _ _ _
  exact writeUnary_ne_fuel _ _ _ (by omega) (by omega)

/-- whatever the position, a successful peek leaves the bits unchanged, and beyond the last chunk it sees only zeros -/
theorem peekBits_bits {s s' : BitStream} {v : BitVec 128} (h : s.peekBits 128 = .ok (s', v)) :
    s'.bitCursor = s.bitCursor ∧ (∀ i, bitAt s'.binary i = bitAt s.binary i) ∧ s.binary.length ≤ s'.binary.length ∧
    (v = BitVec.allOnes 128 → ∀ j < 128, bitAt s.binary (s.bitCursor + j) = true) := by
  by_cases hlen : s.bitCursor / 128 ≤ s.binary.length
  · obtain ⟨t, w, h1, h2, _, h4, h5, h6⟩ := peekBits_spec (s := s) (n := 128) (by norm_num) hlen
    rw [h1] at h
    injection h with h
    injection h with e1 e2
    subst e1; subst e2
    refine ⟨h2, h5, by omega, fun hv j hj => ?_⟩
    have := h6 j
    rw [hv, BitVec.getLsbD_allOnes] at this
    simpa [hj] using this.symm
  · set t := ((s.allocateIfNeeded s.chunkIndex).allocateIfNeeded (s.chunkIndex + 1)) with ht
    have hb : ∀ i, bitAt t.binary i = bitAt s.binary i := by
      intro i; rw [ht, allocate_bitAt, allocate_bitAt]
    have htl : s.binary.length ≤ t.binary.length := by
      rw [ht, allocate_length, allocate_length]; split <;> split <;> omega
    have hz : ∀ c x, s.binary.length ≤ c → idx t.binary c = .ok x → x = 0#128 := by
      intro c x hc hx
      rw [idx_eq_ok] at hx
      apply BitVec.eq_of_getLsbD_eq
      intro j hj
      have e := hb (128 * c + j)
      unfold bitAt at e
      rw [show (128 * c + j) / 128 = c by omega, show (128 * c + j) % 128 = j by omega, hx,
        List.getElem?_eq_none hc] at e
      simpa using e
    unfold peekBits at h
    dsimp only at h
    rw [← ht] at h
    have hci : s.chunkIndex = s.bitCursor / 128 := rfl
    have key : s' = t ∧ v ≠ BitVec.allOnes 128 := by
      split at h
      · simp at h
        exact ⟨h.1.symm, by rw [← h.2]; decide⟩
      · rw [bind_eq_ok] at h
        obtain ⟨c, hc, h⟩ := h
        have hc0 := hz _ _ (by omega) hc
        subst hc0
        split at h
        · rw [bind_eq_ok] at h
          obtain ⟨d, hd, h⟩ := h
          have := hz _ _ (by omega) hd
          subst this
          simp at h
          exact ⟨h.1.symm, by rw [← h.2]; decide⟩
        · simp at h
          exact ⟨h.1.symm, by rw [← h.2]; decide⟩
    obtain ⟨e1, e2⟩ := key
    subst e1
    exact ⟨by simp [ht], hb, htl, fun hv => absurd hv e2⟩

/-- with all bits from `128 * n` on equal to zero, `n - cursor / 128 + 2` rounds are enough -/
theorem readOnes_ne_fuel {b : Build} {n : Nat} : ∀ (fuel : Nat) (s : BitStream) (q : BitVec 16),
    (∀ i, 128 * n ≤ i → bitAt s.binary i = false) → n + 1 < fuel + s.bitCursor / 128 → 0 < fuel →
    readOnes b fuel s q ≠ .error .fuel
  | 0, _, _, _, _, h => absurd h (by omega)
  | fuel + 1, s, q, hz, hf, _ => by
    unfold readOnes
    refine bind_ne_fuel (peekBits_ne_fuel _ _) ?_
    rintro ⟨s', v⟩ hv
    obtain ⟨h1, h2, h3, h4⟩ := peekBits_bits hv
    dsimp only
    split
    · next hall =>
      have hlast : s.bitCursor + 127 < 128 * n := by
        by_contra hc
        have := h4 hall 127 (by norm_num)
        rw [hz _ (by omega)] at this
        simp at this
      refine bind_ne_fuel (i16op_ne_fuel _ _) fun a _ => ?_
      apply readOnes_ne_fuel (n := n) fuel
      · intro i hi
        show bitAt s'.binary i = false
        rw [h2, hz i hi]
      · show n + 1 < fuel + (s'.bitCursor + 128) / 128
        omega
      · omega
    · simp

theorem bitAt_beyond (l : List (BitVec 128)) (i : Nat) (h : 128 * l.length ≤ i) : bitAt l i = false := by
  unfold bitAt; rw [List.getElem?_eq_none (by omega)]; simp

theorem readCompressed_ne_fuel (b : Build) (s : BitStream) (k : Nat) : s.readCompressed b k ≠ .error .fuel := by
  unfold readCompressed
  refine bind_ne_fuel (readBit_ne_fuel _) ?_
  rintro ⟨s1, bit⟩ _
  refine bind_ne_fuel (readOnes_ne_fuel (n := s1.binary.length) _ _ _ (fun i hi => bitAt_beyond _ _ hi) (by omega) (by omega)) ?_
  rintro ⟨s2, c, q⟩ _
  refine bind_ne_fuel (i16op_ne_fuel _ _) fun a _ => bind_ne_fuel (readBits_ne_fuel _ _) ?_
  rintro ⟨s3, r⟩ _
  exact bind_ne_fuel (i16op_ne_fuel _ _) fun a _ => bind_ne_fuel (i16op_ne_fuel _ _) fun a _ =>
    bind_ne_fuel (i16op_ne_fuel _ _) fun a _ => bind_ne_fuel (i16op_ne_fuel _ _) fun a _ =>
    bind_ne_fuel (i16op_ne_fuel _ _) (by simp)

/-- once the loop finishes, more rounds change nothing -/
theorem readOnes_stable {b : Build} : ∀ (fuel extra : Nat) (s : BitStream) (q : BitVec 16),
    readOnes b fuel s q ≠ .error .fuel → readOnes b (fuel + extra) s q = readOnes b fuel s q
  | 0, _, _, _, h => absurd rfl h
  | fuel + 1, extra, s, q, h => by
    rw [show fuel + 1 + extra = (fuel + extra) + 1 by omega]
    unfold readOnes at h ⊢
    cases hp : s.peekBits 128 with
    | error e => rfl
    | ok r =>
      obtain ⟨s', v⟩ := r
      rw [hp] at h
      simp only [bind_ok] at h ⊢
      split
      · next hv =>
        rw [if_pos hv] at h
        cases hi : i16op b (q.toInt + 128) with
        | error e => rfl
        | ok a =>
          rw [hi] at h
          simp only [bind_ok] at h ⊢
          exact readOnes_stable fuel extra _ _ h
      · rfl

end BitStream
end Adhoc
