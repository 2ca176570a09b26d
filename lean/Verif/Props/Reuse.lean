import Verif.Props.RoundTrip

/-! # C21: encoding again after rewinding -/

namespace Adhoc
open Spec F32

/-- record `old`, rewind, record `new` over it, rewind, play -/
def rerecord (b : Build) (info : StreamInfo) (level : Nat) (old new bufs : List (List F32)) : R (List (List F32 × Option Nat)) := do
  let c ← encodeAll b (fresh info level) old
  let c ← encodeAll b c.init new
  let (_, outs) ← decodeAll b c.init bufs
  pure outs

/-- 16-bit codes as samples -/
def pcmOf (l : List Int) : List F32 := l.map normalizeSample

/-- the codes in what was played -/
def codesPlayed (r : R (List (List F32 × Option Nat))) : R (List (List Int × Option Nat)) := r.map fun l => l.map fun x => (x.1.map truncateSample, x.2)

/-- a recording of two frames, and a shorter one -/
def longer : List (List F32) := [pcmOf [0, 0, 0, 0], pcmOf [5, 5, 5, 5]]
/-- one frame -/
def shorter : List (List F32) := [pcmOf [0, 0, 0]]

/-- After the three samples of the new recording come four of the old one. -/
theorem stale_frame : codesPlayed (rerecord .debug { sampleRate := 8000, channels := 1 } 0 longer shorter [pcmOf [0, 0, 0, 0, 0, 0, 0, 0]]) =
    .ok [([0, 0, 0, 0, 0, 0, 0, 0], some 7)] := by decide +kernel

/-- The same number of frames; the last two samples are wrong, because of the old bits in the second chunk. -/
theorem mixed_bits : codesPlayed (rerecord .debug { sampleRate := 8000, channels := 1 } 0 [pcmOf [0, 0, 0, 9000, 0, 9000, 0, 9000]]
      [pcmOf [0, 0, 0, 20000, 20000, 20000, 20000, 20000, 20000]] [pcmOf [0, 0, 0, 0, 0, 0, 0, 0, 0]]) =
    .ok [([0, 0, 0, 19999, 19999, 19999, 19999, 22047, 26143], some 9)] := by decide +kernel

/-- C21 is false, in either of two ways: frames of a longer old recording stay behind the new one, and where a field of the new recording
crosses a 128-bit boundary it is mixed with old bits, even if the new recording is longer. -/
theorem C21_false :
    (¬ ∀ (b : Build) (info : StreamInfo) (level : Nat) (old new bufs : List (List F32)) (outs outs' : List (List F32 × Option Nat)),
      rerecord b info level old new bufs = .ok outs → session b info level new bufs = .ok outs' → outs = outs') ∧
    (¬ ∀ (b : Build) (info : StreamInfo) (level : Nat) (old new bufs : List (List F32)) (outs outs' : List (List F32 × Option Nat)),
      old.length = new.length → old.flatten.length < new.flatten.length →
      rerecord b info level old new bufs = .ok outs → session b info level new bufs = .ok outs' → outs = outs') := by
  have conv : ∀ {r r' : R (List (List F32 × Option Nat))} {x x' : List (List Int × Option Nat)}, codesPlayed r = .ok x → codesPlayed r' = .ok x' → x ≠ x' →
      ∃ o o', r = .ok o ∧ r' = .ok o' ∧ o ≠ o' := by
    intro r r' x x' h h' hne
    rcases r with p | o
    · cases h
    rcases r' with p | o'
    · cases h'
    refine ⟨o, o', rfl, rfl, ?_⟩
    rintro rfl
    exact hne (Except.ok.inj (h.symm.trans h'))
  constructor
  · intro H
    obtain ⟨o, o', e, e', hne⟩ := conv stale_frame (r' := session .debug { sampleRate := 8000, channels := 1 } 0 shorter [pcmOf [0, 0, 0, 0, 0, 0, 0, 0]])
      (x' := [([0, 0, 0, 0, 0, 0, 0, 0], some 3)]) (by decide +kernel) (by decide)
    exact hne (H _ _ _ _ _ _ _ _ e e')
  · intro H
    obtain ⟨o, o', e, e', hne⟩ := conv mixed_bits (r' := session .debug { sampleRate := 8000, channels := 1 } 0 [pcmOf [0, 0, 0, 20000, 20000, 20000, 20000, 20000, 20000]]
        [pcmOf [0, 0, 0, 0, 0, 0, 0, 0, 0]])
      (x' := [([0, 0, 0, 19999, 19999, 19999, 19999, 19999, 19999], some 9)]) (by decide +kernel) (by decide)
    exact hne (H _ _ _ _ _ _ _ _ (by simp) (by simp [pcmOf]) e e')

/-! ## writing over old memory -/

/-- `write_bits` at any place of any memory: what is before stays, the field is written, except that the part of it beyond the chunk
boundary is or-ed into what was there. -/
theorem writeBits_over {s : BitStream} {v : BitVec 128} {n : Nat} (hn : n ≤ 128) (hlen : s.bitCursor / 128 ≤ s.binary.length) :
    ∃ s', s.writeBits v n = .ok s' ∧ s'.bitCursor = s.bitCursor + n ∧
      (∀ i < s.bitCursor, bitAt s'.binary i = bitAt s.binary i) ∧
      (∀ j < n, bitAt s'.binary (s.bitCursor + j) = (v.getLsbD j || (decide (128 ≤ s.bitCursor % 128 + j) && bitAt s.binary (s.bitCursor + j)))) ∧
      s.bitCursor / 128 + 2 ≤ s'.binary.length := by
  open BitStream in
  set cur := s.bitCursor / 128 with hcur
  set bi := s.bitCursor % 128 with hbi
  have hbi' : bi < 128 := Nat.mod_lt _ (by norm_num)
  have hsplit : s.bitCursor = 128 * cur + bi := (Nat.div_add_mod _ _).symm
  set t := (s.allocateIfNeeded cur).allocateIfNeeded (cur + 1) with ht
  have htlen : t.binary.length = max s.binary.length (cur + 2) := by
    rw [ht, allocate_length, allocate_length]; split_ifs <;> omega
  have htbit : ∀ i, bitAt t.binary i = bitAt s.binary i := by
    intro i; rw [ht, allocate_bitAt, allocate_bitAt]
  have htc : t.bitCursor = s.bitCursor := by simp [ht]
  have hc : cur < t.binary.length := by omega
  have hd : cur + 1 < t.binary.length := by omega
  set c1 := (t.binary[cur] &&& ((1#128 <<< bi) - 1#128)) ||| (v <<< bi) with hc1
  have hcb : ∀ j < 128, c1.getLsbD j = if j < bi then bitAt s.binary (128 * cur + j) else v.getLsbD (j - bi) := by
    intro j hj
    have hbj : bitAt s.binary (128 * cur + j) = t.binary[cur].getLsbD j := by
      rw [← htbit]; unfold bitAt
      rw [show (128 * cur + j) / 128 = cur by omega, show (128 * cur + j) % 128 = j by omega, List.getElem?_eq_getElem hc]
      rfl
    rw [hc1, BitVec.getLsbD_or, BitVec.getLsbD_and, getLsbD_mask _ (by omega), BitVec.getLsbD_shiftLeft, hbj]
    by_cases h : j < bi <;> simp [h, hj]
  by_cases hst : 128 - bi < n
  · set d0 := t.binary[cur + 1] with hd0
    set d1 := (d0 &&& ((1#128 <<< (n - (128 - bi))) - 1#128)) ||| (v >>> (128 - bi)) with hd1
    have hdz : ∀ j < 128, d0.getLsbD j = bitAt s.binary (128 * (cur + 1) + j) := by
      intro j hj
      rw [← htbit]
      unfold bitAt
      rw [show (128 * (cur + 1) + j) / 128 = cur + 1 by omega, show (128 * (cur + 1) + j) % 128 = j by omega,
        List.getElem?_eq_getElem hd]
      rfl
    have hdb : ∀ j, j < n - (128 - bi) → d1.getLsbD j = (v.getLsbD (128 - bi + j) || bitAt s.binary (128 * (cur + 1) + j)) := by
      intro j hj
      rw [hd1, BitVec.getLsbD_or, BitVec.getLsbD_and, hdz j (by omega), BitVec.getLsbD_ushiftRight, getLsbD_mask _ (by omega), Bool.or_comm]
      simp [hj]
    refine ⟨({ t with binary := (t.binary.set cur c1).set (cur + 1) d1 }).offsetBitCursor n, ?_, ?_, ?_, ?_, ?_⟩
    · unfold BitStream.writeBits
      simp only [chunkIndex, chunkBitIndex, ← hcur, ← hbi, ← ht, CHUNK_SIZE_IN_BITS]
      rw [idx_of_lt hc]
      simp only [bind_ok]
      rw [setIdx_of_lt hc]
      simp only [bind_ok, hst, if_true]
      rw [idx_of_lt (by simpa using hd)]
      simp only [bind_ok]
      rw [setIdx_of_lt (by simpa using hd)]
      have : (t.binary.set cur c1)[cur + 1]'(by simpa using hd) = t.binary[cur + 1] := by simp
      simp only [bind_ok, pure_eq_ok, ← hc1, this, ← hd0, ← hd1]
    · simp [offsetBitCursor, htc]
    · intro i hi
      simp only [offsetBitCursor]
      rw [bitAt_set (by simpa using hd), bitAt_set hc, htbit]
      rw [if_neg (by omega)]
      split_ifs with h
      · rw [hcb _ (Nat.mod_lt _ (by norm_num)), if_pos (by omega)]; congr 1; omega
      · rfl
    · intro j hj
      simp only [offsetBitCursor]
      rw [bitAt_set (by simpa using hd), bitAt_set hc]
      by_cases h : bi + j < 128
      · rw [if_neg (by omega), if_pos (by omega), show (s.bitCursor + j) % 128 = bi + j by omega, hcb _ h,
          if_neg (by omega), show bi + j - bi = j by omega]
        simp [show ¬ 128 ≤ bi + j by omega]
      · rw [if_pos (by omega), show (s.bitCursor + j) % 128 = bi + j - 128 by omega, hdb _ (by omega),
          show 128 - bi + (bi + j - 128) = j by omega, show 128 * (cur + 1) + (bi + j - 128) = s.bitCursor + j by omega]
        simp [show 128 ≤ bi + j by omega]
    · simp [offsetBitCursor, htlen]
  · refine ⟨({ t with binary := t.binary.set cur c1 }).offsetBitCursor n, ?_, ?_, ?_, ?_, ?_⟩
    · unfold BitStream.writeBits
      simp only [chunkIndex, chunkBitIndex, ← hcur, ← hbi, ← ht, CHUNK_SIZE_IN_BITS]
      rw [idx_of_lt hc]
      simp only [bind_ok]
      rw [setIdx_of_lt hc]
      simp only [bind_ok, hst, if_false, pure_eq_ok, ← hc1]
    · simp [offsetBitCursor, htc]
    · intro i hi
      simp only [offsetBitCursor]
      rw [bitAt_set hc, htbit]
      split_ifs with h
      · rw [hcb _ (Nat.mod_lt _ (by norm_num)), if_pos (by omega)]; congr 1; omega
      · rfl
    · intro j hj
      simp only [offsetBitCursor]
      rw [bitAt_set hc]
      rw [if_pos (by omega), show (s.bitCursor + j) % 128 = bi + j by omega, hcb _ (by omega), if_neg (by omega), show bi + j - bi = j by omega]
      simp [show ¬ 128 ≤ bi + j by omega]
    · simp [offsetBitCursor, htlen]

/-- C21, what holds for a single field: written at any place over any old memory and read back from there, it comes back as the written
value or-ed with the old bits behind the 128-bit boundary it crosses. So it survives if and only if it has a one wherever there was one. -/
theorem C21_field_partial (s : BitStream) (v : BitVec 128) (n : Nat) (hn : n ≤ 128) (hv : v.toNat < 2 ^ n) (hlen : s.bitCursor / 128 ≤ s.binary.length) :
    ∃ s' s'' r, s.writeBits v n = .ok s' ∧ (s'.setBitCursor s.bitCursor).readBits n = .ok (s'', r) ∧ s''.bitCursor = s.bitCursor + n ∧
      (∀ j < n, r.getLsbD j = (v.getLsbD j || (decide (128 ≤ s.bitCursor % 128 + j) && bitAt s.binary (s.bitCursor + j)))) ∧
      (r = v ↔ ∀ j < n, 128 ≤ s.bitCursor % 128 + j → bitAt s.binary (s.bitCursor + j) = true → v.getLsbD j = true) ∧
      (∀ i < s.bitCursor, bitAt s''.binary i = bitAt s.binary i) := by
  obtain ⟨s', e, hc, hb, hf, hl⟩ := writeBits_over (v := v) hn hlen
  obtain ⟨s'', r, e2, hc2, -, -, hb2, hr⟩ := BitStream.readBits_spec (s := s'.setBitCursor s.bitCursor) hn (by
    show s.bitCursor / 128 ≤ s'.binary.length
    omega)
  have key : ∀ j < n, r.getLsbD j = (v.getLsbD j || (decide (128 ≤ s.bitCursor % 128 + j) && bitAt s.binary (s.bitCursor + j))) := by
    intro j hj
    rw [hr j, ← hf j hj]
    simp only [hj, decide_true, Bool.true_and]
    rfl
  have hvn : ∀ j, n ≤ j → v.getLsbD j = false := by
    intro j hj
    rw [← BitVec.testBit_toNat]
    exact Nat.testBit_lt_two_pow (lt_of_lt_of_le hv (Nat.pow_le_pow_right (by norm_num) hj))
  refine ⟨s', s'', r, e, e2, hc2, key, ⟨?_, ?_⟩, ?_⟩
  · rintro rfl j hj hs ho
    rw [key j hj, ho]
    simp [hs]
  · intro h
    apply BitVec.eq_of_getLsbD_eq
    intro j hj
    by_cases hjn : j < n
    · rw [key j hjn]
      by_cases hs : 128 ≤ s.bitCursor % 128 + j
      · cases ho : bitAt s.binary (s.bitCursor + j)
        · simp
        · simp [h j hjn hs ho]
      · simp [hs]
    · rw [hr j, hvn j (by omega)]
      simp [hjn]
  · intro i hi
    rw [hb2 i]
    exact hb i hi

/-- four bits across the boundary, over memory of ones: 1 becomes 13 -/
example : ((BitStream.writeBits { binary := [0#128, BitVec.allOnes 128], bitCursor := 126, capacity := 256 } 1#128 4).bind
    fun s => (s.setBitCursor 126).readBits 4).map (·.2) = .ok 13#128 := by decide +kernel

end Adhoc
