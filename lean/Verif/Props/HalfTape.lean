import Verif.Props.WavTape
import Verif.Props.Half

/-! # C34, C40: the WAV codec as a tape, with half a sample at its end and with seeks of any length -/

namespace Adhoc

namespace Spec

/-- a tape with a byte behind its last cell -/
structure Ragged where
  cells : List Int
  pos : Nat
  half : Nat

/-- the cell made of a byte and the low byte of a sample behind it -/
def joined (half : Nat) (x : Int) : Int :=
  let n := half + 256 * (x % 256)
  if n < 32768 then n else n - 65536

namespace Ragged

/-- write a sample: in its place, or behind the byte, of which it completes a cell with its low byte, so that its high byte is now the byte behind the
last cell -/
def put (t : Ragged) (x : Int) : Ragged :=
  if t.pos < t.cells.length then ⟨t.cells.set t.pos x, t.pos + 1, t.half⟩
  else ⟨t.cells ++ [joined t.half x], t.pos + 1, (x / 256 % 256).toNat⟩

/-- operations with `n` channels: the tape afterwards, and for every operation the buffer afterwards and the returned count -/
def run (n : Nat) : Ragged → List WavOp → Ragged × List (List F32 × Option Nat)
  | t, [] => (t, [])
  | t, .encode xs :: ops =>
    let (t', outs) := run n (((xs.take (whole n xs.length)).map truncateSample).foldl put t) ops
    (t', (xs, some (whole n xs.length)) :: outs)
  | t, .decode buf :: ops =>
    let ys := (t.cells.drop t.pos).take (whole n buf.length)
    let (t', outs) := run n ⟨t.cells, t.pos + ys.length, t.half⟩ ops
    (t', (ys.map normalizeSample ++ buf.drop ys.length, if ys = [] then none else some ys.length) :: outs)

end Ragged
end Spec
open Spec

/-- the codec `w` is the ragged tape `t` -/
structure IsRagged (w : WavCodec) (t : Ragged) : Prop where
  bytes : w.pcm = t.cells.flatMap le16 ++ [BitVec.ofNat 8 t.half]
  range : ∀ x ∈ t.cells, -32768 ≤ x ∧ x ≤ 32767
  half : t.half < 256
  pos : w.shortCursor = t.pos
  le : t.pos ≤ t.cells.length

theorem IsRagged.samples {w : WavCodec} {t : Ragged} (H : IsRagged w t) : w.numSamples = t.cells.length := by
  unfold WavCodec.numSamples
  rw [H.bytes, List.length_append, length_le16s, List.length_singleton]; omega

theorem joined_range {h : Nat} (hh : h < 256) (x : Int) : -32768 ≤ joined h x ∧ joined h x ≤ 32767 := by
  unfold joined
  dsimp only
  split <;> omega

theorem le16_joined {h : Nat} (hh : h < 256) (x : Int) : le16 (joined h x) = [BitVec.ofNat 8 h, BitVec.ofInt 8 x] := by
  have h1 : joined h x % 256 = h := by unfold joined; dsimp only; split <;> omega
  have h2 : joined h x / 256 % 256 = x % 256 := by unfold joined; dsimp only; split <;> omega
  unfold le16
  congr 1
  · apply BitVec.eq_of_toNat_eq
    rw [BitVec.toNat_ofInt, BitVec.toNat_ofNat]
    norm_num
    omega
  · congr 1
    apply BitVec.eq_of_toNat_eq
    rw [BitVec.toNat_ofInt, BitVec.toNat_ofInt]
    norm_num
    rw [h2]

theorem hi_byte (x : Int) : BitVec.ofInt 8 (x / 256) = BitVec.ofNat 8 (x / 256 % 256).toNat := by
  apply BitVec.eq_of_toNat_eq
  rw [BitVec.toNat_ofInt, BitVec.toNat_ofNat]
  norm_num
  omega

theorem writeSample_ragged {w : WavCodec} {t : Ragged} (H : IsRagged w t) {x : Int} (hx : -32768 ≤ x ∧ x ≤ 32767) :
    ∃ w', w.writeSample x = .ok w' ∧ w'.info = w.info ∧ IsRagged w' (t.put x) := by
  have hn := H.samples
  have hp := H.pos
  have hle := H.le
  unfold WavCodec.writeSample Ragged.put
  dsimp only
  rw [ofNat_asU16, ofNat_asU16_hi]
  by_cases h : t.pos < t.cells.length
  · rw [if_pos (show w.shortCursor < w.numSamples by omega), if_pos h]
    have hl := length_le16s t.cells
    rw [hp, H.bytes]
    unfold setIdx
    rw [if_pos (by rw [List.length_append]; omega), bind_ok, if_pos (by rw [List.length_set, List.length_append, List.length_singleton]; omega), bind_ok,
      List.set_append_left _ _ (by omega), List.set_append_left _ _ (by rw [List.length_set]; omega), set_le16s _ _ _ h]
    refine ⟨_, rfl, rfl, rfl, ?_, H.half, rfl, by simp; omega⟩
    intro y hy
    rcases List.mem_or_eq_of_mem_set hy with h | h
    · exact H.range y h
    · subst h; exact hx
  · rw [if_neg (show ¬ w.shortCursor < w.numSamples by omega), if_neg h]
    refine ⟨_, rfl, rfl, ?_, ?_, ?_, by simp [hp], by simp; omega⟩
    · simp only [List.flatMap_append, List.flatMap_cons, List.flatMap_nil, le16_joined H.half, ← hi_byte, H.bytes]
      simp
    · intro y hy
      rcases List.mem_append.1 hy with h | h
      · exact H.range y h
      · rw [List.mem_singleton] at h; subst h; exact joined_range H.half x
    · show (x / 256 % 256).toNat < 256
      omega

theorem writeSamples_ragged : ∀ (xs : List F32) {w : WavCodec} {t : Ragged} (_ : IsRagged w t),
    ∃ w', xs.foldlM (fun w x => w.writeSample (truncateSample x)) w = .ok w' ∧ w'.info = w.info ∧ IsRagged w' ((xs.map truncateSample).foldl Ragged.put t)
  | [], w, t, H => ⟨w, rfl, rfl, H⟩
  | x :: xs, w, t, H => by
    have := truncateSample_range x
    obtain ⟨w1, e1, i1, H1⟩ := writeSample_ragged H (x := truncateSample x) (by omega)
    obtain ⟨w2, e2, i2, H2⟩ := writeSamples_ragged xs H1
    exact ⟨w2, by rw [List.foldlM_cons, e1, bind_ok, e2], i2.trans i1, H2⟩

theorem wavRun_ragged : ∀ (ops : List WavOp) {w : WavCodec} {t : Ragged} (_ : IsRagged w t) (_ : 0 < w.info.channels),
    ∃ w', wavRun w ops = .ok (w', (Ragged.run w.info.channels t ops).2) ∧ w'.info = w.info ∧ IsRagged w' (Ragged.run w.info.channels t ops).1
  | [], w, t, H, _ => ⟨w, rfl, rfl, H⟩
  | .encode xs :: ops, w, t, H, hn => by
    obtain ⟨w1, e1, i1, H1⟩ := writeSamples_ragged (xs.take (whole w.info.channels xs.length)) H
    obtain ⟨w2, e2, i2, H2⟩ := wavRun_ragged ops H1 (by rw [i1]; exact hn)
    rw [i1] at e2 H2
    refine ⟨w2, ?_, i2.trans i1, H2⟩
    have he : w.encode xs = .ok (w1, some (whole w.info.channels xs.length)) := by
      unfold WavCodec.encode
      rw [udiv_of_pos hn, bind_ok]
      unfold whole at e1 ⊢
      dsimp only
      rw [e1, bind_ok]
      rfl
    rw [wavRun, he, bind_ok]
    dsimp only
    rw [e2, bind_ok]
    rfl
  | .decode buf :: ops, w, t, H, hn => by
    have hw : w = withByte { w with pcm := t.cells.flatMap le16 } (BitVec.ofNat 8 t.half) := by
      unfold withByte
      rw [← H.bytes]
    have HR : IsReel { w with pcm := t.cells.flatMap le16 } ⟨t.cells, t.pos⟩ := ⟨rfl, H.range, H.pos, H.le⟩
    obtain ⟨w1, e1, i1, H1⟩ := wavDecode_ok HR hn buf
    have hd := (C135_codec { w with pcm := t.cells.flatMap le16 } (by
      show (t.cells.flatMap le16).length % 2 = 0
      rw [length_le16s]; omega) (BitVec.ofNat 8 t.half)).1 buf
    rw [← hw, e1] at hd
    have H1' : IsRagged (withByte w1 (BitVec.ofNat 8 t.half)) ⟨t.cells, t.pos + ((t.cells.drop t.pos).take (whole w.info.channels buf.length)).length, t.half⟩ :=
      ⟨by unfold withByte; rw [H1.bytes], H1.range, H.half, H1.pos, H1.le⟩
    have i1' : (withByte w1 (BitVec.ofNat 8 t.half)).info = w.info := i1
    obtain ⟨w2, e2, i2, H2⟩ := wavRun_ragged ops H1' (by rw [i1']; exact hn)
    rw [i1'] at e2 H2
    refine ⟨w2, ?_, i2.trans i1', H2⟩
    rw [wavRun, hd]
    show (wavRun (withByte w1 (BitVec.ofNat 8 t.half)) ops >>= _) = _
    rw [e2, bind_ok]
    rfl

/-- C34, exactly, for codecs with half a sample at the end: in every sequence of encode and decode calls such a codec behaves like the ragged tape: what is
written inside the tape is in its place, and from the end on every sample is written one byte too late. -/
theorem C34_half_partial (w : WavCodec) (t : Ragged) (H : IsRagged w t) (hn : 0 < w.info.channels) (ops : List WavOp) :
    ∃ w', wavRun w ops = .ok (w', (Ragged.run w.info.channels t ops).2) ∧ w'.info = w.info ∧ IsRagged w' (Ragged.run w.info.channels t ops).1 :=
  wavRun_ragged ops H hn

/-- C34: every codec with its cursor inside, as all calls leave it, is a tape or a ragged tape, according to whether its bytes are even or odd in number. -/
theorem C34_every_codec (w : WavCodec) (hc : w.shortCursor ≤ w.numSamples) :
    (w.pcm.length % 2 = 0 → ∃ t, IsReel w t) ∧ (w.pcm.length % 2 = 1 → ∃ t, IsRagged w t) := by
  refine ⟨fun h => isReel_exists h hc, fun h => ?_⟩
  have hne : w.pcm ≠ [] := by
    intro e
    rw [e] at h
    cases h
  have hd : w.pcm.dropLast ++ [w.pcm.getLast hne] = w.pcm := List.dropLast_append_getLast hne
  have hl : w.pcm.dropLast.length + 1 = w.pcm.length := by
    rw [← congrArg List.length hd]; simp
  obtain ⟨t, H⟩ := isReel_exists (w := { w with pcm := w.pcm.dropLast }) (by show w.pcm.dropLast.length % 2 = 0; omega) (by
    unfold WavCodec.numSamples at hc
    show w.shortCursor ≤ w.pcm.dropLast.length / 2
    omega)
  refine ⟨⟨t.cells, t.pos, (w.pcm.getLast hne).toNat⟩, ?_, H.range, (w.pcm.getLast hne).isLt, H.pos, H.le⟩
  have hb : w.pcm.dropLast = t.cells.flatMap le16 := H.bytes
  rw [hb] at hd
  rw [BitVec.ofNat_toNat, BitVec.setWidth_eq]
  exact hd.symm

/-- three bytes, a sample written over the first, and two more behind: the tape holds them one byte too late, and the last byte is left over -/
example : IsRagged { info := { sampleRate := 8000, channels := 1 }, pcm := [1#8, 2#8, 3#8], shortCursor := 0 } ⟨[513], 0, 3⟩ ∧
    (Ragged.run 1 ⟨[513], 0, 3⟩ [.encode [F32.ofInt 1, F32.ofInt 1, F32.ofInt 0]]).1.cells = [32767, -253, 127] ∧
    (wavRun { info := { sampleRate := 8000, channels := 1 }, pcm := [1#8, 2#8, 3#8], shortCursor := 0 }
      [.encode [F32.ofInt 1, F32.ofInt 1, F32.ofInt 0]]).map (·.1.pcm) = .ok [255#8, 127#8, 3#8, 255#8, 127#8, 0#8, 0#8] := by
  refine ⟨⟨by decide, by decide, by decide, rfl, by decide⟩, by decide +kernel, by decide +kernel⟩

/-! ## C40 -/

/-- C40, exactly, for every stream that is not empty and every time: the target is computed in 64 bits, limited to the stream, and nothing but the cursor
changes. A release build computes modulo 2^64; a debug build panics if the number of samples to move by, or the sum with the current block, does not fit, and does
the same otherwise. -/
theorem C40_exact_partial (w : WavCodec) (hn : 0 < w.info.channels) (hne : 0 < w.numSamples) (ms : Int) (by_ there : Int)
    (hby : by_ = WavCodec.seekOffset w.info ms * w.info.channels) (hthere : there = w.shortCursor / w.info.channels * w.info.channels + by_) :
    (∀ m : Nat, ms = m → w.seek .release (.start m) = .ok { w with shortCursor := (max 0 (min (Int.bmod by_ (2 ^ 64)) (w.numSamples - 1))).toNat }) ∧
    w.seek .release (.end ms) = .ok { w with shortCursor := (max 0 (min (Int.bmod by_ (2 ^ 64)) (w.numSamples - 1))).toNat } ∧
    w.seek .release (.current ms) = .ok { w with shortCursor := (max 0 (min (Int.bmod there (2 ^ 64)) (w.numSamples - 1))).toNat } ∧
    (∀ m : Nat, ms = m → w.seek .debug (.start m) = if InI 64 by_ then w.seek .release (.start m) else .error .overflow) ∧
    (w.seek .debug (.end ms) = if InI 64 by_ then w.seek .release (.end ms) else .error .overflow) ∧
    (w.seek .debug (.current ms) = if InI 64 by_ ∧ InI 64 there then w.seek .release (.current ms) else .error .overflow) := by
  have hhi : (0 : Int) ≤ (w.numSamples : Int) - 1 := by omega
  have hrel : ∀ x : Int, chkI .release 64 x = .ok (Int.bmod x (2 ^ 64)) := by
    intro x
    unfold chkI
    split
    · rename_i h
      unfold InI at h
      norm_num at h
      rw [Int.bmod_eq_of_le] <;> norm_num <;> omega
    · rfl
  have hdeb : ∀ x : Int, chkI .debug 64 x = if InI 64 x then .ok x else .error .overflow := fun x => rfl
  have hid : ∀ x : Int, InI 64 x → Int.bmod x (2 ^ 64) = x := by
    intro x h
    unfold InI at h
    norm_num at h
    rw [Int.bmod_eq_of_le] <;> norm_num <;> omega
  have hsum : (w.shortCursor / w.info.channels : Nat) * (w.info.channels : Int) + by_ = there := by rw [hthere]; push_cast; rfl
  have r1 : ∀ m : Nat, ms = m → w.seek .release (.start m) = .ok { w with shortCursor := (max 0 (min (Int.bmod by_ (2 ^ 64)) (w.numSamples - 1))).toNat } := by
    rintro m rfl
    unfold WavCodec.seek
    dsimp only
    rw [← hby, hrel, bind_ok, clamp_inside hhi, bind_ok]
    rfl
  have r2 : w.seek .release (.end ms) = .ok { w with shortCursor := (max 0 (min (Int.bmod by_ (2 ^ 64)) (w.numSamples - 1))).toNat } := by
    unfold WavCodec.seek
    dsimp only
    rw [← hby, hrel, bind_ok, sub_self, zero_add, hrel, bind_ok, Int.bmod_bmod, clamp_inside hhi, bind_ok]
    rfl
  have r3 : w.seek .release (.current ms) = .ok { w with shortCursor := (max 0 (min (Int.bmod there (2 ^ 64)) (w.numSamples - 1))).toNat } := by
    unfold WavCodec.seek
    dsimp only
    rw [udiv_of_pos hn, bind_ok, ← hby, hrel, bind_ok, hrel, bind_ok, Int.add_bmod_bmod, hsum, clamp_inside hhi, bind_ok]
    rfl
  refine ⟨r1, r2, r3, ?_, ?_, ?_⟩
  · rintro m hm
    rw [r1 m hm]
    subst hm
    unfold WavCodec.seek
    dsimp only
    rw [← hby, hdeb]
    split
    · rename_i h
      rw [bind_ok, clamp_inside hhi, bind_ok, hid _ h]
      rfl
    · rfl
  · rw [r2]
    unfold WavCodec.seek
    dsimp only
    rw [← hby, hdeb]
    split
    · rename_i h
      rw [bind_ok, sub_self, zero_add, hdeb, if_pos h, bind_ok, clamp_inside hhi, bind_ok, hid _ h]
      rfl
    · rfl
  · rw [r3]
    unfold WavCodec.seek
    dsimp only
    rw [udiv_of_pos hn, bind_ok, ← hby, hdeb]
    by_cases h : InI 64 by_
    · rw [if_pos h, bind_ok, hsum, hdeb]
      by_cases h' : InI 64 there
      · rw [if_pos h', if_pos ⟨h, h'⟩, bind_ok, clamp_inside hhi, bind_ok, hid _ h']
        rfl
      · rw [if_neg h', if_neg fun x => h' x.2]
        rfl
    · rw [if_neg h, if_neg fun x => h x.1]
      rfl

/-- from the second block of `six`: one block on, far ahead (the last sample), and so far that it wraps round to the start -/
example : (six.seek .release (.current 1)).map (·.shortCursor) = .ok 2 ∧ (six.seek .release (.current (2 ^ 40))).map (·.shortCursor) = .ok 5 ∧
    (six.seek .release (.current (2 ^ 63 - 1))).map (·.shortCursor) = .ok 0 ∧ panics (six.seek .debug (.current (2 ^ 63 - 1))) = true := by decide +kernel

end Adhoc
