import Verif.Spec.Reel
import Verif.Proofs.Bincode
import Verif.Proofs.Sample

/-! The WAV codec as a tape. -/

namespace Adhoc
open Spec WavCodec

theorem ofNat_asU16 (x : Int) : BitVec.ofNat 8 (asU 16 x) = BitVec.ofInt 8 x := by
  apply BitVec.eq_of_toNat_eq
  simp only [BitVec.toNat_ofNat, BitVec.toNat_ofInt, asU]
  norm_num
  omega

theorem ofNat_asU16_hi (x : Int) : BitVec.ofNat 8 (asU 16 x / 256) = BitVec.ofInt 8 (x / 256) := by
  apply BitVec.eq_of_toNat_eq
  simp only [BitVec.toNat_ofNat, BitVec.toNat_ofInt, asU]
  norm_num
  omega

theorem leNat_le16 {x : Int} (h : -32768 ≤ x ∧ x ≤ 32767) : asI 16 (Bincode.leNat (le16 x)) = x := by
  simp only [le16, Bincode.leNat, BitVec.toNat_ofInt, asI, Int.bmod]
  norm_num
  omega

theorem length_le16s (l : List Int) : (l.flatMap le16).length = 2 * l.length := by
  induction l with
  | nil => rfl
  | cons x l ih => simp [le16] at ih ⊢; omega

theorem drop_le16s : ∀ (l : List Int) (k : Nat), (l.flatMap le16).drop (2 * k) = (l.drop k).flatMap le16
  | l, 0 => by simp
  | [], k + 1 => by simp
  | x :: l, k + 1 => by
    rw [List.flatMap_cons, show 2 * (k + 1) = (le16 x).length + 2 * k by simp [le16]; omega, List.drop_length_add_append,
      List.drop_succ_cons]
    exact drop_le16s l k

theorem i16At_le16s {l : List Int} (hr : ∀ x ∈ l, -32768 ≤ x ∧ x ≤ 32767) {k : Nat} (hk : k < l.length) : i16At (l.flatMap le16) (2 * k) = l[k] := by
  unfold i16At
  rw [drop_le16s, List.drop_eq_getElem_cons hk, List.flatMap_cons, List.take_left' (by simp [le16])]
  exact leNat_le16 (hr _ (List.getElem_mem hk))

theorem set_le16s : ∀ (l : List Int) (k : Nat) (x : Int), k < l.length →
    ((l.flatMap le16).set (2 * k) (BitVec.ofInt 8 x)).set (2 * k + 1) (BitVec.ofInt 8 (x / 256)) = (l.set k x).flatMap le16
  | y :: l, 0, x, _ => by simp [le16]
  | y :: l, k + 1, x, h => by
    have := set_le16s l k x (by simpa using h)
    simp only [List.set_cons_succ, List.flatMap_cons, ← this]
    simp only [le16, List.cons_append, List.nil_append, show 2 * (k + 1) = 2 * k + 1 + 1 by omega, List.set_cons_succ]

theorem IsReel.samples {w : WavCodec} {t : Reel} (H : IsReel w t) : w.numSamples = t.cells.length := by
  unfold WavCodec.numSamples
  rw [H.bytes, length_le16s]; omega

theorem writeSample_ok {w : WavCodec} {t : Reel} (H : IsReel w t) {x : Int} (hx : -32768 ≤ x ∧ x ≤ 32767) :
    ∃ w', w.writeSample x = .ok w' ∧ w'.info = w.info ∧ IsReel w' (t.put [x]) := by
  have hn := H.samples
  have hp := H.pos
  have hle := H.le
  unfold WavCodec.writeSample
  dsimp only
  rw [ofNat_asU16, ofNat_asU16_hi]
  by_cases h : t.pos < t.cells.length
  · rw [if_pos (show w.shortCursor < w.numSamples by omega)]
    have hl := length_le16s t.cells
    rw [hp, H.bytes]
    unfold setIdx
    rw [if_pos (by omega), bind_ok, if_pos (by rw [List.length_set]; omega), bind_ok, set_le16s _ _ _ h]
    have e : t.cells.set t.pos x = (t.put [x]).cells := by
      rw [List.set_eq_take_append_cons_drop, if_pos h]
      simp [Reel.put]
    refine ⟨_, rfl, rfl, by rw [e], ?_, rfl, ?_⟩
    · rw [← e]
      intro y hy
      rcases List.mem_or_eq_of_mem_set hy with h | h
      · exact H.range y h
      · subst h; exact hx
    · rw [← e]
      simp [Reel.put]
      omega
  · rw [if_neg (show ¬ w.shortCursor < w.numSamples by omega)]
    have hpe : t.pos = t.cells.length := by omega
    have e : (t.put [x]).cells = t.cells ++ [x] := by
      simp [Reel.put, hpe]
    refine ⟨_, rfl, rfl, ?_, ?_, ?_, ?_⟩
    · rw [e]; simp [H.bytes, le16]
    · rw [e]
      intro y hy
      rcases List.mem_append.1 hy with h | h
      · exact H.range y h
      · rw [List.mem_singleton] at h; subst h; exact hx
    · simp [Reel.put, hp]
    · rw [e]; simp [Reel.put, hpe]

theorem put_nil {t : Reel} : t.put [] = t := by
  simp [Reel.put, List.take_append_drop]

theorem put_put {t : Reel} (h : t.pos ≤ t.cells.length) (xs ys : List Int) : (t.put xs).put ys = t.put (xs ++ ys) := by
  have h1 : (t.cells.take t.pos ++ xs).length = t.pos + xs.length := by simp; omega
  simp only [Reel.put, Reel.mk.injEq]
  constructor
  · rw [List.take_left' h1, ← List.drop_drop, List.drop_left' h1, List.drop_drop, List.length_append, List.append_assoc, List.append_assoc,
      List.append_assoc, Nat.add_assoc, List.append_assoc]
  · rw [List.length_append]; omega

theorem put_le {t : Reel} (h : t.pos ≤ t.cells.length) (xs : List Int) : (t.put xs).pos ≤ (t.put xs).cells.length := by
  simp [Reel.put]; omega

theorem writeSamples_ok : ∀ (xs : List F32) {w : WavCodec} {t : Reel} (_ : IsReel w t),
    ∃ w', xs.foldlM (fun w x => w.writeSample (truncateSample x)) w = .ok w' ∧ w'.info = w.info ∧ IsReel w' (t.put (xs.map truncateSample))
  | [], w, t, H => ⟨w, rfl, rfl, by simpa [put_nil] using H⟩
  | x :: xs, w, t, H => by
    have := truncateSample_range x
    obtain ⟨w1, e1, i1, H1⟩ := writeSample_ok H (x := truncateSample x) (by omega)
    obtain ⟨w2, e2, i2, H2⟩ := writeSamples_ok xs H1
    refine ⟨w2, ?_, i2.trans i1, ?_⟩
    · rw [List.foldlM_cons, e1, bind_ok, e2]
    · rw [put_put H.le] at H2
      simpa using H2

theorem wavEncode_ok {w : WavCodec} {t : Reel} (H : IsReel w t) (hn : 0 < w.info.channels) (xs : List F32) :
    ∃ w', w.encode xs = .ok (w', some (whole w.info.channels xs.length)) ∧ w'.info = w.info ∧
      IsReel w' (t.put ((xs.take (whole w.info.channels xs.length)).map truncateSample)) := by
  obtain ⟨w', e, i, H'⟩ := writeSamples_ok (xs.take (whole w.info.channels xs.length)) H
  refine ⟨w', ?_, i, H'⟩
  unfold WavCodec.encode
  rw [udiv_of_pos hn, bind_ok]
  unfold whole at e ⊢
  dsimp only
  rw [e, bind_ok]
  rfl

theorem decodeLoop_reel {w : WavCodec} {t : Reel} (H : IsReel w t) {valid : Nat} : ∀ (fuel cursor k : Nat) (out : List F32),
    valid ≤ out.length → valid - k < fuel → k ≤ valid → cursor ≤ t.cells.length →
    WavCodec.decodeLoop w.pcm t.cells.length valid fuel cursor out k =
      .ok (cursor + ((t.cells.drop cursor).take (valid - k)).length,
        out.take k ++ ((t.cells.drop cursor).take (valid - k)).map normalizeSample ++ out.drop (k + ((t.cells.drop cursor).take (valid - k)).length),
        k + ((t.cells.drop cursor).take (valid - k)).length)
  | 0, _, _, _, _, h, _, _ => by omega
  | fuel + 1, cursor, k, out, hv, hf, hk, hc => by
    unfold WavCodec.decodeLoop
    by_cases h : cursor < t.cells.length ∧ k < valid
    · rw [if_pos h]
      have hs : sampleAt w.pcm cursor = .ok t.cells[cursor] := by
        unfold sampleAt
        rw [if_pos (by rw [H.bytes, length_le16s]; omega), H.bytes, i16At_le16s H.range h.1]
        rfl
      rw [hs, bind_ok]
      unfold setIdx
      rw [if_pos (by omega), bind_ok, decodeLoop_reel H fuel (cursor + 1) (k + 1) _ (by simpa using hv) (by omega) (by omega) (by omega)]
      have e : (t.cells.drop cursor).take (valid - k) = t.cells[cursor] :: (t.cells.drop (cursor + 1)).take (valid - (k + 1)) := by
        rw [List.drop_eq_getElem_cons h.1, show valid - k = (valid - (k + 1)) + 1 by omega, List.take_succ_cons]
      rw [e]
      generalize (t.cells.drop (cursor + 1)).take (valid - (k + 1)) = r
      have h1 : (out.set k (normalizeSample t.cells[cursor])).take (k + 1) = out.take k ++ [normalizeSample t.cells[cursor]] := by
        rw [List.take_succ_eq_append_getElem (by simp; omega), List.take_set_of_le le_rfl]
        simp
      have h2 : (out.set k (normalizeSample t.cells[cursor])).drop (k + 1 + r.length) = out.drop (k + (r.length + 1)) := by
        rw [List.drop_set_of_lt (by omega)]
        congr 1; omega
      rw [h1, h2]
      simp only [List.length_cons, List.map_cons, List.append_assoc, List.singleton_append]
      rw [show cursor + 1 + r.length = cursor + (r.length + 1) by omega, show k + 1 + r.length = k + (r.length + 1) by omega]
    · rw [if_neg h]
      have e : (t.cells.drop cursor).take (valid - k) = [] := by
        rw [List.take_eq_nil_iff]
        by_cases hc' : cursor < t.cells.length
        · left; omega
        · right; exact List.drop_eq_nil_of_le (by omega)
      rw [e]
      simp

theorem wavDecode_ok {w : WavCodec} {t : Reel} (H : IsReel w t) (hn : 0 < w.info.channels) (buf : List F32) :
    ∃ w', w.decode buf = .ok (w', (t.next (whole w.info.channels buf.length)).map normalizeSample ++
        buf.drop (t.next (whole w.info.channels buf.length)).length,
        if t.next (whole w.info.channels buf.length) = [] then none else some (t.next (whole w.info.channels buf.length)).length) ∧
      w'.info = w.info ∧ IsReel w' ⟨t.cells, t.pos + (t.next (whole w.info.channels buf.length)).length⟩ := by
  have hw : whole w.info.channels buf.length ≤ buf.length := Nat.div_mul_le_self _ _
  have hl := decodeLoop_reel H (valid := whole w.info.channels buf.length) (whole w.info.channels buf.length + 1) t.pos 0 buf hw
    (by omega) (by omega) H.le
  simp only [Nat.sub_zero, Nat.zero_add, List.take_zero, List.nil_append] at hl
  refine ⟨{ w with shortCursor := t.pos + (t.next (whole w.info.channels buf.length)).length }, ?_, rfl, H.bytes, H.range, rfl, ?_⟩
  · unfold WavCodec.decode
    rw [udiv_of_pos hn, bind_ok]
    dsimp only
    rw [H.samples, H.pos, show buf.length / w.info.channels * w.info.channels = whole w.info.channels buf.length from rfl, hl, bind_ok]
    unfold Reel.next
    generalize (t.cells.drop t.pos).take (whole w.info.channels buf.length) = l
    cases l <;> simp [pure_eq_ok]
  · have := H.le
    simp [Reel.next]; omega

theorem wavRun_ok : ∀ (ops : List WavOp) {w : WavCodec} {t : Reel} (_ : IsReel w t) (_ : 0 < w.info.channels),
    ∃ w', wavRun w ops = .ok (w', (reelRun w.info.channels t ops).2) ∧ w'.info = w.info ∧ IsReel w' (reelRun w.info.channels t ops).1
  | [], w, t, H, _ => ⟨w, rfl, rfl, H⟩
  | .encode xs :: ops, w, t, H, hn => by
    obtain ⟨w1, e1, i1, H1⟩ := wavEncode_ok H hn xs
    obtain ⟨w2, e2, i2, H2⟩ := wavRun_ok ops H1 (by rw [i1]; exact hn)
    rw [i1] at e2 H2
    refine ⟨w2, ?_, i2.trans i1, H2⟩
    unfold wavRun
    rw [e1, bind_ok]
    dsimp only
    rw [e2, bind_ok]
    rfl
  | .decode buf :: ops, w, t, H, hn => by
    obtain ⟨w1, e1, i1, H1⟩ := wavDecode_ok H hn buf
    obtain ⟨w2, e2, i2, H2⟩ := wavRun_ok ops H1 (by rw [i1]; exact hn)
    rw [i1] at e2 H2
    refine ⟨w2, ?_, i2.trans i1, H2⟩
    unfold wavRun
    rw [e1, bind_ok]
    dsimp only
    rw [e2, bind_ok]
    rfl

theorem le16_of_bytes (a b : Byte) : ∃ x : Int, (-32768 ≤ x ∧ x ≤ 32767) ∧ le16 x = [a, b] := by
  have ha := a.isLt
  have hb := b.isLt
  obtain ⟨m, hm⟩ : ∃ m : Int, m = a.toNat + 256 * b.toNat := ⟨_, rfl⟩
  obtain ⟨x, hx⟩ : ∃ x : Int, x = if m < 32768 then m else m - 65536 := ⟨_, rfl⟩
  have h : (-32768 ≤ x ∧ x ≤ 32767) ∧ x % 256 = a.toNat ∧ x / 256 % 256 = b.toNat := by
    rw [hx]; split <;> omega
  refine ⟨x, h.1, ?_⟩
  have e1 : BitVec.ofInt 8 x = a := by
    apply BitVec.eq_of_toNat_eq
    simp only [BitVec.toNat_ofInt]; norm_num; omega
  have e2 : BitVec.ofInt 8 (x / 256) = b := by
    apply BitVec.eq_of_toNat_eq
    simp only [BitVec.toNat_ofInt]; norm_num; omega
  rw [le16, e1, e2]

theorem cells_of_bytes : ∀ (n : Nat) (pcm : List Byte), pcm.length = 2 * n → ∃ cells : List Int, pcm = cells.flatMap le16 ∧
    (∀ x ∈ cells, -32768 ≤ x ∧ x ≤ 32767) ∧ cells.length = n
  | 0, pcm, hp => ⟨[], by rw [List.eq_nil_of_length_eq_zero hp]; rfl, by simp, rfl⟩
  | n + 1, a :: b :: rest, hp => by
    obtain ⟨cells, h1, h2, h3⟩ := cells_of_bytes n rest (by simp at hp; omega)
    obtain ⟨x, hx, e⟩ := le16_of_bytes a b
    refine ⟨x :: cells, ?_, ?_, by simp [h3]⟩
    · rw [List.flatMap_cons, ← h1, e]; rfl
    · intro y hy
      rcases List.mem_cons.1 hy with rfl | hy
      · exact hx
      · exact h2 y hy
  | n + 1, [_], hp => by simp at hp; omega
  | n + 1, [], hp => by simp at hp

/-- every codec with whole samples whose cursor is not behind the end is a tape -/
theorem isReel_exists {w : WavCodec} (h : w.pcm.length % 2 = 0) (hc : w.shortCursor ≤ w.pcm.length / 2) : ∃ t, IsReel w t := by
  obtain ⟨cells, h1, h2, h3⟩ := cells_of_bytes (w.pcm.length / 2) w.pcm (by omega)
  exact ⟨⟨cells, w.shortCursor⟩, h1, h2, rfl, by simp only; omega⟩

end Adhoc
