import Verif.Props.Samples
import Verif.Props.WavFiles
import Verif.Props.Accepts

/-! # C126: copying a WAV file sample by sample -/

namespace Adhoc
open Spec F32

namespace Spec

/-- wav.rs 370-376 (`parse_wav_then_re_export_by_encode_then_copy_to_disk`): decode a buffer at a time and encode what was read -/
def copyLoop : (fuel : Nat) → WavCodec → WavCodec → List F32 → R WavCodec
  | 0, _, _, _ => .error .fuel
  | fuel + 1, src, dst, buf => do
    let (src, buf, n?) ← src.decode buf
    match n? with
    | none => pure dst
    | some n => do
      let (dst, _) ← dst.encode (buf.take n)
      copyLoop fuel src dst buf

/-- a copy of a WAV codec, with any buffer -/
def copy (src : WavCodec) (buf : List F32) : R WavCodec := copyLoop (src.numSamples + 1) src (WavCodec.new src.info) buf

end Spec

theorem whole_add {n m : Nat} (hn : 0 < n) (k : Nat) (h : n ∣ k) : whole n (k + m) = k + whole n m := by
  obtain ⟨q, rfl⟩ := h
  unfold whole
  rw [Nat.mul_add_div hn, Nat.add_mul, Nat.mul_comm n q]

theorem copyLoop_ok {n : Nat} (hn : 0 < n) (cells : List ℤ) : ∀ (fuel : Nat) {w : WavCodec} {pos : Nat} (_ : IsReel w ⟨cells, pos⟩)
    (_ : w.info.channels = n) (buf : List F32) (_ : n ≤ buf.length) {d : WavCodec} {out : List ℤ} (_ : IsReel d ⟨out, out.length⟩) (_ : d.info.channels = n)
    (_ : cells.length - pos < fuel),
    ∃ d', copyLoop fuel w d buf = .ok d' ∧ d'.info = d.info ∧
      IsReel d' ⟨out ++ ((cells.drop pos).take (whole n (cells.length - pos))).map again,
        (out ++ ((cells.drop pos).take (whole n (cells.length - pos))).map again).length⟩
  | 0, _, _, _, _, _, _, _, _, _, _, hf => by omega
  | fuel + 1, w, pos, H, hi, buf, hb, d, out, HD, hd, hf => by
    have hm : n ≤ whole n buf.length := by
      unfold whole
      exact Nat.le_mul_of_pos_left _ (Nat.div_pos hb hn)
    have hdiv : n ∣ whole n buf.length := ⟨_, Nat.mul_comm _ _⟩
    have hmb : whole n buf.length ≤ buf.length := Nat.div_mul_le_self _ _
    generalize hM : whole n buf.length = M at *
    obtain ⟨w', e, i', H'⟩ := wavDecode_ok H (by rw [hi]; exact hn) buf
    rw [hi, hM] at e H'
    unfold copyLoop
    rw [e, bind_ok]
    obtain ⟨nx, hnx⟩ : ∃ nx, nx = (Reel.mk cells pos).next M := ⟨_, rfl⟩
    rw [← hnx] at H' ⊢
    have hnx' : nx = (cells.drop pos).take M := hnx
    have hlen : nx.length = min M (cells.length - pos) := by rw [hnx', List.length_take, List.length_drop]
    have hposle : pos ≤ cells.length := H.le
    by_cases h0 : nx = []
    · have hr : cells.length - pos = 0 := by
        rw [h0, List.length_nil] at hlen
        omega
      simp only [h0, if_true]
      refine ⟨d, rfl, rfl, ?_⟩
      rw [List.drop_of_length_le (by omega), List.take_nil, List.map_nil, List.append_nil]
      exact HD
    · simp only [h0, if_false]
      have hpos : 0 < nx.length := List.length_pos_iff.2 h0
      have htake : (nx.map normalizeSample ++ buf.drop nx.length).take nx.length = nx.map normalizeSample := by
        rw [List.take_append_of_le_length (by simp), List.take_of_length_le (by simp)]
      rw [htake]
      obtain ⟨d1, e1, i1, HD1⟩ := wavEncode_ok HD (by rw [hd]; exact hn) (nx.map normalizeSample)
      rw [e1, bind_ok, ]
      dsimp only
      rw [hd, List.length_map, ← List.map_take, List.map_map] at HD1
      change IsReel d1 ((Reel.mk out out.length).put ((nx.take (whole n nx.length)).map again)) at HD1
      have hput : (Reel.mk out out.length).put ((nx.take (whole n nx.length)).map again) =
          ⟨out ++ (nx.take (whole n nx.length)).map again, (out ++ (nx.take (whole n nx.length)).map again).length⟩ := by
        unfold Reel.put
        dsimp only
        rw [List.take_of_length_le le_rfl, List.drop_eq_nil_of_le (by omega), List.append_nil, List.length_append]
      rw [hput] at HD1
      change IsReel w' ⟨cells, pos + nx.length⟩ at H'
      obtain ⟨d2, e2, i2, HD2⟩ := copyLoop_ok hn cells fuel H' (by rw [i', hi]) (nx.map normalizeSample ++ buf.drop nx.length) (by simp; omega) HD1 (by rw [i1, hd]) (by omega)
      refine ⟨d2, e2, by rw [i2, i1], ?_⟩
      have hcat : (nx.take (whole n nx.length)) ++ (cells.drop (pos + nx.length)).take (whole n (cells.length - (pos + nx.length))) =
          (cells.drop pos).take (whole n (cells.length - pos)) := by
        rcases Nat.le_total M (cells.length - pos) with h | h
        · rw [Nat.min_eq_left h] at hlen
          have hw : whole n nx.length = nx.length := by
            have := whole_add (n := n) (m := 0) hn nx.length (hlen ▸ hdiv)
            rw [Nat.add_zero] at this
            rw [this]
            simp [whole]
          rw [hw, List.take_of_length_le le_rfl, hnx', ← hnx', hlen, show cells.length - pos = M + (cells.length - (pos + M)) by omega, whole_add hn M hdiv,
            List.take_add, ← hnx', List.drop_drop]
        · rw [Nat.min_eq_right h] at hlen
          rw [List.drop_of_length_le (by omega), List.take_nil, List.append_nil, hnx', List.length_take, List.length_drop, Nat.min_eq_right h, List.take_take]
          congr 1
          have : whole n (cells.length - pos) ≤ cells.length - pos := Nat.div_mul_le_self _ _
          omega
      rw [List.append_assoc, ← List.map_append, hcat] at HD2
      exact HD2

/-- C126. A codec with the samples `cells` is copied completely, with any buffer that holds a block: the copy has the same info and the whole blocks
of the samples, each as it comes back from a float (C38): the same, except for 1537 of the 65536 values, which come back one closer to 0. -/
theorem C126_copy (src : WavCodec) (cells : List ℤ) (H : IsReel src ⟨cells, 0⟩) (hn : 0 < src.info.channels) (buf : List F32)
    (hb : src.info.channels ≤ buf.length) : ∃ dst out, copy src buf = .ok dst ∧ dst.info = src.info ∧ IsReel dst ⟨out, out.length⟩ ∧
      List.Forall₂ (fun x y => (¬ Slips x → y = x) ∧ (Slips x → y = if 0 < x then x - 1 else x + 1))
        (cells.take (cells.length / src.info.channels * src.info.channels)) out := by
  obtain ⟨d, e, i, HD⟩ := copyLoop_ok hn cells (src.numSamples + 1) H rfl buf hb (isReel_new src.info) rfl (by rw [H.samples]; simp)
  refine ⟨d, _, e, i, HD, ?_⟩
  rw [List.nil_append, List.drop_zero, Nat.sub_zero, List.forall₂_map_right_iff]
  refine List.forall₂_same.2 fun x hx => ?_
  have := C38_codes_partial x (H.range x (List.mem_of_mem_take hx))
  exact ⟨this.1, this.2.1⟩

/-- C126. Of a copy, copies with whatever buffers are exact: they have the same bytes, and are saved as the same file. -/
theorem C126_again (src dst : WavCodec) (H : src.pcm.length % 2 = 0) (h0 : src.shortCursor = 0) (hn : 0 < src.info.channels) (buf buf' : List F32)
    (hb : src.info.channels ≤ buf.length) (hb' : src.info.channels ≤ buf'.length) (e : copy src buf = .ok dst) :
    ∃ dst', copy { dst with shortCursor := 0 } buf' = .ok dst' ∧ dst'.info = dst.info ∧ dst'.pcm = dst.pcm := by
  obtain ⟨⟨cells, p⟩, HS⟩ := isReel_exists H (by omega : src.shortCursor ≤ src.pcm.length / 2)
  obtain rfl : p = 0 := HS.pos.symm.trans h0
  obtain ⟨d, e1, i1, HD⟩ := copyLoop_ok hn cells (src.numSamples + 1) HS rfl buf hb (isReel_new src.info) rfl (by rw [HS.samples]; simp)
  obtain rfl := Except.ok.inj (e1.symm.trans e)
  rw [List.nil_append, List.drop_zero, Nat.sub_zero] at HD
  obtain ⟨out, hout⟩ : ∃ out, out = (cells.take (whole src.info.channels cells.length)).map again := ⟨_, rfl⟩
  rw [← hout] at HD
  have i1 : d.info = src.info := i1
  have HD0 : IsReel { d with shortCursor := 0 } ⟨out, 0⟩ := ⟨HD.bytes, HD.range, rfl, Nat.zero_le _⟩
  obtain ⟨d2, e2, i2, HD2⟩ := copyLoop_ok hn out (WavCodec.numSamples { d with shortCursor := 0 } + 1) HD0 (by rw [← i1]) buf' hb' (isReel_new d.info) (by rw [← i1]; rfl)
    (by rw [HD0.samples]; simp)
  refine ⟨d2, e2, i2, ?_⟩
  rw [HD2.bytes, HD.bytes, List.nil_append, List.drop_zero, Nat.sub_zero]
  have hw : whole src.info.channels out.length = out.length := by
    have hl : out.length = whole src.info.channels cells.length := by
      rw [hout, List.length_map, List.length_take]
      exact Nat.min_eq_left (Nat.div_mul_le_self _ _)
    rw [hl]
    unfold whole
    rw [Nat.mul_div_cancel _ hn]
  dsimp only
  rw [hw, List.take_of_length_le le_rfl]
  congr 1
  rw [hout, List.map_map]
  apply List.map_congr_left
  intro x hx
  have hr := HS.range x (List.mem_of_mem_take hx)
  exact again_again (by rw [abs_le]; omega)

/-- C126. If the samples are whole blocks and none of the 1537 values occurs, already the first copy is exact. -/
theorem C126_exact (src : WavCodec) (cells : List ℤ) (H : IsReel src ⟨cells, 0⟩) (hn : 0 < src.info.channels) (hd : src.info.channels ∣ cells.length)
    (hs : ∀ x ∈ cells, ¬ Slips x) (buf : List F32) (hb : src.info.channels ≤ buf.length) :
    ∃ dst, copy src buf = .ok dst ∧ dst.info = src.info ∧ dst.pcm = src.pcm ∧ ∀ b w, dst.saveTo b w = src.saveTo b w := by
  obtain ⟨dst, out, e, i, HD, hf⟩ := C126_copy src cells H hn buf hb
  have : out = cells := by
    rw [Nat.div_mul_cancel hd, List.take_of_length_le le_rfl] at hf
    refine (List.forall₂_eq_eq_eq ▸ List.forall₂_iff_get.2 ⟨hf.length_eq, fun k h1 h2 => ?_⟩ : cells = out).symm
    exact (((List.forall₂_iff_get.1 hf).2 k h1 h2).1 (hs _ (List.getElem_mem h1))).symm
  subst this
  have hp : dst.pcm = src.pcm := by rw [HD.bytes, H.bytes]
  refine ⟨dst, e, i, hp, ?_⟩
  intro b w
  unfold WavCodec.saveTo WavCodec.header
  rw [hp, i]

theorem copyLoop_trim : ∀ (fuel : Nat) (w d : WavCodec) (buf : List F32), copyLoop fuel w.trim d buf = copyLoop fuel w d buf
  | 0, _, _, _ => rfl
  | fuel + 1, w, d, buf => by
    unfold copyLoop
    rw [decode_trim]
    rcases w.decode buf with e | ⟨w', buf', n⟩
    · rfl
    show (match n with | none => _ | some n => _) = _
    rcases n with _ | n
    · rfl
    show (d.encode (buf'.take n) >>= _) = (d.encode (buf'.take n) >>= _)
    congr 1
    funext r
    exact copyLoop_trim fuel w' r.1 buf'

/-- C126, the test: every file that `load` accepts and that has channels is copied, without the last block if it is not complete. -/
theorem C126_file (bytes : List Byte) (w : WavCodec) (hl : WavCodec.load bytes = .ok (.ok w)) (hn : 0 < w.info.channels) (buf : List F32)
    (hb : w.info.channels ≤ buf.length) : ∃ (cells : List Int) (dst : WavCodec) (out : List Int), cells.length = w.numSamples ∧ w.pcm.take (2 * cells.length) = cells.flatMap le16 ∧
      copy w buf = .ok dst ∧ dst.info = w.info ∧ dst.pcm = out.flatMap le16 ∧
      List.Forall₂ (fun x y => (¬ Slips x → y = x) ∧ (Slips x → y = if 0 < x then x - 1 else x + 1))
        (cells.take (cells.length / w.info.channels * w.info.channels)) out := by
  have h0 : w.shortCursor = 0 := (halts_wavLoad bytes).2 _ hl w rfl
  obtain ⟨cells, h1, h2, h3⟩ := cells_of_bytes (w.pcm.length / 2) w.trim.pcm (by
    show (w.pcm.take (2 * (w.pcm.length / 2))).length = _
    rw [List.length_take]; omega)
  obtain ⟨dst, out, e, i, HD, hf⟩ := C126_copy w.trim cells ⟨h1, h2, h0, Nat.zero_le _⟩ hn buf hb
  refine ⟨cells, dst, out, h3, by rw [h3]; exact h1, ?_, i, HD.bytes, hf⟩
  rw [← e]
  unfold copy
  rw [numSamples_trim]
  exact (copyLoop_trim _ _ _ _).symm

/-- stereo: a block of two samples of which the second slips, another block, and half a sample, copied with a buffer for one block and a half -/
example : (copy { info := { sampleRate := 8000, channels := 2 }, pcm := [1#8, 0#8, 160#8, 127#8, 255#8, 127#8, 0#8, 128#8, 7#8], shortCursor := 0 }
    [F32.ofInt 0, F32.ofInt 0, F32.ofInt 0]).map (·.pcm) = .ok [1#8, 0#8, 159#8, 127#8, 255#8, 127#8, 1#8, 128#8] := by decide +kernel

/-- the same samples as cells: they meet the hypotheses of `C126_copy`; without 32672 and -32768 also those of `C126_exact` -/
example : IsReel { info := { sampleRate := 8000, channels := 2 }, pcm := [1#8, 0#8, 160#8, 127#8, 255#8, 127#8, 0#8, 128#8], shortCursor := 0 } ⟨[1, 32672, 32767, -32768], 0⟩ ∧
    Slips 32672 ∧ Slips (-32768) ∧ ∀ x ∈ [1, 32767], ¬ Slips x := by
  refine ⟨⟨by decide +kernel, by decide, rfl, by decide⟩, ?_, ?_, ?_⟩
  · rw [← loses_slips]; decide
  · rw [← loses_slips]; decide
  · intro x hx
    rw [← loses_slips]
    revert x
    decide

end Adhoc
