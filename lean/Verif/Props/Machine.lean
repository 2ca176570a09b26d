import Verif.Model.Machine
import Verif.Props.Cli

/-!
# C136, C137: the unsafe views of the WAV codec, and machines with the other byte order
-/

namespace Adhoc
open Spec

/-! ## C136 -/

/-- C136 as stated: whatever the allocator does, `decode` of a WAV codec is defined. False, see `C136_false`. -/
def C136_statement : Prop :=
  ∀ (e : Endian) (heap capacity : Nat) (w : WavCodec) (out : List F32), heap ≠ 0 → w.pcm.length ≤ capacity →
    w.decodeM e (vecAddr heap capacity) out ≠ none

theorem decodeLoopM_eq {pcm : List Byte} {s v : Nat} (hs : s = pcm.length / 2) : ∀ (fuel cursor : Nat) (out : List F32) (n : Nat),
    WavCodec.decodeLoopM ((List.range (pcm.length / 2)).map fun i => WavCodec.i16At pcm (2 * i)) s v fuel cursor out n
      = WavCodec.decodeLoop pcm s v fuel cursor out n
  | 0, _, _, _ => rfl
  | fuel + 1, cursor, out, n => by
    unfold WavCodec.decodeLoopM WavCodec.decodeLoop
    split
    · rename_i h
      have h1 : cursor < pcm.length / 2 := hs ▸ h.1
      have e1 : idx ((List.range (pcm.length / 2)).map fun i => WavCodec.i16At pcm (2 * i)) cursor = .ok (WavCodec.i16At pcm (2 * cursor)) := by
        unfold idx
        rw [List.getElem?_map, List.getElem?_range h1]
        rfl
      have e2 : WavCodec.sampleAt pcm cursor = .ok (WavCodec.i16At pcm (2 * cursor)) := by
        unfold WavCodec.sampleAt
        rw [if_pos h1]
        rfl
      rw [e1, e2, bind_ok, bind_ok]
      congr 1
      funext out
      exact decodeLoopM_eq hs fuel _ _ _
    · rfl

/-- The view never reaches beyond the bytes and no index beyond the view. It is valid exactly if bytes are allocated and at an even address, and then `decode` is what the model of
the codec says. In particular `decode` of a codec for which nothing is allocated is undefined. -/
theorem C136_exactly_partial (heap capacity : Nat) (hh : heap ≠ 0) (w : WavCodec) (out : List F32) :
    w.decodeM .little (vecAddr heap capacity) out = if capacity ≠ 0 ∧ heap % 2 = 0 then some (w.decode out) else none := by
  unfold WavCodec.decodeM WavCodec.getPcm
  dsimp only
  by_cases h : capacity ≠ 0 ∧ heap % 2 = 0
  · rw [if_pos h, if_pos ⟨by rw [vecAddr, if_neg h.1]; exact hh, by rw [vecAddr, if_neg h.1]; exact h.2, by omega⟩]
    dsimp only
    unfold WavCodec.decode
    congr 1
    have hs : w.numSamples = w.pcm.length / 2 := rfl
    rw [← hs]
    congr 1
    funext q
    show (WavCodec.decodeLoopM ((List.range (w.pcm.length / 2)).map fun i => WavCodec.i16At w.pcm (2 * i)) w.numSamples _ _ _ _ _ >>= _) = _
    rw [decodeLoopM_eq hs]
  · rw [if_neg h, if_neg]
    rintro ⟨-, h2, -⟩
    apply h
    unfold vecAddr at h2
    split at h2
    · omega
    · exact ⟨by assumption, h2⟩

/-- C136 is false: decoding a codec that was just made is undefined, and so is decoding samples that the allocator put at an odd address. -/
theorem C136_false : ¬ C136_statement := by
  intro h
  exact h .little 4096 0 (WavCodec.new { sampleRate := 8000, channels := 1 }) [] (by decide) (by decide) (by decide +kernel)

/-- samples at an even and at an odd address -/
example : (({ info := { sampleRate := 8000, channels := 1 }, pcm := [1, 0], shortCursor := 0 } : WavCodec).decodeM .little 4096 [F32.ofInt 0]).map
      (fun r => r.map (·.2.2)) = some (.ok (some 1))
    ∧ (({ info := { sampleRate := 8000, channels := 1 }, pcm := [1, 0], shortCursor := 0 } : WavCodec).decodeM .little 4097 [F32.ofInt 0]).isNone = true := by
  decide +kernel

/-- The views of the header are valid wherever it is: its fields take 44 bytes without gaps, so all of them are initialised, and the view asks for single bytes. -/
theorem C136_header_partial : (reprC 0 headerFields).1 = [0, 4, 8, 12, 16, 20, 22, 24, 28, 32, 34, 36, 40] ∧ (reprC 0 headerFields).2 = 44
    ∧ (headerFields.map Prod.fst).sum = 44 ∧ ∀ (e : Endian) (h : RawWavHeader) (addr : Nat), addr ≠ 0 →
      (h.asBytesM e).length = 44 ∧ ValidSlice 1 1 addr (h.asBytesM e).length 44 := by
  refine ⟨by decide, by decide, by decide, fun e h addr ha => ?_⟩
  have hl : (h.asBytesM e).length = 44 := by
    cases e <;> simp [RawWavHeader.asBytesM, Endian.store, Bincode.length_leBytes, ascii]
  exact ⟨hl, ha, Nat.mod_one _, by rw [hl]⟩

/-- The layout of any `#[repr(C)]` structure: every field is aligned, comes behind the field before it and within the end. -/
theorem C136_layout_partial : ∀ (fs : List (Nat × Nat)) (at_ : Nat), (∀ f ∈ fs, 0 < f.2) →
    (reprC at_ fs).1.length = fs.length ∧ at_ ≤ (reprC at_ fs).1.getD 0 (reprC at_ fs).2 ∧
      ∀ i, i < fs.length → (reprC at_ fs).1.getD i 0 % (fs.getD i (0, 1)).2 = 0 ∧
        (reprC at_ fs).1.getD i 0 + (fs.getD i (0, 1)).1 ≤ (reprC at_ fs).1.getD (i + 1) (reprC at_ fs).2
  | [], at_, _ => ⟨rfl, le_rfl, fun i h => absurd h (Nat.not_lt_zero i)⟩
  | (size, align) :: fs, at_, h => by
    have ha : 0 < align := h (size, align) (List.mem_cons_self ..)
    obtain ⟨h1, h2, h3⟩ := C136_layout_partial fs ((at_ + align - 1) / align * align + size) fun f hf => h f (List.mem_cons_of_mem _ hf)
    have hle : at_ ≤ (at_ + align - 1) / align * align := by
      have := Nat.div_add_mod (at_ + align - 1) align
      have := Nat.mod_lt (at_ + align - 1) ha
      rw [Nat.mul_comm]
      omega
    unfold reprC
    dsimp only
    refine ⟨by rw [List.length_cons, List.length_cons, h1], hle, fun i hi => ?_⟩
    cases i with
    | zero => exact ⟨Nat.mul_mod_left _ _, h2⟩
    | succ i => exact h3 i (by simpa using hi)

/-- a byte, a word of four and a half word: three bytes are left free -/
example : reprC 0 [(1, 1), (4, 4), (2, 2)] = ([0, 4, 8], 10) ∧ ∀ f ∈ [(1, 1), (4, 4), (2, 2)], 0 < f.2 := by decide

/-! ## C137 -/

/-- C137 as stated: the WAV codec does the same on every machine. False, see `C137_false`. -/
def C137_statement : Prop :=
  ∀ e : Endian, (∀ addr w out, addr ≠ 0 → addr % 2 = 0 → WavCodec.decodeM e addr w out = some (w.decode out))
    ∧ (∀ bytes, WavCodec.loadM e bytes = WavCodec.load bytes) ∧ ∀ b w dst, WavCodec.saveToM b e w dst = w.saveTo b dst

/-- On a little-endian machine it does what the model says. -/
theorem C137_little_partial : (∀ addr w out, addr ≠ 0 → addr % 2 = 0 → WavCodec.decodeM .little addr w out = some (w.decode out))
    ∧ (∀ bytes, WavCodec.loadM .little bytes = WavCodec.load bytes) ∧ ∀ b w dst, WavCodec.saveToM b .little w dst = w.saveTo b dst := by
  refine ⟨fun addr w out h1 h2 => ?_, fun bytes => ?_, fun b w dst => rfl⟩
  · have := C136_exactly_partial addr 1 h1 w out
    rwa [if_pos ⟨by decide, h2⟩] at this
  · unfold WavCodec.load WavCodec.loadAt WavCodec.loadM
    rw [List.drop_zero]
    rfl

/-- two bytes read with each byte order -/
theorem field_both {l : List Byte} {o : Nat} (h : o + 2 ≤ l.length) : ∃ x y : Byte, (l.drop o).take 2 = [x, y]
    ∧ WavCodec.i16At l o = asI 16 ((x.toNat : Int) + 256 * y.toNat) ∧ WavCodec.i16AtM .big l o = asI 16 ((y.toNat : Int) + 256 * x.toNat) := by
  have hl : ((l.drop o).take 2).length = 2 := by rw [List.length_take, List.length_drop]; omega
  obtain ⟨x, y, e⟩ := List.length_eq_two.1 hl
  refine ⟨x, y, e, ?_, ?_⟩
  · unfold WavCodec.i16At
    rw [e]
    simp [Bincode.leNat]
  · unfold WavCodec.i16AtM
    rw [e]
    simp [Endian.store, Bincode.leNat]

theorem asI16_field {n : Int} (h0 : 0 ≤ n) (h1 : n < 65536) {k : Int} (hk : 0 ≤ k) (hk' : k < 32768) (h : asI 16 n = k) : n = k := by
  unfold asI at h
  rw [Int.bmod_def] at h
  norm_num at h
  split at h <;> omega

/-- On a big-endian machine every sample is read with its bytes exchanged, so that what was encoded is not what is decoded. -/
theorem C137_view_partial (addr : Nat) (h0 : addr ≠ 0) (h2 : addr % 2 = 0) (pcm : List Byte) :
    ∃ view, WavCodec.getPcm .big addr pcm = some view ∧ view.length = pcm.length / 2 ∧ ∀ i, i < pcm.length / 2 → ∃ x y : Byte,
      (pcm.drop (2 * i)).take 2 = [x, y] ∧ WavCodec.i16At pcm (2 * i) = asI 16 ((x.toNat : Int) + 256 * y.toNat)
        ∧ view[i]? = some (asI 16 ((y.toNat : Int) + 256 * x.toNat)) := by
  unfold WavCodec.getPcm
  rw [if_pos ⟨h0, h2, by omega⟩]
  refine ⟨_, rfl, by simp, fun i hi => ?_⟩
  obtain ⟨x, y, h1, h2, h3⟩ := field_both (l := pcm) (o := 2 * i) (by omega)
  refine ⟨x, y, h1, h2, ?_⟩
  rw [List.getElem?_map, List.getElem?_range hi]
  exact congrArg some h3

/-- On a big-endian machine every WAV file that loads elsewhere is refused. -/
theorem C137_refused_partial (bytes : List Byte) (w : WavCodec) (h : WavCodec.load bytes = .ok (.ok w)) :
    WavCodec.loadM .big bytes = .ok (.error .badBits) := by
  rw [← C137_little_partial.2.1] at h
  unfold WavCodec.loadM at h ⊢
  dsimp only at h ⊢
  split at h
  · cases Except.ok.inj h
  · rename_i hl
    rw [if_neg hl]
    have hl : 36 ≤ (bytes.take 256).length := by omega
    generalize bytes.take 256 = hdr at *
    cases hd : WavCodec.findData hdr with
    | none => rw [hd] at h; cases Except.ok.inj h
    | some ds =>
      rw [hd] at h
      dsimp only at h ⊢
      obtain ⟨x, y, -, e1, e2⟩ := field_both (l := hdr) (o := 34) hl
      have e1 : WavCodec.i16AtM .little hdr 34 = asI 16 ((x.toNat : Int) + 256 * y.toNat) := e1
      rw [e1] at h
      rw [e2]
      generalize WavCodec.i16AtM .little hdr 20 = f1 at *
      generalize WavCodec.i16AtM .little hdr 22 = f2 at *
      generalize WavCodec.i16AtM .big hdr 20 = f3 at *
      generalize WavCodec.i16AtM .big hdr 22 = f4 at *
      generalize hdr.drop (ds + 4) = rest at *
      rw [bind_eq_ok] at h
      obtain ⟨_, i0, h⟩ := h
      rw [bind_eq_ok] at h
      obtain ⟨_, i1, h⟩ := h
      rw [bind_eq_ok] at h
      obtain ⟨_, i2, h⟩ := h
      rw [bind_eq_ok] at h
      obtain ⟨_, i3, h⟩ := h
      rw [i0, bind_ok, i1, bind_ok, i2, bind_ok, i3, bind_ok]
      split at h
      · cases Except.ok.inj h
      · rename_i hb
        have hx := x.isLt
        have hy := y.isLt
        have hv : asI 16 ((x.toNat : Int) + 256 * y.toNat) = 16 ∨ asI 16 ((x.toNat : Int) + 256 * y.toNat) = 8 := by
          by_contra hc
          exact hb ⟨fun h => hc (.inl h), fun h => hc (.inr h)⟩
        rw [if_pos]
        · rfl
        · rcases hv with hv | hv
          · have := asI16_field (by omega) (by omega) (by omega) (by omega) hv
            constructor
            · intro hc
              have := asI16_field (by omega) (by omega) (by omega) (by omega) hc
              omega
            · intro hc
              have := asI16_field (by omega) (by omega) (by omega) (by omega) hc
              omega
          · have := asI16_field (by omega) (by omega) (by omega) (by omega) hv
            constructor
            · intro hc
              have := asI16_field (by omega) (by omega) (by omega) (by omega) hc
              omega
            · intro hc
              have := asI16_field (by omega) (by omega) (by omega) (by omega) hc
              omega

/-- the bits per sample of a file that loads -/
theorem loaded_bits {bytes : List Byte} {w : WavCodec} (h : WavCodec.load bytes = .ok (.ok w)) :
    WavCodec.i16At (bytes.take 256) 34 = 16 ∨ WavCodec.i16At (bytes.take 256) 34 = 8 := by
  by_contra hc
  rw [← C137_little_partial.2.1] at h
  unfold WavCodec.loadM at h
  dsimp only at h
  have hc : WavCodec.i16AtM .little (bytes.take 256) 34 ≠ 16 ∧ WavCodec.i16AtM .little (bytes.take 256) 34 ≠ 8 :=
    ⟨fun h => hc (.inl h), fun h => hc (.inr h)⟩
  split at h
  · cases Except.ok.inj h
  · generalize bytes.take 256 = hdr at *
    cases hd : WavCodec.findData hdr with
    | none => rw [hd] at h; cases Except.ok.inj h
    | some ds =>
      rw [hd] at h
      dsimp only at h
      generalize WavCodec.i16AtM .little hdr 20 = f1 at *
      generalize WavCodec.i16AtM .little hdr 22 = f2 at *
      generalize hdr.drop (ds + 4) = rest at *
      rw [bind_eq_ok] at h
      obtain ⟨_, i0, h⟩ := h
      rw [bind_eq_ok] at h
      obtain ⟨_, i1, h⟩ := h
      rw [bind_eq_ok] at h
      obtain ⟨_, i2, h⟩ := h
      rw [bind_eq_ok] at h
      obtain ⟨_, i3, h⟩ := h
      cases Except.ok.inj h

theorem header_bits {b : Build} {w : WavCodec} {h : RawWavHeader} (e : w.header b = .ok h) : h.bitsPerSample = 16 := by
  unfold WavCodec.header at e
  simp only [bind_eq_ok, pure_eq_ok, Except.ok.injEq] at e
  obtain ⟨_, -, _, -, _, -, _, -, rfl⟩ := e
  rfl

/-- A big-endian machine writes every number of the header with its bytes reversed, and the four tags as they are. -/
theorem C137_header_partial (h : RawWavHeader) :
    (∀ f ∈ [(4, 4), (16, 4), (20, 2), (22, 2), (24, 4), (28, 4), (32, 2), (34, 2), (40, 4)],
      ((h.asBytesM .big).drop f.1).take f.2 = (((h.asBytesM .little).drop f.1).take f.2).reverse) ∧
    ∀ o ∈ [0, 8, 12, 36], ((h.asBytesM .big).drop o).take 4 = ((h.asBytesM .little).drop o).take 4 := by
  have four : ∀ n, ∃ p q r s : Byte, Bincode.leBytes 4 n = [p, q, r, s] := fun n => ⟨_, _, _, _, rfl⟩
  have two : ∀ n, ∃ p q : Byte, Bincode.leBytes 2 n = [p, q] := fun n => ⟨_, _, rfl⟩
  unfold RawWavHeader.asBytesM
  obtain ⟨a1, a2, a3, a4, ha⟩ := four h.fileSize
  obtain ⟨b1, b2, b3, b4, hb⟩ := four h.cksize
  obtain ⟨c1, c2, hc⟩ := two (asU 16 h.audioFormat)
  obtain ⟨d1, d2, hd⟩ := two (asU 16 h.numChannels)
  obtain ⟨e1, e2, e3, e4, he⟩ := four (asU 32 h.frequency)
  obtain ⟨f1, f2, f3, f4, hf⟩ := four (asU 32 h.bytesPerSec)
  obtain ⟨g1, g2, hg⟩ := two (asU 16 h.blockAlign)
  obtain ⟨i1, i2, hi⟩ := two (asU 16 h.bitsPerSample)
  obtain ⟨j1, j2, j3, j4, hj⟩ := four h.fileSizeData
  rw [ha, hb, hc, hd, he, hf, hg, hi, hj]
  simp [Endian.store, ascii]

/-- What a big-endian machine saved is refused by every other. -/
theorem C137_saved_partial (b : Build) (w : WavCodec) (dst : Writer) (ok : Bool) (h : w.saveToM b .big Writer.perfect = .ok (dst, ok)) (w' : WavCodec) :
    WavCodec.load dst.out ≠ .ok (.ok w') := by
  intro hl
  unfold WavCodec.saveToM at h
  rw [bind_eq_ok] at h
  obtain ⟨hd, he, h⟩ := h
  have h16 := header_bits he
  have hw : Writer.perfect.write (hd.asBytesM .big) = ({ out := hd.asBytesM .big, script := [] }, some (hd.asBytesM .big).length) := rfl
  rw [hw] at h
  dsimp only at h
  unfold Writer.writeAll at h
  rw [Writer.writeAllAux_perfect] at h
  obtain ⟨rfl, -⟩ := Prod.mk.inj (Except.ok.inj h)
  have hf : (((hd.asBytesM .big ++ w.pcm).take 256).drop 34).take 2 = [0#8, 16#8] := by
    rw [List.drop_take, List.take_take]
    have hlen := (C136_header_partial.2.2.2 .big hd 1 (by decide)).1
    rw [List.drop_append_of_le_length (by omega), List.take_append_of_le_length (by rw [List.length_drop]; omega)]
    unfold RawWavHeader.asBytesM
    rw [h16]
    simp only [Endian.store, Bincode.leBytes, ascii]
    rfl
  have := loaded_bits hl
  unfold WavCodec.i16At at this
  dsimp only at this
  rw [hf] at this
  revert this
  decide +kernel

/-- C137 is false: on a big-endian machine the samples come back with their bytes exchanged, the files of other machines are refused, and theirs are refused
by others. -/
theorem C137_false : ¬ C137_statement := by
  intro h
  have := (h .big).1 2 { info := { sampleRate := 8000, channels := 1 }, pcm := [1, 0], shortCursor := 0 } [F32.ofInt 0] (by decide) (by decide)
  have e : ∀ x y : Option (R (WavCodec × List F32 × Option Nat)), x = y → x.map (fun r => r.map (·.2.1)) = y.map (fun r => r.map (·.2.1)) := by
    rintro x _ rfl; rfl
  have := e _ _ this
  revert this
  decide +kernel

/-- the hypotheses hold: a file of five samples is refused on a big-endian machine, and what that saves is refused here -/
example : WavCodec.loadM .big shortWav = .ok (.error .badBits)
    ∧ (match ({ info := { sampleRate := 8000, channels := 1 }, pcm := List.replicate 300 1, shortCursor := 0 } : WavCodec).saveToM .debug .big Writer.perfect with
      | .ok (dst, true) => decide (WavCodec.load dst.out = .ok (.error .badBits))
      | _ => false) = true := by decide +kernel

end Adhoc
