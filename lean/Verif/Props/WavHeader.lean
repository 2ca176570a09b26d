import Verif.Props.WavFiles

/-! # C65, C66: the header of a WAV file, as written and as read -/

namespace Adhoc
open Spec

namespace Spec

/-- the little-endian number of `w` bytes at offset `o` of a file -/
def field (file : List Byte) (o w : Nat) : Nat := ((List.range w).map fun i => (file.getD (o + i) 0#8).toNat * 256 ^ i).sum

/-- the four letters at offset `o` of a file -/
def tag (file : List Byte) (o : Nat) (s : String) : Prop := (file.drop o).take 4 = s.toList.map fun c => BitVec.ofNat 8 c.toNat

/-- a 16-bit PCM file as in the RIFF/WAVE specification: one format chunk of 16 bytes, one data chunk with the sound, nothing else -/
structure RiffWave (r c : Nat) (snd file : List Byte) : Prop where
  riff : tag file 0 "RIFF"
  riffSize : field file 4 4 + 8 = file.length
  wave : tag file 8 "WAVE"
  fmt : tag file 12 "fmt "
  fmtSize : field file 16 4 = 16
  pcm : field file 20 2 = 1
  channels : field file 22 2 = c
  rate : field file 24 4 = r
  byteRate : field file 28 4 = r * c * 2
  blockAlign : field file 32 2 = c * 2
  bits : field file 34 2 = 16
  data : tag file 36 "data"
  dataSize : field file 40 4 = snd.length
  sound : file.drop 44 = snd

end Spec

theorem getD_drop {file : List Byte} {o : Nat} (i : Nat) {x : Byte} (h : (file.drop o)[i]? = some x) : file.getD (o + i) 0#8 = x := by
  rw [List.getD_eq_getElem?_getD, ← List.getElem?_drop, h]
  rfl

theorem field4 {file rest : List Byte} {o : Nat} {a b c d : Byte} (h : file.drop o = a :: b :: c :: d :: rest) : field file o 4 = Bincode.leNat [a, b, c, d] := by
  have h0 := getD_drop (file := file) (o := o) 0 (x := a) (by rw [h]; rfl)
  have h1 := getD_drop (file := file) (o := o) 1 (x := b) (by rw [h]; rfl)
  have h2 := getD_drop (file := file) (o := o) 2 (x := c) (by rw [h]; rfl)
  have h3 := getD_drop (file := file) (o := o) 3 (x := d) (by rw [h]; rfl)
  have e : Bincode.leNat [a, b, c, d] = a.toNat + 256 * (b.toNat + 256 * (c.toNat + 256 * (d.toNat + 256 * 0))) := rfl
  rw [e]
  unfold field
  rw [show List.range 4 = [0, 1, 2, 3] from rfl]
  rw [List.map_cons, List.map_cons, List.map_cons, List.map_cons, List.map_nil, List.sum_cons, List.sum_cons, List.sum_cons, List.sum_cons, List.sum_nil,
    h0, h1, h2, h3]
  generalize a.toNat = a
  generalize b.toNat = b
  generalize c.toNat = c
  generalize d.toNat = d
  omega

theorem field2 {file rest : List Byte} {o : Nat} {a b : Byte} (h : file.drop o = a :: b :: rest) : field file o 2 = Bincode.leNat [a, b] := by
  have h0 := getD_drop (file := file) (o := o) 0 (x := a) (by rw [h]; rfl)
  have h1 := getD_drop (file := file) (o := o) 1 (x := b) (by rw [h]; rfl)
  have e : Bincode.leNat [a, b] = a.toNat + 256 * (b.toNat + 256 * 0) := rfl
  rw [e]
  unfold field
  rw [show List.range 2 = [0, 1] from rfl]
  rw [List.map_cons, List.map_cons, List.map_nil, List.sum_cons, List.sum_cons, List.sum_nil, h0, h1]
  generalize a.toNat = a
  generalize b.toNat = b
  omega

theorem tag_of {file rest : List Byte} {o : Nat} {a b c d : Byte} {s : String} (h : file.drop o = a :: b :: c :: d :: rest)
    (e : [a, b, c, d] = s.toList.map fun c => BitVec.ofNat 8 c.toNat) : tag file o s := by
  unfold tag
  rw [h, ← e]
  rfl

/-- C65: what `save_to` writes to a faultless writer is a RIFF/WAVE file with the codec's rate, channels and sound, and all the derived
fields right. -/
theorem C65_riff (b : Build) (w : WavCodec) (H : Fits w) :
    ∃ dst, w.saveTo b Writer.perfect = .ok (dst, true) ∧ RiffWave w.info.sampleRate w.info.channels w.pcm dst.out := by
  obtain ⟨h, e, hb⟩ := header_ok (b := b) H
  refine ⟨_, saveTo_perfect e, ?_⟩
  have hr := H.rate_lt
  have hc := H.chans
  have hsz := H.size
  have hrr := H.rate
  have h44 : (headerOf w).length = 44 := by simp [headerOf, hdr44]
  dsimp only
  rw [hb]
  obtain ⟨c, hcd⟩ : ∃ c, c = w.info.channels := ⟨_, rfl⟩
  obtain ⟨q, hqd⟩ : ∃ q, q = w.info.sampleRate := ⟨_, rfl⟩
  obtain ⟨d, hdd⟩ : ∃ d, d = w.pcm.length := ⟨_, rfl⟩
  obtain ⟨s, hs⟩ : ∃ s, s = q * c * 2 := ⟨_, rfl⟩
  obtain ⟨f, hf⟩ : ∃ f, f = d + 36 := ⟨_, rfl⟩
  have hdrop : (headerOf w ++ w.pcm).drop 44 = w.pcm := List.drop_left' h44
  have hlen : (headerOf w ++ w.pcm).length = 44 + d := by rw [List.length_append, h44, hdd]
  have hh : headerOf w = hdr44 (.ofNat 8 f) (.ofNat 8 (f / 256)) (.ofNat 8 (f / 256 / 256)) (.ofNat 8 (f / 256 / 256 / 256)) (.ofNat 8 c) (.ofNat 8 (c / 256))
    (.ofNat 8 q) (.ofNat 8 (q / 256)) (.ofNat 8 (q / 256 / 256)) (.ofNat 8 (q / 256 / 256 / 256))
    (.ofNat 8 s) (.ofNat 8 (s / 256)) (.ofNat 8 (s / 256 / 256)) (.ofNat 8 (s / 256 / 256 / 256)) (.ofNat 8 (c * 2)) (.ofNat 8 (c * 2 / 256))
    (.ofNat 8 d) (.ofNat 8 (d / 256)) (.ofNat 8 (d / 256 / 256)) (.ofNat 8 (d / 256 / 256 / 256)) := by
    rw [hf, hs, hcd, hqd, hdd]; rfl
  rw [← hqd] at hr hrr ⊢
  rw [← hcd] at hc hrr ⊢
  rw [← hdd] at hsz
  rw [show q * c * 16 = s * 8 by omega] at hrr
  norm_num at hr hsz hrr
  refine { riff := ?_, riffSize := ?_, wave := ?_, fmt := ?_, fmtSize := ?_, pcm := ?_, channels := ?_, rate := ?_, byteRate := ?_, blockAlign := ?_,
           bits := ?_, data := ?_, dataSize := ?_, sound := hdrop }
  · rw [hh]; exact tag_of rfl (by decide)
  · rw [hlen, hh, field4 rfl, leNat4 (by norm_num; omega)]
    omega
  · rw [hh]; exact tag_of rfl (by decide)
  · rw [hh]; exact tag_of rfl (by decide)
  · rw [hh, field4 rfl]; rfl
  · rw [hh, field2 rfl]; rfl
  · rw [hh, field2 rfl, leNat2 (by norm_num; omega)]
  · rw [hh, field4 rfl, leNat4 (by norm_num; omega)]
  · rw [hh, field4 rfl, leNat4 (by norm_num; omega), hs]
  · rw [hh, field2 rfl, leNat2 (by norm_num; omega)]
  · rw [hh, field2 rfl]; rfl
  · rw [hh]; exact tag_of rfl (by decide)
  · rw [hh, field4 rfl, leNat4 (by norm_num; omega), hdd]

/-- `song` meets the hypothesis -/
example : Fits song ∧ song.pcm.length = 300 := ⟨song_fits, song_len⟩

/-! ## C66 -/

theorem drop_two {bytes : List Byte} {o : Nat} (h : o + 2 ≤ bytes.length) : ∃ a b rest, bytes.drop o = a :: b :: rest := by
  match e : bytes.drop o, (List.length_drop (l := bytes) (i := o)) with
  | [], hl => simp at hl; omega
  | [_], hl => simp at hl; omega
  | a :: b :: rest, _ => exact ⟨a, b, rest, rfl⟩

theorem i16At_field {bytes : List Byte} {o : Nat} (hl : 256 ≤ bytes.length) (h : o + 2 ≤ 256) :
    field bytes o 2 < 65536 ∧ WavCodec.i16At (bytes.take 256) o = asI 16 (field bytes o 2) := by
  obtain ⟨a, b, rest, e⟩ := drop_two (bytes := bytes) (o := o) (by omega)
  have hf := field2 e
  have ha := a.isLt
  have hb := b.isLt
  have hv : Bincode.leNat [a, b] = a.toNat + 256 * (b.toNat + 256 * 0) := rfl
  refine ⟨by rw [hf, hv]; omega, ?_⟩
  unfold WavCodec.i16At
  rw [List.drop_take, List.take_take, show min 2 (256 - o) = 2 by omega, e, hf]
  rfl

theorem asI16_small {n : Nat} (h : n < 65536) (k : Nat) (hk : k < 32768) : asI 16 n = k ↔ n = k := by
  unfold asI
  rw [Int.bmod_def]
  norm_num
  split <;> omega

theorem asU32_asI16 {n : Nat} (h : n < 65536) : asU 32 (asI 16 n) = if n < 32768 then n else n + 4294901760 := by
  unfold asU asI
  rw [Int.bmod_def]
  norm_num
  split <;> split <;> omega

/-- C66: which files are accepted, which are rejected and with which error, and what is read from the header. Together with C36 (which says
that loading panics exactly if the first `data` is at byte 249 to 252) this covers every byte string. -/
theorem C66_accepted (bytes : List Byte) :
    (bytes.length < 256 → WavCodec.load bytes = .ok (.error .readHeader)) ∧
    (256 ≤ bytes.length → (∀ i ≤ 252, ¬ tag bytes i "data") → WavCodec.load bytes = .ok (.error .noData)) ∧
    (∀ i ≤ 248, 256 ≤ bytes.length → tag bytes i "data" → (∀ j < i, ¬ tag bytes j "data") →
      (field bytes 34 2 ≠ 16 → field bytes 34 2 ≠ 8 → WavCodec.load bytes = .ok (.error .badBits)) ∧
      (field bytes 34 2 = 16 ∨ field bytes 34 2 = 8 → field bytes 20 2 ≠ 1 → WavCodec.load bytes = .ok (.error .badFormat)) ∧
      (field bytes 34 2 = 16 ∨ field bytes 34 2 = 8 → field bytes 20 2 = 1 → ∃ w, WavCodec.load bytes = .ok (.ok w) ∧
        w.info.sampleRate = field bytes 24 4 ∧
        w.info.channels = (if field bytes 22 2 < 32768 then field bytes 22 2 else field bytes 22 2 + 4294901760) ∧
        w.shortCursor = 0 ∧
        (field bytes 34 2 = 16 → w.pcm = bytes.drop (i + 8)) ∧
        (field bytes 34 2 = 8 → w.pcm = (bytes.drop (i + 8)).flatMap fun x => le16 (wide x.toNat)))) := by
  have hd : "data".toList.map (fun c => BitVec.ofNat 8 c.toNat) = ascii ['d', 'a', 't', 'a'] := by decide
  have ht : ∀ i, tag bytes i "data" ↔ (bytes.drop i).take 4 = ascii ['d', 'a', 't', 'a'] := by
    intro i
    unfold tag
    rw [hd]
  refine ⟨?_, ?_, ?_⟩
  · intro hl
    unfold WavCodec.load WavCodec.loadAt
    rw [List.drop_zero]
    dsimp only
    rw [if_pos (by simp; omega)]
    rfl
  · intro hl hn
    rcases hf : WavCodec.findData (bytes.take 256) with _ | i
    · unfold WavCodec.load WavCodec.loadAt
      rw [List.drop_zero]
      dsimp only
      rw [if_neg (by simp; omega), hf]
      rfl
    · obtain ⟨h1, h2⟩ := findData_some hf
      have h2' : i ≤ 252 := by
        have : (bytes.take 256).length = 256 := by simp; omega
        omega
      exact absurd ((ht i).2 (firstData_take h1 h2').1) (hn i h2')
  · intro i hi hl h1 h2
    have hfd : FirstData bytes i := ⟨(ht i).1 h1, fun j hj => (ht j).not.1 (h2 j hj)⟩
    have hf : WavCodec.findData (bytes.take 256) = some i := by
      rcases hf : WavCodec.findData (bytes.take 256) with _ | k
      · exfalso
        refine findData_none hf i ?_
        rw [List.drop_take, List.take_take, show min 4 (256 - i) = 4 by omega]
        exact hfd.1
      · obtain ⟨g1, g2⟩ := findData_some hf
        have g2' : k ≤ 252 := by
          have : (bytes.take 256).length = 256 := by simp; omega
          omega
        rw [(firstData_take g1 g2').unique hfd]
    have hload := loadAt_of_find hl hf hi
    obtain ⟨b34, e34⟩ := i16At_field (o := 34) hl (by norm_num)
    obtain ⟨b20, e20⟩ := i16At_field (o := 20) hl (by norm_num)
    obtain ⟨b22, e22⟩ := i16At_field (o := 22) hl (by norm_num)
    have c16 := asI16_small b34 16 (by norm_num)
    have c8 := asI16_small b34 8 (by norm_num)
    have c1 := asI16_small b20 1 (by norm_num)
    norm_num at c16 c8 c1
    have hch := asU32_asI16 b22
    rw [e34, e20, e22, hch] at hload
    refine ⟨?_, ?_, ?_⟩
    · intro n16 n8
      rw [hload, if_pos ⟨fun h => n16 (c16.1 h), fun h => n8 (c8.1 h)⟩]
    · intro hb n1
      rw [hload, if_neg (by rintro ⟨x, y⟩; rcases hb with h | h; exacts [x (c16.2 h), y (c8.2 h)]), if_pos (fun h => n1 (c1.1 h))]
    · intro hb h1
      have hrate : field bytes 24 4 = Bincode.leNat (((bytes.take 256).drop 24).take 4) := by
        obtain ⟨a, b, rest, e⟩ := drop_two (bytes := bytes) (o := 24) (by omega)
        obtain ⟨c, d, rest', e'⟩ := drop_two (bytes := bytes) (o := 26) (by omega)
        have : rest = c :: d :: rest' := by
          have := congrArg (List.drop 2) e
          rw [List.drop_drop, e'] at this
          simpa using this.symm
        rw [this] at e
        rw [field4 e, List.drop_take, List.take_take, e]
        rfl
      rw [if_neg (by rintro ⟨x, y⟩; rcases hb with h | h; exacts [x (c16.2 h), y (c8.2 h)]), if_neg (not_not_intro (c1.2 h1))] at hload
      by_cases h8 : field bytes 34 2 = 8
      · rw [if_pos (c8.2 h8), widen_ok _ _ (by simp; omega), bind_ok] at hload
        refine ⟨_, hload, hrate.symm, rfl, rfl, fun h => by omega, fun _ => ?_⟩
        have : (bytes.drop (i + 8) ++ List.replicate (bytes.drop (i + 8)).length 0#8).drop (2 * (bytes.drop (i + 8)).length) = [] :=
          List.drop_eq_nil_of_le (by simp; omega)
        dsimp only
        rw [this, List.append_nil, List.take_left' rfl]
        simp only [convert8_wide]
      · rw [if_neg (fun h => h8 (c8.1 h)), bind_ok] at hload
        exact ⟨_, hload, hrate.symm, rfl, rfl, fun _ => rfl, fun h => absurd h h8⟩

/-- `twoChunks` is accepted: 16 bits, PCM, `data` first at byte 36 -/
example : field twoChunks 34 2 = 16 ∧ field twoChunks 20 2 = 1 ∧ field twoChunks 24 4 = 44100 ∧ WavCodec.findData twoChunks = some 36 ∧ 256 ≤ twoChunks.length := by
  decide +kernel

end Adhoc
