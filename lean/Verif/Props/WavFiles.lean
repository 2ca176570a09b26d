import Verif.Proofs.WavFile
import Verif.Props.WavTape

/-! # C18, C33, C35, C36, C37, C44, C45: WAV files -/

namespace Adhoc
open Spec

/-! ## C18 -/

/-- C18: whatever `save_to` writes to a writer without faults is as long as announced. It always writes in release builds. -/
theorem C18_wav_filesize (b : Build) (w : WavCodec) :
    (∀ dst ok, w.saveTo b Writer.perfect = .ok (dst, ok) → ok = true ∧ dst.out.length * 8 = w.filesizeUpperbound) ∧
    ∃ dst, w.saveTo .release Writer.perfect = .ok (dst, true) := by
  constructor
  · intro dst ok h
    rcases e : w.header b with p | hd
    · unfold WavCodec.saveTo at h
      rw [e] at h
      cases h
    · rw [saveTo_perfect e] at h
      cases h
      refine ⟨rfl, ?_⟩
      simp only [List.length_append, length_asBytes, WavCodec.filesizeUpperbound]
      omega
  · have : ∃ hd, w.header .release = .ok hd := by
      have hU : ∀ x : Int, ∃ y, chkU .release 32 x = .ok y := by
        intro x; unfold chkU; split <;> exact ⟨_, rfl⟩
      unfold WavCodec.header
      obtain ⟨y1, e1⟩ := hU ((44 - 8 + w.pcm.length % 2 ^ 32 : Nat) : Int)
      obtain ⟨y2, e2⟩ := chkI_release 32 (asI 32 w.info.sampleRate * asI 16 w.info.channels)
      obtain ⟨y3, e3⟩ := chkI_release 32 (y2 * 16)
      obtain ⟨y4, e4⟩ := chkI_release 16 (asI 16 w.info.channels * 16)
      dsimp only
      rw [e1, bind_ok, e2, bind_ok, e3, bind_ok, e4, bind_ok]
      exact ⟨_, rfl⟩
    obtain ⟨hd, e⟩ := this
    exact ⟨_, saveTo_perfect e⟩

/-- `six` is saved in 56 bytes -/
example : (six.saveTo .debug Writer.perfect).map (fun r => (r.1.out.length * 8, six.filesizeUpperbound)) = .ok (448, 448) := by decide +kernel

/-! ## C33 -/

/-- C33 is false: a short recording is saved but cannot be loaded, because loading insists on 256 bytes. -/
theorem C33_false : ¬ ∀ (w : WavCodec), Fits w → w.pcm.length % 2 = 0 → ∃ dst w', w.saveTo .release Writer.perfect = .ok (dst, true) ∧
    WavCodec.load dst.out = .ok (.ok w') ∧ w'.info = w.info ∧ w'.pcm = w.pcm := by
  intro h
  obtain ⟨dst, w', h1, h2, -⟩ := h six ⟨by simp [six], by simp [six], by simp [six], by simp [six]⟩ (by simp [six])
  have k : (six.saveTo .release Writer.perfect >>= fun r => WavCodec.load r.1.out) = .ok (.error .readHeader) := by decide +kernel
  rw [h1, bind_ok, h2] at k
  cases k

/-- The other way it is false: if the size of the file happens to spell `data` (a recording of 1635017024 bytes), loading takes the size field
for the data chunk, and the recording starts with 32 bytes of header. -/
theorem C33_data_size (b : Build) (w : WavCodec) (H : Fits w) (hs : w.pcm.length = 1635017024) :
    ∃ dst hd, w.saveTo b Writer.perfect = .ok (dst, true) ∧ hd.length = 32 ∧
      WavCodec.load dst.out = .ok (.ok { info := w.info, pcm := hd ++ w.pcm, shortCursor := 0 }) := by
  obtain ⟨h, e, hb⟩ := header_ok (b := b) H
  refine ⟨_, (headerOf w).drop 12, saveTo_perfect e, ?_, ?_⟩
  · simp [headerOf, hdr44]
  · rw [hb, load_saved_wav H (by omega), if_pos hs]

/-- C33, for recordings of at least 212 bytes (and not 1635017024): saving succeeds in both builds, and loading gives back the same info
and bytes. Missing: shorter recordings and that one size, for which the claim is false. -/
theorem C33_save_load_partial (b : Build) (w : WavCodec) (H : Fits w) (h212 : 212 ≤ w.pcm.length) (hs : w.pcm.length ≠ 1635017024) :
    ∃ dst, w.saveTo b Writer.perfect = .ok (dst, true) ∧
      WavCodec.load dst.out = .ok (.ok { info := w.info, pcm := w.pcm, shortCursor := 0 }) := by
  obtain ⟨h, e, hb⟩ := header_ok (b := b) H
  refine ⟨_, saveTo_perfect e, ?_⟩
  rw [hb, load_saved_wav H h212, if_neg hs]

/-- 300 bytes of CD quality meet the hypotheses -/
def song : WavCodec := { info := { sampleRate := 44100, channels := 2 }, pcm := List.replicate 300 7#8, shortCursor := 0 }

theorem song_len : song.pcm.length = 300 := List.length_replicate

theorem song_fits : Fits song := ⟨by decide, by decide, by decide, by rw [song_len]; norm_num⟩

example : Fits song ∧ 212 ≤ song.pcm.length ∧ song.pcm.length ≠ 1635017024 := ⟨song_fits, by rw [song_len]; norm_num, by rw [song_len]; norm_num⟩

/-! ## C35 -/

/-- C35 is false for a file whose size spells `data` (see C33): its prefixes load as something that is not a prefix of the recording. -/
theorem C35_false : ¬ ∀ (w : WavCodec) (dst : Writer) (k : Nat), Fits w → w.saveTo .release Writer.perfect = .ok (dst, true) →
    256 ≤ k → k ≤ dst.out.length → ∃ w', WavCodec.load (dst.out.take k) = .ok (.ok w') ∧ w'.pcm = w.pcm.take (k - 44) := by
  intro h
  obtain ⟨w, hw⟩ : ∃ w : WavCodec, w = { info := { sampleRate := 1, channels := 1 }, pcm := List.replicate 1635017024 0#8, shortCursor := 0 } := ⟨_, rfl⟩
  have hl : w.pcm.length = 1635017024 := by rw [hw]; exact List.length_replicate
  have hi : w.info = { sampleRate := 1, channels := 1 } := by rw [hw]
  have H : Fits w := ⟨by rw [hi]; norm_num, by rw [hi]; norm_num, by rw [hi]; norm_num, by rw [hl]; norm_num⟩
  obtain ⟨hd, e, hb⟩ := header_ok (b := .release) H
  have h44 : (headerOf w).length = 44 := by simp [headerOf, hdr44]
  obtain ⟨w', e', hp⟩ := h w _ 256 H (saveTo_perfect e) le_rfl (by rw [List.length_append, hl, length_asBytes]; norm_num)
  dsimp only at e'
  rw [hb, List.take_append, h44, List.take_of_length_le (by omega), load_saved_wav H (by rw [List.length_take, hl]; norm_num), if_pos hl] at e'
  cases e'
  have := congrArg List.length hp
  simp only [List.length_append, List.length_drop, List.length_take, h44, hl] at this
  norm_num at this

/-- C35: of a saved file (of any size but the one above), every prefix of at least 256 bytes loads as a prefix of the recording with the
same info, and shorter ones are rejected. Missing: that one size. -/
theorem C35_truncated_partial (b : Build) (w : WavCodec) (H : Fits w) (hs : w.pcm.length ≠ 1635017024) (k : Nat) :
    ∃ dst, w.saveTo b Writer.perfect = .ok (dst, true) ∧
      (k ≤ dst.out.length → WavCodec.load (dst.out.take k) =
        if k < 256 then .ok (.error .readHeader) else .ok (.ok { info := w.info, pcm := w.pcm.take (k - 44), shortCursor := 0 })) := by
  obtain ⟨h, e, hb⟩ := header_ok (b := b) H
  refine ⟨_, saveTo_perfect e, ?_⟩
  intro hk
  dsimp only at hk ⊢
  have h44 : (headerOf w).length = 44 := by simp [headerOf, hdr44]
  rw [hb] at hk ⊢
  rw [List.length_append, h44] at hk
  by_cases h256 : k < 256
  · rw [if_pos h256]
    unfold WavCodec.load WavCodec.loadAt
    rw [List.drop_zero]
    dsimp only
    rw [if_pos (by simp; omega)]
    rfl
  · rw [if_neg h256, List.take_append, h44, List.take_of_length_le (by omega), load_saved_wav H (by simp; omega), if_neg hs]

/-- `song` cut after 300 bytes is such a prefix -/
example : Fits song ∧ song.pcm.length ≠ 1635017024 ∧ 300 ≤ 44 + song.pcm.length := ⟨song_fits, by rw [song_len]; norm_num, by rw [song_len]; norm_num⟩

/-! ## C36 -/

/-- C36 is false: 256 bytes ending in `data`. -/
theorem C36_false : ¬ ∀ bytes : List Byte, ∃ r, WavCodec.load bytes = .ok r := by
  intro h
  obtain ⟨r, e⟩ := h (List.replicate 252 0#8 ++ ascii ['d', 'a', 't', 'a'])
  have k : (WavCodec.load (List.replicate 252 0#8 ++ ascii ['d', 'a', 't', 'a'])).map (fun _ => ()) = .error .index := by decide +kernel
  rw [e] at k
  cases k

theorem firstData_take {bytes : List Byte} {i : Nat} (h : FirstData (bytes.take 256) i) (hi : i ≤ 252) : FirstData bytes i := by
  have key : ∀ j, j ≤ 252 → ((bytes.take 256).drop j).take 4 = (bytes.drop j).take 4 := by
    intro j hj
    rw [List.drop_take, List.take_take]
    congr 1
    omega
  refine ⟨by rw [← key i hi]; exact h.1, ?_⟩
  intro j hj
  rw [← key j (by omega)]
  exact h.2 j hj

/-- C36, exactly: loading panics on those byte strings of at least 256 bytes whose first `data` starts at byte 249, 250, 251 or 252, and on
no others. Missing: these strings, for which the claim is false. -/
theorem C36_load_panics_partial (bytes : List Byte) :
    (∃ p, WavCodec.load bytes = .error p) ↔ 256 ≤ bytes.length ∧ ∃ i, 249 ≤ i ∧ i ≤ 252 ∧ FirstData bytes i := by
  by_cases hl : 256 ≤ bytes.length
  · have hl' : (bytes.take 256).length = 256 := by simp; omega
    rcases hf : WavCodec.findData (bytes.take 256) with _ | i
    · constructor
      · rintro ⟨p, e⟩
        unfold WavCodec.load WavCodec.loadAt at e
        rw [List.drop_zero] at e
        dsimp only at e
        rw [if_neg (by omega), hf] at e
        cases e
      · rintro ⟨-, i, h1, h2, h3, -⟩
        exfalso
        refine findData_none hf i ?_
        rw [List.drop_take, List.take_take, show min 4 (256 - i) = 4 by omega]
        exact h3
    · obtain ⟨h1, h2⟩ := findData_some hf
      have h3 := firstData_take h1 (by omega)
      by_cases hi : i ≤ 248
      · constructor
        · rintro ⟨p, e⟩
          rw [loadAt_of_find hl hf hi] at e
          exfalso
          split at e
          · cases e
          · split at e
            · cases e
            · split at e
              · rw [widen_ok _ _ (by simp; omega), bind_ok] at e
                cases e
              · cases e
        · rintro ⟨-, j, h4, h5, h6⟩
          have := h6.unique h3
          omega
      · constructor
        · rintro -
          exact ⟨hl, i, by omega, by omega, h3⟩
        · rintro -
          exact ⟨_, loadAt_panic hl hf (by omega)⟩
  · constructor
    · rintro ⟨p, e⟩
      unfold WavCodec.load WavCodec.loadAt at e
      rw [List.drop_zero] at e
      dsimp only at e
      rw [if_pos (by simp; omega)] at e
      cases e
    · rintro ⟨h, -⟩
      exact absurd h hl

/-- the string above starts with no other `data` -/
example : FirstData (List.replicate 252 0#8 ++ ascii ['d', 'a', 't', 'a']) 252 := by
  refine ⟨by decide +kernel, ?_⟩
  intro j hj
  have : WavCodec.findData (List.replicate 252 0#8 ++ ascii ['d', 'a', 't', 'a']) = some 252 := by decide +kernel
  exact (findData_some this).1.2 j hj

/-! ## C37, C45 -/

/-- a file with a data chunk of two bytes, followed by another chunk -/
def twoChunks : List Byte :=
  hdr44 248#8 0#8 0#8 0#8 1#8 0#8 68#8 172#8 0#8 0#8 136#8 88#8 1#8 0#8 2#8 0#8 2#8 0#8 0#8 0#8 ++ [1#8, 2#8] ++
    ascii ['L', 'I', 'S', 'T'] ++ [202#8, 0#8, 0#8, 0#8] ++ List.replicate 202 9#8

theorem loads_twoChunks : ∃ w, WavCodec.load twoChunks = .ok (.ok w) ∧ w.pcm.length = 212 := by
  have hl : (match WavCodec.load twoChunks with | .ok (.ok w) => w.pcm.length | _ => 0) = 212 := by decide +kernel
  generalize WavCodec.load twoChunks = r at hl
  rcases r with p | e | w
  · cases hl
  · cases hl
  · exact ⟨w, rfl, hl⟩

/-- C37 is false: the chunk after the data chunk is loaded as sound. -/
theorem C37_false : ¬ ∀ (bytes : List Byte) (w : WavCodec) (i : Nat), WavCodec.load bytes = .ok (.ok w) → FirstData bytes i →
    WavCodec.i16At bytes 34 = 16 → w.pcm = (bytes.drop (i + 8)).take (Bincode.leNat ((bytes.drop (i + 4)).take 4)) := by
  intro h
  have hf : WavCodec.findData twoChunks = some 36 := by decide +kernel
  obtain ⟨w, e, hw⟩ := loads_twoChunks
  have := congrArg List.length (h twoChunks w 36 e (findData_some hf).1 (by decide +kernel))
  rw [hw] at this
  revert this
  decide +kernel

/-- C37 and C45, exactly: what is loaded from any file that loads. The sound is everything after the first `data` and four more bytes, up
to the end of the file, whatever the declared length (so the claim of C37 holds for files that end with their data chunk); 16-bit sound as it
is, 8-bit sound with every byte converted. Missing for C37: files with something after the data chunk, for which it is false. -/
theorem C37_loaded_partial (bytes : List Byte) (w : WavCodec) (h : WavCodec.load bytes = .ok (.ok w)) :
    ∃ i, FirstData bytes i ∧ i ≤ 248 ∧
      (WavCodec.i16At bytes 34 = 16 ∧ w.pcm = bytes.drop (i + 8) ∨
       WavCodec.i16At bytes 34 = 8 ∧ w.pcm = (bytes.drop (i + 8)).flatMap fun x => le16 (WavCodec.convert8 x)) ∧
      (Bincode.leNat ((bytes.drop (i + 4)).take 4) = (bytes.drop (i + 8)).length → WavCodec.i16At bytes 34 = 16 →
        w.pcm = (bytes.drop (i + 8)).take (Bincode.leNat ((bytes.drop (i + 4)).take 4))) := by
  have hl : 256 ≤ bytes.length := by
    by_contra hc
    unfold WavCodec.load WavCodec.loadAt at h
    rw [List.drop_zero] at h
    dsimp only at h
    rw [if_pos (by simp; omega)] at h
    cases h
  have h34 : WavCodec.i16At (bytes.take 256) 34 = WavCodec.i16At bytes 34 := by
    unfold WavCodec.i16At
    rw [List.drop_take, List.take_take]
    rfl
  rcases hf : WavCodec.findData (bytes.take 256) with _ | i
  · unfold WavCodec.load WavCodec.loadAt at h
    rw [List.drop_zero] at h
    dsimp only at h
    rw [if_neg (by simp; omega), hf] at h
    cases h
  · obtain ⟨h1, h2⟩ := findData_some hf
    have h2' : i ≤ 252 := by
      have : (bytes.take 256).length = 256 := by simp; omega
      omega
    have h3 := firstData_take h1 h2'
    by_cases hi : i ≤ 248
    · rw [loadAt_of_find hl hf hi, h34] at h
      refine ⟨i, h3, hi, ?_⟩
      split at h
      · cases h
      · rename_i hb
        split at h
        · cases h
        · split at h
          · rename_i h8
            rw [widen_ok _ _ (by simp; omega), bind_ok] at h
            cases h
            refine ⟨.inr ⟨h8, ?_⟩, fun _ h16 => by omega⟩
            have : (bytes.drop (i + 8) ++ List.replicate (bytes.drop (i + 8)).length 0#8).drop (2 * (bytes.drop (i + 8)).length) = [] :=
              List.drop_eq_nil_of_le (by simp; omega)
            dsimp only
            rw [this, List.append_nil, List.take_left' rfl]
          · cases h
            refine ⟨.inl ⟨by omega, rfl⟩, fun hd _ => ?_⟩
            dsimp only
            rw [hd, List.take_of_length_le le_rfl]
    · rw [loadAt_panic hl hf (by omega)] at h
      cases h

/-- `twoChunks` loads -/
example : (WavCodec.load twoChunks).map (fun r => r.map (fun w => w.pcm.take 2)) = .ok (.ok [1#8, 2#8]) := by decide +kernel

namespace Spec

/-- byte `n` of 8-bit sound as a 16-bit sample, calculated without floats: `(n / 255 * 2 - 1) * 32766` without its fraction, except that one
value comes out one off -/
def wide (n : Nat) : Int := if n = 85 then -10921 else ((2 * (n : Int) - 255) * 32766).tdiv 255

end Spec

theorem convert8_wide (x : Byte) : WavCodec.convert8 x = wide x.toNat := by
  have h : ∀ n : Fin 256, WavCodec.convert8 (BitVec.ofNat 8 n.1) = wide n.1 := by decide +kernel
  have := h ⟨x.toNat, x.isLt⟩
  simpa using this

/-- C45: 8-bit sound loads byte by byte and in order, `wide` says as what. `wide` is strictly monotone and has the ends claimed (and is
within 1 of the straight line through them). -/
theorem C45_eight_bit (bytes : List Byte) (w : WavCodec) (h : WavCodec.load bytes = .ok (.ok w)) (h8 : WavCodec.i16At bytes 34 = 8) :
    (∃ i, FirstData bytes i ∧ w.pcm = (bytes.drop (i + 8)).flatMap fun x => le16 (wide x.toNat)) ∧
    wide 0 = -32766 ∧ wide 255 = 32766 ∧ (∀ m n, m < n → n ≤ 255 → wide m < wide n) ∧
    ∀ n, n ≤ 255 → (wide n * 255 - (2 * (n : Int) - 255) * 32766).natAbs ≤ 255 := by
  refine ⟨?_, by decide, by decide, ?_, ?_⟩
  · obtain ⟨i, h1, -, h2, -⟩ := C37_loaded_partial bytes w h
    rcases h2 with ⟨h2, -⟩ | ⟨-, h2⟩
    · omega
    · refine ⟨i, h1, ?_⟩
      rw [h2]
      simp only [convert8_wide]
  · have step : ∀ n, n < 255 → wide n < wide (n + 1) := by decide +kernel
    intro m n hmn
    induction n with
    | zero => omega
    | succ n ih =>
      intro hn
      rcases Nat.lt_or_ge m n with hlt | hge
      · exact lt_trans (ih hlt (by omega)) (step n (by omega))
      · obtain rfl : m = n := by omega
        exact step m (by omega)
  · have : ∀ n, n < 256 → (wide n * 255 - (2 * (n : Int) - 255) * 32766).natAbs ≤ 255 := by decide +kernel
    intro n hn
    exact this n (Nat.lt_succ_of_le hn)

/-- an 8-bit file -/
def eightBit : List Byte :=
  (hdr44 248#8 0#8 0#8 0#8 1#8 0#8 68#8 172#8 0#8 0#8 68#8 172#8 0#8 0#8 1#8 0#8 212#8 0#8 0#8 0#8).set 34 8#8 ++
    [0#8, 255#8] ++ List.replicate 210 128#8

example : WavCodec.i16At eightBit 34 = 8 ∧
    (match WavCodec.load eightBit with | .ok (.ok w) => w.pcm.take 4 | _ => []) = le16 (-32766) ++ le16 32766 := by decide +kernel

/-! ## C44 -/

/-- C44 is false: a writer that takes only 10 bytes of the header gets no more of it, and `save_to` reports success. -/
theorem C44_false : ¬ ∀ (w : WavCodec) (dst dst' full : Writer), w.saveTo .release dst = .ok (dst', true) →
    w.saveTo .release Writer.perfect = .ok (full, true) → dst'.out = dst.out ++ full.out := by
  intro h
  have k : (six.saveTo .release { out := [], script := [.accept 10] }).map (fun r => (r.1.out.length, r.2)) = .ok (22, true) := by decide +kernel
  have k' : (six.saveTo .release Writer.perfect).map (fun r => (r.1.out.length, r.2)) = .ok (56, true) := by decide +kernel
  rcases e : six.saveTo .release { out := [], script := [.accept 10] } with p | ⟨dst, ok⟩
  · rw [e] at k; cases k
  · rcases e' : six.saveTo .release Writer.perfect with p | ⟨full, ok'⟩
    · rw [e'] at k'; cases k'
    · rw [e] at k
      rw [e'] at k'
      have k : (Except.ok (dst.out.length, ok) : R (Nat × Bool)) = .ok (22, true) := k
      have k' : (Except.ok (full.out.length, ok') : R (Nat × Bool)) = .ok (56, true) := k'
      injection k with k
      injection k' with k'
      injection k with k1 k2
      injection k' with k1' k2'
      subst k2 k2'
      have := congrArg List.length (h six _ dst full e e')
      rw [List.nil_append] at this
      omega

namespace Spec

/-- how many bytes of 44 the next `write` of a writer takes -/
def taken (dst : Writer) : Nat :=
  match dst.script with
  | .accept n :: _ => min n 44
  | _ => 44

end Spec

/-- C44, exactly: when `save_to` reports success, the writer has received as much of the header as its first `write` took, and all the sound; so
the file is complete if and only if the first `write` took all 44 bytes. When it reports failure, the file is not complete. Missing: writers
that take less than 44 bytes at first, for which the claim is false. -/
theorem C44_short_writes_partial (b : Build) (w : WavCodec) (dst dst' full : Writer) (ok : Bool) (h : w.saveTo b dst = .ok (dst', ok))
    (hf : w.saveTo b Writer.perfect = .ok (full, true)) :
    (ok = true → dst'.out = dst.out ++ full.out.take (taken dst) ++ full.out.drop 44) ∧
    (dst'.out = dst.out ++ full.out ↔ ok = true ∧ taken dst = 44) := by
  rcases e : w.header b with p | hd
  · unfold WavCodec.saveTo at h
    rw [e] at h
    cases h
  · rw [saveTo_perfect e] at hf
    cases hf
    have h44 : hd.asBytes.length = 44 := length_asBytes _
    obtain ⟨hb, ehb⟩ : ∃ hb, hb = hd.asBytes := ⟨_, rfl⟩
    unfold WavCodec.saveTo at h
    rw [e, bind_ok] at h
    rw [← ehb] at h h44
    dsimp only
    rw [← ehb]
    have hdrop : (hb ++ w.pcm).drop 44 = w.pcm := by rw [List.drop_append, h44, List.drop_eq_nil_of_le (by omega)]; simp
    have htake : ∀ n, n ≤ 44 → (hb ++ w.pcm).take n = hb.take n := by
      intro n hn
      rw [List.take_append, h44, show n - 44 = 0 by omega]
      simp
    rw [hdrop, htake (taken dst) (by unfold taken; split <;> omega)]
    -- what the first call does
    have first : dst.write hb = ({ out := dst.out ++ hb.take (taken dst), script := (dst.write hb).1.script }, some (taken dst)) ∨
        dst.write hb = ({ out := dst.out, script := (dst.write hb).1.script }, none) := by
      unfold Writer.write taken
      rcases dst with ⟨out, script⟩
      rcases script with _ | ⟨r, rest⟩
      · left; simp [h44, List.take_of_length_le (le_of_eq h44)]
      · cases r with
        | accept n =>
          left
          have : hb.take n = hb.take (min n 44) := by rw [List.take_eq_take_iff]; omega
          dsimp only
          rw [this, h44]
        | interrupted => right; rfl
        | fail => right; rfl
    have hcount : taken dst ≤ 44 := by unfold taken; split <;> omega
    rcases first with first | first <;> rw [first] at h <;> dsimp only at h
    · obtain ⟨p, q, h1, h2, h3⟩ := Writer.writeAll_spec { out := dst.out ++ hb.take (taken dst), script := (dst.write hb).1.script } w.pcm
      have h' : (Except.ok (Writer.writeAll { out := dst.out ++ hb.take (taken dst), script := (dst.write hb).1.script } w.pcm) : R _) = .ok (dst', ok) := h
      injection h' with h'
      rw [h'] at h2 h3
      dsimp only at h2 h3
      constructor
      · intro hok
        rw [h3.1 hok, List.append_nil] at h1
        rw [h2, h1]
      · constructor
        · intro hc
          rw [h2, List.append_assoc] at hc
          have hc := List.append_cancel_left hc
          have hlen := congrArg List.length hc
          have := congrArg List.length h1
          simp only [List.length_append, List.length_take, h44] at hlen this
          have hq : q = [] := List.eq_nil_of_length_eq_zero (by omega)
          exact ⟨h3.2 hq, by omega⟩
        · rintro ⟨hok, ht⟩
          rw [h3.1 hok, List.append_nil] at h1
          rw [h2, h1, ht, List.take_of_length_le (by omega), List.append_assoc]
    · have h' : (Except.ok (({ out := dst.out, script := (dst.write hb).1.script } : Writer), false) : R _) = .ok (dst', ok) := h
      injection h' with h'
      injection h' with h1 h2
      subst h1 h2
      constructor
      · intro hc; cases hc
      · constructor
        · intro hc
          have := congrArg List.length hc
          simp only [List.length_append, h44] at this
          omega
        · rintro ⟨hc, -⟩
          cases hc

/-- a writer that is interrupted and short later still gets everything -/
example : taken { out := [], script := [.accept 100, .interrupted, .accept 1] } = 44 ∧
    (six.saveTo .debug { out := [], script := [.accept 100, .interrupted, .accept 1] }).map (fun r => (r.1.out.length, r.2)) = .ok (56, true) := by
  decide +kernel

end Adhoc
