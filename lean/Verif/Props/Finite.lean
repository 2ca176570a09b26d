import Verif.Props.Silence
import Verif.Props.Continue
import Verif.Spec.Tape

/-! # C102: what playing delivers is finite and bounded, whatever was loaded -/

namespace Adhoc
open Spec F32

/-- a buffered sample -/
def Spec.Tame (x : F32) : Prop := Below (32769 / 32768) x

/-- the channels of a codec that plays -/
structure TameAll (s : F32) (c : AdhocCodec) : Prop where
  chans : ∀ fc ∈ c.channelStateList, Last fc.history [] ∧ ∀ x ∈ fc.buffered, Tame x
  scale : c.scale = s

theorem tame_normalize {i : ℤ} (h : InI 16 i) : Tame (normalizeSample i) := by
  have h := inI16.1 h
  have hi : |i| ≤ 32768 := by rw [abs_le]; omega
  refine ⟨_, is_normalize hi, ?_⟩
  refine roundQ_abs_le (grid_half (n := 32769) (e := -15) (by norm_num) (by norm_num) (by rw [zpow_neg]; norm_num)) ?_
  have : |(i : ℚ)| ≤ 32768 := by exact_mod_cast hi
  rw [abs_mul, show |(32769 : ℚ) / 2 ^ 30| = 32769 / 2 ^ 30 by norm_num]
  norm_num at this ⊢
  linarith

theorem tame_clamp {i : ℤ} (h : InI 16 i) : Tame ((normalizeSample i).clamp (ofInt (-1)) (ofInt 1)) := by
  obtain ⟨v, iv, -⟩ := tame_normalize h
  have hne : normalizeSample i ≠ .nan := by
    rintro e
    rw [e] at iv
    obtain ⟨_, h⟩ := iv
    cases h
  refine ⟨_, is_clamp hne, (unit_abs _).trans (by norm_num)⟩

theorem tame_zero : Tame (ofInt 0) := ⟨0, by simpa using is_int (n := 0) (by norm_num), by norm_num⟩

theorem ens_decodeSamples_tame {b : Build} {k : Nat} : ∀ (n : Nat) {s : BitStream} {h : CircularStack Int} {buf : List F32}
    (_ : Last h []) (_ : ∀ x ∈ buf, Tame x),
    Ens (FrameCodec.decodeSamples b k n s h buf) (fun r => Last r.2.1 [] ∧ ∀ x ∈ r.2.2, Tame x)
  | 0, _, _, _, H, hb => Ens.ok ⟨H, hb⟩
  | n + 1, s, h, buf, H, hb => by
    unfold FrameCodec.decodeSamples
    refine (Ens.any _).bind fun r _ => Ens.bind (P := fun a => InI 16 a) (fun a ha => clamp_i16 ha) fun a ha => ?_
    refine ens_decodeSamples_tame n (H.push a).weaken ?_
    intro x hx
    rcases List.mem_append.1 hx with hx | hx
    · exact hb x hx
    · rw [List.mem_singleton.1 hx]
      exact tame_clamp ha

theorem ens_decodeFrame_tame {b : Build} {fc : FrameCodec} {st : AudioStream} {hd : FrameHeaders} (H : Last fc.history []) (hb : ∀ x ∈ fc.buffered, Tame x) :
    Ens (fc.decodeFrame b st hd) (fun r => Last r.1.history [] ∧ ∀ x ∈ r.1.buffered, Tame x) := by
  unfold FrameCodec.decodeFrame
  refine (Ens.any _).bind fun r _ => ?_
  obtain ⟨hd', hdr?⟩ := r
  dsimp only
  split
  · exact Ens.ok ⟨H, hb⟩
  · split
    · refine (ens_readRaw _).bind fun r0 h0 => (ens_readRaw _).bind fun r1 h1 => (ens_readRaw _).bind fun r2 h2 => ?_
      have L := ((H.push r0.2).push r1.2).push r2.2
      refine (ens_decodeSamples_tame _ L.weaken ?_).bind fun r hh => Ens.ok hh
      rw [L.prev (by omega) (by omega) (by simp), L.prev (by omega) (by omega) (by simp), L.prev (by omega) (by omega) (by simp)]
      intro x hx
      rcases List.mem_append.1 hx with hx | hx
      · exact hb x hx
      · simp at hx
        rcases hx with rfl | rfl | rfl
        · exact tame_normalize h0
        · exact tame_normalize h1
        · exact tame_normalize h2
    · exact (ens_decodeSamples_tame _ H hb).bind fun r hh => Ens.ok hh
    · exact Ens.error

theorem tame_set {l l' : List FrameCodec} {i : Nat} {fc : FrameCodec} (h : setIdx l i fc = .ok l')
    (hl : ∀ fc ∈ l, Last fc.history [] ∧ ∀ x ∈ fc.buffered, Tame x) (hf : Last fc.history [] ∧ ∀ x ∈ fc.buffered, Tame x) :
    ∀ fc ∈ l', Last fc.history [] ∧ ∀ x ∈ fc.buffered, Tame x := by
  obtain ⟨h1, rfl⟩ := setIdx_eq_ok.1 h
  intro x hx
  rcases List.mem_or_eq_of_mem_set hx with hx | rfl
  · exact hl x hx
  · exact hf

theorem ens_idx_tame {l : List FrameCodec} {i : Nat} (hl : ∀ fc ∈ l, Last fc.history [] ∧ ∀ x ∈ fc.buffered, Tame x) :
    Ens (idx l i) fun fc => Last fc.history [] ∧ ∀ x ∈ fc.buffered, Tame x := by
  intro fc h
  exact hl fc (List.mem_of_getElem? (idx_eq_ok.1 h))

theorem ens_decodeBlock_tame {b : Build} {s : F32} {c : AdhocCodec} {n : Nat} (H : TameAll s c) : Ens (c.decodeBlock b n) (TameAll s) := by
  unfold AdhocCodec.decodeBlock
  refine Ens.foldlM ?_ _ _ H
  intro c ch H
  unfold AdhocCodec.decodeChannel
  refine (ens_idx_tame H.chans).bind fun fc hfc => ?_
  refine (ens_decodeFrame_tame hfc.1 hfc.2).bind fun r hr => ?_
  exact Ens.bind (fun l hl => tame_set hl H.chans hr) fun l hl => Ens.ok ⟨hl, H.scale⟩

theorem ens_bufferAudio_tame {b : Build} {s : F32} {n : Nat} : ∀ (left : Nat) {c : AdhocCodec} (_ : TameAll s c),
    Ens (AdhocCodec.bufferAudio b n left c) (fun r => TameAll s r.1)
  | 0, _, H => Ens.ok H
  | left + 1, c, H => by
    unfold AdhocCodec.bufferAudio
    split
    · exact (ens_decodeBlock_tame H).bind fun c' H' => ens_bufferAudio_tame left H'
    · exact Ens.ok H

/-- the front of a buffer is filled with such samples -/
def Filled (pcm : List F32) (cursor : Nat) : Prop := ∀ i (h : i < pcm.length), i < cursor → Tame pcm[i]

theorem ens_popBlock_tame {s : F32} {legal : Nat} : ∀ (n ch : Nat) {c : AdhocCodec} (_ : TameAll s c) {pcm : List F32} {cursor : Nat}
    (_ : Filled pcm cursor), Ens (AdhocCodec.popBlock legal n ch c pcm cursor) (fun r => TameAll s r.1 ∧ Filled r.2.1 r.2.2)
  | 0, _, _, H, _, _, hp => Ens.ok ⟨H, hp⟩
  | n + 1, ch, c, H, pcm, cursor, hp => by
    unfold AdhocCodec.popBlock
    split
    · refine (ens_idx_tame H.chans).bind fun fc hfc => ?_
      have ht : ∀ x ∈ fc.buffered.tail, Tame x := fun x hx => hfc.2 x (List.mem_of_mem_tail hx)
      refine Ens.bind (fun l hl => tame_set hl H.chans ⟨hfc.1, ht⟩) fun l hl => ?_
      refine Ens.bind (P := fun p => Filled p (cursor + 1)) ?_ fun p hp' => ?_
      · intro p e
        obtain ⟨h1, rfl⟩ := setIdx_eq_ok.1 e
        intro i hi hc
        rw [List.getElem_set]
        split
        · rcases hfb : fc.buffered with _ | ⟨y, ys⟩
          · exact tame_zero
          · exact hfc.2 y (by rw [hfb]; exact List.mem_cons_self)
        · exact hp i (by simpa using hi) (by omega)
      · exact ens_popBlock_tame n (ch + 1) (c := { c with channelStateList := l }) ⟨hl, H.scale⟩ hp'
    · exact Ens.ok ⟨H, hp⟩

theorem ens_decodeLoop_tame {b : Build} {s : F32} {n legal : Nat} : ∀ (fuel : Nat) {c : AdhocCodec} (_ : TameAll s c)
    {pcm : List F32} {cursor : Nat} (_ : Filled pcm cursor),
    Ens (AdhocCodec.decodeLoop b n legal fuel c pcm cursor) (fun r => TameAll s r.1 ∧ Filled r.2.1 r.2.2)
  | 0, _, _, _, _, _ => Ens.error
  | fuel + 1, c, H, pcm, cursor, hp => by
    unfold AdhocCodec.decodeLoop
    split
    · refine (ens_bufferAudio_tame _ H).bind fun r hr => ?_
      obtain ⟨c', left⟩ := r
      dsimp only at hr ⊢
      split
      · exact Ens.ok ⟨hr, hp⟩
      · exact (ens_popBlock_tame _ _ hr hp).bind fun r hr => ens_decodeLoop_tame fuel hr.1 hr.2
    · exact Ens.ok ⟨H, hp⟩

theorem ens_decode_tame {b : Build} {s : F32} {c : AdhocCodec} (H : TameAll s c) (buf : List F32) :
    Ens (c.decode b buf) (fun r => TameAll s r.1 ∧ ∀ y ∈ r.2.1.take (r.2.2.getD 0), ∃ x, Tame x ∧ y = x * s) := by
  unfold AdhocCodec.decode
  refine Ens.bind (P := fun r => TameAll s r.1 ∧ ∀ y ∈ r.2.1.take r.2.2, ∃ x, Tame x ∧ y = x * s) ?_ fun r hr => Ens.ok ⟨hr.1, ?_⟩
  · unfold AdhocCodec.decodeRaw
    refine (Ens.any _).bind fun i _ => (Ens.any _).bind fun q _ => ?_
    refine (ens_decodeLoop_tame _ H (cursor := 0) (fun i _ h => absurd h (by omega))).bind fun r hr => Ens.ok ⟨hr.1, ?_⟩
    dsimp only
    intro y hy
    rw [← List.map_take] at hy
    obtain ⟨x, hx, rfl⟩ := List.mem_map.1 hy
    obtain ⟨i, hi, rfl⟩ := List.getElem_of_mem hx
    rw [List.getElem_take]
    simp at hi
    exact ⟨_, hr.2 i hi.2 hi.1, by rw [hr.1.scale]⟩
  · dsimp only
    split
    · exact hr.2
    · simp

theorem TameAll.init {s : F32} {c : AdhocCodec} (H : TameAll s c) : TameAll s c.init := by
  refine ⟨?_, H.scale⟩
  intro fc hfc
  obtain ⟨x, hx, rfl⟩ := List.mem_map.1 hfc
  exact ⟨(H.chans x hx).1, by simp [FrameCodec.init]⟩

theorem ens_seek_tame {b : Build} {s : F32} {c : AdhocCodec} (H : TameAll s c) (t : SeekFrom) : Ens (c.seek b t) (TameAll s) := by
  unfold AdhocCodec.seek
  refine (Ens.any _).bind fun info _ => ?_
  dsimp only
  split
  · split
    · exact Ens.ok H.init
    · unfold AdhocCodec.seekTo
      refine (Ens.any _).bind fun target _ => (Ens.any _).bind fun _ _ => (Ens.any _).bind fun r _ => ?_
      refine (Ens.any _).bind fun _ _ => (Ens.any _).bind fun hdr _ => ?_
      refine Ens.bind (P := TameAll s) ?_ fun c' h' => ?_
      · refine Ens.foldlM ?_ _ _ ⟨H.init.chans, H.scale⟩
        intro c1 off h
        unfold AdhocCodec.seekChannel
        refine (Ens.any _).bind fun _ _ => (Ens.any _).bind fun hdr _ => (ens_idx_tame h.chans).bind fun fc hfc => ?_
        refine (ens_decodeFrame_tame (((hfc.1.push _).push _).push _).weaken (by simp)).bind fun r hr => ?_
        exact Ens.bind (fun l hl => tame_set hl h.chans hr) fun l hl => Ens.ok ⟨hl, h.scale⟩
      · generalize target + 1 = fuel
        generalize r.1 = skipped
        induction fuel generalizing skipped c' with
        | zero => exact Ens.error
        | succ fuel ih =>
          unfold AdhocCodec.prune
          split
          · refine Ens.bind (P := TameAll s) ?_ fun c2 h2 => (Ens.any _).bind fun _ _ => ih c2 h2 _
            unfold AdhocCodec.dropOne
            refine Ens.foldlM ?_ _ _ h'
            intro c1 off h
            refine (ens_idx_tame h.chans).bind fun fc hfc => ?_
            have ht : ∀ x ∈ fc.buffered.tail, Tame x := fun x hx => hfc.2 x (List.mem_of_mem_tail hx)
            exact Ens.bind (fun l hl => tame_set hl h.chans ⟨hfc.1, ht⟩) fun l hl => Ens.ok ⟨hl, h.scale⟩
          · exact Ens.ok h'
  · exact Ens.error

theorem ens_winds_tame {b : Build} {s : F32} : ∀ (acts : List Act) {c : AdhocCodec} (_ : TameAll s c),
    Ens (winds b c acts) fun outs => ∀ y ∈ delivered outs, ∃ x, Tame x ∧ y = x * s
  | [], _, _ => Ens.ok (by simp [delivered])
  | .seek ms :: acts, c, H => by
    unfold winds
    exact (ens_seek_tame H _).bind fun c' H' => ens_winds_tame acts H'
  | .read buf :: acts, c, H => by
    unfold winds
    refine (ens_decode_tame H buf).bind fun r hr => (ens_winds_tame acts hr.1).bind fun outs ho => Ens.ok ?_
    intro y hy
    simp only [delivered, List.flatMap_cons, List.mem_append] at hy
    rcases hy with hy | hy
    · exact hr.2 y hy
    · exact ho y hy

/-- a sample times ± a power of two up to 2^31 -/
theorem tame_scaled {x s : F32} {k : Nat} (hk : k ≤ 31) {v : ℚ} (hs : Is s v) (hv : |v| = 2 ^ k) {B : ℚ} (hB : B ≤ 2) (hx : Below B x) : Below (B * 2 ^ k) (x * s) := by
  obtain ⟨u, iu, hu⟩ := hx
  have hv' : v = 2 ^ k ∨ v = -2 ^ k := by
    rcases abs_choice v with e | e
    · left; rw [← hv, e]
    · right; rw [← hv, e, neg_neg]
  have hP : (2 : ℚ) ^ k ≤ 2 ^ 31 := pow_le_pow_right₀ (by norm_num) hk
  have hlt : |u * v| < 2 ^ 128 := by
    rw [abs_mul, hv]
    calc |u| * 2 ^ k ≤ 2 * 2 ^ 31 := by gcongr; linarith
      _ < _ := by norm_num
  have hg : Rep (u * v) := by
    obtain ⟨n, e, h1, h2, h3⟩ := iu.rep.grid
    rcases hv' with rfl | rfl
    · exact (show Grid (u * 2 ^ k) from ⟨n, e + k, h1, by omega, by rw [h3, zpow_add₀ (by norm_num), zpow_natCast]; ring⟩).rep hlt
    · exact (show Grid (u * -2 ^ k) from ⟨-n, e + k, by rwa [abs_neg], by omega, by rw [h3, zpow_add₀ (by norm_num), zpow_natCast]; push_cast; ring⟩).rep hlt
  refine ⟨u * v, ?_, ?_⟩
  · have := iu.mul hs (B := |u * v|) (by
      rcases abs_choice (u * v) with e | e <;> rw [e]
      · exact hg
      · exact hg.grid.neg.rep (by rw [abs_neg]; exact hg.lt)) le_rfl
    rwa [roundQ_grid hg.grid] at this
  · rw [abs_mul, hv]
    gcongr

theorem ofRat_ne_nan (q : ℚ) : ofRat q ≠ .nan := by
  unfold ofRat
  split <;> simp

theorem normalize_ne_nan (i : ℤ) : normalizeSample i ≠ .nan := by
  obtain ⟨h, e⟩ := is_norm
  unfold normalizeSample
  rw [e, mul_def]
  rcases hi : ofInt i with _ | s | ⟨q, hq⟩
  · exact absurd hi (ofRat_ne_nan _)
  · show (if (32769 / 2 ^ 30 : ℚ) = 0 then nan else inf _) ≠ nan
    rw [if_neg (by norm_num)]
    simp
  · exact ofRat_ne_nan _

/-- the factor a loaded codec multiplies with -/
theorem load_tame {b : Build} {bytes : List Byte} {c : AdhocCodec} (h : AdhocCodec.load b bytes = .ok (some c)) :
    TameAll c.scale c ∧ ∃ v, Is c.scale v ∧ |v| = 2 ^ (c.compressionLevel % 32) := by
  unfold AdhocCodec.load at h
  split at h
  · cases h
  · rename_i slim rest _
    obtain ⟨s, hs, h⟩ := bind_eq_ok.1 h
    dsimp only at h
    split at h
    · cases h
    · cases h
      refine ⟨⟨?_, rfl⟩, ?_⟩
      · intro fc hfc
        obtain ⟨x, hx, rfl⟩ := List.mem_map.1 hfc
        rw [(List.mem_replicate.1 hx).2]
        exact ⟨last_new, by simp [FrameCodec.init]⟩
      · have hs : s = asI 32 (2 ^ (slim.compressionLevel % 32)) := by
          unfold AdhocCodec.shl1 at hs
          split at hs
          · rw [Nat.mod_eq_of_lt (by assumption)]
            exact (Except.ok.inj hs).symm
          · cases b with
            | debug => cases hs
            | release => exact (Except.ok.inj hs).symm
        show ∃ v, Is (ofInt s) v ∧ |v| = 2 ^ (slim.compressionLevel % 32)
        have hk := Nat.mod_lt slim.compressionLevel (show 0 < 32 by norm_num)
        generalize slim.compressionLevel % 32 = k at *
        have hsv : s = 2 ^ k ∨ s = -2 ^ k := by
          rw [hs]
          interval_cases k <;> decide
        have hg : Rep ((2 : ℚ) ^ k) := by
          refine (show Grid ((2 : ℚ) ^ k) from ⟨1, k, by norm_num, by omega, by simp⟩).rep ?_
          rw [abs_of_pos (by positivity)]
          exact lt_of_le_of_lt (pow_le_pow_right₀ (by norm_num) (show k ≤ 31 by omega)) (by norm_num)
        rcases hsv with e | e
        · refine ⟨2 ^ k, ⟨hg, ?_⟩, abs_of_pos (by positivity)⟩
          rw [e, ofInt]
          push_cast
          exact ofRat_rep _
        · have hg' : Rep (-(2 : ℚ) ^ k) := hg.grid.neg.rep (by rw [abs_neg]; exact hg.lt)
          refine ⟨-2 ^ k, ⟨hg', ?_⟩, by rw [abs_neg, abs_of_pos (by positivity)]⟩
          rw [e, ofInt]
          push_cast
          exact ofRat_rep _

/-! ## C102 -/

/-- C102. Whatever file is loaded, whole, damaged or made up, and whatever is read and sought, every sample that is delivered is a finite
number of at most 32769/32768 times two to the level in the file (taken modulo 32). -/
theorem C102_loaded (b b' : Build) (bytes : List Byte) (c : AdhocCodec) (h : AdhocCodec.load b bytes = .ok (some c)) (acts : List Act)
    (outs : List (List F32 × Option Nat)) (ho : winds b' c acts = .ok outs) :
    ∀ y ∈ delivered outs, Below (32769 / 32768 * 2 ^ (c.compressionLevel % 32)) y := by
  obtain ⟨H, v, hv, he⟩ := load_tame h
  intro y hy
  obtain ⟨x, hx, rfl⟩ := ens_winds_tame acts H outs ho y hy
  exact tame_scaled (by have := Nat.mod_lt c.compressionLevel (show 0 < 32 by norm_num); omega) hv he (by norm_num) hx

/-- C102, for recordings. Whatever samples are encoded, NaN and infinite ones and such that are out of range among them, every sample that
is delivered is a finite number of at most two to the level. -/
theorem C102_recorded (b b' : Build) (info : StreamInfo) (hn : 0 < info.channels) (level : Nat) (calls : List (List F32)) (c : AdhocCodec)
    (h : encodeAll b (fresh info level) calls = .ok c) (hs : ∀ pcm ∈ calls, pcm.length / info.channels < 65536)
    (hg : NoGap (calls.map fun pcm => pcm.length / info.channels)) (bufs : List (List F32)) (c' : AdhocCodec) (outs : List (List F32 × Option Nat))
    (ho : decodeAll b' c.init bufs = .ok (c', outs)) : ∀ y ∈ delivered outs, Below (2 ^ min level 10) y := by
  obtain ⟨Q, -, -, hd⟩ := playback hn h hs hg
  obtain ⟨c'', e, -⟩ := hd b' bufs
  rw [ho] at e
  cases e
  intro y hy
  obtain ⟨r, hr, hy⟩ := List.mem_flatMap.1 hy
  obtain ⟨r', hr', rfl⟩ := List.mem_map.1 hr
  dsimp only at hy
  rw [← List.map_take] at hy
  obtain ⟨x, hx, rfl⟩ := List.mem_map.1 hy
  have hx1 : Below 1 x := by
    have hw : ∀ blk ∈ played info.channels (signal info.channels calls).length Q, blk.length = info.channels := by
      intro blk hb
      obtain ⟨k, -, rfl⟩ := List.mem_map.1 hb
      simp
    obtain ⟨d, hd, -⟩ := readBlocks_delivered info.channels bufs _ hw
    have : x ∈ delivered (readBlocks info.channels (played info.channels (signal info.channels calls).length Q) bufs) :=
      List.mem_flatMap.2 ⟨r', hr', hx⟩
    rw [hd] at this
    obtain ⟨blk, hb, hx⟩ := List.mem_flatten.1 this
    obtain ⟨k, -, rfl⟩ := List.mem_map.1 (List.mem_of_mem_take hb)
    obtain ⟨ch, -, rfl⟩ := List.mem_map.1 hx
    generalize (decoded (Q ch)).getD k 0 = i
    exact ⟨_, is_clamp (normalize_ne_nan i), unit_abs _⟩
  have hsc := (fresh_scale info level).1
  have := tame_scaled (k := min level 10) (by omega) hsc (abs_of_pos (by positivity)) (by norm_num) hx1
  rwa [one_mul] at this

/-- the first three samples of a file can be -32768, which is just below -1 -/
example : Is (normalizeSample (-32768)) (-(32769 / 32768)) := by
  have := is_normalize (i := -32768) (by norm_num)
  rw [show (((-32768 : ℤ) : ℚ) * (32769 / 2 ^ 30)) = -(32769 / 32768) by norm_num,
    roundQ_grid (grid_half (n := -32769) (e := -15) (by norm_num) (by norm_num) (by rw [zpow_neg]; norm_num))] at this
  exact this

/-- a recording with NaN, infinite and huge samples is made and played -/
def wild : List (List F32) := [[.nan, .inf false, .inf true, ofInt 1000, .nan, ofInt (-3)]]

example : ∃ c c' outs, encodeAll .debug (fresh ⟨44100, 1⟩ 2) wild = .ok c ∧ decodeAll .debug c.init [List.replicate 6 (ofInt 0)] = .ok (c', outs) ∧
    (delivered outs).length = 6 := by
  have h : (match encodeAll .debug (fresh ⟨44100, 1⟩ 2) wild with
    | .ok c => (match decodeAll .debug c.init [List.replicate 6 (ofInt 0)] with
      | .ok (_, outs) => decide ((delivered outs).length = 6)
      | .error _ => false)
    | .error _ => false) = true := by decide +kernel
  split at h
  · rename_i c hc
    split at h
    · rename_i c' outs hd
      exact ⟨c, c', outs, hc, hd, of_decide_eq_true h⟩
    · cases h
  · cases h

/-- and its file is loaded and played -/
example : ((encodeAll .debug (fresh ⟨44100, 1⟩ 2) wild) >>= fun c => do
    match ← AdhocCodec.load .debug (file c) with
    | some c' => (fun outs => (delivered outs).length) <$> winds .debug c' [.read (List.replicate 6 (ofInt 0))]
    | none => pure 0) = .ok 6 := by decide +kernel
