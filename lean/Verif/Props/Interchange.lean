import Verif.Props.Seek
import Verif.Props.WavTape
import Verif.Props.Cli

/-! # C157: the two codecs play the same -/

namespace Adhoc
open Spec F32

/-- the results of a sequence of reads and seeks on a WAV codec -/
def Spec.wavWinds (b : Build) : WavCodec → List Act → R (List (List F32 × Option Nat))
  | _, [] => pure []
  | w, .read buf :: acts => do
    let (w, out, n) ← w.decode buf
    let outs ← wavWinds b w acts
    pure ((out, n) :: outs)
  | w, .seek ms :: acts => do
    let w ← w.seek b (.start ms)
    wavWinds b w acts

theorem drop_flatten_width {α : Type} {n : Nat} : ∀ {sig : List (List α)} (_ : ∀ blk ∈ sig, blk.length = n) (m : Nat),
    sig.flatten.drop (m * n) = (sig.drop m).flatten
  | [], _, m => by simp
  | blk :: sig, hw, 0 => by simp
  | blk :: sig, hw, m + 1 => by
    have h := hw blk (by simp)
    rw [List.flatten_cons, List.drop_succ_cons, Nat.succ_mul, Nat.add_comm, ← List.drop_drop, ← h, List.drop_left, h,
      drop_flatten_width (fun x hx => hw x (by simp [hx]))]

theorem take_flatten_width {α : Type} {n : Nat} : ∀ {sig : List (List α)} (_ : ∀ blk ∈ sig, blk.length = n) (m : Nat),
    sig.flatten.take (m * n) = (sig.take m).flatten
  | [], _, m => by simp
  | blk :: sig, hw, 0 => by simp
  | blk :: sig, hw, m + 1 => by
    have h := hw blk (by simp)
    rw [List.flatten_cons, List.take_succ_cons, List.flatten_cons, Nat.succ_mul, Nat.add_comm, ← h, List.take_length_add_append, h,
      take_flatten_width (fun x hx => hw x (by simp [hx]))]

/-- recording: the cells are the samples of the whole blocks -/
theorem reelRun_encodes {n : Nat} (hn : 0 < n) : ∀ (calls : List (List F32)) (cells : List Int),
    (reelRun n ⟨cells, cells.length⟩ (calls.map .encode)).1 =
      ⟨cells ++ (signal n calls).flatten.map truncateSample, (cells ++ (signal n calls).flatten.map truncateSample).length⟩
  | [], cells => by simp [reelRun, signal]
  | pcm :: calls, cells => by
    simp only [List.map_cons, reelRun]
    have e : (⟨cells, cells.length⟩ : Reel).put ((pcm.take (whole n pcm.length)).map truncateSample) =
        ⟨cells ++ (pcm.take (whole n pcm.length)).map truncateSample, (cells ++ (pcm.take (whole n pcm.length)).map truncateSample).length⟩ := by
      simp [Reel.put]
    rw [e, reelRun_encodes hn calls]
    have : (signal n (pcm :: calls)).flatten = pcm.take (whole n pcm.length) ++ (signal n calls).flatten := by
      simp only [signal, List.flatMap_cons, List.flatten_append]
      rw [flatten_blocksOf hn]
    rw [this, List.map_append, List.append_assoc]

/-- both codecs go to the same block -/
theorem offsets_agree {info : StreamInfo} (hR : info.sampleRate < 2 ^ 32) {ms : Nat} (hms : ms ≤ 2 ^ 64) (h : AdhocCodec.seekOffset info ms < 2 ^ 63) :
    WavCodec.seekOffset info ms = AdhocCodec.seekOffset info ms := by
  obtain ⟨-, h1, h2, -⟩ := C14_exact_partial info hR ms hms _ rfl
  omega

theorem wavWinds_ok {b : Build} {sig : List (List F32)} : ∀ (acts : List Act) {w : WavCodec} {m : Nat}
    (_ : IsReel w ⟨sig.flatten.map truncateSample, m * w.info.channels⟩) (_ : 0 < w.info.channels) (_ : w.info.sampleRate < 2 ^ 32)
    (_ : ∀ blk ∈ sig, blk.length = w.info.channels) (_ : sig.length * w.info.channels < 2 ^ 63) (_ : m ≤ sig.length)
    (_ : ∀ ms, Act.seek ms ∈ acts → ms ≤ 2 ^ 64 ∧ AdhocCodec.seekOffset w.info ms < sig.length),
    wavWinds b w acts = .ok (tape w.info.channels (AdhocCodec.seekOffset w.info) (sig.map (·.map quantise)) m acts)
  | [], w, m, _, _, _, _, _, _, _ => rfl
  | .seek ms :: acts, w, m, H, hn, hR, hw, hl, hm, hs => by
    obtain ⟨hms, hoff⟩ := hs ms (by simp)
    have hle : (AdhocCodec.seekOffset w.info ms + 1) * w.info.channels ≤ sig.length * w.info.channels := Nat.mul_le_mul_right _ hoff
    have hsuc : (AdhocCodec.seekOffset w.info ms + 1) * w.info.channels = AdhocCodec.seekOffset w.info ms * w.info.channels + w.info.channels := Nat.succ_mul _ _
    have h1 : AdhocCodec.seekOffset w.info ms ≤ AdhocCodec.seekOffset w.info ms * w.info.channels := Nat.le_mul_of_pos_right _ hn
    have heq := offsets_agree hR hms (by omega)
    have hnum : w.numSamples = sig.length * w.info.channels := by
      rw [H.samples]; simp only [List.length_map]; exact length_flatten_width hw
    have hprod : WavCodec.seekOffset w.info ms * (w.info.channels : Int) = ((AdhocCodec.seekOffset w.info ms * w.info.channels : Nat) : Int) := by
      rw [heq]; push_cast; rfl
    have hC := C40_seek_partial b w hn (by omega)
    obtain ⟨w', e, hc⟩ := hC.1 ms (by rw [hprod, abs_of_nonneg (by positivity)]; omega)
    obtain ⟨e', -⟩ := hC.2.2.2 _ _ e
    have hcur : w'.shortCursor = AdhocCodec.seekOffset w.info ms * w.info.channels := by
      rw [hprod] at hc
      omega
    have hi : w'.info = w.info := by rw [e']
    have H' : IsReel w' ⟨sig.flatten.map truncateSample, AdhocCodec.seekOffset w.info ms * w'.info.channels⟩ := by
      refine ⟨by rw [e']; exact H.bytes, H.range, by rw [hcur, hi], ?_⟩
      have : (sig.flatten.map truncateSample).length = sig.length * w.info.channels := by
        rw [List.length_map, length_flatten_width hw]
      dsimp only
      rw [hi, this]
      omega
    have ih := wavWinds_ok (b := b) acts H' (by rw [hi]; exact hn) (by rw [hi]; exact hR) (by rw [hi]; exact hw) (by rw [hi]; exact hl) hoff.le
      (fun x hx => by rw [hi]; exact hs x (by simp [hx]))
    unfold wavWinds
    rw [e, bind_ok, ih, hi]
    rfl
  | .read buf :: acts, w, m, H, hn, hR, hw, hl, hm, hs => by
    obtain ⟨w', e, hi, H'⟩ := wavDecode_ok H hn buf
    have hd : (⟨sig.flatten.map truncateSample, m * w.info.channels⟩ : Reel).next (whole w.info.channels buf.length) =
        ((sig.drop m).take (min (buf.length / w.info.channels) (sig.length - m))).flatten.map truncateSample := by
      unfold Reel.next whole
      simp only
      rw [← List.map_drop, drop_flatten_width hw, ← List.map_take, take_flatten_width (fun x hx => hw x (List.mem_of_mem_drop hx))]
      congr 2
      rw [List.take_eq_take_iff]
      simp
    have hlen : (((sig.drop m).take (min (buf.length / w.info.channels) (sig.length - m))).flatten.map truncateSample).length =
        min (buf.length / w.info.channels) (sig.length - m) * w.info.channels := by
      rw [List.length_map, length_flatten_width (fun x hx => hw x (List.mem_of_mem_drop (List.mem_of_mem_take hx)))]
      congr 1
      simp
    rw [hd] at e H'
    rw [hlen, ← Nat.add_mul, ← hi] at H'
    have ih := wavWinds_ok (b := b) acts H' (by rw [hi]; exact hn) (by rw [hi]; exact hR) (by rw [hi]; exact hw) (by rw [hi]; exact hl) (by omega)
      (fun x hx => by rw [hi]; exact hs x (by simp [hx]))
    unfold wavWinds
    rw [e, bind_ok]
    dsimp only
    rw [hi] at ih
    rw [ih, bind_ok]
    rw [hlen]
    have hz : (((sig.drop m).take (min (buf.length / w.info.channels) (sig.length - m))).flatten.map truncateSample = []) ↔
        min (buf.length / w.info.channels) (sig.length - m) = 0 := by
      rw [← List.length_eq_zero_iff, hlen, Nat.mul_eq_zero]
      omega
    have ht : tape w.info.channels (AdhocCodec.seekOffset w.info) (sig.map (·.map quantise)) m (.read buf :: acts) =
        ((((sig.map (·.map quantise)).drop m).take (min (buf.length / w.info.channels) ((sig.map (·.map quantise)).length - m))).flatten ++
            buf.drop (min (buf.length / w.info.channels) ((sig.map (·.map quantise)).length - m) * w.info.channels),
          if min (buf.length / w.info.channels) ((sig.map (·.map quantise)).length - m) = 0 then none
          else some (min (buf.length / w.info.channels) ((sig.map (·.map quantise)).length - m) * w.info.channels)) ::
          tape w.info.channels (AdhocCodec.seekOffset w.info) (sig.map (·.map quantise))
            (m + min (buf.length / w.info.channels) ((sig.map (·.map quantise)).length - m)) acts := rfl
    rw [ht, List.length_map, List.map_map, ← List.map_drop, ← List.map_take, ← List.map_flatten]
    simp only [hz]
    rfl

theorem wavRun_encodes (info : StreamInfo) (hn : 0 < info.channels) (calls : List (List F32)) : ∃ w outs,
    wavRun (WavCodec.new info) (calls.map .encode) = .ok (w, outs) ∧ w.info = info ∧
      IsReel w ⟨(signal info.channels calls).flatten.map truncateSample, ((signal info.channels calls).flatten.map truncateSample).length⟩ := by
  obtain ⟨w, e, hi, H⟩ := C34_tape_partial (WavCodec.new info) ⟨[], 0⟩ (C34_codecs.1 info) hn (calls.map .encode)
  refine ⟨w, _, e, hi, ?_⟩
  have := reelRun_encodes hn calls []
  simp only [List.length_nil, List.nil_append] at this
  rw [show (WavCodec.new info).info = info from rfl, this] at H
  exact H

/-- C157 as stated: whatever both codecs can seek to, they play the same -/
def C157_statement : Prop :=
  ∀ (info : StreamInfo) (calls : List (List F32)) (c : AdhocCodec) (w : WavCodec) (outs : List (List F32 × Option Nat)), 0 < info.channels →
    Proper info.channels calls → (∀ ch < info.channels, InSync (Spec.codes ch (signal info.channels calls))) →
    encodeAll .release (fresh info 0) calls = .ok c → wavRun (WavCodec.new info) (calls.map .encode) = .ok (w, outs) →
    ∀ (ms : Nat) (buf : List F32), AdhocCodec.seekOffset info ms ≤ (signal info.channels calls).length →
      winds .release c [.seek ms, .read buf] = wavWinds .release w [.seek ms, .read buf]

/-- C157: what was recorded at level 0 without losing sync is played, by every sequence of seeks in front of the end and reads that begins with a seek, as
the WAV codec plays it, and this is the signal with 16 bits; in any build. Missing: the time of the end itself (`C157_end_partial`). -/
theorem C157_same_partial (b b' b'' : Build) (info : StreamInfo) (calls : List (List F32)) (c : AdhocCodec) (hn : 0 < info.channels)
    (hR : info.sampleRate < 2 ^ 32) (hp : Proper info.channels calls) (hne : calls ≠ [])
    (hsync : ∀ ch < info.channels, InSync (Spec.codes ch (signal info.channels calls))) (h : encodeAll b (fresh info 0) calls = .ok c)
    (hb : c.stream.stream.bitCursor < 2 ^ 64) (hl : (signal info.channels calls).length * info.channels < 2 ^ 63) :
    ∃ w outs, wavRun (WavCodec.new info) (calls.map .encode) = .ok (w, outs) ∧
      ∀ (ms : Nat) (acts : List Act),
        (∀ ms', Act.seek ms' ∈ Act.seek ms :: acts → ms' ≤ 2 ^ 64 ∧ AdhocCodec.seekOffset info ms' < (signal info.channels calls).length) →
        winds b' c (.seek ms :: acts) = wavWinds b'' w (.seek ms :: acts) ∧
        wavWinds b'' w (.seek ms :: acts) =
          .ok (tape info.channels (AdhocCodec.seekOffset info) ((signal info.channels calls).map (·.map quantise)) 0 (.seek ms :: acts)) := by
  obtain ⟨w, outs, e, hi, H⟩ := wavRun_encodes info hn calls
  refine ⟨w, outs, e, fun ms acts hs => ?_⟩
  have hw : ∀ blk ∈ signal info.channels calls, blk.length = info.channels := signal_width
  have hlen : ((signal info.channels calls).flatten.map truncateSample).length = (signal info.channels calls).length * w.info.channels := by
    rw [List.length_map, length_flatten_width hw, hi]
  rw [hlen] at H
  have h2 := wavWinds_ok (b := b'') (.seek ms :: acts) H (by rw [hi]; exact hn) (by rw [hi]; exact hR) (by rw [hi]; exact hw) (by rw [hi]; exact hl) le_rfl
    (by rw [hi]; exact hs)
  rw [hi] at h2
  have hq : ∀ ch < info.channels, stored (fresh info 0).invScale info.channels ch 0 calls = Spec.codes ch (signal info.channels calls) :=
    fun ch hch => stored_level_zero info calls hch
  have h1 := (C12_seek_is_skip b b' info 0 calls c hn h hp hne (fun ch hch => by rw [hq ch hch]; exact hsync ch hch) hb (.seek ms :: acts)
    (fun x hx => (hs x hx).2.le)).2.1 ms rfl
  have hpl : played info.channels (signal info.channels calls).length (fun ch => stored (fresh info 0).invScale info.channels ch 0 calls) =
      (signal info.channels calls).map (·.map quantise) := by
    rw [← played_inSync hw hsync]
    unfold played
    refine List.map_congr_left fun k _ => List.map_congr_left fun ch hch => ?_
    dsimp only
    rw [hq ch (by simpa using hch)]
  rw [hpl, (fresh_zero info).1, map_mul_one] at h1
  refine ⟨?_, h2⟩
  rw [h1, h2]
  rfl

/-- C157 for files: the WAV file and the .adhoc file of the same signal, loaded, are played alike by every sequence of reads and seeks in front of the end;
for at least 106 samples (C33), whose number does not spell `data`. -/
theorem C157_files_partial (b b' b'' : Build) (info : StreamInfo) (calls : List (List F32)) (c : AdhocCodec) (hn : 0 < info.channels)
    (hch : info.channels < 2048) (hR : info.sampleRate * info.channels * 16 < 2 ^ 31) (hp : Proper info.channels calls)
    (hsync : ∀ ch < info.channels, InSync (Spec.codes ch (signal info.channels calls))) (h : encodeAll b (fresh info 0) calls = .ok c)
    (hb : c.stream.stream.bitCursor < 2 ^ 64) (hf : calls.length * info.channels < 2 ^ 32)
    (h106 : 106 ≤ (signal info.channels calls).length * info.channels) (hl : (signal info.channels calls).length * info.channels * 2 + 36 < 2 ^ 32)
    (hd : (signal info.channels calls).length * info.channels * 2 ≠ 1635017024) :
    ∃ w outs dst c' w', wavRun (WavCodec.new info) (calls.map .encode) = .ok (w, outs) ∧ w.saveTo b Writer.perfect = .ok (dst, true) ∧
      AdhocCodec.load b (file c) = .ok (some c') ∧ WavCodec.load dst.out = .ok (.ok w') ∧
      ∀ acts : List Act,
        (∀ ms, Act.seek ms ∈ acts → ms ≤ 2 ^ 64 ∧ AdhocCodec.seekOffset info ms < (signal info.channels calls).length) →
        winds b' c' acts = wavWinds b'' w' acts ∧
        wavWinds b'' w' acts = .ok (tape info.channels (AdhocCodec.seekOffset info) ((signal info.channels calls).map (·.map quantise)) 0 acts) := by
  have hne : calls ≠ [] := by
    rintro rfl
    simp [signal] at h106
  have hrate : info.sampleRate < 2 ^ 32 := by
    have : info.sampleRate * 1 ≤ info.sampleRate * info.channels := Nat.mul_le_mul_left _ hn
    omega
  obtain ⟨w, outs, e, hi, H⟩ := wavRun_encodes info hn calls
  have hw : ∀ blk ∈ signal info.channels calls, blk.length = info.channels := signal_width
  have hbytes : w.pcm.length = (signal info.channels calls).length * info.channels * 2 := by
    rw [H.bytes, length_le16, List.length_map, length_flatten_width hw]
    omega
  obtain ⟨dst, es, el⟩ := C33_save_load_partial b w ⟨by rw [hi]; exact hn, by rw [hi]; exact hch, by rw [hi]; exact hR, by rw [hbytes]; exact hl⟩
    (by rw [hbytes]; omega) (by rw [hbytes]; exact hd)
  have hq : ∀ ch < info.channels, stored (fresh info 0).invScale info.channels ch 0 calls = Spec.codes ch (signal info.channels calls) :=
    fun ch hch => stored_level_zero info calls hch
  have hpl : played info.channels (signal info.channels calls).length (fun ch => stored (fresh info 0).invScale info.channels ch 0 calls) =
      (signal info.channels calls).map (·.map quantise) := by
    rw [← played_inSync hw hsync]
    unfold played
    refine List.map_congr_left fun k _ => List.map_congr_left fun ch hch => ?_
    dsimp only
    rw [hq ch (by simpa using hch)]
  have hsy : ∀ ch < info.channels, InSync (stored (fresh info 0).invScale info.channels ch 0 calls) := fun ch hch => by rw [hq ch hch]; exact hsync ch hch
  obtain ⟨c', ec, -⟩ := (C12_seek_is_skip b b' info 0 calls c hn h hp hne hsy hb [] (by simp)).2.2 hrate (by omega) hf
  refine ⟨w, outs, dst, c', _, e, es, ec, el, fun acts hs => ?_⟩
  obtain ⟨c'', ec', h1⟩ := (C12_seek_is_skip b b' info 0 calls c hn h hp hne hsy hb acts (fun x hx => (hs x hx).2.le)).2.2 hrate (by omega) hf
  rw [ec] at ec'
  cases ec'
  rw [hpl, (fresh_zero info).1, map_mul_one] at h1
  have H0 : IsReel { info := w.info, pcm := w.pcm, shortCursor := 0 } ⟨(signal info.channels calls).flatten.map truncateSample, 0 * w.info.channels⟩ :=
    ⟨H.bytes, H.range, by simp, by simp⟩
  have h2 := wavWinds_ok (b := b'') acts H0 (by dsimp only; rw [hi]; exact hn) (by dsimp only; rw [hi]; exact hrate) (by dsimp only; rw [hi]; exact hw)
    (by dsimp only; rw [hi]; omega) (Nat.zero_le _) (by dsimp only; rw [hi]; exact hs)
  dsimp only at h2
  refine ⟨h1.trans ?_, ?_⟩ <;> rw [h2, hi]

/-- C157: at the end and behind it (as far as nothing overflows), the WAV codec gives its last sample, whatever channel it is of, as the first sample of a
block; while AdhocCodec gives nothing at the end (C12) and panics behind it (C13). -/
theorem C157_end_partial (b : Build) (info : StreamInfo) (calls : List (List F32)) (hn : 0 < info.channels)
    (hne : signal info.channels calls ≠ []) (ms : Nat)
    (h0 : ((signal info.channels calls).length : Int) ≤ WavCodec.seekOffset info ms) (h63 : WavCodec.seekOffset info ms * info.channels < 2 ^ 63)
    (buf : List F32) (hbuf : info.channels ≤ buf.length) :
    ∃ w outs x, wavRun (WavCodec.new info) (calls.map .encode) = .ok (w, outs) ∧ (signal info.channels calls).flatten.getLast? = some x ∧
      wavWinds b w [.seek ms, .read buf] = .ok [(quantise x :: buf.drop 1, some 1)] := by
  obtain ⟨w, outs, e, hi, H⟩ := wavRun_encodes info hn calls
  have hw : ∀ blk ∈ signal info.channels calls, blk.length = info.channels := signal_width
  have hlen := length_flatten_width hw
  have hpos : 0 < (signal info.channels calls).length := List.length_pos_iff.2 hne
  have hpos' : 0 < (signal info.channels calls).flatten.length := by rw [hlen]; exact Nat.mul_pos hpos hn
  have hnum : w.numSamples = (signal info.channels calls).length * info.channels := by
    rw [H.samples, ← hlen]; simp only [List.length_map]
  have hfl : (signal info.channels calls).flatten ≠ [] := List.length_pos_iff.1 hpos'
  refine ⟨w, outs, (signal info.channels calls).flatten.getLast hfl, e, List.getLast?_eq_some_getLast hfl, ?_⟩
  have hC := C40_seek_partial b w (by rw [hi]; exact hn) (by rw [hnum]; exact Nat.mul_pos hpos hn)
  have hge : ((signal info.channels calls).length : Int) * info.channels ≤ WavCodec.seekOffset info ms * info.channels :=
    mul_le_mul_of_nonneg_right h0 (by positivity)
  obtain ⟨w1, e1, hc1⟩ := hC.1 ms (by
    rw [hi, abs_of_nonneg (le_trans (by positivity) hge)]; exact h63)
  obtain ⟨e1', -⟩ := hC.2.2.2 _ _ e1
  have hcur : w1.shortCursor = (signal info.channels calls).flatten.length - 1 := by
    rw [hi, hnum] at hc1
    push_cast at hc1
    rw [hlen]
    have : ((signal info.channels calls).length * info.channels : Nat) = ((signal info.channels calls).length : Int) * info.channels := by push_cast; rfl
    rw [hlen] at hpos'
    omega
  have hi1 : w1.info = info := by rw [e1', hi]
  have H1 : IsReel w1 ⟨(signal info.channels calls).flatten.map truncateSample, (signal info.channels calls).flatten.length - 1⟩ :=
    ⟨by rw [e1']; exact H.bytes, H.range, hcur, by simp only [List.length_map]; omega⟩
  obtain ⟨w2, e2, -, -⟩ := wavDecode_ok H1 (by rw [hi1]; exact hn) buf
  have hnext : (⟨(signal info.channels calls).flatten.map truncateSample, (signal info.channels calls).flatten.length - 1⟩ : Reel).next
      (whole w1.info.channels buf.length) = [truncateSample ((signal info.channels calls).flatten.getLast hfl)] := by
    unfold Reel.next
    simp only
    rw [← List.map_drop, List.drop_length_sub_one hfl, ← List.map_take, List.take_of_length_le]
    · rfl
    · rw [hi1]
      have : 1 ≤ buf.length / info.channels := (Nat.one_le_div_iff hn).2 hbuf
      have := Nat.mul_le_mul this hn
      simpa [whole] using this
  rw [hnext] at e2
  unfold wavWinds
  rw [e1, bind_ok]
  unfold wavWinds
  rw [e2, bind_ok]
  rfl

/-- 120 samples that are in sync, in calls of 60, for the files -/
def plateau : List (List F32) := [List.replicate 60 (F32.ofRat (1 / 2)), List.replicate 60 (F32.ofRat (1 / 2))]

theorem plateau_codes : Spec.codes 0 (signal 1 plateau) = List.replicate 120 16383 := by decide +kernel

example : Proper 1 plateau ∧ (signal 1 plateau).length = 120 ∧ (∀ ch < 1, InSync (Spec.codes ch (signal 1 plateau))) := by
  refine ⟨⟨by decide, by decide, ?_⟩, by decide +kernel, ?_⟩
  · intro j
    match j with
    | 0 => exact .inl ⟨0, by simp, by simp [plateau]⟩
    | 1 => exact .inl ⟨0, by simp, by simp [plateau]⟩
    | j + 2 => exact .inr fun t => by simp [plateau, Nat.add_right_comm j 2 t]
  intro ch hch
  obtain rfl : ch = 0 := by omega
  rw [plateau_codes]
  exact inSync_of_all (by decide +kernel)

/-- `demo` at 1000 Hz: seeks forward, backward and to the last block -/
example : (∀ ms ∈ [4, 1, 5], ms ≤ 2 ^ 64 ∧ AdhocCodec.seekOffset { sampleRate := 1000, channels := 2 } ms < (signal 2 demo).length) ∧
    ((encodeAll .debug (fresh { sampleRate := 1000, channels := 2 } 0) demo) >>= fun c =>
      winds .debug c [.seek 4, .read [F32.ofInt 0, F32.ofInt 0], .seek 1, .read [F32.ofInt 0, F32.ofInt 0], .seek 5, .read [F32.ofInt 0, F32.ofInt 0]]) =
    ((wavRun (WavCodec.new { sampleRate := 1000, channels := 2 }) (demo.map .encode)) >>= fun r =>
      wavWinds .release r.1 [.seek 4, .read [F32.ofInt 0, F32.ofInt 0], .seek 1, .read [F32.ofInt 0, F32.ofInt 0], .seek 5, .read [F32.ofInt 0, F32.ofInt 0]]) := by
  decide +kernel

/-- C157 does not hold as stated: at the end of `demo`, AdhocCodec has nothing to play, but the WAV codec plays the last sample of the right channel on the
left. -/
theorem C157_false : ¬ C157_statement := by
  intro hall
  have h : (match encodeAll .release (fresh { sampleRate := 1000, channels := 2 } 0) demo,
      wavRun (WavCodec.new { sampleRate := 1000, channels := 2 }) (demo.map .encode) with
    | .ok c, .ok (w, _) => decide (winds .release c [.seek 6, .read [F32.ofInt 0, F32.ofInt 0]] = wavWinds .release w [.seek 6, .read [F32.ofInt 0, F32.ofInt 0]])
    | _, _ => true) = false := by decide +kernel
  split at h
  · rename_i c w outs hc hw
    rw [hall _ demo c w outs (by decide) demo_proper demo_inSync hc hw 6 _ (by decide +kernel)] at h
    simp at h
  · cases h

end Adhoc
