import Verif.Proofs.Files
import Verif.Props.Protocol

/-! # C09, C10, C11, C17: saving and loading .adhoc files -/

namespace Adhoc
open Spec

/-- the file of a codec: what a writer without faults receives -/
def file (c : AdhocCodec) : List Byte := (c.saveTo Writer.perfect).1.out

theorem file_eq (c : AdhocCodec) : file c = savedBytes c := by
  unfold file AdhocCodec.saveTo Writer.perfect
  rw [Writer.writePieces_perfect]
  rfl

theorem valued_run {b : Build} {info : StreamInfo} {level : Nat} : ∀ (us : List Use) {c : AdhocCodec} (_ : Valued c info level),
    Ens (Use.runAll b c us) (fun c => Valued c info level)
  | [], _, H => Ens.ok H
  | u :: us, c, H => by
    unfold Use.runAll
    refine Ens.bind (P := fun c => Valued c info level) ?_ fun c' H' => valued_run us H'
    cases u with
    | encode pcm => exact (ens_encode H pcm).bind fun r hr => Ens.ok hr
    | decode buf => exact (ens_decode H buf).bind fun r hr => Ens.ok hr
    | rewind => exact Ens.ok H.init

/-- a recording with fewer than 2^32 frames and 2^64 bits has all its counters in range -/
theorem counted_recording {b : Build} {info : StreamInfo} {level : Nat} {calls : List (List F32)} {c : AdhocCodec}
    (hn : 0 < info.channels) (hr : info.sampleRate < 2 ^ 32) (hc : info.channels < 2 ^ 32) (hf : calls.length * info.channels < 2 ^ 32)
    (h : encodeAll b (fresh info level) calls = .ok c) (hb : c.stream.stream.bitCursor < 2 ^ 64) : Counted c := by
  obtain ⟨-, blocks, H, HR, -⟩ := recorded_of_ok hn h
  have hlen : (flat info.channels blocks).length < 2 ^ 32 := by rw [length_flat, HR.len]; exact hf
  have hlog := H.log
  have hll : (hdrs 0 (flat info.channels blocks)).length < 2 ^ 32 := by simpa using hlen
  refine ⟨?_, ?_, ?_, ?_, ?_, ?_, ?_, ?_, ?_, ?_, ?_, ?_⟩
  · intro i hi
    rw [H.hinfo] at hi
    cases hi
    exact ⟨hr, hc⟩
  · rw [hlog.exps.bytes]; simp only [List.length_map]; omega
  · rw [hlog.exps.count]; simpa using hll
  · rw [hlog.inits.words]; omega
  · rw [hlog.inits.cursor]; simp only [List.length_map]; omega
  · rw [hlog.sizes]; simp only [List.length_map]; omega
  · rw [hlog.cursors]; simp only [List.length_map]; omega
  · rw [hlog.hist]; simp only [List.length_map]; omega
  · rw [hlog.cursor]; exact hlen
  · have := H.bits.bound; omega
  · omega
  · rw [H.bits.cap]; omega

/-! ## C09 -/

/-- C09: after any calls that did not panic, saving and loading gives a codec with the same info and level which decodes exactly like the
rewound original, whatever follows the saved bytes. `Counted` says that the model's unbounded counters and vector lengths are below the
limits of the Rust types (u32 for the number of frames, usize for vector lengths, u128 for bit positions); `C09_recordings` replaces it by
limits on the recording. -/
theorem C09_save_load (b : Build) (info : StreamInfo) (level : Nat) (us : List Use) (c : AdhocCodec)
    (h : Use.runAll b (fresh info level) us = .ok c) (hc : Counted c) (rest : List Byte) :
    ∃ c', AdhocCodec.load b (file c ++ rest) = .ok (some c') ∧ c'.stream.info = some info ∧ c'.compressionLevel = min level 10 ∧
      ∀ bufs, (decodeAll b c' bufs).map (·.2) = (decodeAll b c.init bufs).map (·.2) := by
  have V := valued_run us (valued_fresh info level) c h
  refine ⟨reloaded c info.channels, ?_, V.hinfo, V.lev, ?_⟩
  · rw [file_eq]; exact load_saved hc V rest
  · intro bufs
    rcases same_decodeAll (b := b) bufs (alike_reloaded V) with ⟨e, h1, h2⟩ | ⟨r, r', h1, h2, -, h3⟩
    · rw [h1, h2]
    · rw [h1, h2]
      show Except.ok r'.2 = Except.ok r.2
      rw [h3]

theorem encodeAll_uses {b : Build} : ∀ (calls : List (List F32)) (c : AdhocCodec), Use.runAll b c (calls.map Use.encode) = encodeAll b c calls
  | [], _ => rfl
  | pcm :: calls, c => by
    rw [List.map_cons, encodeAll, List.foldlM_cons, Use.runAll, Use.run]
    congr 1
    funext c'
    exact encodeAll_uses calls c'

/-- C09 for recordings: fewer than 2^32 frames, fewer than 2^64 bits, sample rate and channel count below 2^32. -/
theorem C09_recordings (b : Build) (info : StreamInfo) (level : Nat) (calls : List (List F32)) (c : AdhocCodec)
    (h : encodeAll b (fresh info level) calls = .ok c) (hn : 0 < info.channels) (hr : info.sampleRate < 2 ^ 32) (hc : info.channels < 2 ^ 32)
    (hf : calls.length * info.channels < 2 ^ 32) (hb : c.stream.stream.bitCursor < 2 ^ 64) (rest : List Byte) :
    ∃ c', AdhocCodec.load b (file c ++ rest) = .ok (some c') ∧ c'.stream.info = some info ∧ c'.compressionLevel = min level 10 ∧
      ∀ bufs, (decodeAll b c' bufs).map (·.2) = (decodeAll b c.init bufs).map (·.2) :=
  C09_save_load b info level (calls.map Use.encode) c (by rw [encodeAll_uses]; exact h) (counted_recording hn hr hc hf h hb) rest

/-- the hypotheses hold for `demo`, a stereo recording in two calls: 184 bits of audio in a file of 239 bytes -/
example : (encodeAll .debug (fresh { sampleRate := 44100, channels := 2 } 0) demo).map
    (fun c => (c.stream.stream.bitCursor, (file c).length)) = .ok (184, 239) := by decide +kernel

/-! ## C10 -/

/-- C10: no proper prefix of a saved file loads. -/
theorem C10_torn_save (b : Build) (info : StreamInfo) (level : Nat) (us : List Use) (c : AdhocCodec)
    (h : Use.runAll b (fresh info level) us = .ok c) (hc : Counted c) (n : Nat) (hlt : n < (file c).length) :
    AdhocCodec.load b ((file c).take n) = .ok none := by
  have V := valued_run us (valued_fresh info level) c h
  rw [file_eq] at hlt ⊢
  refine load_torn (q := (savedBytes c).drop n) hc V (List.take_append_drop n _).symm ?_
  rw [Ne, List.drop_eq_nil_iff]
  omega

/-- C10 for recordings -/
theorem C10_recordings (b : Build) (info : StreamInfo) (level : Nat) (calls : List (List F32)) (c : AdhocCodec)
    (h : encodeAll b (fresh info level) calls = .ok c) (hn : 0 < info.channels) (hr : info.sampleRate < 2 ^ 32) (hc : info.channels < 2 ^ 32)
    (hf : calls.length * info.channels < 2 ^ 32) (hb : c.stream.stream.bitCursor < 2 ^ 64) (n : Nat) (hlt : n < (file c).length) :
    AdhocCodec.load b ((file c).take n) = .ok none :=
  C10_torn_save b info level (calls.map Use.encode) c (by rw [encodeAll_uses]; exact h) (counted_recording hn hr hc hf h hb) n hlt

/-- the file of `demo` loads, and does not without its last byte -/
example : ((encodeAll .debug (fresh { sampleRate := 44100, channels := 2 } 0) demo) >>= fun c => do
    let whole ← AdhocCodec.load .debug (file c)
    let torn ← AdhocCodec.load .debug ((file c).take 238)
    pure (whole.isSome, torn.isSome)) = .ok (true, false) := by decide +kernel

/-! ## C11 -/

/-- C11: for every codec and every writer, `save_to` returns `Some(())` exactly if the writer received the whole file, and otherwise the
writer received a proper prefix of it. -/
theorem C11_save_reports (c : AdhocCodec) (w : Writer) :
    ∃ p q, file c = p ++ q ∧ (c.saveTo w).1.out = w.out ++ p ∧ ((c.saveTo w).2 = some () ↔ q = []) ∧ ((c.saveTo w).2 = none ↔ q ≠ []) := by
  obtain ⟨p, q, h1, h2, h3⟩ := Writer.writePieces_spec c.encPieces w
  refine ⟨p, q, by rw [file_eq]; exact h1, ?_⟩
  unfold AdhocCodec.saveTo
  rcases hx : w.writePieces c.encPieces with ⟨w', ok⟩
  rw [hx] at h2 h3
  dsimp only at h2 h3
  cases ok with
  | true => simp [h2, h3.1 rfl]
  | false =>
    have : q ≠ [] := fun h => by simpa using h3.2 h
    simp [h2, this]

/-- a writer that takes five bytes, is interrupted, takes three more and then fails -/
example : ((fresh { sampleRate := 44100, channels := 2 } 3).saveTo ⟨[], [.accept 5, .interrupted, .accept 3, .fail]⟩) =
    (⟨[3#8, 0#8, 0#8, 0#8, 0#8, 0#8, 0#8], []⟩, none) := by decide +kernel

/-! ## C17 -/

/-- C17 is false: the file of an empty codec has 117 bytes, 352 bits more than announced. -/
theorem C17_false : ¬ ∀ (c : AdhocCodec) (nibCap : Nat), c.frameHeaderList.divisorExpList.data.length ≤ nibCap →
    8 * (file c).length ≤ c.filesizeUpperbound nibCap := by
  intro h
  have := h (fresh { sampleRate := 44100, channels := 2 } 0) 0 (by decide)
  revert this
  decide +kernel

theorem length_flatMap_const {α : Type} (f : α → List Byte) (k : Nat) (hf : ∀ a, (f a).length = k) : ∀ l : List α, (l.flatMap f).length = l.length * k
  | [] => by simp
  | a :: l => by rw [List.flatMap_cons, List.length_append, hf, length_flatMap_const f k hf l, List.length_cons]; ring

/-- C17, what holds: the announced size of a recording misses 352 bits and adds 8 bits for every unused byte of the capacity `nibCap` of
the vector of header nibbles (which holds `(frames + 1) / 2` bytes), so it is an upper bound exactly if 44 bytes or more are unused. -/
theorem C17_upperbound_partial (b : Build) (info : StreamInfo) (level : Nat) (calls : List (List F32)) (c : AdhocCodec)
    (h : encodeAll b (fresh info level) calls = .ok c) (hn : 0 < info.channels) (nibCap : Nat) :
    8 * (file c).length + 8 * nibCap = c.filesizeUpperbound nibCap + 352 + 8 * ((calls.length * info.channels + 1) / 2) ∧
    (8 * (file c).length ≤ c.filesizeUpperbound nibCap ↔ (calls.length * info.channels + 1) / 2 + 44 ≤ nibCap) := by
  obtain ⟨-, blocks, H, HR, -⟩ := recorded_of_ok hn h
  have hlog := H.log
  have hl : (hdrs 0 (flat info.channels blocks)).length = calls.length * info.channels := by rw [length_hdrs, length_flat, HR.len]
  have key : 8 * (file c).length + 8 * nibCap = c.filesizeUpperbound nibCap + 352 + 8 * ((calls.length * info.channels + 1) / 2) := by
    rw [file_eq]
    unfold savedBytes AdhocCodec.encPieces AdhocCodec.filesizeUpperbound FrameHeaders.calculateWeightUpperbound BitVecU64.capacity
      BitStream.capacityUpperbound
    dsimp only
    rw [hlog.len]
    simp only [List.flatten_append, Bincode.flatten_encU, Bincode.flatten_encVec, List.length_append, Bincode.length_leBytes,
      Bincode.encI16, H.hinfo, Bincode.encOpt, List.flatten_cons, List.length_cons, List.length_nil]
    rw [length_flatMap_const _ 1 (fun a => Bincode.length_leBytes 1 _), length_flatMap_const _ 8 (fun a => Bincode.length_leBytes 8 _),
      length_flatMap_const _ 2 (fun a => Bincode.length_leBytes 2 _), length_flatMap_const _ 8 (fun a => Bincode.length_leBytes 8 _),
      length_flatMap_const _ 6 (fun a => by simp [Bincode.length_leBytes]), length_flatMap_const _ 16 (fun a => Bincode.length_leBytes 16 _),
      hlog.exps.bytes, hlog.sizes, hlog.cursors, hlog.hist]
    simp only [List.length_map, hl]
    omega
  exact ⟨key, by omega⟩

/-- `demo` makes four frames, so two bytes of nibbles; `Vec` starts with a capacity of eight, and the estimate is too small -/
example : (encodeAll .debug (fresh { sampleRate := 44100, channels := 2 } 0) demo).map
    (fun c => (8 * (file c).length, c.filesizeUpperbound 8)) = .ok (1912, 1608) := by decide +kernel

end Adhoc
