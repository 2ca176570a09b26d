import Verif.Proofs.Bounded
import Verif.Props.Files

/-!
# C78-C81: loops end, playing and loading are bounded by the file, files are canonical

The loops of the model carry a bound on their number of rounds and fail with `.fuel` when it is used up. Here it never is, for any codec
state and any input.
-/

namespace Adhoc
open Spec

/-! ## what a loaded file holds -/

theorem load_holds {b : Build} {bytes : List Byte} {c : AdhocCodec} (h : AdhocCodec.load b bytes = .ok (some c)) :
    ∃ s rest info, AdhocCodec.decSlim bytes = some (s, rest) ∧ s.stream.info = some info ∧
      c.compressionLevel = s.compressionLevel ∧ c.frameHeaderList = s.frameHeaderList.reset ∧
      c.stream = { s.stream with stream := s.stream.stream.seekStart } ∧ c.channelStateList = List.replicate info.channels FrameCodec.new ∧
      c.seq = .new 314 ∧ ∃ x, AdhocCodec.shl1 b s.compressionLevel = .ok x ∧ c.scale = F32.ofInt x ∧ c.invScale = F32.ofInt 1 / F32.ofInt x := by
  unfold AdhocCodec.load at h
  split at h
  · cases h
  · next s rest hs =>
    obtain ⟨x, hx, h⟩ := bind_eq_ok.1 h
    dsimp only at h
    split at h
    · cases h
    · next info hi =>
      rw [pure_eq_ok] at h
      have h := Option.some.inj (Except.ok.inj h)
      subst h
      refine ⟨s, rest, info, hs, hi, rfl, rfl, rfl, ?_, rfl, x, hx, rfl, rfl⟩
      simp [AdhocCodec.init, FrameCodec.init, FrameCodec.new]

theorem length_saved {c : AdhocCodec} {info : StreamInfo} (hi : c.stream.info = some info) :
    (savedBytes c).length = 117 + c.frameHeaderList.divisorExpList.data.length + 8 * c.frameHeaderList.isInitFrameList.binary.length +
      2 * c.frameHeaderList.frameSizeList.length + 8 * c.frameHeaderList.bitCursorList.length + 6 * c.frameHeaderList.stackHistoryList.length +
      16 * c.stream.stream.binary.length := by
  unfold savedBytes AdhocCodec.encPieces
  dsimp only
  simp only [List.flatten_append, Bincode.flatten_encU, Bincode.flatten_encVec, List.length_append, Bincode.length_leBytes,
    Bincode.encI16, hi, Bincode.encOpt, List.flatten_cons, List.length_cons, List.length_nil]
  rw [length_flatMap_const _ 1 (fun a => Bincode.length_leBytes 1 _), length_flatMap_const _ 8 (fun a => Bincode.length_leBytes 8 _),
    length_flatMap_const _ 2 (fun a => Bincode.length_leBytes 2 _), length_flatMap_const _ 8 (fun a => Bincode.length_leBytes 8 _),
    length_flatMap_const _ 6 (fun a => by simp [Bincode.length_leBytes]), length_flatMap_const _ 16 (fun a => Bincode.length_leBytes 16 _)]
  omega

theorem load_cast {b : Build} {bytes : List Byte} {c : AdhocCodec} (h : AdhocCodec.load b bytes = .ok (some c)) :
    ∃ n, (∃ info, c.stream.info = some info ∧ info.channels = n) ∧ c.channelStateList.length = n ∧ Cast c n c.frameHeaderList ∧ c.init = c ∧
      117 + c.frameHeaderList.divisorExpList.data.length + 8 * c.frameHeaderList.isInitFrameList.binary.length +
        2 * c.frameHeaderList.frameSizeList.length + 8 * c.frameHeaderList.bitCursorList.length + 6 * c.frameHeaderList.stackHistoryList.length +
        16 * c.stream.stream.binary.length ≤ bytes.length := by
  obtain ⟨s, rest, info, hs, hi, h1, h2, h3, h4, -⟩ := load_holds h
  obtain ⟨k1, k2, k3, k4⟩ := back_slim hs
  refine ⟨info.channels, ⟨info, by rw [h3]; exact hi, rfl⟩, by rw [h4]; simp, ⟨⟨info, by rw [h3]; exact hi, rfl⟩, rfl, by rw [h2]; exact k3.sizes, by rw [h4]; simp⟩, ?_, ?_⟩
  · obtain ⟨c1, c2, c3, c4, c5, c6, c7⟩ := c
    dsimp only at h1 h2 h3 h4
    subst h1 h2 h3 h4
    simp [AdhocCodec.init, FrameCodec.init, FrameCodec.new, FrameHeaders.reset, BitStream.seekStart]
  · rw [k1, List.length_append, length_saved (c := ofSlim s) hi, h2, h3]
    exact Nat.le_add_right _ _

/-! ## C78 -/

theorem decompressLoop_more {b : Build} : ∀ (fuel fuel' : Nat) (c : AdhocCodec) (w : WavCodec) (buf : List F32), fuel ≤ fuel' →
    Cli.decompressLoop b fuel c w buf ≠ .error .fuel → Cli.decompressLoop b fuel' c w buf = Cli.decompressLoop b fuel c w buf
  | 0, _, _, _, _, _, h => absurd rfl h
  | fuel + 1, 0, _, _, _, h, _ => absurd h (by omega)
  | fuel + 1, fuel' + 1, c, w, buf, hf, h => by
    rw [Cli.decompressLoop, Cli.decompressLoop]
    rw [Cli.decompressLoop] at h
    cases e : c.decode b buf with
    | error p => rfl
    | ok r =>
      obtain ⟨c', buf', o⟩ := r
      rw [e] at h
      cases o with
      | none => rfl
      | some n =>
        cases e' : w.encode (buf'.take n) with
        | error p => simp only [bind_ok, e']; rfl
        | ok r =>
          simp only [bind_ok, e'] at h ⊢
          exact decompressLoop_more fuel fuel' c' r.1 buf' (by omega) h

theorem decompress_ends (b : Build) (input : List Byte) (dst : Option Writer) (fuel : Nat) (hf : 65535 * (input.length / 16) < fuel) :
    Cli.convertAdhocToWav b fuel input dst ≠ .error .fuel ∧
      Cli.convertAdhocToWav b fuel input dst = Cli.convertAdhocToWav b (65535 * (input.length / 16) + 1) input dst := by
  unfold Cli.convertAdhocToWav
  cases e : AdhocCodec.load b input with
  | error p => exact ⟨by have := (load_ends b input).1; rw [e] at this; simpa using this, rfl⟩
  | ok o =>
    cases o with
    | none => exact ⟨by simp [bind, Except.bind, pure, Except.pure], rfl⟩
    | some c =>
      obtain ⟨n, ⟨info, hi, hch⟩, -, H, hinit, hK⟩ := load_cast e
      have hinfo : c.info = .ok info := by unfold AdhocCodec.info; rw [hi]; rfl
      simp only [bind_ok, hinfo]
      have hends : ∀ fuel, 65535 * (input.length / 16) < fuel → Halts (Cli.decompressLoop b fuel c (WavCodec.new info) Cli.buffer) (fun _ => True) := by
        intro fuel hf
        rcases Nat.eq_zero_or_pos n with hn | hn
        · subst hn
          obtain ⟨f, rfl⟩ : ∃ f, fuel = f + 1 := ⟨fuel - 1, by omega⟩
          rw [Cli.decompressLoop]
          have : c.decode b Cli.buffer = .error .divZero := by
            unfold AdhocCodec.decode AdhocCodec.decodeRaw
            rw [hi]
            simp [expect, udiv, hch, bind, Except.bind]
          rw [this]
          exact Halts.error (by simp)
        · have L := (init_left hn H).2
          rw [hinit] at L
          refine decompressLoop_ends fuel _ c _ _ H L ?_
          have h1 : rowsHeld c.frameHeaderList n ≤ headersHeld c.frameHeaderList := by
            unfold rowsHeld
            rcases Nat.eq_zero_or_pos (headersHeld c.frameHeaderList) with h0 | h0
            · rw [h0, Nat.zero_add, Nat.div_eq_of_lt (by omega)]
            · rw [Nat.div_le_iff_le_mul_add_pred hn]
              have := Nat.le_mul_of_pos_left (headersHeld c.frameHeaderList) hn
              omega
          have h2 : headersHeld c.frameHeaderList ≤ input.length / 16 := by
            unfold headersHeld
            omega
          have := Nat.mul_le_mul_left 65535 (h1.trans h2)
          omega
      have h1 := hends _ hf
      have h2 := hends _ (show 65535 * (input.length / 16) < 65535 * (input.length / 16) + 1 by omega)
      refine ⟨?_, ?_⟩
      · refine (h1.bind (Q := fun _ => True) fun w _ => ?_).1
        cases dst with
        | none => exact Halts.ok trivial
        | some d => exact (wavSave_ends b w d).bind fun r _ => Halts.ok trivial
      · rw [decompressLoop_more _ fuel c _ _ (by omega) h2.1]

/-- C78: every loop ends. In both builds, for every codec in every state and every input, `encode`, `decode`, `seek`, `load` and the WAV calls
return or panic, and so does compressing any file. Decompressing any file takes at most 65535 rounds for every sixteen bytes of it (and one
more), however many rounds are allowed. -/
theorem C78_every_call_ends (b : Build) :
    (∀ (c : AdhocCodec) pcm, c.encode b pcm ≠ .error .fuel) ∧ (∀ (c : AdhocCodec) buf, c.decode b buf ≠ .error .fuel) ∧
    (∀ (c : AdhocCodec) dt, c.seek b dt ≠ .error .fuel) ∧ (∀ bytes, AdhocCodec.load b bytes ≠ .error .fuel) ∧
    (∀ (w : WavCodec) pcm, w.encode pcm ≠ .error .fuel) ∧ (∀ (w : WavCodec) buf, w.decode buf ≠ .error .fuel) ∧
    (∀ (w : WavCodec) dt, w.seek b dt ≠ .error .fuel) ∧ (∀ bytes, WavCodec.load bytes ≠ .error .fuel) ∧
    (∀ (w : WavCodec) dst, w.saveTo b dst ≠ .error .fuel) ∧
    (∀ input level dst, Cli.convertWavToAdhoc b input level dst ≠ .error .fuel) ∧
    ∀ input dst fuel, 65535 * (input.length / 16) < fuel → Cli.convertAdhocToWav b fuel input dst ≠ .error .fuel ∧
      Cli.convertAdhocToWav b fuel input dst = Cli.convertAdhocToWav b (65535 * (input.length / 16) + 1) input dst :=
  ⟨fun c pcm => (encode_ends b c pcm).1, fun c buf => (decode_ends b c buf).1, fun c dt => (halts_seek b c dt).1, fun bytes => (load_ends b bytes).1,
    fun w pcm => (wavEncode_ends w pcm).1, fun w buf => (halts_wavDecode w buf).1, fun w dt => (wavSeek_ends b w dt).1, fun bytes => (halts_wavLoad bytes).1,
    fun w dst => (wavSave_ends b w dst).1, fun input level dst => (wavToAdhoc_ends b input level dst).1, fun input dst fuel => decompress_ends b input dst fuel⟩

/-- a codec nobody recorded: one frame header, no payload, cursor out of range -/
def hollow : AdhocCodec :=
  { fresh { sampleRate := 8000, channels := 1 } 0 with
    frameHeaderList :=
      { divisorExpList := { data := [1#8], nibbleCount := 1 }
        isInitFrameList := { binary := [0#64], bitCursor := 1 }
        frameSizeList := [7], bitCursorList := [0], stackHistoryList := [(0, 0, 0)], headerCursor := 5 } }

/-- its file is converted, with the number of rounds of the theorem and with a few; a seek in it panics -/
example : (file hollow).length = 142 ∧
    (Cli.convertAdhocToWav .debug (65535 * (142 / 16) + 1) (file hollow) (some Writer.perfect)).map (fun r => r.1.map fun w => w.out.length) = .ok (some 58) ∧
    (Cli.convertAdhocToWav .debug 3 (file hollow) (some Writer.perfect)).map (fun r => r.1.map fun w => w.out.length) = .ok (some 58) ∧
    (hollow.seek .release (.start 1)).map (fun _ => ()) = .error .expect := by decide +kernel

/-! ## C79 -/

/-- the number of seeks among the calls -/
def Spec.seeksIn (acts : List Act) : Nat := acts.countP fun a => match a with | .seek _ => true | .read _ => false

theorem winds_bounded {b : Build} {n : Nat} {base : FrameHeaders} (hn : 0 < n) : ∀ (acts : List Act) (c : AdhocCodec) (B : Nat) (_ : Cast c n base)
    (_ : Left c n base B), Ens (winds b c acts) (fun outs => (outs.map fun o => o.2.getD 0).sum ≤ (B + seeksIn acts * (65535 * rowsHeld base n)) * n)
  | [], _, _, _, _ => Ens.ok (by simp)
  | .read buf :: acts, c, B, H, L => by
    unfold winds
    refine (halts_decode H L buf).2.bind ?_
    rintro ⟨c', buf', o⟩ ⟨H', -, k, k1, k2, -, -, L'⟩
    refine Ens.bind (winds_bounded hn acts c' (B - k) H' L') fun outs h => Ens.ok ?_
    dsimp only at k1
    rw [List.map_cons, List.sum_cons, k1]
    have e : seeksIn (.read buf :: acts) = seeksIn acts := by simp [seeksIn]
    rw [e]
    refine (Nat.add_le_add_left h _).trans ?_
    rw [← Nat.add_mul]
    refine Nat.mul_le_mul_right _ ?_
    omega
  | .seek ms :: acts, c, B, H, L => by
    unfold winds
    refine (halts_seek_left hn H _).2.bind fun c' ⟨H', L'⟩ => ?_
    intro outs h
    refine (winds_bounded hn acts c' _ H' L' outs h).trans (Nat.mul_le_mul_right _ ?_)
    have e : seeksIn (.seek ms :: acts) = seeksIn acts + 1 := by simp [seeksIn]
    rw [e, Nat.add_mul, Nat.one_mul]
    omega

theorem winds_silent {b : Build} : ∀ (acts : List Act) (c : AdhocCodec) (_ : ∃ info, c.stream.info = some info ∧ info.channels = 0),
    Ens (winds b c acts) (fun outs => outs = [])
  | [], _, _ => Ens.ok rfl
  | .read buf :: acts, c, ⟨info, hi, h0⟩ => by
    unfold winds
    have : c.decode b buf = .error .divZero := by
      unfold AdhocCodec.decode AdhocCodec.decodeRaw
      rw [hi]
      simp [expect, udiv, h0, bind, Except.bind]
    rw [this]
    intro x hx; cases hx
  | .seek ms :: acts, c, ⟨info, hi, h0⟩ => by
    unfold winds
    refine Ens.bind (P := fun c' => ∃ info, c'.stream.info = some info ∧ info.channels = 0) ?_ fun c' h => winds_silent acts c' h
    unfold AdhocCodec.seek
    rw [hi]
    simp only [expect, bind_ok]
    split
    · exact Ens.ok ⟨info, hi, h0⟩
    · unfold AdhocCodec.seekTo
      rw [h0]
      refine (Ens.any _).bind fun t _ => ?_
      intro x hx
      simp [udiv, bind, Except.bind] at hx

/-- C79: what can be played is bounded by the size of the file. For any bytes that load, corrupt or not, in both builds: the file holds `K`
whole frame headers of sixteen bytes each beside at least 117 others, so at most `⌈K/n⌉` rows of `n` channels and 65535 blocks of `n` samples for each row.
All reads together, between two seeks, give no more samples than these; a seek starts anew. -/
theorem C79_bounded_by_file (b : Build) (bytes : List Byte) (c : AdhocCodec) (h : AdhocCodec.load b bytes = .ok (some c)) :
    ∃ K n, 117 + 16 * K ≤ bytes.length ∧ c.stream.info.map (·.channels) = some n ∧ ∀ acts outs, winds b c acts = .ok outs →
      (outs.map fun o => o.2.getD 0).sum ≤ (1 + seeksIn acts) * (65535 * ((K + n - 1) / n)) * n := by
  obtain ⟨n, ⟨info, hi, hch⟩, -, H, hinit, hK⟩ := load_cast h
  refine ⟨headersHeld c.frameHeaderList, n, ?_, by rw [hi, ← hch]; rfl, fun acts outs ho => ?_⟩
  · unfold headersHeld
    omega
  · rcases Nat.eq_zero_or_pos n with hn | hn
    · subst hn
      rw [winds_silent acts c ⟨info, hi, hch⟩ outs ho]
      simp
    · have L := (init_left hn H).2
      rw [hinit] at L
      have := winds_bounded hn acts c _ H L outs ho
      rw [Nat.add_mul 1, Nat.one_mul]
      exact this

/-- a file of 142 bytes with one header: the seven blocks it declares are played, and played again after a seek -/
example : (show R (List (List F32 × Option Nat)) from do
    match ← AdhocCodec.load .debug (file hollow) with
    | none => pure []
    | some c => winds .debug c [.read (List.replicate 5 (F32.ofInt 0)), .read (List.replicate 5 (F32.ofInt 0)), .seek 0, .read (List.replicate 9 (F32.ofInt 0))]).map
      (fun l => l.map (·.2)) = .ok [some 5, some 2, some 7] := by decide +kernel

/-! ## C80 -/

/-- C80 as stated: loading a file makes no more channel states than the file has bytes -/
def C80_statement : Prop := ∀ b bytes c, AdhocCodec.load b bytes = .ok (some c) → c.channelStateList.length ≤ bytes.length

/-- 117 bytes make 4294967295 channel states -/
theorem C80_false : ¬ C80_statement := by
  intro h
  have hc : Counted (fresh { sampleRate := 0, channels := 2 ^ 32 - 1 } 0) :=
    ⟨fun i hi => by rw [← Option.some.inj hi]; decide, by decide, by decide, by decide, by decide, by decide, by decide, by decide, by decide, by decide, by decide, by decide⟩
  have := h .release _ _ (load_saved hc (valued_fresh _ 0) [])
  rw [List.append_nil, length_saved (info := { sampleRate := 0, channels := 2 ^ 32 - 1 }) rfl] at this
  unfold reloaded at this
  dsimp only at this
  rw [List.length_replicate] at this
  revert this
  decide

/-- C80, what holds: the number of channel states is the channel count of the file, and everything else a loaded codec holds is in the file:
its vectors take no more bytes than the file has, less 117. -/
theorem C80_vectors_partial (b : Build) (bytes : List Byte) (c : AdhocCodec) (h : AdhocCodec.load b bytes = .ok (some c)) :
    c.stream.info.map (·.channels) = some c.channelStateList.length ∧ (∀ fc ∈ c.channelStateList, fc.buffered = []) ∧
    117 + c.frameHeaderList.divisorExpList.data.length + 8 * c.frameHeaderList.isInitFrameList.binary.length +
      2 * c.frameHeaderList.frameSizeList.length + 8 * c.frameHeaderList.bitCursorList.length + 6 * c.frameHeaderList.stackHistoryList.length +
      16 * c.stream.stream.binary.length ≤ bytes.length := by
  obtain ⟨n, ⟨info, hi, hch⟩, hl, H, hinit, hK⟩ := load_cast h
  refine ⟨by rw [hi, hl, ← hch]; rfl, fun fc hfc => ?_, hK⟩
  obtain ⟨s, rest, info, -, -, -, -, -, h4, -⟩ := load_holds h
  rw [h4] at hfc
  rw [(List.mem_replicate.1 hfc).2]
  rfl

/-- the hypothesis holds for the file with one header; it makes one channel state -/
example : (AdhocCodec.load .debug (file hollow)).map (fun o => o.map fun c => c.channelStateList.length) = .ok (some 1) := by decide +kernel

/-! ## C81 -/

/-- C81: files are canonical. Any bytes that load are, except for the two cursors, exactly the file of the loaded codec, followed by bytes
that are ignored. So saving a loaded file again gives a file of the same content that is no longer, and loading that gives the same codec. -/
theorem C81_canonical (b : Build) (bytes : List Byte) (c : AdhocCodec) (h : AdhocCodec.load b bytes = .ok (some c)) :
    (∃ i p rest, bytes = file { c with frameHeaderList := c.frameHeaderList.setCursor i, stream := { c.stream with stream := { c.stream.stream with bitCursor := p } } } ++ rest) ∧
    (file c).length ≤ bytes.length ∧ (∀ junk, AdhocCodec.load b (file c ++ junk) = .ok (some c)) := by
  obtain ⟨s, rest, info, hs, hi, h1, h2, h3, h4, h5, x, hx, h6, h7⟩ := load_holds h
  obtain ⟨k1, k2, k3, k4⟩ := back_slim hs
  simp only [file_eq]
  have e1 : savedBytes { c with frameHeaderList := c.frameHeaderList.setCursor s.frameHeaderList.headerCursor, stream := { c.stream with stream := { c.stream.stream with bitCursor := s.stream.stream.bitCursor } } } =
      savedBytes (ofSlim s) := by
    unfold savedBytes AdhocCodec.encPieces ofSlim
    rw [h1, h2, h3]
    rfl
  refine ⟨⟨s.frameHeaderList.headerCursor, s.stream.stream.bitCursor, rest, by rw [e1]; exact k1⟩, ?_, fun junk => ?_⟩
  · rw [k1, List.length_append, length_saved (c := ofSlim s) hi, length_saved (c := c) (info := info) (by rw [h3]; exact hi), h2, h3]
    exact Nat.le_add_right _ _
  · have hc : Counted c := by
      refine ⟨?_, ?_, ?_, ?_, ?_, ?_, ?_, ?_, ?_, ?_, ?_, ?_⟩
      · rw [h3]; exact k2.rate
      · rw [h2]; exact k2.nibbles
      · rw [h2]; exact k2.count
      · rw [h2]; exact k2.bits
      · rw [h2]; exact k2.bitsCursor
      · rw [h2]; exact k2.sizes
      · rw [h2]; exact k2.cursors
      · rw [h2]; exact k2.hist
      · rw [h2]; show 0 < 2 ^ 32; norm_num
      · rw [h3]; exact k2.binary
      · rw [h3]; show 0 < 2 ^ 128; norm_num
      · rw [h3]; exact k2.capacity
    have ht : TypedHeaders c.frameHeaderList := by rw [h2]; exact ⟨k3.sizes, k3.cursors, k3.hist⟩
    unfold AdhocCodec.load
    rw [(good_slim hc ht (by rw [h1]; exact k4)).read]
    have hi' : c.stream.info = some info := by rw [h3]; exact hi
    dsimp only
    rw [h1, hx, bind_ok, hi']
    dsimp only
    rw [pure_eq_ok]
    congr 2
    obtain ⟨c1, c2, c3, c4, c5, c6, c7⟩ := c
    dsimp only at h1 h2 h3 h4 h5 h6 h7
    subst h1 h2 h3 h4 h5 h6 h7
    simp [AdhocCodec.init, FrameCodec.init, FrameCodec.new, FrameHeaders.reset, BitStream.seekStart]

/-- the file of `hollow` keeps its cursor; saved again it has none, and is otherwise the same -/
example : (AdhocCodec.load .debug (file hollow ++ [1#8, 2#8])).map (fun o => o.map fun c => (decide (file c = file hollow),
    decide (file c = file { hollow with frameHeaderList := hollow.frameHeaderList.setCursor 0 }), decide ((file c).length = 142))) =
    .ok (some (false, true, true)) := by decide +kernel

/-- C81: two codecs that give the same file have the same content -/
theorem C81_injective (c c' : AdhocCodec) (hc : Counted c) (ht : TypedHeaders c.frameHeaderList) (hl : c.compressionLevel < 2 ^ 32)
    (hc' : Counted c') (ht' : TypedHeaders c'.frameHeaderList) (hl' : c'.compressionLevel < 2 ^ 32) (h : file c = file c') :
    c.compressionLevel = c'.compressionLevel ∧ c.frameHeaderList = c'.frameHeaderList ∧ c.stream = c'.stream := by
  rw [file_eq, file_eq] at h
  have h1 := (good_slim hc ht hl).read []
  have h2 := (good_slim hc' ht' hl').read []
  rw [h] at h1
  rw [h1] at h2
  have := congrArg Prod.fst (Option.some.inj h2)
  injection this with e1 e2 e3
  exact ⟨e1, e2, e3⟩

/-- the hypotheses hold for `hollow` -/
example : Counted hollow ∧ TypedHeaders hollow.frameHeaderList ∧ hollow.compressionLevel < 2 ^ 32 :=
  ⟨⟨fun i hi => by rw [← Option.some.inj hi]; decide, by decide, by decide, by decide, by decide, by decide, by decide, by decide, by decide, by decide,
    by decide, by decide⟩, ⟨by decide, by decide, by simp [hollow, InI]⟩, by decide⟩

end Adhoc
