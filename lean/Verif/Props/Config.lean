import Verif.Spec.Config
import Verif.Spec.Tape
import Verif.Props.RoundTrip
import Verif.Proofs.Alike

/-!
# C91, C92: setting the stream info and the compression level

`set_info` and `with_compression_level` may be called in any order and repeatedly, also between encode calls. The level in force at an
encode call decides how its samples are stored, but playing multiplies everything by the level set last.
-/

namespace Adhoc
open Spec F32

/-! ## the scales -/

theorem gain_eq (c : AdhocCodec) (level : Nat) : (c.withCompressionLevel level).scale = gain level := by
  obtain ⟨h1, -⟩ := fresh_scale { sampleRate := 0, channels := 0 } level
  have h1 : F32.Is (c.withCompressionLevel level).scale (2 ^ (min level 10)) := h1
  refine h1.eq ?_
  obtain ⟨h, e⟩ := h1
  have := F32.is_ofRat (q := 2 ^ (min level 10)) (B := 2 ^ (min level 10)) h (by rw [abs_of_pos (by positivity)])
  rwa [roundQ_grid h.grid] at this

theorem loss_eq (c : AdhocCodec) (level : Nat) : (c.withCompressionLevel level).invScale = loss level := by
  obtain ⟨-, h1⟩ := fresh_scale { sampleRate := 0, channels := 0 } level
  have h1 : F32.Is (c.withCompressionLevel level).invScale (1 / 2 ^ (min level 10)) := h1
  refine h1.eq ?_
  obtain ⟨h, e⟩ := h1
  have := F32.is_ofRat (q := 1 / 2 ^ (min level 10)) (B := 1 / 2 ^ (min level 10)) h (by rw [abs_of_pos (by positivity)])
  rwa [roundQ_grid h.grid] at this

/-! ## before the recording -/

/-- the state of a codec that has been configured only -/
def configured (info : Option StreamInfo) (level : Nat) : AdhocCodec :=
  match info with
  | none => AdhocCodec.new.withCompressionLevel level
  | some i => fresh i level

theorem configured_info (info : Option StreamInfo) (level : Nat) (i : StreamInfo) :
    (configured info level).setInfo i = configured (some i) level := by
  cases info <;>
    simp [configured, fresh, AdhocCodec.setInfo, AdhocCodec.withCompressionLevel, AdhocCodec.new, AdhocCodec.resize, List.take_replicate,
      List.replicate_append_replicate]
  omega

theorem configured_level (info : Option StreamInfo) (level l : Nat) :
    (configured info level).withCompressionLevel l = configured info l := by
  cases info <;> rfl

theorem settings_configured (b : Build) : ∀ (l : List Setting) (info : Option StreamInfo) (level : Nat) (_ : callsAt level l = []),
    settings b (configured info level) l = .ok (configured (lastInfo info l) (lastLevel level l))
  | [], _, _, _ => rfl
  | .info i :: l, info, level, h => by
    have := settings_configured b l (some i) level h
    unfold settings at this ⊢
    rw [List.foldlM_cons]
    simp only [AdhocCodec.setting, configured_info]
    exact this
  | .level k :: l, info, level, h => by
    have := settings_configured b l info k h
    unfold settings at this ⊢
    rw [List.foldlM_cons]
    simp only [AdhocCodec.setting, configured_level]
    exact this
  | .call pcm :: l, _, _, h => by simp [callsAt] at h

/-- C91, before a recording: only the info and the level set last count, whatever the order; without a level it is 0. -/
theorem C91_any_order (b : Build) (l : List Setting) (info : StreamInfo) (hc : callsAt 0 l = []) (hi : lastInfo none l = some info) :
    settings b AdhocCodec.new l = .ok (fresh info (lastLevel 0 l)) := by
  have := settings_configured b l none 0 hc
  rw [hi] at this
  have e : configured none 0 = AdhocCodec.new := by
    have h1 := (fresh_zero { sampleRate := 0, channels := 0 }).2
    have h2 : (AdhocCodec.new.withCompressionLevel 0).invScale = F32.ofInt 1 := h1
    have h3 : (AdhocCodec.new.withCompressionLevel 0).scale = F32.ofInt 1 := (fresh_zero { sampleRate := 0, channels := 0 }).1
    unfold configured
    show AdhocCodec.new.withCompressionLevel 0 = _
    have : ∀ x y : F32, (AdhocCodec.new.withCompressionLevel 0).scale = x → (AdhocCodec.new.withCompressionLevel 0).invScale = y →
        AdhocCodec.new.withCompressionLevel 0 = { AdhocCodec.new with compressionLevel := 0, scale := x, invScale := y } := by
      rintro _ _ rfl rfl
      rfl
    rw [this _ _ h3 h2]
    rfl
  rw [e] at this
  exact this

/-! ## during the recording -/

theorem storedAt_snoc (n ch level : Nat) (pcm : List F32) : ∀ (calls : List (Nat × List F32)) (k : Nat),
    storedAt n ch k (calls ++ [(level, pcm)]) = storedAt n ch k calls ++ (ditherAt (loss level)
      (k + n * (calls.map fun x => x.2.length / n).sum + ch * (pcm.length / n)) (column n ch pcm)).map truncateSample
  | [], k => by simp [storedAt]
  | (l, x) :: calls, k => by
    rw [List.cons_append, storedAt, storedAt_snoc n ch level pcm calls, storedAt, List.append_assoc, List.map_cons, List.sum_cons, Nat.mul_add]
    rw [← Nat.add_assoc k]

/-- blocks made by calls with levels -/
structure RecordedAt (n : Nat) (calls : List (Nat × List F32)) (blocks : List (Nat → Fr)) : Prop where
  isRec : Rec n blocks
  sizes : sizesOf blocks = calls.map fun x => x.2.length / n
  codes : ∀ ch < n, codesOf blocks ch = storedAt n ch 0 calls
  total : total (flat n blocks) = n * (calls.map fun x => x.2.length / n).sum

theorem recordedAt_nil (n : Nat) : RecordedAt n [] [] := ⟨rec_nil n, rfl, fun _ _ => rfl, by simp⟩

theorem RecordedAt.snoc {n : Nat} (hn : 0 < n) {calls : List (Nat × List F32)} {blocks : List (Nat → Fr)} (H : RecordedAt n calls blocks)
    {level : Nat} {pcm : List F32} {blk : Nat → Fr}
    (h : ∀ ch < n, Made n (loss level) (Adhoc.total (flat n blocks)) pcm (codesOf blocks) blk ch) :
    RecordedAt n (calls ++ [(level, pcm)]) (blocks ++ [blk]) := by
  refine ⟨H.isRec.snoc (fun ch hch => (h ch hch).wf) (fun ch hch => (h ch hch).pre)
    (fun ch hch => by rw [(h ch hch).length, (h 0 hn).length]), ?_, ?_, ?_⟩
  · have : sizesOf (blocks ++ [blk]) = sizesOf blocks ++ [(blk 0).codes.length] := by simp [sizesOf]
    rw [this, H.sizes, (h 0 hn).length]
    simp
  · intro ch hch
    rw [codesOf_append, codesOf_singleton, H.codes ch hch, (h ch hch).exact, storedAt_snoc, H.total]
    simp
  · rw [flat_append, total_append, H.total, flat, List.flatMap_singleton, total_range n (fun ch hch => (h ch hch).length)]
    simp [Nat.mul_add]

theorem EncSt.setInfo {c : AdhocCodec} {info i : StreamInfo} {fs : List Fr} {Qs : Nat → List Int} (H : EncSt c info fs Qs)
    (h : i.channels = info.channels) : EncSt (c.setInfo i) i fs Qs := by
  have e : (c.setInfo i).channelStateList = c.channelStateList := by
    simp [AdhocCodec.setInfo, AdhocCodec.resize, h, ← H.chans]
  refine ⟨rfl, by rw [e, H.chans, h], ?_, H.bits, H.log, H.wf, H.seq, H.room, ⟨H.neat.tidy, H.neat.count, H.neat.flags⟩⟩
  rw [e]
  exact H.chan

/-- the calls of a recording so far and what the codec holds -/
structure Making (n : Nat) (c : AdhocCodec) (info : StreamInfo) (level : Nat) (calls : List (Nat × List F32)) (blocks : List (Nat → Fr)) : Prop where
  chans : info.channels = n
  enc : EncSt c info (flat n blocks) (codesOf blocks)
  rcd : RecordedAt n calls blocks
  scale : c.scale = gain level
  inv : c.invScale = loss level

theorem settings_making {n : Nat} (hn : 0 < n) : ∀ (l : List Setting) (c : AdhocCodec) (info : StreamInfo) (level : Nat)
    (calls : List (Nat × List F32)) (blocks : List (Nat → Fr)) (_ : Making n c info level calls blocks)
    (_ : ∀ i, Setting.info i ∈ l → i.channels = n)
    (_ : ∀ x ∈ (calls ++ callsAt level l).head?, 3 ≤ x.2.length / n),
    ∃ c' blocks' info', settings .release c l = .ok c' ∧ lastInfo (some info) l = some info' ∧
      Making n c' info' (lastLevel level l) (calls ++ callsAt level l) blocks'
  | [], c, info, level, calls, blocks, H, _, _ => ⟨c, blocks, info, rfl, rfl, by simpa [callsAt, lastLevel] using H⟩
  | .info i :: l, c, info, level, calls, blocks, H, hi, h3 => by
    have hin : i.channels = n := hi i (by simp)
    obtain ⟨c', blocks', info', e, e', H'⟩ := settings_making hn l (c.setInfo i) i level calls blocks
      ⟨hin, H.enc.setInfo (by rw [hin, H.chans]), H.rcd, H.scale, H.inv⟩ (fun j hj => hi j (by simp [hj])) h3
    refine ⟨c', blocks', info', ?_, e', H'⟩
    unfold settings at e ⊢
    rw [List.foldlM_cons]
    exact e
  | .level k :: l, c, info, level, calls, blocks, H, hi, h3 => by
    obtain ⟨c', blocks', info', e, e', H'⟩ := settings_making hn l (c.withCompressionLevel k) info k calls blocks
      ⟨H.chans, ⟨H.enc.hinfo, H.enc.chans, H.enc.chan, H.enc.bits, H.enc.log, H.enc.wf, H.enc.seq, H.enc.room, ⟨H.enc.neat.tidy, H.enc.neat.count, H.enc.neat.flags⟩⟩, H.rcd, gain_eq c k, loss_eq c k⟩
      (fun j hj => hi j (by simp [hj])) h3
    refine ⟨c', blocks', info', ?_, e', H'⟩
    unfold settings at e ⊢
    rw [List.foldlM_cons]
    exact e
  | .call pcm :: l, c, info, level, calls, blocks, H, hi, h3 => by
    obtain rfl := H.chans
    have hne : ∀ ch < info.channels, codesOf blocks ch = [] → 3 ≤ pcm.length / info.channels := by
      intro ch hch hnil
      cases calls with
      | nil => simpa [callsAt] using h3
      | cons x calls =>
        exfalso
        have h3 : 3 ≤ x.2.length / info.channels := by simpa using h3
        have hl := congrArg List.length (H.rcd.codes ch hch)
        rw [hnil, storedAt] at hl
        simp only [List.length_nil, List.length_append, List.length_map, length_ditherAt] at hl
        have : (column info.channels ch x.2).length = x.2.length / info.channels := by simp [column]
        omega
    obtain ⟨c1, blk, e1, H1, hs, hm⟩ := encode_ok (b := .release) hn H.enc pcm hne (by
      intro ch hch
      unfold Fr.calm Calm; split <;> exact .inl rfl)
    rw [H.inv] at hm
    obtain ⟨c', blocks', info', e, e', H'⟩ := settings_making hn l c1 info level (calls ++ [(level, pcm)]) (blocks ++ [blk])
      ⟨rfl, H1, H.rcd.snoc hn hm, hs.scale.trans H.scale, hs.inv.trans H.inv⟩ (fun j hj => hi j (by simp [hj]))
      (by simpa [callsAt] using h3)
    refine ⟨c', blocks', info', ?_, e', by simpa [callsAt, lastLevel] using H'⟩
    unfold settings at e ⊢
    rw [List.foldlM_cons]
    simp only [AdhocCodec.setting, e1, bind_ok]
    exact e

theorem ref_settings (c : AdhocCodec) (l : List Setting) : Ref (settings .debug c l) (settings .release c l) := by
  refine Ref.foldlM (fun c s => ?_) _ _
  cases s with
  | info i => exact Ref.rfl
  | level k => exact Ref.rfl
  | call pcm => exact (ref_encode c pcm).bind fun _ => Ref.rfl

theorem head_calls {n : Nat} {calls : List (Nat × List F32)} (hp : ∀ pcm ∈ (calls.map Prod.snd).head?, 3 ≤ pcm.length / n) :
    ∀ x ∈ ([] ++ calls).head?, 3 ≤ x.2.length / n := by
  cases calls with
  | nil => simp
  | cons y calls => simpa using hp

theorem settings_release {info : StreamInfo} {level : Nat} {l : List Setting} (hn : 0 < info.channels)
    (hi : ∀ i, Setting.info i ∈ l → i.channels = info.channels) (hp : Proper info.channels ((callsAt level l).map Prod.snd)) :
    ∃ c, settings .release (fresh info level) l = .ok c := by
  obtain ⟨c', blocks, info', e, -⟩ := settings_making hn l (fresh info level) info level [] []
    ⟨rfl, encSt_new info level, recordedAt_nil _, gain_eq _ _, loss_eq _ _⟩ hi (head_calls hp.first)
  exact ⟨c', e⟩

/-- what is played after a recording with changing settings -/
theorem played_settings {b : Build} {info : StreamInfo} {level : Nat} {l : List Setting} {c : AdhocCodec} (hn : 0 < info.channels)
    (h : settings b (fresh info level) l = .ok c) (hi : ∀ i, Setting.info i ∈ l → i.channels = info.channels)
    (hp : Proper info.channels ((callsAt level l).map Prod.snd)) :
    (∃ info', lastInfo (some info) l = some info' ∧ c.info = .ok info') ∧
    ∀ b' bufs, ∃ c', decodeAll b' c.init bufs = .ok (c',
      (readBlocks info.channels (played info.channels (signal info.channels ((callsAt level l).map Prod.snd)).length
        fun ch => storedAt info.channels ch 0 (callsAt level l)) bufs).map fun r => (r.1.map (· * gain (lastLevel level l)), r.2)) := by
  have hrel := Ref.build (f := fun b => settings b (fresh info level) l) (ref_settings _ _) h
  obtain ⟨c', blocks, info', e, e', H⟩ := settings_making hn l (fresh info level) info level [] []
    ⟨rfl, encSt_new info level, recordedAt_nil _, gain_eq _ _, loss_eq _ _⟩ hi (head_calls hp.first)
  rw [e] at hrel
  cases hrel
  rw [List.nil_append] at H
  obtain ⟨hch, henc, hrcd, hsc, -⟩ := H
  refine ⟨⟨info', e', by unfold AdhocCodec.info; rw [henc.hinfo]; rfl⟩, ?_⟩
  intro b' bufs
  have hsz : sizesOf blocks = ((callsAt level l).map Prod.snd).map fun pcm => pcm.length / info.channels := by
    rw [hrcd.sizes, List.map_map]
    rfl
  have hsh : Short blocks := by
    intro blk hb
    have : (blk 0).codes.length ∈ sizesOf blocks := List.mem_map.2 ⟨blk, hb, rfl⟩
    rw [hsz] at this
    obtain ⟨pcm, hpcm, e⟩ := List.mem_map.1 this
    rw [← e]
    exact hp.short pcm hpcm
  have hrows : rowsIn blocks = (signal info.channels ((callsAt level l).map Prod.snd)).length := by
    rw [rowsIn_eq_sum, hsz, signal, List.length_flatMap]
    simp
  have henc' : EncSt c info' (flat info'.channels blocks) (codesOf blocks) := by rw [hch]; exact henc
  obtain ⟨c', j', m', e, -, -⟩ := decodeAll_ok (b := b') (by rw [hch]; exact hn) (by rw [hch]; exact hrcd.isRec) hsh
    (by rw [hsz]; exact hp.gap) bufs (decSt_init henc')
  refine ⟨c', ?_⟩
  rw [e, hch, hrows, List.drop_zero]
  have hs2 : c.init.scale = gain (lastLevel level l) := hsc
  rw [hs2]
  have : played info.channels (signal info.channels ((callsAt level l).map Prod.snd)).length (codesOf blocks) =
      played info.channels (signal info.channels ((callsAt level l).map Prod.snd)).length
        fun ch => storedAt info.channels ch 0 (callsAt level l) := by
    unfold played
    apply List.map_congr_left
    intro k _
    apply List.map_congr_left
    intro ch hch
    rw [hrcd.codes ch (by simpa using hch)]
  rw [this]

/-! ## setting the info again -/

/-- the codec with another info -/
def AdhocCodec.labelled (c : AdhocCodec) (i : Option StreamInfo) : AdhocCodec := { c with stream := { c.stream with info := i } }

theorem same_encodeFrame_label (b : Build) (fc : FrameCodec) (st : AudioStream) (hd : FrameHeaders) (ys : List F32) (i : Option StreamInfo) :
    Same (fc.encodeFrame b st hd ys) (fc.encodeFrame b { st with info := i } hd ys)
      fun x y => y = (x.1, { x.2.1 with info := i }, x.2.2) ∧ x.2.1.info = st.info := by
  unfold FrameCodec.encodeFrame
  cases fc.state with
  | init =>
    refine (Same.refl _).bind ?_; rintro p0 _ rfl
    refine (Same.refl _).bind ?_; rintro s0 _ rfl
    refine (Same.refl _).bind ?_; rintro p1 _ rfl
    refine (Same.refl _).bind ?_; rintro s1 _ rfl
    refine (Same.refl _).bind ?_; rintro p2 _ rfl
    refine (Same.refl _).bind ?_; rintro s2 _ rfl
    refine (Same.refl _).bind ?_; rintro k _ rfl
    refine (Same.refl _).bind ?_; rintro hs _ rfl
    refine (Same.refl _).bind ?_; rintro ⟨s, h⟩ _ rfl
    exact Same.ok ⟨rfl, rfl⟩
  | encoding =>
    refine (Same.refl _).bind ?_; rintro k _ rfl
    refine (Same.refl _).bind ?_; rintro hs _ rfl
    refine (Same.refl _).bind ?_; rintro ⟨s, h⟩ _ rfl
    exact Same.ok ⟨rfl, rfl⟩
  | decoding => exact Same.error

/-- two codecs for `n` channels that differ in the info only -/
structure Labelled (n : Nat) (c c' : AdhocCodec) : Prop where
  eq : c = c'.labelled c.stream.info
  info : ∃ i, c.stream.info = some i ∧ i.channels = n
  info' : ∃ i, c'.stream.info = some i ∧ i.channels = n
  chans : c'.channelStateList.length = n

theorem same_encodeChannel_label {n : Nat} (b : Build) {c c' : AdhocCodec} (H : Labelled n c c') (pcm : List F32) (k m ch : Nat) :
    Same (c.encodeChannel b pcm k m ch) (c'.encodeChannel b pcm k m ch) fun x y =>
      Labelled n x y ∧ x.stream.info = c.stream.info ∧ y.stream.info = c'.stream.info := by
  obtain ⟨he, hi, hi', hc⟩ := H
  generalize c.stream.info = i at he hi ⊢
  subst he
  unfold AdhocCodec.encodeChannel
  refine (Same.refl _).bind ?_; rintro xs _ rfl
  refine (Same.refl _).bind ?_; rintro ⟨seq, ys⟩ _ rfl
  refine (Same.refl _).bind ?_; rintro fc _ rfl
  have := same_encodeFrame_label b fc c'.stream c'.frameHeaderList ys i
  rcases this with ⟨e, e1, e2⟩ | ⟨a, a', e1, e2, rfl, h⟩
  · left
    refine ⟨e, ?_, ?_⟩
    · dsimp only [AdhocCodec.labelled]
      rw [e2]; rfl
    · dsimp only
      rw [e1]; rfl
  · dsimp only [AdhocCodec.labelled]
    rw [e1, e2]
    simp only [bind_ok]
    unfold setIdx
    split
    · exact Same.ok ⟨⟨rfl, hi, by dsimp only; rw [h]; exact hi', by simpa using hc⟩, rfl, h⟩
    · exact Same.error

theorem same_encode_label {n : Nat} (b : Build) {c c' : AdhocCodec} (H : Labelled n c c') (pcm : List F32) :
    Same (c.encode b pcm) (c'.encode b pcm) fun x y =>
      Labelled n x.1 y.1 ∧ x.1.stream.info = c.stream.info ∧ y.1.stream.info = c'.stream.info := by
  unfold AdhocCodec.encode AdhocCodec.encodeRaw
  obtain ⟨i, e, hi⟩ := H.info
  obtain ⟨i', e', hi'⟩ := H.info'
  rw [e, e']
  simp only [expect, bind_ok, hi, hi']
  rw [← e, ← e']
  refine Same.bind (P := fun x y => Labelled n x y ∧ x.stream.info = c.stream.info ∧ y.stream.info = c'.stream.info) ?_
    (fun x y h => Same.ok h)
  refine (Same.refl _).bind ?_
  rintro m _ rfl
  refine Same.foldlM (P := fun x y => Labelled n x y ∧ x.stream.info = c.stream.info ∧ y.stream.info = c'.stream.info) ?_ _ _ _ ⟨H, rfl, rfl⟩
  rintro x y ch ⟨h1, h2, h3⟩
  have := same_encodeChannel_label b h1 pcm n m ch
  rcases this with h | ⟨a, a', e1, e2, h4, h5, h6⟩
  · exact .inl h
  · exact .inr ⟨a, a', e1, e2, h4, h5.trans h2, h6.trans h3⟩

namespace Spec

/-- the calls without the infos -/
def noInfo : List Setting → List Setting
  | [] => []
  | .info _ :: l => noInfo l
  | s :: l => s :: noInfo l

end Spec

theorem same_settings_label {n : Nat} (b : Build) : ∀ (l : List Setting) (c c' : AdhocCodec) (_ : Labelled n c c')
    (_ : ∀ i, Setting.info i ∈ l → i.channels = n),
    Same (settings b c l) (settings b c' (noInfo l)) fun x y => x = y.labelled (lastInfo c.stream.info l)
  | [], c, c', H, _ => Same.ok H.eq
  | .info i :: l, c, c', H, hi => by
    have hin := hi i (by simp)
    have := same_settings_label b l (c.setInfo i) c' ⟨by
      obtain ⟨he, h1, -, hc⟩ := H
      generalize c.stream.info = j at he h1
      subst he
      simp [AdhocCodec.setInfo, AdhocCodec.labelled, AdhocCodec.resize, hin, ← hc], ⟨i, rfl, hin⟩, H.info', H.chans⟩
      (fun j hj => hi j (by simp [hj]))
    unfold settings at this ⊢
    rw [List.foldlM_cons]
    exact this
  | .level k :: l, c, c', H, hi => by
    have := same_settings_label b l (c.withCompressionLevel k) (c'.withCompressionLevel k) ⟨by
      obtain ⟨he, h1, -, hc⟩ := H
      generalize c.stream.info = j at he h1
      subst he
      rfl, H.info, H.info', H.chans⟩ (fun j hj => hi j (by simp [hj]))
    unfold settings at this ⊢
    rw [noInfo, List.foldlM_cons, List.foldlM_cons]
    · exact this
    · intro i h; cases h
  | .call pcm :: l, c, c', H, hi => by
    unfold settings
    rw [noInfo, List.foldlM_cons, List.foldlM_cons]
    · refine Same.bind (P := fun x y => Labelled n x y ∧ x.stream.info = c.stream.info) ?_ ?_
      · refine (same_encode_label b H pcm).bind ?_
        rintro ⟨x, _⟩ ⟨y, _⟩ ⟨h1, h2, h3⟩
        exact Same.ok ⟨h1, h2⟩
      · rintro x y ⟨h1, h2⟩
        have := same_settings_label b l x y h1 (fun j hj => hi j (by simp [hj]))
        rw [h2] at this
        exact this
    · intro i h; cases h

/-- C91, during a recording: setting the info again, with the same number of channels, changes nothing but the info itself: without it
the recording panics at the same place or gives the same codec, except for the info. -/
theorem C91_info_again (b : Build) (info : StreamInfo) (level : Nat) (l : List Setting)
    (hi : ∀ i, Setting.info i ∈ l → i.channels = info.channels) :
    (∀ e, settings b (fresh info level) l = .error e ↔ settings b (fresh info level) (noInfo l) = .error e) ∧
    ∀ c, settings b (fresh info level) l = .ok c →
      ∃ c', settings b (fresh info level) (noInfo l) = .ok c' ∧ c = c'.labelled (lastInfo (some info) l) := by
  have H : Labelled info.channels (fresh info level) (fresh info level) :=
    ⟨rfl, ⟨info, rfl, rfl⟩, ⟨info, rfl, rfl⟩, (encSt_new info level).chans⟩
  rcases same_settings_label b l _ _ H hi with ⟨e, e1, e2⟩ | ⟨x, y, e1, e2, h⟩
  · rw [e1, e2]
    exact ⟨fun _ => Iff.rfl, fun c h => by cases h⟩
  · rw [e1, e2]
    refine ⟨fun _ => by simp, fun c hc => ?_⟩
    cases hc
    exact ⟨y, rfl, h⟩

/-- C91, during a recording: with any settings, each call is stored with the level in force at it; a release build never panics. -/
theorem C91_levels (b : Build) (info : StreamInfo) (level : Nat) (l : List Setting) (hn : 0 < info.channels)
    (hi : ∀ i, Setting.info i ∈ l → i.channels = info.channels) (hp : Proper info.channels ((callsAt level l).map Prod.snd)) :
    (∃ c, settings .release (fresh info level) l = .ok c) ∧
    ∀ c, settings b (fresh info level) l = .ok c →
      (∃ info', lastInfo (some info) l = some info' ∧ c.info = .ok info') ∧
      ∀ b' bufs, ∃ c', decodeAll b' c.init bufs = .ok (c',
        (readBlocks info.channels (played info.channels (signal info.channels ((callsAt level l).map Prod.snd)).length
          fun ch => storedAt info.channels ch 0 (callsAt level l)) bufs).map fun r => (r.1.map (· * gain (lastLevel level l)), r.2)) :=
  ⟨settings_release hn hi hp, fun _ h => played_settings hn h hi hp⟩

/-! ## setting the level of a recording -/

/-- two codecs that differ in their level only -/
structure Rescaled (c c' : AdhocCodec) : Prop where
  headers : c'.frameHeaderList = c.frameHeaderList
  stream : c'.stream = c.stream
  chans : c'.channelStateList = c.channelStateList

/-- the two keep their scales -/
def Keeps (s s' : F32) (c c' : AdhocCodec) : Prop := Rescaled c c' ∧ c.scale = s ∧ c'.scale = s'

variable {s s' : F32}

theorem same_decodeChannel_level {b : Build} {c c' : AdhocCodec} (H : Keeps s s' c c') (ch : Nat) :
    Same (c.decodeChannel b ch) (c'.decodeChannel b ch) (Keeps s s') := by
  obtain ⟨⟨h1, h2, h3⟩, hs, hs'⟩ := H
  unfold AdhocCodec.decodeChannel
  rw [h1, h2, h3]
  refine (Same.refl _).bind ?_; rintro fc _ rfl
  refine (Same.refl _).bind ?_; rintro ⟨f, st, hd, n⟩ _ rfl
  refine (Same.refl _).bind ?_; rintro l _ rfl
  exact Same.ok ⟨⟨rfl, rfl, rfl⟩, hs, hs'⟩

theorem same_bufferAudio_level {b : Build} {n : Nat} : ∀ (left : Nat) {c c' : AdhocCodec} (_ : Keeps s s' c c'),
    Same (AdhocCodec.bufferAudio b n left c) (AdhocCodec.bufferAudio b n left c') (fun r r' => Keeps s s' r.1 r'.1 ∧ r.2 = r'.2)
  | 0, _, _, H => Same.ok ⟨H, rfl⟩
  | left + 1, c, c', H => by
    unfold AdhocCodec.bufferAudio
    have : c'.isBuffersEmpty = c.isBuffersEmpty := by unfold AdhocCodec.isBuffersEmpty; rw [H.1.chans]
    rw [this]
    split
    · unfold AdhocCodec.decodeBlock
      exact (Same.foldlM (P := Keeps s s') (fun c c' ch h => same_decodeChannel_level h ch) _ _ _ H).bind
        fun d d' h => same_bufferAudio_level left h
    · exact Same.ok ⟨H, rfl⟩

theorem same_popBlock_level {legal : Nat} : ∀ (n ch : Nat) {c c' : AdhocCodec} (_ : Keeps s s' c c') (pcm : List F32) (cursor : Nat),
    Same (AdhocCodec.popBlock legal n ch c pcm cursor) (AdhocCodec.popBlock legal n ch c' pcm cursor) (fun r r' => Keeps s s' r.1 r'.1 ∧ r.2 = r'.2)
  | 0, _, _, _, H, _, _ => Same.ok ⟨H, rfl⟩
  | n + 1, ch, c, c', H, pcm, cursor => by
    obtain ⟨⟨h1, h2, h3⟩, hs, hs'⟩ := H
    unfold AdhocCodec.popBlock
    rw [h3]
    split
    · refine (Same.refl _).bind ?_; rintro fc _ rfl
      refine (Same.refl _).bind ?_; rintro l _ rfl
      refine (Same.refl _).bind ?_; rintro p _ rfl
      have H' : Keeps s s' { c with channelStateList := l } { c' with channelStateList := l } := ⟨⟨h1, h2, rfl⟩, hs, hs'⟩
      exact same_popBlock_level n (ch + 1) H' _ _
    · exact Same.ok ⟨⟨⟨h1, h2, h3⟩, hs, hs'⟩, rfl⟩

theorem same_decodeLoop_level {b : Build} {n legal : Nat} : ∀ (fuel : Nat) {c c' : AdhocCodec} (_ : Keeps s s' c c') (pcm : List F32) (cursor : Nat),
    Same (AdhocCodec.decodeLoop b n legal fuel c pcm cursor) (AdhocCodec.decodeLoop b n legal fuel c' pcm cursor)
      (fun r r' => Keeps s s' r.1 r'.1 ∧ r.2 = r'.2)
  | 0, _, _, _, _, _ => Same.error
  | fuel + 1, c, c', H, pcm, cursor => by
    unfold AdhocCodec.decodeLoop
    split
    · refine (same_bufferAudio_level _ H).bind ?_
      rintro ⟨d, k⟩ ⟨d', k'⟩ ⟨h1, h2⟩
      dsimp only at h1 h2 ⊢
      subst h2
      split
      · exact Same.ok ⟨h1, rfl⟩
      · refine (same_popBlock_level _ _ h1 _ _).bind ?_
        rintro ⟨e, p⟩ ⟨e', p'⟩ ⟨h3, h4⟩
        dsimp only at h3 h4 ⊢
        subst h4
        exact same_decodeLoop_level fuel h3 _ _
    · exact Same.ok ⟨H, rfl⟩

theorem same_decode_level {b : Build} {c c' : AdhocCodec} (H : Keeps (F32.ofInt 1) s' c c') (buf : List F32) :
    Same (c.decode b buf) (c'.decode b buf) (fun r r' => Keeps (F32.ofInt 1) s' r.1 r'.1 ∧ r'.2 = (r.2.1.map (· * s'), r.2.2)) := by
  unfold AdhocCodec.decode
  refine Same.bind (P := fun r r' => Keeps (F32.ofInt 1) s' r.1 r'.1 ∧ r'.2 = (r.2.1.map (· * s'), r.2.2)) ?_ ?_
  · unfold AdhocCodec.decodeRaw
    rw [H.1.stream]
    refine (Same.refl _).bind ?_; rintro i _ rfl
    refine (Same.refl _).bind ?_; rintro q _ rfl
    refine (same_decodeLoop_level _ H _ _).bind ?_
    rintro ⟨d, p, k⟩ ⟨d', p', k'⟩ ⟨h1, h2⟩
    cases h2
    refine Same.ok ⟨h1, ?_⟩
    dsimp only
    rw [h1.2.1, h1.2.2]
    simp [F32.mul_one']
  · rintro ⟨d, p, k⟩ ⟨d', p', k'⟩ ⟨h1, h2⟩
    cases h2
    exact Same.ok ⟨h1, rfl⟩

theorem same_prune_level {b : Build} {n target : Nat} : ∀ (fuel skipped : Nat) {c c' : AdhocCodec} (_ : Keeps s s' c c'),
    Same (AdhocCodec.prune b n target fuel skipped c) (AdhocCodec.prune b n target fuel skipped c') (Keeps s s')
  | 0, _, _, _, _ => Same.error
  | fuel + 1, skipped, c, c', H => by
    unfold AdhocCodec.prune
    split
    · unfold AdhocCodec.dropOne
      refine (Same.foldlM (P := Keeps s s') ?_ _ _ _ H).bind fun d d' h => ?_
      · rintro c c' off ⟨⟨h1, h2, h3⟩, hs, hs'⟩
        rw [h3]
        refine (Same.refl _).bind ?_; rintro fc _ rfl
        refine (Same.refl _).bind ?_; rintro l _ rfl
        exact Same.ok ⟨⟨h1, h2, rfl⟩, hs, hs'⟩
      · refine (Same.refl _).bind ?_; rintro k _ rfl
        exact same_prune_level fuel k h
    · exact Same.ok H

theorem same_seekChannel_level {b : Build} {c c' : AdhocCodec} (H : Keeps s s' c c') (start off : Nat) :
    Same (c.seekChannel b start off) (c'.seekChannel b start off) (Keeps s s') := by
  obtain ⟨⟨h1, h2, h3⟩, hs, hs'⟩ := H
  unfold AdhocCodec.seekChannel
  rw [h1, h2, h3]
  refine (Same.refl _).bind ?_; rintro o _ rfl
  refine (Same.refl _).bind ?_; rintro hdr _ rfl
  refine (Same.refl _).bind ?_; rintro fc _ rfl
  refine (Same.refl _).bind ?_; rintro ⟨f, st, hd, n⟩ _ rfl
  refine (Same.refl _).bind ?_; rintro l _ rfl
  exact Same.ok ⟨⟨rfl, rfl, rfl⟩, hs, hs'⟩

theorem same_seek_level {b : Build} {c c' : AdhocCodec} (H : Keeps s s' c c') (dt : SeekFrom) :
    Same (c.seek b dt) (c'.seek b dt) (Keeps s s') := by
  have H0 : Keeps s s' c.init c'.init := by
    obtain ⟨⟨h1, h2, h3⟩, hs, hs'⟩ := H
    refine ⟨⟨?_, ?_, ?_⟩, hs, hs'⟩
    · unfold AdhocCodec.init; dsimp only; rw [h1]
    · unfold AdhocCodec.init; dsimp only; rw [h2]
    · unfold AdhocCodec.init; dsimp only; rw [h3]
  unfold AdhocCodec.seek
  rw [H.1.stream]
  refine (Same.refl _).bind ?_; rintro i _ rfl
  cases dt with
  | start ms =>
    dsimp only
    split
    · exact Same.ok H0
    · unfold AdhocCodec.seekTo
      generalize c.init = d at H0
      generalize c'.init = d' at H0
      rw [H0.1.headers]
      refine (Same.refl _).bind ?_; rintro target _ rfl
      refine (Same.refl _).bind ?_; rintro len _ rfl
      refine (Same.refl _).bind ?_; rintro ⟨sk, blk⟩ _ rfl
      refine (Same.refl _).bind ?_; rintro o _ rfl
      refine (Same.refl _).bind ?_; rintro hdr _ rfl
      refine (Same.foldlM (P := Keeps s s') (fun c c' off h => same_seekChannel_level h _ off) _ _ _ ?_).bind
        fun e e' h => same_prune_level _ _ h
      obtain ⟨⟨h1, h2, h3⟩, hs, hs'⟩ := H0
      exact ⟨⟨rfl, by dsimp only; rw [h2], h3⟩, hs, hs'⟩
  | _ => exact Same.error

theorem same_winds_level {b : Build} : ∀ (acts : List Act) {c c' : AdhocCodec} (_ : Keeps (F32.ofInt 1) s' c c'),
    Same (winds b c acts) (winds b c' acts) fun r r' => r' = r.map fun x => (x.1.map (· * s'), x.2)
  | [], _, _, _ => Same.ok rfl
  | .read buf :: acts, c, c', H => by
    unfold winds
    refine (same_decode_level H buf).bind ?_
    rintro ⟨d, p, k⟩ ⟨d', p', k'⟩ ⟨h1, h2⟩
    cases h2
    refine (same_winds_level acts h1).bind ?_
    rintro r _ rfl
    exact Same.ok rfl
  | .seek ms :: acts, c, c', H => by
    unfold winds
    exact (same_seek_level H _).bind fun d d' h => same_winds_level acts h

/-- C92, exact behaviour. Setting the level of a codec, whatever it holds, changes reads only by a factor: they give what they give at
level 0 times 2 to the level, and panic where they panic at level 0. -/
theorem C92_gain_partial (b : Build) (c : AdhocCodec) (level : Nat) (acts : List Act) :
    winds b (c.withCompressionLevel level) acts =
      (winds b (c.withCompressionLevel 0) acts).map fun outs => outs.map fun r => (r.1.map (· * gain level), r.2) := by
  have h0 : (c.withCompressionLevel 0).scale = F32.ofInt 1 := (fresh_zero { sampleRate := 0, channels := 0 }).1
  rcases same_winds_level (b := b) (s' := gain level) acts (c := c.withCompressionLevel 0) (c' := c.withCompressionLevel level)
    ⟨⟨rfl, rfl, rfl⟩, h0, gain_eq c level⟩ with ⟨e, e1, e2⟩ | ⟨r, r', e1, e2, rfl⟩
  · rw [e1, e2]; rfl
  · rw [e1, e2]; rfl

/-- half of full scale, constant -/
def half : List (List F32) := [List.replicate 4 (F32.ofRat (1 / 2))]

/-- C92 is false: half of full scale, recorded at level 0, plays as full scale after level 1 has been set. -/
theorem C92_false : ¬ ∀ (b : Build) (info : StreamInfo) (level level' : Nat) (calls : List (List F32)) (c : AdhocCodec) (acts : List Act),
    encodeAll b (fresh info level) calls = .ok c → winds b (c.withCompressionLevel level').init acts = winds b c.init acts := by
  intro H
  have h : (match encodeAll .release (fresh { sampleRate := 8000, channels := 1 } 0) half with
    | .ok c => decide (winds .release (c.withCompressionLevel 1).init [.read [F32.ofInt 0]] ≠ winds .release c.init [.read [F32.ofInt 0]])
    | .error _ => false) = true := by decide +kernel
  split at h
  · rename_i c hc
    exact of_decide_eq_true h (H _ _ _ 1 _ c _ hc)
  · cases h

/-- the infos of a list of settings -/
theorem forall_info {P : StreamInfo → Prop} {l : List Setting} :
    (∀ i, Setting.info i ∈ l → P i) ↔ ∀ s ∈ l, match s with | .info i => P i | _ => True := by
  constructor
  · intro h s hs
    cases s with
    | info i => exact h i hs
    | _ => trivial
  · intro h i hi
    exact h _ hi

/-- the level is set before the info, the info twice -/
example : settings .debug AdhocCodec.new [.level 3, .info { sampleRate := 8000, channels := 5 }, .level 12, .info { sampleRate := 44100, channels := 2 }] =
    .ok (fresh { sampleRate := 44100, channels := 2 } 12) := C91_any_order _ _ _ rfl rfl

/-- a recording whose level and info change after the first call -/
def changing : List Setting :=
  [.call (List.replicate 4 (F32.ofRat (1 / 2))), .level 1, .info { sampleRate := 44100, channels := 1 }, .call (List.replicate 4 (F32.ofRat (1 / 2)))]

theorem changing_calls : callsAt 0 changing = [(0, List.replicate 4 (F32.ofRat (1 / 2))), (1, List.replicate 4 (F32.ofRat (1 / 2)))] := rfl

theorem changing_proper : Proper 1 ((callsAt 0 changing).map Prod.snd) := by
  rw [changing_calls]
  refine ⟨by simp, by simp, ?_⟩
  intro j
  match j with
  | 0 => exact .inl ⟨0, by simp, by simp⟩
  | 1 => exact .inl ⟨0, by simp, by simp⟩
  | j + 2 => exact .inr fun t => by simp [Nat.add_right_comm j 2 t]

/-- the hypotheses of C91 hold for it; the second call is stored at half the value, and all is played at twice the value -/
example : Proper 1 ((callsAt 0 changing).map Prod.snd) ∧
    (∀ i, Setting.info i ∈ changing → i.channels = 1) ∧
    (∃ c, settings .debug (fresh { sampleRate := 8000, channels := 1 } 0) changing = .ok c) ∧
    lastInfo (some { sampleRate := 8000, channels := 1 }) changing = some { sampleRate := 44100, channels := 1 } ∧
    lastLevel 0 changing = 1 ∧ gain 1 = F32.ofInt 2 ∧
    storedAt 1 0 0 (callsAt 0 changing) = [16383, 16383, 16383, 16383, 8190, 8187, 8188, 8190] := by
  refine ⟨changing_proper, forall_info.2 (by simp [changing]), ?_, rfl, rfl, by decide +kernel, by decide +kernel⟩
  have h : (match settings .debug (fresh { sampleRate := 8000, channels := 1 } 0) changing with
    | .ok _ => true
    | .error _ => false) = true := by decide +kernel
  split at h
  · rename_i c hc
    exact ⟨c, hc⟩
  · cases h

end Adhoc
