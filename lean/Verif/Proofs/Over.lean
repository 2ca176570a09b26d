import Verif.Proofs.Alike
import Verif.Proofs.Values

/-! Recording over old memory, side by side with recording into a new codec. -/

namespace Adhoc
open Spec BitStream

/-! ## the bit stream -/

/-- The same has been written to `s`, starting from nothing, and to `t`, starting from the memory `M` of capacity `C`: `t` has the bits of `s`, and
beside them at most old ones. -/
structure Inked (M : List (BitVec 128)) (C : Nat) (s t : BitStream) : Prop where
  cursor : t.bitCursor = s.bitCursor
  inside : s.bitCursor / 128 ≤ s.binary.length
  length : t.binary.length = max s.binary.length M.length
  cap : t.capacity = max s.capacity C
  lower : ∀ i, bitAt s.binary i = true → bitAt t.binary i = true
  upper : ∀ i, bitAt t.binary i = true → bitAt s.binary i = true ∨ bitAt M i = true

theorem over_new (s : BitStream) : Inked s.binary s.capacity BitStream.new s.seekStart where
  cursor := rfl
  inside := Nat.zero_le _
  length := by simp [BitStream.new, seekStart]
  cap := by simp [BitStream.new, seekStart]
  lower := by intro i h; simp [BitStream.new, bitAt] at h
  upper := fun i h => .inr h

theorem over_writeBits {M : List (BitVec 128)} {C : Nat} {s t : BitStream} (H : Inked M C s t) (v : BitVec 128) {n : Nat} (hn : n ≤ 128) :
    Same (s.writeBits v n) (t.writeBits v n) (Inked M C) := by
  have hl := H.length
  have hi := H.inside
  have hcu := H.cursor
  obtain ⟨s', e, h1, h2, h3, h4⟩ := writeBits_all (v := v) hn H.inside
  obtain ⟨t', e', g1, g2, g3, g4⟩ := writeBits_all (s := t) (v := v) hn (by rw [hcu, hl]; omega)
  rw [hcu] at g1 g2 g3 g4
  rw [e, e']
  refine Same.ok ⟨by rw [h1, g1], by rw [h1, h3]; omega, by rw [g3, h3, hl]; omega, by rw [g2, h2, H.cap]; omega, fun i h => ?_, fun i h => ?_⟩
  · rw [h4] at h
    rw [g4]
    split_ifs at h ⊢ with a1 a2 a3
    · exact H.lower i h
    · exact h
    · rw [Bool.or_eq_true, Bool.and_eq_true] at h ⊢
      exact h.imp (fun h => ⟨h.1, H.lower i h.2⟩) id
    · exact H.lower i h
  · rw [g4] at h
    rw [h4]
    split_ifs at h ⊢ with a1 a2 a3
    · exact H.upper i h
    · exact .inl h
    · rw [Bool.or_eq_true, Bool.and_eq_true] at h ⊢
      rcases h with ⟨h5, h6⟩ | h
      · exact (H.upper i h6).imp (fun h => .inl ⟨h5, h⟩) id
      · exact .inl (.inr h)
    · exact H.upper i h

theorem over_writeBit {M : List (BitVec 128)} {C : Nat} {s t : BitStream} (H : Inked M C s t) (v : BitVec 8) :
    Same (s.writeBit v) (t.writeBit v) (Inked M C) := by
  have hl := H.length
  have hi := H.inside
  have hcu := H.cursor
  obtain ⟨s', e, h1, h2, h3, h4⟩ := writeBit_all (v := v) H.inside
  obtain ⟨t', e', g1, g2, g3, g4⟩ := writeBit_all (s := t) (v := v) (by rw [hcu, hl]; omega)
  rw [hcu] at g1 g2 g3 g4
  rw [e, e']
  refine Same.ok ⟨by rw [h1, g1], by rw [h1, h3]; omega, by rw [g3, h3, hl]; omega, by rw [g2, h2, H.cap]; omega, fun i h => ?_, fun i h => ?_⟩
  · rw [h4] at h
    rw [g4]
    split_ifs at h ⊢ with a1 a2
    · exact H.lower i h
    · exact h
    · exact H.lower i h
  · rw [g4] at h
    rw [h4]
    split_ifs at h ⊢ with a1 a2
    · exact H.upper i h
    · exact .inl h
    · exact H.upper i h

theorem over_writeUnary {M : List (BitVec 128)} {C : Nat} : ∀ (fuel : Nat) {s t : BitStream} (_ : Inked M C s t) (q : Int),
    Same (BitStream.writeUnary fuel s q) (BitStream.writeUnary fuel t q) (Inked M C)
  | 0, _, _, _, _ => Same.error
  | fuel + 1, s, t, H, q => by
    unfold BitStream.writeUnary
    split_ifs with h1 h2
    · exact (over_writeBits H _ le_rfl).bind fun s' t' H' => over_writeUnary fuel H' _
    · exact over_writeBits H _ (by omega)
    · exact Same.ok H

theorem over_writeCompressed {M : List (BitVec 128)} {C : Nat} {b : Build} {s t : BitStream} (H : Inked M C s t) {k : Nat} (hk : k ≤ 128) (e : BitVec 16) :
    Same (s.writeCompressed b k e) (t.writeCompressed b k e) (Inked M C) := by
  unfold BitStream.writeCompressed
  dsimp only
  refine (Same.refl _).bind ?_
  rintro a _ rfl
  refine (Same.refl _).bind ?_
  rintro m _ rfl
  exact (over_writeBit H _).bind fun _ _ H => (over_writeUnary _ H _).bind fun _ _ H => (over_writeBit H _).bind fun _ _ H => over_writeBits H _ hk

/-! ## frames -/

theorem RingAlike.predict {h h' : CircularStack Int} (H : RingAlike h h') : FrameCodec.predictFrom h = FrameCodec.predictFrom h' := by
  obtain ⟨P, h1, h2, h3⟩ := H
  rw [h1.predict h3, h2.predict h3]

theorem RingAlike.history {h h' : CircularStack Int} (H : RingAlike h h') : FrameCodec.historyOf h = FrameCodec.historyOf h' := by
  obtain ⟨P, h1, h2, h3⟩ := H
  rw [h1.history h3, h2.history h3]

theorem costTable_alike {b : Build} : ∀ (ys : List F32) {h h' : CircularStack Int} (_ : RingAlike h h') (t : List Nat),
    FrameCodec.costTable b h ys t = FrameCodec.costTable b h' ys t
  | [], _, _, _, _ => rfl
  | y :: ys, h, h', H, t => by
    unfold FrameCodec.costTable
    dsimp only
    rw [H.predict]
    congr 1
    funext t'
    exact costTable_alike ys (H.push _) t'

theorem optimal_alike {b : Build} {h h' : CircularStack Int} (H : RingAlike h h') (ys : List F32) :
    FrameCodec.computeOptimalDivisorExponent b h ys = FrameCodec.computeOptimalDivisorExponent b h' ys := by
  unfold FrameCodec.computeOptimalDivisorExponent
  rw [costTable_alike ys H]

theorem over_encodeSamples {M : List (BitVec 128)} {C : Nat} {b : Build} {k : Nat} (hk : k ≤ 128) : ∀ (ys : List F32) {s t : BitStream}
    {h h' : CircularStack Int} (_ : Inked M C s t) (_ : RingAlike h h'),
    Same (FrameCodec.encodeSamples b k s h ys) (FrameCodec.encodeSamples b k t h' ys) (fun r r' => Inked M C r.1 r'.1 ∧ RingAlike r.2 r'.2)
  | [], _, _, _, _, H, H' => Same.ok ⟨H, H'⟩
  | y :: ys, s, t, h, h', H, H' => by
    unfold FrameCodec.encodeSamples
    dsimp only
    rw [H'.predict]
    refine (Same.refl _).bind ?_
    rintro e _ rfl
    exact (over_writeCompressed H hk _).bind fun _ _ H => over_encodeSamples hk ys H (H'.push _)

theorem ens_optimal (b : Build) (h : CircularStack Int) (ys : List F32) : Ens (FrameCodec.computeOptimalDivisorExponent b h ys) (· < 16) := by
  intro k hk
  unfold FrameCodec.computeOptimalDivisorExponent at hk
  obtain ⟨t, e, hk⟩ := bind_eq_ok.1 hk
  have hl : t.length = 16 := by
    have key : ∀ (ys : List F32) (h : CircularStack Int) (t t' : List Nat), FrameCodec.costTable b h ys t = .ok t' → t'.length = t.length := by
      have add : ∀ (e n : Nat) (t t' : List Nat), FrameCodec.addCosts b e n t = .ok t' → t'.length = t.length := by
        intro e n
        induction n with
        | zero => intro t t' h; cases h; rfl
        | succ n ih =>
          intro t t' h
          unfold FrameCodec.addCosts at h
          obtain ⟨_, _, h⟩ := bind_eq_ok.1 h
          obtain ⟨_, _, h⟩ := bind_eq_ok.1 h
          obtain ⟨_, _, h⟩ := bind_eq_ok.1 h
          obtain ⟨_, _, h⟩ := bind_eq_ok.1 h
          obtain ⟨_, _, h⟩ := bind_eq_ok.1 h
          obtain ⟨t1, h1, h⟩ := bind_eq_ok.1 h
          rw [ih _ _ h, (setIdx_eq_ok.1 h1).2, List.length_set]
      intro ys
      induction ys with
      | nil => intro h t t' e; cases e; rfl
      | cons y ys ih =>
        intro h t t' e
        unfold FrameCodec.costTable at e
        obtain ⟨t1, h1, e⟩ := bind_eq_ok.1 e
        rw [ih _ _ _ e, add _ _ _ _ h1]
    rw [key _ _ _ _ e, List.length_replicate]
  cases hk
  cases hm : FrameCodec.argminPos t with
  | none => simp
  | some k =>
    have := (argminPos_some hm).2.1
    rw [Option.getD_some]; omega

/-- a channel that records into a new codec, and one that records into a used one -/
def ChanOver (c c' : FrameCodec) : Prop :=
  (c.state = .init ∧ c'.state = .init ∧ Last c.history [] ∧ Last c'.history []) ∨ (c.state = .encoding ∧ c'.state = .encoding ∧ RingAlike c.history c'.history)

/-- the headers of the new recording, alone and before those of the old recording that it has not reached -/
def LogOver (old : List FrameHeader) (h h' : FrameHeaders) : Prop :=
  ∃ log, IsLog h log log.length ∧ IsLog h' (log ++ old.drop log.length) log.length

theorem push_over {old : List FrameHeader} {h h' : FrameHeaders} (H : LogOver old h h') {x : FrameHeader} (hx : x.exponent < 16) :
    Same (h.push x) (h'.push x) (LogOver old) := by
  obtain ⟨log, h1, h2⟩ := H
  rw [push_mod h, push_mod h']
  have fits : ({ x with bitCursor := x.bitCursor % 2 ^ 64 } : FrameHeader).Fits := ⟨hx, Nat.mod_lt _ (by norm_num)⟩
  obtain ⟨a, e, h3⟩ := isLog_push h1 fits
  obtain ⟨a', e', h4⟩ := isLog_push h2 fits
  rw [e, e']
  refine Same.ok ⟨log ++ [{ x with bitCursor := x.bitCursor % 2 ^ 64 }], ?_, ?_⟩
  · rw [if_neg (by omega)] at h3
    simpa using h3
  · generalize ({ x with bitCursor := x.bitCursor % 2 ^ 64 } : FrameHeader) = y at *
    rw [List.length_append, List.length_drop] at h4
    by_cases hl : log.length < old.length
    · rw [if_pos (by omega)] at h4
      rw [List.length_append, List.length_singleton, List.append_assoc, List.singleton_append]
      rw [List.drop_eq_getElem_cons hl, List.set_append_right _ _ (le_refl _), Nat.sub_self, List.set_cons_zero] at h4
      exact h4
    · rw [if_neg (by omega), List.drop_eq_nil_of_le (by omega), List.append_nil] at h4
      rw [List.length_append, List.length_singleton, List.drop_eq_nil_of_le (by omega), List.append_nil]
      exact h4

/-- what two runs of `encode_frame` agree on -/
def FrameOver (M : List (BitVec 128)) (C : Nat) (old : List FrameHeader) (r r' : FrameCodec × AudioStream × FrameHeaders) : Prop :=
  ChanOver r.1 r'.1 ∧ r.2.1.info = r'.2.1.info ∧ Inked M C r.2.1.stream r'.2.1.stream ∧ LogOver old r.2.2 r'.2.2

theorem over_encodeFrame {M : List (BitVec 128)} {C : Nat} {old : List FrameHeader} {b : Build} {c c' : FrameCodec} (H : ChanOver c c')
    {st st' : AudioStream} (hi : st.info = st'.info) (hs : Inked M C st.stream st'.stream) {hd hd' : FrameHeaders} (hl : LogOver old hd hd') (pcm : List F32) :
    Same (c.encodeFrame b st hd pcm) (c'.encodeFrame b st' hd' pcm) (FrameOver M C old) := by
  unfold FrameCodec.encodeFrame
  rcases H with ⟨h1, h2, h3, h4⟩ | ⟨h1, h2, H⟩
  · rw [h1, h2]
    dsimp only
    refine (Same.refl _).bind ?_
    rintro p0 _ rfl
    refine (over_writeBits hs _ (by norm_num)).bind fun s1 t1 H1 => ?_
    refine (Same.refl _).bind ?_
    rintro p1 _ rfl
    refine (over_writeBits H1 _ (by norm_num)).bind fun s2 t2 H2 => ?_
    refine (Same.refl _).bind ?_
    rintro p2 _ rfl
    refine (over_writeBits H2 _ (by norm_num)).bind fun s3 t3 H3 => ?_
    have R := ringAlike_three h3 h4 (truncateSample p0) (truncateSample p1) (truncateSample p2)
    rw [optimal_alike R, R.history, hs.cursor]
    refine Same.bind (P := fun k k' => k = k' ∧ k < 16) ?_ ?_
    · cases e : FrameCodec.computeOptimalDivisorExponent b _ (pcm.drop 3) with
      | error e => exact Same.error
      | ok k => exact Same.ok ⟨rfl, ens_optimal _ _ _ k e⟩
    rintro k _ ⟨rfl, hk⟩
    refine (push_over hl hk).bind fun hd1 hd1' hl1 => ?_
    refine (over_encodeSamples (by omega) _ H3 R).bind fun r r' hr => ?_
    exact Same.ok ⟨.inr ⟨rfl, rfl, hr.2⟩, hi, hr.1, hl1⟩
  · rw [h1, h2]
    dsimp only
    rw [optimal_alike H, H.history, hs.cursor]
    refine Same.bind (P := fun k k' => k = k' ∧ k < 16) ?_ ?_
    · cases e : FrameCodec.computeOptimalDivisorExponent b _ pcm with
      | error e => exact Same.error
      | ok k => exact Same.ok ⟨rfl, ens_optimal _ _ _ k e⟩
    rintro k _ ⟨rfl, hk⟩
    refine (push_over hl hk).bind fun hd1 hd1' hl1 => ?_
    refine (over_encodeSamples (by omega) _ hs H).bind fun r r' hr => ?_
    exact Same.ok ⟨.inr ⟨rfl, rfl, hr.2⟩, hi, hr.1, hl1⟩

/-! ## the codec -/

/-- `c` records into a new codec, `c'` into a used one with memory `M` and headers `old`. The noise is the same, or there is none. -/
structure CodecOver (M : List (BitVec 128)) (C : Nat) (old : List FrameHeader) (c c' : AdhocCodec) : Prop where
  chans : List.Forall₂ ChanOver c.channelStateList c'.channelStateList
  info : c.stream.info = c'.stream.info
  stream : Inked M C c.stream.stream c'.stream.stream
  log : LogOver old c.frameHeaderList c'.frameHeaderList
  level : c.compressionLevel = c'.compressionLevel
  scale : c.scale = c'.scale
  inv : c.invScale = c'.invScale
  noise : c.seq = c'.seq ∨ c.invScale = F32.ofInt 1 ∧ (∃ t, c.seq.sequence = draw (2 * t)) ∧ ∃ t, c'.seq.sequence = draw (2 * t)

theorem ditherAt_one (k : Nat) (xs : List F32) : ditherAt (F32.ofInt 1) k xs = xs := forall₂_dithered_one (dithered_ditherAt _ k xs)

theorem over_encodeChannel {M : List (BitVec 128)} {C : Nat} {old : List FrameHeader} {b : Build} {c c' : AdhocCodec} (H : CodecOver M C old c c')
    (pcm : List F32) (n k ch : Nat) : Same (c.encodeChannel b pcm n k ch) (c'.encodeChannel b pcm n k ch) (CodecOver M C old) := by
  unfold AdhocCodec.encodeChannel
  refine (Same.refl _).bind ?_
  rintro xs _ rfl
  refine Same.bind (P := fun r r' => r.2 = r'.2 ∧ (r.1 = r'.1 ∨ c.invScale = F32.ofInt 1 ∧ (∃ t, r.1.sequence = draw (2 * t)) ∧ ∃ t, r'.1.sequence = draw (2 * t))) ?_ ?_
  · rw [← H.inv]
    rcases H.noise with h | ⟨h, ⟨t, ht⟩, t', ht'⟩
    · rw [h]
      cases e : AdhocCodec.dither b c.invScale c'.seq xs with
      | error e => exact Same.error
      | ok r => exact Same.ok ⟨rfl, .inl rfl⟩
    · rw [dither_exact xs ht, dither_exact xs ht', h]
      exact Same.ok ⟨by rw [ditherAt_one, ditherAt_one], .inr ⟨rfl, ⟨_, rfl⟩, _, rfl⟩⟩
  rintro ⟨seq, ys⟩ ⟨seq', _⟩ ⟨rfl, hseq⟩
  refine (same_idx H.chans ch).bind fun fc fc' hf => ?_
  refine (over_encodeFrame hf H.info H.stream H.log ys).bind ?_
  rintro ⟨fc1, st1, hd1⟩ ⟨fc1', st1', hd1'⟩ ⟨h1, h2, h3, h4⟩
  refine (same_setIdx H.chans ch h1).bind fun l l' hl => Same.ok ⟨hl, h2, h3, h4, H.level, H.scale, H.inv, hseq⟩

theorem over_encode {M : List (BitVec 128)} {C : Nat} {old : List FrameHeader} {b : Build} {c c' : AdhocCodec} (H : CodecOver M C old c c')
    (pcm : List F32) : Same (c.encode b pcm) (c'.encode b pcm) (fun r r' => CodecOver M C old r.1 r'.1 ∧ r.2 = r'.2) := by
  unfold AdhocCodec.encode
  refine Same.bind (P := CodecOver M C old) ?_ fun _ _ h => Same.ok ⟨h, rfl⟩
  unfold AdhocCodec.encodeRaw
  rw [H.info]
  refine (Same.refl _).bind ?_
  rintro i _ rfl
  refine (Same.refl _).bind ?_
  rintro q _ rfl
  exact Same.foldlM (fun c c' ch h => over_encodeChannel h pcm _ _ ch) _ _ _ H

theorem over_encodeAll {M : List (BitVec 128)} {C : Nat} {old : List FrameHeader} {b : Build} {c c' : AdhocCodec} (H : CodecOver M C old c c')
    (calls : List (List F32)) : Same (encodeAll b c calls) (encodeAll b c' calls) (CodecOver M C old) := by
  unfold encodeAll
  exact Same.foldlM (P := CodecOver M C old) (fun c c' pcm h => (over_encode h pcm).bind fun _ _ hr => Same.ok hr.1) _ _ _ H

/-! ## a codec after any calls -/

/-- what calls never change, whatever they leave behind in the memory -/
structure Trail (c : AdhocCodec) (info : StreamInfo) (level : Nat) : Prop where
  hinfo : c.stream.info = some info
  chans : c.channelStateList.length = info.channels
  ring : ∀ fc ∈ c.channelStateList, Last fc.history []
  log : ∃ log k, IsLog c.frameHeaderList log k
  lev : c.compressionLevel = min level 10
  scale : c.scale = F32.ofInt (2 ^ min level 10)
  inv : c.invScale = F32.ofInt 1 / F32.ofInt (2 ^ min level 10)
  seq : ∃ t, c.seq.sequence = draw (2 * t)

theorem trail_fresh (info : StreamInfo) (level : Nat) : Trail (fresh info level) info level :=
  have H := valued_fresh info level
  ⟨H.hinfo, H.chans, fun fc hfc => (H.sound fc hfc).ring, ⟨[], 0, isLog_new⟩, H.lev, H.scale, H.inv, 0, rfl⟩

theorem Trail.upd {c c' : AdhocCodec} {info : StreamInfo} {level : Nat} (H : Trail c info level) (h1 : c'.stream.info = c.stream.info)
    (h2 : c'.channelStateList.length = c.channelStateList.length ∧ ∀ x ∈ c'.channelStateList, Last x.history [])
    (h3 : ∃ log k, IsLog c'.frameHeaderList log k)
    (h4 : c'.compressionLevel = c.compressionLevel) (h5 : c'.scale = c.scale) (h6 : c'.invScale = c.invScale) (h7 : ∃ t, c'.seq.sequence = draw (2 * t)) :
    Trail c' info level :=
  ⟨by rw [h1, H.hinfo], by rw [h2.1, H.chans], h2.2, h3, by rw [h4, H.lev], by rw [h5, H.scale], by rw [h6, H.inv], h7⟩

theorem Trail.init {c : AdhocCodec} {info : StreamInfo} {level : Nat} (H : Trail c info level) : Trail c.init info level := by
  obtain ⟨log, k, hl⟩ := H.log
  refine H.upd rfl ⟨by simp [AdhocCodec.init], ?_⟩ ⟨log, 0, isLog_reset hl⟩ rfl rfl rfl H.seq
  intro fc hfc
  obtain ⟨x, hx, rfl⟩ := List.mem_map.1 hfc
  exact H.ring x hx

theorem trail_set {l l' : List FrameCodec} {i : Nat} {fc : FrameCodec} (h : setIdx l i fc = .ok l') (hl : ∀ x ∈ l, Last x.history [])
    (hf : Last fc.history []) : l'.length = l.length ∧ ∀ x ∈ l', Last x.history [] := by
  obtain ⟨h1, rfl⟩ := setIdx_eq_ok.1 h
  refine ⟨by simp, ?_⟩
  intro x hx
  rcases List.mem_or_eq_of_mem_set hx with hx | rfl
  · exact hl x hx
  · exact hf

theorem trail_idx {l : List FrameCodec} {i : Nat} (hl : ∀ x ∈ l, Last x.history []) : Ens (idx l i) (fun fc => Last fc.history []) :=
  fun fc h => hl fc (List.mem_of_getElem? (idx_eq_ok.1 h))

theorem trail_push {h : FrameHeaders} (H : ∃ log k, IsLog h log k) {x : FrameHeader} (hx : x.exponent < 16) :
    Ens (h.push x) (fun h => ∃ log k, IsLog h log k) := by
  obtain ⟨log, k, H⟩ := H
  rw [push_mod h]
  obtain ⟨a, e, h3⟩ := isLog_push H (x := { x with bitCursor := x.bitCursor % 2 ^ 64 }) ⟨hx, Nat.mod_lt _ (by norm_num)⟩
  rw [e]
  exact Ens.ok ⟨_, _, h3⟩

theorem trail_next {h : FrameHeaders} (H : ∃ log k, IsLog h log k) : Ens h.next (fun r => ∃ log k, IsLog r.1 log k) := by
  obtain ⟨log, k, H⟩ := H
  obtain ⟨h', e, H'⟩ := isLog_next H
  rw [e]
  exact Ens.ok ⟨_, _, H'⟩

theorem trail_encodeSamples {b : Build} {k : Nat} : ∀ (ys : List F32) {s : BitStream} {h : CircularStack Int} (_ : Last h []),
    Ens (FrameCodec.encodeSamples b k s h ys) (fun r => Last r.2 [])
  | [], _, _, H => Ens.ok H
  | y :: ys, s, h, H => by
    unfold FrameCodec.encodeSamples
    dsimp only
    exact (Ens.any _).bind fun _ _ => (Ens.any _).bind fun _ _ => trail_encodeSamples ys (H.push _).weaken

theorem trail_decodeSamples {b : Build} {k : Nat} : ∀ (n : Nat) {s : BitStream} {h : CircularStack Int} {buf : List F32} (_ : Last h []),
    Ens (FrameCodec.decodeSamples b k n s h buf) (fun r => Last r.2.1 [])
  | 0, _, _, _, H => Ens.ok H
  | n + 1, s, h, buf, H => by
    unfold FrameCodec.decodeSamples
    exact (Ens.any _).bind fun r _ => (Ens.any _).bind fun a _ => trail_decodeSamples n (H.push _).weaken

theorem trail_encodeFrame {b : Build} {fc : FrameCodec} {st : AudioStream} {hd : FrameHeaders} {pcm : List F32} (H : Last fc.history [])
    (Hh : ∃ log k, IsLog hd log k) : Ens (fc.encodeFrame b st hd pcm) (fun r => Last r.1.history [] ∧ r.2.1.info = st.info ∧ ∃ log k, IsLog r.2.2 log k) := by
  unfold FrameCodec.encodeFrame
  split
  · refine (Ens.any _).bind fun p0 _ => (Ens.any _).bind fun s0 _ => (Ens.any _).bind fun p1 _ => (Ens.any _).bind fun s1 _ =>
      (Ens.any _).bind fun p2 _ => (Ens.any _).bind fun s2 _ => (ens_optimal _ _ _).bind fun e he => ?_
    refine (trail_push Hh he).bind fun hd' hhd => ?_
    exact (trail_encodeSamples _ (((H.push _).push _).push _).weaken).bind fun r hr => Ens.ok ⟨hr, rfl, hhd⟩
  · refine (ens_optimal _ _ _).bind fun e he => (trail_push Hh he).bind fun hd' hhd => ?_
    exact (trail_encodeSamples _ H).bind fun r hr => Ens.ok ⟨hr, rfl, hhd⟩
  · exact Ens.error

theorem trail_decodeFrame {b : Build} {fc : FrameCodec} {st : AudioStream} {hd : FrameHeaders} (H : Last fc.history []) (Hh : ∃ log k, IsLog hd log k) :
    Ens (fc.decodeFrame b st hd) (fun r => Last r.1.history [] ∧ r.2.1.info = st.info ∧ ∃ log k, IsLog r.2.2.1 log k) := by
  unfold FrameCodec.decodeFrame
  refine (trail_next Hh).bind fun r hr => ?_
  obtain ⟨hd', hdr?⟩ := r
  dsimp only at hr ⊢
  split
  · exact Ens.ok ⟨H, rfl, hr⟩
  · split
    · refine (Ens.any _).bind fun r0 _ => (Ens.any _).bind fun r1 _ => (Ens.any _).bind fun r2 _ => ?_
      exact (trail_decodeSamples _ (((H.push _).push _).push _).weaken).bind fun r hh => Ens.ok ⟨hh, rfl, hr⟩
    · exact (trail_decodeSamples _ H).bind fun r hh => Ens.ok ⟨hh, rfl, hr⟩
    · exact Ens.error

theorem trail_encode {b : Build} {c : AdhocCodec} {info : StreamInfo} {level : Nat} (H : Trail c info level) (pcm : List F32) :
    Ens (c.encode b pcm) (fun r => Trail r.1 info level) := by
  unfold AdhocCodec.encode
  refine Ens.bind (P := fun c => Trail c info level) ?_ fun c' h => Ens.ok h
  unfold AdhocCodec.encodeRaw
  refine (Ens.any _).bind fun i _ => (Ens.any _).bind fun q _ => ?_
  refine Ens.foldlM ?_ _ _ H
  intro c ch H
  unfold AdhocCodec.encodeChannel
  refine (Ens.any _).bind fun xs _ => ?_
  obtain ⟨t, ht⟩ := H.seq
  rw [dither_exact xs ht, bind_ok]
  refine (trail_idx H.ring).bind fun fc hfc => ?_
  refine (trail_encodeFrame hfc H.log).bind fun r hr => ?_
  refine Ens.bind (P := fun l => l.length = c.channelStateList.length ∧ ∀ x ∈ l, Last x.history []) (fun l hl => trail_set hl H.ring hr.1) fun l hl => ?_
  exact Ens.ok (H.upd hr.2.1 hl hr.2.2 rfl rfl rfl ⟨_, rfl⟩)

theorem trail_decodeBlock {b : Build} {c : AdhocCodec} {info : StreamInfo} {level n : Nat} (H : Trail c info level) :
    Ens (c.decodeBlock b n) (fun c => Trail c info level) := by
  unfold AdhocCodec.decodeBlock
  refine Ens.foldlM ?_ _ _ H
  intro c ch H
  unfold AdhocCodec.decodeChannel
  refine (trail_idx H.ring).bind fun fc hfc => ?_
  refine (trail_decodeFrame hfc H.log).bind fun r hr => ?_
  refine Ens.bind (P := fun l => l.length = c.channelStateList.length ∧ ∀ x ∈ l, Last x.history []) (fun l hl => trail_set hl H.ring hr.1) fun l hl => ?_
  exact Ens.ok (H.upd hr.2.1 hl hr.2.2 rfl rfl rfl H.seq)

theorem trail_bufferAudio {b : Build} {info : StreamInfo} {level n : Nat} : ∀ (left : Nat) {c : AdhocCodec} (_ : Trail c info level),
    Ens (AdhocCodec.bufferAudio b n left c) (fun r => Trail r.1 info level)
  | 0, _, H => Ens.ok H
  | left + 1, c, H => by
    unfold AdhocCodec.bufferAudio
    split
    · exact (trail_decodeBlock H).bind fun c' H' => trail_bufferAudio left H'
    · exact Ens.ok H

theorem trail_popBlock {info : StreamInfo} {level legal : Nat} : ∀ (n ch : Nat) {c : AdhocCodec} (_ : Trail c info level) (pcm : List F32) (cursor : Nat),
    Ens (AdhocCodec.popBlock legal n ch c pcm cursor) (fun r => Trail r.1 info level)
  | 0, _, _, H, _, _ => Ens.ok H
  | n + 1, ch, c, H, pcm, cursor => by
    unfold AdhocCodec.popBlock
    split
    · refine (trail_idx H.ring).bind fun fc hfc => ?_
      refine Ens.bind (P := fun l => l.length = c.channelStateList.length ∧ ∀ x ∈ l, Last x.history [])
        (fun l hl => trail_set hl H.ring hfc) fun l hl => ?_
      refine (Ens.any _).bind fun _ _ => ?_
      have H' : Trail { c with channelStateList := l } info level := H.upd rfl hl H.log rfl rfl rfl H.seq
      exact trail_popBlock n (ch + 1) H' _ _
    · exact Ens.ok H

theorem trail_decodeLoop {b : Build} {info : StreamInfo} {level n legal : Nat} : ∀ (fuel : Nat) {c : AdhocCodec} (_ : Trail c info level)
    (pcm : List F32) (cursor : Nat), Ens (AdhocCodec.decodeLoop b n legal fuel c pcm cursor) (fun r => Trail r.1 info level)
  | 0, _, _, _, _ => Ens.error
  | fuel + 1, c, H, pcm, cursor => by
    unfold AdhocCodec.decodeLoop
    split
    · refine (trail_bufferAudio _ H).bind fun r hr => ?_
      obtain ⟨c', left⟩ := r
      dsimp only at hr ⊢
      split
      · exact Ens.ok hr
      · exact (trail_popBlock _ _ hr _ _).bind fun r hr => trail_decodeLoop fuel hr _ _
    · exact Ens.ok H

theorem trail_decode {b : Build} {c : AdhocCodec} {info : StreamInfo} {level : Nat} (H : Trail c info level) (buf : List F32) :
    Ens (c.decode b buf) (fun r => Trail r.1 info level) := by
  unfold AdhocCodec.decode
  refine Ens.bind (P := fun r => Trail r.1 info level) ?_ fun r hr => Ens.ok hr
  unfold AdhocCodec.decodeRaw
  refine (Ens.any _).bind fun i _ => (Ens.any _).bind fun q _ => ?_
  exact (trail_decodeLoop _ H _ _).bind fun r hr => Ens.ok hr

theorem trail_seekChannel {b : Build} {c : AdhocCodec} {info : StreamInfo} {level : Nat} (H : Trail c info level) (s off : Nat) :
    Ens (c.seekChannel b s off) (fun c => Trail c info level) := by
  unfold AdhocCodec.seekChannel
  refine (Ens.any _).bind fun hdr? _ => (Ens.any _).bind fun hdr _ => (trail_idx H.ring).bind fun fc hfc => ?_
  refine (trail_decodeFrame (((hfc.push _).push _).push _).weaken H.log).bind fun r hr => ?_
  refine Ens.bind (P := fun l => l.length = c.channelStateList.length ∧ ∀ x ∈ l, Last x.history []) (fun l hl => trail_set hl H.ring hr.1) fun l hl => ?_
  exact Ens.ok (H.upd hr.2.1 hl hr.2.2 rfl rfl rfl H.seq)

theorem trail_dropOne {c : AdhocCodec} {info : StreamInfo} {level : Nat} (H : Trail c info level) (n : Nat) :
    Ens (c.dropOne n) (fun c => Trail c info level) := by
  unfold AdhocCodec.dropOne
  refine Ens.foldlM ?_ _ _ H
  intro c off H
  refine (trail_idx H.ring).bind fun fc hfc => ?_
  refine Ens.bind (P := fun l => l.length = c.channelStateList.length ∧ ∀ x ∈ l, Last x.history []) (fun l hl => trail_set hl H.ring hfc) fun l hl => ?_
  exact Ens.ok (H.upd rfl hl H.log rfl rfl rfl H.seq)

theorem trail_prune {b : Build} {info : StreamInfo} {level n target : Nat} : ∀ (fuel skipped : Nat) {c : AdhocCodec} (_ : Trail c info level),
    Ens (AdhocCodec.prune b n target fuel skipped c) (fun c => Trail c info level)
  | 0, _, _, _ => Ens.error
  | fuel + 1, skipped, c, H => by
    unfold AdhocCodec.prune
    split
    · exact (trail_dropOne H n).bind fun c H => (Ens.any _).bind fun _ _ => trail_prune fuel _ H
    · exact Ens.ok H

theorem trail_seek {b : Build} {c : AdhocCodec} {info : StreamInfo} {level : Nat} (H : Trail c info level) (t : SeekFrom) :
    Ens (c.seek b t) (fun c => Trail c info level) := by
  unfold AdhocCodec.seek
  refine (Ens.any _).bind fun i _ => ?_
  dsimp only
  split
  · split
    · exact Ens.ok H.init
    · unfold AdhocCodec.seekTo
      dsimp only
      refine (Ens.any _).bind fun target _ => (Ens.any _).bind fun len _ => (Ens.any _).bind fun r _ => (Ens.any _).bind fun hdr? _ => (Ens.any _).bind fun hdr _ => ?_
      obtain ⟨log, k, hl⟩ := H.init.log
      refine Ens.bind (P := fun c => Trail c info level) ?_ fun c H => trail_prune _ _ H
      refine Ens.foldlM (fun c off H => trail_seekChannel H _ off) _ _ ?_
      exact H.init.upd rfl ⟨rfl, H.init.ring⟩ ⟨log, _, isLog_setCursor hl _⟩ rfl rfl rfl H.seq
  · exact Ens.error

/-- recording after a rewind: side by side with a new codec -/
theorem over_start {c : AdhocCodec} {info : StreamInfo} {level : Nat} (H : Trail c info level) {log : List FrameHeader} {k : Nat}
    (hl : IsLog c.frameHeaderList log k) (seq : PseudoRandom) (hs : seq = c.seq ∨ level = 0 ∧ ∃ t, seq.sequence = draw (2 * t)) :
    CodecOver c.stream.stream.binary c.stream.stream.capacity log { fresh info level with seq := seq } c.init where
  chans := by
    have h0 : (fresh info level).channelStateList = List.replicate info.channels FrameCodec.new := by
      simp [fresh, AdhocCodec.withCompressionLevel, AdhocCodec.setInfo, AdhocCodec.resize, AdhocCodec.new]
    show List.Forall₂ ChanOver (fresh info level).channelStateList (c.channelStateList.map FrameCodec.init)
    rw [h0, ← H.chans]
    have hr := H.ring
    generalize c.channelStateList = l at hr
    induction l with
    | nil => exact .nil
    | cons x l ih =>
      rw [List.length_cons, List.replicate_succ, List.map_cons]
      exact .cons (.inl ⟨rfl, rfl, last_new, hr x (by simp)⟩) (ih fun y hy => hr y (by simp [hy]))
  info := H.hinfo.symm
  stream := over_new _
  log := ⟨[], isLog_new, by
    show IsLog c.frameHeaderList.reset _ _
    simpa using isLog_reset hl⟩
  level := H.lev.symm
  scale := H.scale.symm
  inv := H.inv.symm
  noise := by
    rcases hs with rfl | ⟨rfl, h⟩
    · exact .inl rfl
    · exact .inr ⟨(fresh_zero info).2, h, H.seq⟩

end Adhoc
