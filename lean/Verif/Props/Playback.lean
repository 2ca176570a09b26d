import Verif.Props.RoundTrip

/-! # C07, C08, C23, C24: the end of the stream, the caller's buffer, channels -/

namespace Adhoc
open Spec

/-! ## C07 -/

theorem readBlocks_append (n : Nat) : ∀ (bufs bufs' : List (List F32)) (sig : List (List F32)),
    readBlocks n sig (bufs ++ bufs') = readBlocks n sig bufs ++ readBlocks n (sig.drop (min (bufs.map (·.length / n)).sum sig.length)) bufs'
  | [], bufs', sig => by simp [readBlocks]
  | buf :: bufs, bufs', sig => by
    rw [List.cons_append, readBlocks_cons, readBlocks_cons, readBlocks_append n bufs bufs', List.cons_append, List.drop_drop]
    congr 3
    simp only [List.length_drop, List.map_cons, List.sum_cons]
    congr 1
    omega

@[simp] theorem length_readBlocks (n : Nat) : ∀ (bufs : List (List F32)) (sig : List (List F32)), (readBlocks n sig bufs).length = bufs.length
  | [], _ => rfl
  | buf :: bufs, sig => by rw [readBlocks_cons, List.length_cons, length_readBlocks n bufs, List.length_cons]

/-- C07 for documented use (never nine calls without a whole block in a row): if some decode call with room for a block returns `None`,
then the calls before it have delivered every encoded sample. -/
theorem C07_none_partial (b b' : Build) (info : StreamInfo) (level : Nat) (hn : 0 < info.channels) (calls : List (List F32)) (c c' : AdhocCodec)
    (h : encodeAll b (fresh info level) calls = .ok c)
    (hs : ∀ pcm ∈ calls, pcm.length / info.channels < 65536) (hg : NoGap (calls.map fun pcm => pcm.length / info.channels))
    (bufs : List (List F32)) (buf : List F32) (hroom : info.channels ≤ buf.length) (outs : List (List F32 × Option Nat)) (o : List F32)
    (hd : decodeAll b' c.init (bufs ++ [buf]) = .ok (c', outs ++ [(o, none)])) :
    (delivered outs).length = (signal info.channels calls).length * info.channels := by
  obtain ⟨Q, -, -, hdec⟩ := playback hn h hs hg
  obtain ⟨c1, e, -⟩ := hdec b' (bufs ++ [buf])
  rw [e] at hd
  injection hd with hd
  have hd := congrArg (fun p => p.2) hd
  simp only at hd
  obtain ⟨sig, hsig⟩ : ∃ sig, sig = played info.channels (signal info.channels calls).length Q := ⟨_, rfl⟩
  have hlen : sig.length = (signal info.channels calls).length := by rw [hsig]; simp [played]
  have hw : ∀ blk ∈ sig, blk.length = info.channels := by
    intro blk hb
    rw [hsig] at hb
    obtain ⟨k, -, rfl⟩ := List.mem_map.1 hb
    simp
  rw [← hsig, readBlocks_append, List.map_append] at hd
  have hl : outs.length = bufs.length := by
    have := congrArg List.length hd
    simp at this
    omega
  obtain ⟨h1, h2⟩ := List.append_inj hd (by simp [hl])
  obtain ⟨d, hd1, hd2⟩ := readBlocks_delivered info.channels bufs sig hw
  have hq : 1 ≤ buf.length / info.channels := (Nat.one_le_div_iff hn).2 hroom
  have hz : sig.length - d = 0 := by
    rw [← hd2] at h2
    simp only [readBlocks, List.map_cons, List.map_nil, List.cons.injEq, Prod.mk.injEq, and_true, List.length_drop] at h2
    have := h2.2
    split at this
    · omega
    · simp at this
  have e1 : delivered outs = (delivered (readBlocks info.channels sig bufs)).map (· * (fresh info level).scale) := by
    rw [← h1]
    simp only [delivered, List.flatMap_map, List.map_flatMap, List.map_take]
  rw [e1, hd1, List.length_map, List.take_of_length_le (by omega), ← hlen, List.length_flatten,
    List.map_congr_left (g := fun _ => info.channels) hw]
  simp

/-- `demo` is played with buffers of ten, six and two samples; the third call returns `None`, after all twelve samples -/
example : (session .debug { sampleRate := 8000, channels := 2 } 0 demo
      [List.replicate 10 (F32.ofInt 0), List.replicate 6 (F32.ofInt 0), List.replicate 2 (F32.ofInt 0)]).map
    (fun outs => (outs.map (·.2), (delivered outs).length)) = .ok ([some 10, some 2, none], 6 * 2) := by
  decide +kernel

/-- three samples, nine empty calls, one sample -/
def gappy : List (List F32) := [F32.ofInt 0, F32.ofInt 0, F32.ofInt 0] :: List.replicate 9 [] ++ [[F32.ofInt 0]]

/-- C07 is false: after nine empty calls in a row, `decode` returns `None` although a sample is left, which the next call returns. -/
theorem C07_false :
    (session .release { sampleRate := 8000, channels := 1 } 0 gappy [List.replicate 3 (F32.ofInt 0), [F32.ofInt 0], [F32.ofInt 0]]).map
      (fun outs => outs.map (·.2)) = .ok [some 3, none, some 1] := by
  decide +kernel

/-! ## C08 -/

/-- any sequence of decode calls, without a condition on gaps -/
theorem decodeAll_any {b : Build} {info : StreamInfo} (hn : 0 < info.channels) {blocks : List (Nat → Fr)}
    (HR : Rec info.channels blocks) (hsh : Short blocks) :
    ∀ (bufs : List (List F32)) {c : AdhocCodec} {j m : Nat} (_ : DecSt c info blocks j m),
    ∃ c' outs j' m', decodeAll b c bufs = .ok (c', outs) ∧ SameLevel c c' ∧ DecSt c' info blocks j' m' ∧ m ≤ m' ∧ m' ≤ rowsIn blocks ∧
      (delivered outs).length = (m' - m) * info.channels ∧
      (m = rowsIn blocks → outs = bufs.map fun buf => (buf.map (· * c.scale), none))
  | [], c, j, m, H => ⟨c, [], j, m, rfl, .refl c, H, le_rfl, H.m_le.trans (rowsIn_take_le _ _), by simp [delivered], fun _ => rfl⟩
  | buf :: bufs, c, j, m, H => by
    obtain ⟨c1, j1, d, e1, s1, H1, hd, hmd, -⟩ := decode_ok (b := b) hn HR hsh H buf
    obtain ⟨c2, outs, j2, m2, e2, s2, H2, hm2, hm2', hl, hend⟩ := decodeAll_any (b := b) hn HR hsh bufs H1
    refine ⟨c2, ((rows (outCols info.channels blocks) m d ++ buf.drop (d * info.channels)).map (· * c.scale),
      if 0 < d then some (d * info.channels) else none) :: outs, j2, m2, ?_, s1.trans s2, H2, by omega, hm2', ?_, ?_⟩
    · unfold decodeAll
      rw [e1, bind_ok]
      dsimp only
      rw [e2, bind_ok]
      rfl
    · have hr : (rows (outCols info.channels blocks) m d).length = d * info.channels := by
        rw [length_rows]; simp [outCols]
      unfold delivered at hl ⊢
      rw [List.flatMap_cons, List.length_append, hl]
      have : m2 - m = d + (m2 - (m + d)) := by omega
      rw [this, Nat.add_mul]
      congr 1
      have hle : d * info.channels ≤ buf.length :=
        (Nat.mul_le_mul_right _ hd).trans (Nat.div_mul_le_self _ _)
      by_cases h0 : d = 0
      · subst h0; simp
      · rw [if_pos (by omega), Option.getD_some, List.length_take, List.length_map, List.length_append, hr]
        omega
    · intro hm
      have hd0 : d = 0 := by omega
      subst hd0
      rw [hend (by omega), s1.scale]
      simp [rows]

/-- C08. Once a rewound codec has delivered every encoded sample, every further call returns `None`, does not panic, and does nothing but
scale the buffer. (No condition on gaps.) -/
theorem C08_sticky_end (b b' b'' : Build) (info : StreamInfo) (level : Nat) (hn : 0 < info.channels) (calls : List (List F32))
    (c c' : AdhocCodec) (h : encodeAll b (fresh info level) calls = .ok c)
    (hs : ∀ pcm ∈ calls, pcm.length / info.channels < 65536) (bufs : List (List F32)) (outs : List (List F32 × Option Nat))
    (hd : decodeAll b' c.init bufs = .ok (c', outs))
    (hall : (delivered outs).length = (signal info.channels calls).length * info.channels) (more : List (List F32)) :
    ∃ c'', decodeAll b'' c' more = .ok (c'', more.map fun buf => (buf.map (· * (fresh info level).scale), none)) := by
  obtain ⟨-, blocks, H, HR, s⟩ := recorded_of_ok hn h
  have hrec := HR.toRec hn
  have hsh := HR.short hn hs
  obtain ⟨c1, outs1, j, m, e1, s1, H1, -, hm, hl, -⟩ := decodeAll_any (b := b') hn hrec hsh bufs (decSt_init H)
  rw [hd] at e1
  injection e1 with e1
  injection e1 with e1 e2
  subst e1; subst e2
  have hmr : m = rowsIn blocks := by
    rw [hl, ← HR.rows hn] at hall
    have := Nat.eq_of_mul_eq_mul_right hn hall
    omega
  obtain ⟨c2, outs2, j2, m2, e2, -, -, -, -, -, hend⟩ := decodeAll_any (b := b'') hn hrec hsh more H1
  refine ⟨c2, ?_⟩
  rw [e2, hend hmr]
  have : c'.scale = (fresh info level).scale := by
    rw [s1.scale]; exact s.scale
  rw [this]

/-- `demo` is delivered completely by buffers of 5, 4 and 6 samples, in 4 + 4 + 4 -/
example : (session .debug { sampleRate := 8000, channels := 2 } 0 demo
      [List.replicate 5 (F32.ofInt 0), List.replicate 4 (F32.ofInt 0), List.replicate 6 (F32.ofInt 0)]).map
    (fun outs => (outs.map (·.2), (delivered outs).length)) = .ok ([some 4, some 4, some 4], 6 * 2) := by
  decide +kernel

/-! ## C23 -/

theorem decodeChannel_level {b : Build} {c c' : AdhocCodec} {ch : Nat} (h : c.decodeChannel b ch = .ok c') : SameLevel c c' := by
  unfold AdhocCodec.decodeChannel at h
  obtain ⟨fc, -, h⟩ := bind_eq_ok.1 h
  obtain ⟨⟨fc', st, hd, n⟩, -, h⟩ := bind_eq_ok.1 h
  obtain ⟨chs, -, h⟩ := bind_eq_ok.1 h
  cases h
  exact ⟨rfl, rfl, rfl⟩

theorem foldlM_level {α : Type} {f : AdhocCodec → α → R AdhocCodec} (hf : ∀ c a c', f c a = .ok c' → SameLevel c c') :
    ∀ (l : List α) (c c' : AdhocCodec), l.foldlM f c = .ok c' → SameLevel c c'
  | [], c, c', h => by cases h; exact .refl c
  | a :: l, c, c', h => by
    rw [List.foldlM_cons] at h
    obtain ⟨c1, h1, h2⟩ := bind_eq_ok.1 h
    exact (hf _ _ _ h1).trans (foldlM_level hf l _ _ h2)

theorem bufferAudio_level {b : Build} {n : Nat} : ∀ (left : Nat) (c c' : AdhocCodec) (l : Nat),
    AdhocCodec.bufferAudio b n left c = .ok (c', l) → SameLevel c c'
  | 0, c, c', l, h => by cases h; exact .refl c
  | left + 1, c, c', l, h => by
    unfold AdhocCodec.bufferAudio at h
    split at h
    · obtain ⟨c1, h1, h2⟩ := bind_eq_ok.1 h
      exact (foldlM_level (fun _ _ _ => decodeChannel_level) _ _ _ h1).trans (bufferAudio_level left _ _ _ h2)
    · cases h; exact .refl c

/-- popping a block writes only below the new cursor -/
theorem popBlock_tail {legal : Nat} : ∀ (n ch : Nat) (c : AdhocCodec) (pcm : List F32) (cursor : Nat) (c' : AdhocCodec) (pcm' : List F32)
    (cursor' : Nat), AdhocCodec.popBlock legal n ch c pcm cursor = .ok (c', pcm', cursor') →
    SameLevel c c' ∧ cursor ≤ cursor' ∧ pcm'.drop cursor' = pcm.drop cursor'
  | 0, ch, c, pcm, cursor, c', pcm', cursor', h => by cases h; exact ⟨.refl c, le_rfl, rfl⟩
  | n + 1, ch, c, pcm, cursor, c', pcm', cursor', h => by
    unfold AdhocCodec.popBlock at h
    split at h
    · obtain ⟨fc, -, h⟩ := bind_eq_ok.1 h
      obtain ⟨chs, -, h⟩ := bind_eq_ok.1 h
      obtain ⟨p1, hp, h⟩ := bind_eq_ok.1 h
      obtain ⟨s, hc, ht⟩ := popBlock_tail n (ch + 1) _ _ _ _ _ _ h
      refine ⟨⟨s.level, s.scale, s.inv⟩, by omega, ?_⟩
      rw [ht]
      unfold setIdx at hp
      split at hp
      · cases hp
        rw [List.drop_set_of_lt (by omega)]
      · cases hp
    · cases h; exact ⟨.refl c, le_rfl, rfl⟩

theorem decodeLoop_tail {b : Build} {n legal : Nat} : ∀ (fuel : Nat) (c : AdhocCodec) (pcm : List F32) (cursor : Nat) (c' : AdhocCodec)
    (pcm' : List F32) (cursor' : Nat), AdhocCodec.decodeLoop b n legal fuel c pcm cursor = .ok (c', pcm', cursor') →
    SameLevel c c' ∧ cursor ≤ cursor' ∧ pcm'.drop cursor' = pcm.drop cursor'
  | 0, c, pcm, cursor, c', pcm', cursor', h => by cases h
  | fuel + 1, c, pcm, cursor, c', pcm', cursor', h => by
    unfold AdhocCodec.decodeLoop at h
    split at h
    · obtain ⟨⟨c1, left⟩, h1, h⟩ := bind_eq_ok.1 h
      have s1 := bufferAudio_level _ _ _ _ h1
      dsimp only at h
      split at h
      · cases h; exact ⟨s1, le_rfl, rfl⟩
      · obtain ⟨⟨c2, p2, k2⟩, h2, h⟩ := bind_eq_ok.1 h
        obtain ⟨s2, hk2, ht2⟩ := popBlock_tail _ _ _ _ _ _ _ _ h2
        obtain ⟨s3, hk3, ht3⟩ := decodeLoop_tail fuel _ _ _ _ _ _ h
        dsimp only at s3 hk3 ht3
        refine ⟨s1.trans (s2.trans s3), by omega, ?_⟩
        rw [ht3]
        have : cursor' = k2 + (cursor' - k2) := by omega
        rw [this, ← List.drop_drop, ← List.drop_drop, ht2]
    · cases h; exact ⟨.refl c, le_rfl, rfl⟩

/-- C23, exact behaviour on every codec in whatever state (recorded, loaded, corrupt): beyond the reported count, `decode` multiplies the
caller's buffer by the codec's scale; at level 0 (scale 1) it leaves it alone. -/
theorem C23_tail_partial (b : Build) (c c' : AdhocCodec) (buf out : List F32) (r : Option Nat) (h : c.decode b buf = .ok (c', out, r)) :
    out.drop (r.getD 0) = (buf.drop (r.getD 0)).map (· * c.scale) ∧
    (c.scale = F32.ofInt 1 → out.drop (r.getD 0) = buf.drop (r.getD 0)) := by
  have key : out.drop (r.getD 0) = (buf.drop (r.getD 0)).map (· * c.scale) := by
    unfold AdhocCodec.decode AdhocCodec.decodeRaw at h
    obtain ⟨⟨c1, pcm, k⟩, h1, h⟩ := bind_eq_ok.1 h
    obtain ⟨info, -, h1⟩ := bind_eq_ok.1 h1
    obtain ⟨q, -, h1⟩ := bind_eq_ok.1 h1
    obtain ⟨⟨c2, p2, k2⟩, h2, h1⟩ := bind_eq_ok.1 h1
    obtain ⟨s, -, ht⟩ := decodeLoop_tail _ _ _ _ _ _ _ h2
    cases h1
    cases h
    have : (if k > 0 then some k else none).getD 0 = k := by
      split
      · rfl
      · simp; omega
    rw [this, ← List.map_drop, ht, s.scale]
  refine ⟨key, fun h1 => ?_⟩
  rw [key, h1]
  simp [F32.mul_one']

/-- C23 is false above level 0: `decode` at the end of a level 1 stream doubles the caller's buffer. -/
theorem C23_false :
    session .release { sampleRate := 8000, channels := 1 } 1 [] [[F32.ofRat (1 / 4)]] = .ok [([F32.ofRat (1 / 2)], none)] := by
  decide +kernel

/-- a call to which C23_tail_partial applies: 6 samples of room, 5 left -/
example : session .release { sampleRate := 8000, channels := 1 } 0 [List.replicate 5 (F32.ofInt 0)] [List.replicate 6 (F32.ofInt 1)] =
    .ok [(List.replicate 5 (F32.ofInt 0) ++ [F32.ofInt 1], some 5)] := by
  decide +kernel

/-! ## C24 -/

/-- C24. At level 0, what is decoded on channel `j` depends on the input of channel `j` alone: two signals that agree there (but may
differ elsewhere, be cut into calls differently and be encoded in different builds) decode to signals that agree there. -/
theorem C24_channels (b₁ b₂ : Build) (info : StreamInfo) (j : Nat) (hj : j < info.channels) (calls₁ calls₂ : List (List F32))
    (c₁ c₂ : AdhocCodec) (h₁ : encodeAll b₁ (fresh info 0) calls₁ = .ok c₁) (h₂ : encodeAll b₂ (fresh info 0) calls₂ = .ok c₂)
    (hs₁ : ∀ pcm ∈ calls₁, pcm.length / info.channels < 65536) (hg₁ : NoGap (calls₁.map fun pcm => pcm.length / info.channels))
    (hs₂ : ∀ pcm ∈ calls₂, pcm.length / info.channels < 65536) (hg₂ : NoGap (calls₂.map fun pcm => pcm.length / info.channels))
    (hsig : chan j (signal info.channels calls₁) = chan j (signal info.channels calls₂)) :
    ∃ sig₁ sig₂ : List (List F32), chan j sig₁ = chan j sig₂ ∧
      (∀ blk ∈ sig₁, blk.length = info.channels) ∧ (∀ blk ∈ sig₂, blk.length = info.channels) ∧
      (∀ b' bufs, ∃ c', decodeAll b' c₁.init bufs = .ok (c', readBlocks info.channels sig₁ bufs)) ∧
      (∀ b' bufs, ∃ c', decodeAll b' c₂.init bufs = .ok (c', readBlocks info.channels sig₂ bufs)) := by
  have hn : 0 < info.channels := by omega
  have hw : ∀ len Q, ∀ blk ∈ played info.channels len Q, blk.length = info.channels := by
    intro len Q blk hb
    obtain ⟨k, -, rfl⟩ := List.mem_map.1 hb
    simp
  refine ⟨_, _, ?_, hw _ _, hw _ _, fun b' bufs => C02_level0_partial b₁ b' info hn calls₁ c₁ hs₁ hg₁ h₁ bufs,
    fun b' bufs => C02_level0_partial b₂ b' info hn calls₂ c₂ hs₂ hg₂ h₂ bufs⟩
  have hlen : (signal info.channels calls₁).length = (signal info.channels calls₂).length := by
    have := congrArg List.length hsig
    simpa [chan] using this
  have hc : ∀ sig, Spec.codes j sig = (chan j sig).map truncateSample := by intro sig; simp [Spec.codes, chan]
  unfold played
  rw [hlen]
  simp only [chan, List.map_map]
  apply List.map_congr_left
  intro k _
  simp [Function.comp, List.getD_eq_getElem?_getD, hj, hc, hsig]

/-- two stereo signals that agree on channel 1 only -/
example : chan 1 (signal 2 demo) = chan 1 (signal 2 [demo.flatten.set 0 (F32.ofInt 1)]) ∧
    chan 0 (signal 2 demo) ≠ chan 0 (signal 2 [demo.flatten.set 0 (F32.ofInt 1)]) := by decide +kernel

end Adhoc
