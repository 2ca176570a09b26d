import Verif.Proofs.Encoder

/-! The decoder as a function on lists of codes. -/

namespace Adhoc
open Spec

/-- the decoder stands before frame `i` of `fs`; channel `k` has decoded the codes `Ds k` and holds the samples `bufs k` -/
structure DecFl (c : AdhocCodec) (info : StreamInfo) (fs : List Fr) (i : Nat) (Ds : Nat → List Int) (bufs : Nat → List F32) : Prop where
  hinfo : c.stream.info = some info
  chans : c.channelStateList.length = info.channels
  chan : ∀ k (h : k < c.channelStateList.length), DecChan c.channelStateList[k] (Ds k) (bufs k)
  bits : Reads c.stream.stream (bitsOf fs) (bitsOf (fs.take i)).length
  log : IsLog c.frameHeaderList (hdrs 0 fs) i

theorem DecFl.congr {c : AdhocCodec} {info : StreamInfo} {fs : List Fr} {i : Nat} {Ds Ds' : Nat → List Int} {bufs bufs' : Nat → List F32}
    (H : DecFl c info fs i Ds bufs) (h : ∀ i < info.channels, Ds i = Ds' i) (h' : ∀ i < info.channels, bufs i = bufs' i) :
    DecFl c info fs i Ds' bufs' :=
  ⟨H.hinfo, H.chans, fun k hk => by rw [← h k (by rw [← H.chans]; exact hk), ← h' k (by rw [← H.chans]; exact hk)]; exact H.chan k hk,
    H.bits, H.log⟩

/-- decoding frame `i` into channel `ch` -/
theorem decodeChannel_ok {b : Build} {c : AdhocCodec} {info : StreamInfo} {fs : List Fr} {i : Nat} {Ds : Nat → List Int}
    {bufs : Nat → List F32} (H : DecFl c info fs i Ds bufs) {ch : Nat} (hch : ch < info.channels) (hi : i < fs.length) (hf : fs[i].WF)
    (hsz : fs[i].codes.length < 65536) (hD : Ds ch = decoded fs[i].pre) :
    ∃ c', c.decodeChannel b ch = .ok c' ∧ SameLevel c c' ∧
      DecFl c' info fs (i + 1) (fun k => if k = ch then decoded (fs[i].pre ++ fs[i].codes) else Ds k)
        (fun k => if k = ch then bufs ch ++ ((decoded (fs[i].pre ++ fs[i].codes)).drop fs[i].pre.length).map out else bufs k) := by
  have hch' : ch < c.channelStateList.length := by rw [H.chans]; exact hch
  have hsplit : bitsOf fs = bitsOf (fs.take i) ++ fs[i].bits ++ bitsOf (fs.drop (i + 1)) := by
    conv_lhs => rw [← List.take_append_drop i fs, List.drop_eq_getElem_cons hi]
    rw [bitsOf_append, bitsOf_cons, List.append_assoc]
  have hs := H.bits
  rw [hsplit] at hs
  obtain ⟨fc', st', hd', n, e, hdc, hst, hinf, hlog⟩ := decodeFrame_ok (b := b) hf hsz (H.chan ch hch') (by rw [hD]; simp) hs H.log
    (by rw [hdrs_getElem?, List.getElem?_eq_getElem hi]; rfl)
  unfold AdhocCodec.decodeChannel
  rw [idx_of_lt hch', bind_ok, e, bind_ok]
  dsimp only
  rw [setIdx_of_lt hch', bind_ok]
  have hdec := hf.decoded
  rw [← hD] at hdec
  have hdrop : (decoded (fs[i].pre ++ fs[i].codes)).drop fs[i].pre.length =
      fs[i].raw ++ rebuild (Ds ch ++ fs[i].raw) (residuals (fs[i].pre ++ fs[i].raw) fs[i].body) := by
    rw [← hdec, List.append_assoc, List.drop_left' (by rw [hD]; simp)]
  refine ⟨_, rfl, ⟨rfl, rfl, rfl⟩, ?_, ?_, ?_, ?_, hlog⟩
  · exact hinf.trans H.hinfo
  · simpa using H.chans
  · intro k hk
    simp only [List.getElem_set]
    by_cases hkc : ch = k
    · subst hkc
      simp only [if_true]
      rw [hdrop, ← hdec]
      exact hdc
    · rw [if_neg hkc, if_neg (fun h => hkc h.symm), if_neg (fun h => hkc h.symm)]
      exact H.chan k (by simpa using hk)
  · have e1 : bitsOf (fs.take (i + 1)) = bitsOf (fs.take i) ++ fs[i].bits := by
      rw [List.take_succ_eq_append_getElem hi, bitsOf_append, bitsOf_singleton]
    rw [e1, hsplit]
    exact hst

/-- after the last frame nothing happens -/
theorem decodeChannel_end {b : Build} {c : AdhocCodec} {info : StreamInfo} {fs : List Fr} {Ds : Nat → List Int}
    {bufs : Nat → List F32} (H : DecFl c info fs fs.length Ds bufs) {ch : Nat} (hch : ch < info.channels) :
    ∃ c', c.decodeChannel b ch = .ok c' ∧ SameLevel c c' ∧ DecFl c' info fs fs.length Ds bufs := by
  have hch' : ch < c.channelStateList.length := by rw [H.chans]; exact hch
  obtain ⟨hd', e, hl'⟩ := isLog_next H.log
  rw [if_neg (by simp)] at hl'
  unfold AdhocCodec.decodeChannel FrameCodec.decodeFrame
  rw [idx_of_lt hch', bind_ok, e, bind_ok]
  dsimp only
  rw [show (hdrs 0 fs)[fs.length]? = none by simp]
  dsimp only
  rw [pure_eq_ok, bind_ok]
  dsimp only
  rw [setIdx_of_lt hch', bind_ok]
  refine ⟨_, rfl, ⟨rfl, rfl, rfl⟩, H.hinfo, by simpa using H.chans, ?_, H.bits, hl'⟩
  intro k hk
  simp only [List.getElem_set]
  by_cases hkc : ch = k
  · subst hkc; simpa using H.chan ch hch'
  · rw [if_neg hkc]; exact H.chan k (by simpa using hk)

/-- number of blocks of samples in the first blocks of frames -/
def rowsIn (blocks : List (Nat → Fr)) : Nat := (blocks.map fun blk => (blk 0).codes.length).sum

@[simp] theorem rowsIn_append (a b : List (Nat → Fr)) : rowsIn (a ++ b) = rowsIn a + rowsIn b := by simp [rowsIn]
@[simp] theorem rowsIn_nil : rowsIn [] = 0 := rfl

theorem Rec.take {n : Nat} {blocks : List (Nat → Fr)} (H : Rec n blocks) (j : Nat) : Rec n (blocks.take j) := by
  refine ⟨?_, ?_, ?_⟩ <;> intro i h ch hch <;> have hi : i < blocks.length ∧ i < j := (by simp at h; omega) <;> rw [List.getElem_take]
  · exact H.wf i hi.1 ch hch
  · rw [List.take_take, Nat.min_eq_left (by omega)]; exact H.pre i hi.1 ch hch
  · exact H.size i hi.1 ch hch

theorem Rec.length {n : Nat} {blocks : List (Nat → Fr)} (H : Rec n blocks) {ch : Nat} (hch : ch < n) :
    (codesOf blocks ch).length = rowsIn blocks := by
  unfold codesOf rowsIn
  rw [List.length_flatMap]
  congr 1
  apply List.map_congr_left
  intro blk hblk
  obtain ⟨j, hj, rfl⟩ := List.getElem_of_mem hblk
  exact H.size j hj ch hch

theorem flat_take {n : Nat} (hn : 0 < n) (blocks : List (Nat → Fr)) (j : Nat) : (flat n blocks).take (j * n) = flat n (blocks.take j) := by
  by_cases hj : j ≤ blocks.length
  · conv_lhs => rw [← List.take_append_drop j blocks, flat_append]
    have : j * n = (flat n (blocks.take j)).length := by rw [length_flat]; simp [hj]
    rw [this, List.take_left']
    rfl
  · rw [List.take_of_length_le (l := blocks) (by omega), List.take_of_length_le]
    rw [length_flat]
    exact Nat.mul_le_mul_right _ (by omega)

theorem flat_getElem {n : Nat} (blocks : List (Nat → Fr)) {j ch : Nat} (hj : j < blocks.length) (hch : ch < n)
    (h : j * n + ch < (flat n blocks).length) : (flat n blocks)[j * n + ch] = blocks[j] ch := by
  have h1 : flat n blocks = flat n (blocks.take j) ++ ((List.range n).map blocks[j] ++ flat n (blocks.drop (j + 1))) := by
    conv_lhs => rw [← List.take_append_drop j blocks, flat_append, List.drop_eq_getElem_cons hj, flat_cons]
  have hl : (flat n (blocks.take j)).length = j * n := by rw [length_flat]; simp; left; omega
  have : (flat n blocks)[j * n + ch]? = some (blocks[j] ch) := by
    rw [h1, List.getElem?_append_right (by omega), hl, Nat.add_sub_cancel_left, List.getElem?_append_left (by simpa using hch)]
    simp [hch]
  rw [List.getElem?_eq_getElem h] at this
  exact Option.some.inj this

/-- the decoder stands before block `j` and has delivered `m` blocks of samples -/
structure DecSt (c : AdhocCodec) (info : StreamInfo) (blocks : List (Nat → Fr)) (j m : Nat) : Prop where
  fl : DecFl c info (flat info.channels blocks) (j * info.channels) (fun ch => decoded (codesOf (blocks.take j) ch))
    (fun ch => ((decoded (codesOf (blocks.take j) ch)).drop m).map out)
  j_le : j ≤ blocks.length
  m_le : m ≤ rowsIn (blocks.take j)

/-- frames short enough for the 16-bit size field -/
def Short (blocks : List (Nat → Fr)) : Prop := ∀ blk ∈ blocks, (blk 0).codes.length < 65536

theorem codesOf_take_succ {blocks : List (Nat → Fr)} {j : Nat} (hj : j < blocks.length) (ch : Nat) :
    codesOf (blocks.take (j + 1)) ch = codesOf (blocks.take j) ch ++ (blocks[j] ch).codes := by
  rw [List.take_succ_eq_append_getElem hj, codesOf_append, codesOf_singleton]

theorem rowsIn_take_succ {blocks : List (Nat → Fr)} {j : Nat} (hj : j < blocks.length) :
    rowsIn (blocks.take (j + 1)) = rowsIn (blocks.take j) + (blocks[j] 0).codes.length := by
  rw [List.take_succ_eq_append_getElem hj, rowsIn_append]; simp [rowsIn]

/-- decoding block `j` -/
theorem decodeBlock_ok {b : Build} {c : AdhocCodec} {info : StreamInfo} {blocks : List (Nat → Fr)} {j m : Nat}
    (HR : Rec info.channels blocks) (hsh : Short blocks) (H : DecSt c info blocks j m) (hj : j < blocks.length) :
    ∃ c', c.decodeBlock b info.channels = .ok c' ∧ SameLevel c c' ∧ DecSt c' info blocks (j + 1) m := by
  obtain ⟨n, hn⟩ : ∃ n, n = info.channels := ⟨_, rfl⟩
  have key : ∀ k, k ≤ n → ∃ c', (List.range k).foldlM (fun c ch => AdhocCodec.decodeChannel b c ch) c = .ok c' ∧ SameLevel c c' ∧
      DecFl c' info (flat n blocks) (j * n + k) (fun ch => decoded (codesOf (blocks.take (if ch < k then j + 1 else j)) ch))
        (fun ch => ((decoded (codesOf (blocks.take (if ch < k then j + 1 else j)) ch)).drop m).map out) := by
    intro k
    induction k with
    | zero => intro _; exact ⟨c, rfl, .refl c, by simpa [hn] using H.fl⟩
    | succ k ih =>
      intro hk
      obtain ⟨c1, e1, s1, H1⟩ := ih (by omega)
      have hlt : j * n + k < (flat n blocks).length := by
        rw [length_flat]
        calc j * n + k < (j + 1) * n := by rw [Nat.add_mul]; omega
          _ ≤ _ := Nat.mul_le_mul_right _ hj
      have hg := flat_getElem blocks hj (show k < n by omega) hlt
      have hkn : k < info.channels := by omega
      have hmem : blocks[j] ∈ blocks := List.getElem_mem hj
      obtain ⟨c2, e2, s2, H2⟩ := decodeChannel_ok (b := b) H1 hkn hlt (by rw [hg]; exact HR.wf j hj k hkn)
        (by rw [hg, HR.size j hj k hkn]; exact hsh _ hmem) (by
          rw [hg, HR.pre j hj k hkn]; simp)
      refine ⟨c2, ?_, s1.trans s2, ?_⟩
      · rw [List.range_succ, foldlM_append', e1, bind_ok]
        simp only [List.foldlM_cons, List.foldlM_nil]
        rw [e2, bind_ok]
        rfl
      · rw [hg, HR.pre j hj k hkn, ← codesOf_take_succ hj] at H2
        refine DecFl.congr H2 ?_ ?_
        · intro i hi
          by_cases hik : i = k
          · subst hik; simp
          · simp only [if_neg hik]
            by_cases hlt : i < k
            · simp [hlt, Nat.lt_succ_of_lt hlt]
            · simp [hlt, show ¬ i < k + 1 by omega]
        · intro i hi
          by_cases hik : i = k
          · subst hik
            simp only [lt_irrefl, if_false, if_true, Nat.lt_succ_self]
            have hle : codesOf (blocks.take j) i = (codesOf (blocks.take (j + 1)) i).take (codesOf (blocks.take j) i).length := by
              rw [codesOf_take_succ hj]; simp
            have h3 : (codesOf (blocks.take j) i).length = 0 ∨ 3 ≤ (codesOf (blocks.take j) i).length := by
              have hpre := HR.pre j hj i hkn
              have hwf := HR.wf j hj i hkn
              by_cases h0 : (blocks[j] i).pre = []
              · left; rw [← hpre, h0]; rfl
              · right; rw [← hpre]; exact hwf.later h0
            have hdt : decoded (codesOf (blocks.take j) i) = (decoded (codesOf (blocks.take (j + 1)) i)).take (codesOf (blocks.take j) i).length := by
              conv_lhs => rw [hle]
              exact decoded_take h3
            rw [hdt, ← List.map_append]
            congr 1
            have hm : m ≤ (codesOf (blocks.take j) i).length := by
              rw [(HR.take j).length hkn]; exact H.m_le
            generalize decoded (codesOf (blocks.take (j + 1)) i) = l
            generalize (codesOf (blocks.take j) i).length = p at hm
            rw [List.drop_take]
            conv_rhs => rw [← List.take_append_drop (p - m) (l.drop m), List.drop_drop]
            congr 2
            omega
          · simp only [if_neg hik]
            by_cases hlt : i < k
            · simp [hlt, Nat.lt_succ_of_lt hlt]
            · simp [hlt, show ¬ i < k + 1 by omega]
  obtain ⟨c', e, s, H'⟩ := key n le_rfl
  refine ⟨c', ?_, s, ?_, by omega, ?_⟩
  · unfold AdhocCodec.decodeBlock
    rw [← hn]; exact e
  · have e1 : (j + 1) * info.channels = j * n + n := by rw [hn, Nat.add_mul, Nat.one_mul]
    rw [e1, ← hn]
    refine H'.congr ?_ ?_ <;> intro i hi <;> simp [show i < n by omega]
  · rw [rowsIn_take_succ hj]
    have := H.m_le
    omega

/-- after the last block -/
theorem decodeBlock_end {b : Build} {c : AdhocCodec} {info : StreamInfo} {blocks : List (Nat → Fr)} {m : Nat}
    (H : DecSt c info blocks blocks.length m) :
    ∃ c', c.decodeBlock b info.channels = .ok c' ∧ SameLevel c c' ∧ DecSt c' info blocks blocks.length m := by
  have hl : blocks.length * info.channels = (flat info.channels blocks).length := (length_flat _ _).symm
  have key : ∀ k, k ≤ info.channels → ∃ c', (List.range k).foldlM (fun c ch => AdhocCodec.decodeChannel b c ch) c = .ok c' ∧ SameLevel c c' ∧
      DecFl c' info (flat info.channels blocks) (blocks.length * info.channels) (fun ch => decoded (codesOf (blocks.take blocks.length) ch))
    (fun ch => ((decoded (codesOf (blocks.take blocks.length) ch)).drop m).map out) := by
    intro k
    induction k with
    | zero => intro _; exact ⟨c, rfl, .refl c, H.fl⟩
    | succ k ih =>
      intro hk
      obtain ⟨c1, e1, s1, H1⟩ := ih (by omega)
      rw [hl] at H1 ⊢
      obtain ⟨c2, e2, s2, H2⟩ := decodeChannel_end (b := b) H1 (ch := k) (by omega)
      refine ⟨c2, ?_, s1.trans s2, H2⟩
      rw [List.range_succ, foldlM_append', e1, bind_ok]
      simp only [List.foldlM_cons, List.foldlM_nil]
      rw [e2, bind_ok]
      rfl
  obtain ⟨c', e, s, H'⟩ := key _ le_rfl
  exact ⟨c', e, s, H', le_rfl, H.m_le⟩

theorem isBuffersEmpty_iff {c : AdhocCodec} {info : StreamInfo} (hn : 0 < info.channels) {blocks : List (Nat → Fr)} {j m : Nat}
    (HR : Rec info.channels blocks) (H : DecSt c info blocks j m) : c.isBuffersEmpty = true ↔ m = rowsIn (blocks.take j) := by
  have hlen : ∀ ch < info.channels, (((decoded (codesOf (blocks.take j) ch)).drop m).map out).length = rowsIn (blocks.take j) - m := by
    intro ch hch
    simp [(HR.take j).length hch]
  have hm := H.m_le
  unfold AdhocCodec.isBuffersEmpty
  rw [List.all_eq_true]
  constructor
  · intro h
    have h0 : 0 < c.channelStateList.length := by rw [H.fl.chans]; exact hn
    have := h _ (List.getElem_mem h0)
    rw [(H.fl.chan 0 h0).buf, List.isEmpty_iff] at this
    have h2 := hlen 0 hn
    rw [this] at h2
    simp at h2
    omega
  · intro h fc hfc
    obtain ⟨k, hk, rfl⟩ := List.getElem_of_mem hfc
    rw [(H.fl.chan k hk).buf, List.isEmpty_iff, ← List.length_eq_zero_iff, hlen k (by rw [← H.fl.chans]; exact hk)]
    omega

/-- filling the buffers -/
theorem bufferAudio_ok {b : Build} {info : StreamInfo} (hn : 0 < info.channels) {blocks : List (Nat → Fr)}
    (HR : Rec info.channels blocks) (hsh : Short blocks) : ∀ (left : Nat) {c : AdhocCodec} {j m : Nat} (_ : DecSt c info blocks j m),
    ∃ c' j' left', AdhocCodec.bufferAudio b info.channels left c = .ok (c', left') ∧ SameLevel c c' ∧ DecSt c' info blocks j' m ∧ j ≤ j' ∧
      (0 < left' → m < rowsIn (blocks.take j')) ∧
      ((0 < left ∧ m < rowsIn (blocks.take j)) ∨ (∃ t, t + 2 ≤ left ∧ ∃ h : j + t < blocks.length, 0 < (blocks[j + t] 0).codes.length) → 0 < left')
  | 0, c, j, m, H => ⟨c, j, 0, rfl, .refl c, H, le_rfl, by simp, by
      rintro (h | ⟨t, ht, -⟩)
      · exact h.1
      · omega⟩
  | left + 1, c, j, m, H => by
    have hm := H.m_le
    unfold AdhocCodec.bufferAudio
    by_cases he : c.isBuffersEmpty = true
    · have hme := (isBuffersEmpty_iff hn HR H).1 he
      rw [if_pos he]
      by_cases hj : j < blocks.length
      · obtain ⟨c1, e1, s1, H1⟩ := decodeBlock_ok (b := b) HR hsh H hj
        obtain ⟨c2, j', left', e2, s2, H2, hjj, h3, h4⟩ := bufferAudio_ok (b := b) hn HR hsh left H1
        refine ⟨c2, j', left', by rw [e1, bind_ok]; exact e2, s1.trans s2, H2, by omega, h3, ?_⟩
        rintro (h | ⟨t, ht, hlt, hpos⟩)
        · omega
        · apply h4
          rcases Nat.eq_zero_or_pos t with rfl | htp
          · left
            refine ⟨by omega, ?_⟩
            rw [rowsIn_take_succ hj]
            simp only [Nat.add_zero] at hpos
            omega
          · right
            refine ⟨t - 1, by omega, by omega, ?_⟩
            have e : blocks[j + 1 + (t - 1)]'(by omega) = blocks[j + t] := by congr 1; omega
            rw [e]
            exact hpos
      · have hjl : j = blocks.length := by have := H.j_le; omega
        subst hjl
        obtain ⟨c1, e1, s1, H1⟩ := decodeBlock_end (b := b) H
        obtain ⟨c2, j', left', e2, s2, H2, hjj, h3, h4⟩ := bufferAudio_ok (b := b) hn HR hsh left H1
        refine ⟨c2, j', left', by rw [e1, bind_ok]; exact e2, s1.trans s2, H2, by omega, h3, ?_⟩
        rintro (h | ⟨t, ht, hlt, hpos⟩) <;> omega
    · rw [if_neg he]
      have hme : m ≠ rowsIn (blocks.take j) := fun h => he ((isBuffersEmpty_iff hn HR H).2 h)
      exact ⟨c, j, left + 1, rfl, .refl c, H, le_rfl, fun _ => by omega, fun _ => by omega⟩

/-- popping one sample from each of the channels `ch, .., ch + k - 1` -/
theorem popBlock_ok {info : StreamInfo} {fs : List Fr} {i : Nat} {Ds : Nat → List Int} {legal : Nat} :
    ∀ (k ch : Nat) {c : AdhocCodec} {bufs : Nat → List F32} {pcm : List F32} {cursor : Nat} (_ : DecFl c info fs i Ds bufs)
      (_ : ch + k = info.channels) (_ : cursor + k ≤ legal) (_ : legal ≤ pcm.length),
    ∃ c', AdhocCodec.popBlock legal k ch c pcm cursor =
        .ok (c', pcm.take cursor ++ (List.range' ch k).map (fun x => (bufs x).headD (F32.ofInt 0)) ++ pcm.drop (cursor + k), cursor + k) ∧
      SameLevel c c' ∧ DecFl c' info fs i Ds (fun x => if ch ≤ x then (bufs x).tail else bufs x)
  | 0, ch, c, bufs, pcm, cursor, H, hk, h1, h2 => by
    refine ⟨c, by simp [AdhocCodec.popBlock], .refl c, H.congr (fun _ _ => rfl) ?_⟩
    intro x hx
    rw [if_neg (by omega)]
  | k + 1, ch, c, bufs, pcm, cursor, H, hk, h1, h2 => by
    have hch' : ch < c.channelStateList.length := by rw [H.chans]; omega
    unfold AdhocCodec.popBlock
    rw [if_pos (by omega), idx_of_lt hch', bind_ok]
    dsimp only
    rw [setIdx_of_lt hch', bind_ok, setIdx_of_lt (by omega), bind_ok]
    have hD : DecFl { c with channelStateList := c.channelStateList.set ch { c.channelStateList[ch] with buffered := c.channelStateList[ch].buffered.tail } }
        info fs i Ds (fun x => if x = ch then (bufs ch).tail else bufs x) := by
      refine ⟨H.hinfo, by simpa using H.chans, ?_, H.bits, H.log⟩
      intro x hx
      simp only [List.getElem_set]
      by_cases hxc : ch = x
      · subst hxc
        have := H.chan ch hch'
        simp only [if_true]
        exact ⟨this.state, this.hist, by rw [this.buf]⟩
      · rw [if_neg hxc, if_neg (fun h => hxc h.symm)]
        exact H.chan x (by simpa using hx)
    obtain ⟨c', e, s, H'⟩ := popBlock_ok (legal := legal) k (ch + 1) (pcm := pcm.set cursor ((bufs ch).headD (F32.ofInt 0))) (cursor := cursor + 1) hD (by omega) (by omega) (by simpa using h2)
    rw [(H.chan ch hch').buf] at e ⊢
    refine ⟨c', ?_, ⟨s.level, s.scale, s.inv⟩, H'.congr (fun _ _ => rfl) ?_⟩
    · rw [e]
      congr 3
      · have e1 : (pcm.set cursor ((bufs ch).headD (F32.ofInt 0))).take (cursor + 1) = pcm.take cursor ++ [(bufs ch).headD (F32.ofInt 0)] := by
          rw [List.take_succ_eq_append_getElem (by simp; omega), List.take_set_of_le (le_refl _)]
          simp
        have e2 : (pcm.set cursor ((bufs ch).headD (F32.ofInt 0))).drop (cursor + 1 + k) = pcm.drop (cursor + (k + 1)) := by
          rw [List.drop_set_of_lt (by omega)]
          congr 1; omega
        have e3 : (List.range' (ch + 1) k).map (fun x => ((if x = ch then (bufs ch).tail else bufs x)).headD (F32.ofInt 0)) =
            (List.range' (ch + 1) k).map (fun x => (bufs x).headD (F32.ofInt 0)) := by
          apply List.map_congr_left
          intro x hx
          have : ch + 1 ≤ x := (List.mem_range'_1.1 hx).1
          rw [if_neg (by omega)]
        rw [e1, e2, e3, List.range'_succ]
        simp
      · omega
    · intro x hx
      by_cases hxc : x = ch
      · subst hxc; simp
      · rw [if_neg hxc]
        by_cases hx1 : ch ≤ x
        · rw [if_pos hx1, if_pos (by omega)]
        · rw [if_neg hx1, if_neg (by omega)]

/-- all channels as the decoder delivers them, before rescaling -/
def outCols (n : Nat) (blocks : List (Nat → Fr)) : List (List F32) := (List.range n).map fun ch => (decoded (codesOf blocks ch)).map out

theorem rows_succ (cols : List (List F32)) (m d : Nat) : rows cols m (d + 1) = rows cols m 1 ++ rows cols (m + 1) d := by
  unfold rows
  rw [Nat.add_comm d 1, List.range_add]
  simp [List.flatMap_append, List.flatMap_map, Nat.add_assoc]

theorem rows_add (cols : List (List F32)) (m d e : Nat) : rows cols m (d + e) = rows cols m d ++ rows cols (m + d) e := by
  unfold rows
  rw [List.range_add]
  simp [List.flatMap_append, List.flatMap_map, Nat.add_assoc]

theorem length_rows (cols : List (List F32)) (m d : Nat) : (rows cols m d).length = d * cols.length := by
  unfold rows
  simp [List.length_flatMap]

theorem rowsIn_take_le (blocks : List (Nat → Fr)) (j : Nat) : rowsIn (blocks.take j) ≤ rowsIn blocks := by
  conv_rhs => rw [← List.take_append_drop j blocks, rowsIn_append]
  omega

theorem Rec.codes_take {n : Nat} {blocks : List (Nat → Fr)} (HR : Rec n blocks) (j : Nat) {ch : Nat} (hch : ch < n) :
    codesOf (blocks.take j) ch = (codesOf blocks ch).take (rowsIn (blocks.take j)) := by
  rw [← (HR.take j).length hch]
  conv_rhs => rw [← List.take_append_drop j blocks, codesOf_append]
  simp

theorem Rec.rows_cases {n : Nat} {blocks : List (Nat → Fr)} (HR : Rec n blocks) (hn : 0 < n) (j : Nat) :
    rowsIn (blocks.take j) = 0 ∨ 3 ≤ rowsIn (blocks.take j) := by
  rcases Nat.eq_zero_or_pos (rowsIn (blocks.take j)) with h | h
  · exact .inl h
  · right
    by_cases hb : blocks = []
    · subst hb; simp at h
    · have h0 : 0 < blocks.length := List.length_pos_iff.2 hb
      have hj : 0 < j := by
        rcases Nat.eq_zero_or_pos j with rfl | hj
        · simp at h
        · exact hj
      have h3 := (HR.wf 0 h0 0 hn).first (by rw [HR.pre 0 h0 0 hn]; rfl)
      have : rowsIn (blocks.take 1) ≤ rowsIn (blocks.take j) := by
        have := rowsIn_take_le (blocks.take j) 1
        rwa [List.take_take, Nat.min_eq_left hj] at this
      have h1 : rowsIn (blocks.take 1) = (blocks[0] 0).codes.length := by
        have := rowsIn_take_succ (j := 0) h0
        simpa using this
      omega

theorem Rec.decoded_take {n : Nat} {blocks : List (Nat → Fr)} (HR : Rec n blocks) (hn : 0 < n) (j : Nat) {ch : Nat} (hch : ch < n) :
    decoded (codesOf (blocks.take j) ch) = (decoded (codesOf blocks ch)).take (rowsIn (blocks.take j)) := by
  rw [HR.codes_take j hch]
  exact Spec.decoded_take (HR.rows_cases hn j)

/-- the sizes of the blocks -/
def sizesOf (blocks : List (Nat → Fr)) : List Nat := blocks.map fun blk => (blk 0).codes.length

theorem rowsIn_drop_zero {blocks : List (Nat → Fr)} {j : Nat} (h : ∀ t, (sizesOf blocks).getD (j + t) 0 = 0) :
    rowsIn blocks = rowsIn (blocks.take j) := by
  conv_lhs => rw [← List.take_append_drop j blocks, rowsIn_append]
  have : rowsIn (blocks.drop j) = 0 := by
    unfold rowsIn
    rw [List.sum_eq_zero_iff]
    intro x hx
    obtain ⟨blk, hb, rfl⟩ := List.mem_map.1 hx
    obtain ⟨t, ht, rfl⟩ := List.getElem_of_mem hb
    have := h t
    simp only [List.length_drop] at ht
    rw [sizesOf, List.getD_eq_getElem?_getD, List.getElem?_eq_getElem (by simp; omega)] at this
    simpa using this
  omega

/-- one row out of the buffers -/
theorem popRow_ok {info : StreamInfo} {blocks : List (Nat → Fr)} (HR : Rec info.channels blocks) (hn : 0 < info.channels)
    {c : AdhocCodec} {j m : Nat} (H : DecSt c info blocks j m) (hm : m < rowsIn (blocks.take j)) {legal cursor : Nat} {pcm : List F32}
    (h1 : cursor + info.channels ≤ legal) (h2 : legal ≤ pcm.length) :
    ∃ c', AdhocCodec.popBlock legal info.channels 0 c pcm cursor =
        .ok (c', pcm.take cursor ++ rows (outCols info.channels blocks) m 1 ++ pcm.drop (cursor + info.channels), cursor + info.channels) ∧
      SameLevel c c' ∧ DecSt c' info blocks j (m + 1) := by
  obtain ⟨c', e, s, H'⟩ := popBlock_ok info.channels 0 H.fl (by omega) h1 h2
  refine ⟨c', ?_, s, ?_, H.j_le, by omega⟩
  · rw [e]
    have er : rows (outCols info.channels blocks) m 1 =
        (List.range' 0 info.channels).map (fun ch => ((decoded (codesOf blocks ch)).map out).getD m (F32.ofInt 0)) := by
      simp [rows, outCols, List.range_eq_range', Function.comp_def]
    rw [er]
    congr 5
    apply List.map_congr_left
    intro ch hch
    have hch : ch < info.channels := by
      have := List.mem_range'_1.1 hch
      omega
    rw [HR.decoded_take hn j hch]
    have hl : m < (decoded (codesOf blocks ch)).length := by
      rw [length_decoded, HR.length hch]
      exact lt_of_lt_of_le hm (rowsIn_take_le _ _)
    rw [List.headD_eq_head?_getD, List.head?_eq_getElem?, List.getElem?_map, List.getElem?_drop, List.getElem?_take, Nat.add_zero, if_pos hm,
      List.getD_eq_getElem?_getD, List.getElem?_map]
  · refine H'.congr (fun _ _ => rfl) ?_
    intro x _
    simp only [Nat.zero_le, if_true]
    rw [← List.map_tail, List.tail_drop]

/-- the output loop -/
theorem decodeLoop_ok {b : Build} {info : StreamInfo} (hn : 0 < info.channels) {blocks : List (Nat → Fr)}
    (HR : Rec info.channels blocks) (hsh : Short blocks) (q : Nat) :
    ∀ (fuel : Nat) {c : AdhocCodec} {j m r : Nat} {pcm : List F32} (_ : DecSt c info blocks j m) (_ : r ≤ q) (_ : q - r < fuel)
      (_ : q * info.channels ≤ pcm.length),
    ∃ c' j' d, AdhocCodec.decodeLoop b info.channels (q * info.channels) fuel c pcm (r * info.channels) =
        .ok (c', pcm.take (r * info.channels) ++ rows (outCols info.channels blocks) m d ++ pcm.drop ((r + d) * info.channels),
          (r + d) * info.channels) ∧
      SameLevel c c' ∧ DecSt c' info blocks j' (m + d) ∧ r + d ≤ q ∧
      (NoGap (sizesOf blocks) → m + d = min (m + (q - r)) (rowsIn blocks))
  | 0, _, _, _, _, _, _, _, h, _ => absurd h (by omega)
  | fuel + 1, c, j, m, r, pcm, H, hr, hf, hl => by
    have hmle : m ≤ rowsIn blocks := H.m_le.trans (rowsIn_take_le _ _)
    unfold AdhocCodec.decodeLoop
    by_cases hlt : r < q
    · have hle : (r + 1) * info.channels ≤ q * info.channels := Nat.mul_le_mul_right _ hlt
      rw [Nat.add_mul, Nat.one_mul] at hle
      rw [if_pos (by omega)]
      obtain ⟨c1, j1, left, e1, s1, H1, hj1, hpos, hgap⟩ := bufferAudio_ok (b := b) hn HR hsh MAX_DECODE_ATTEMPTS H
      rw [e1, bind_ok]
      dsimp only
      by_cases h0 : left = 0
      · rw [if_pos h0]
        refine ⟨c1, j1, 0, by simp [rows], s1, H1, by omega, ?_⟩
        intro hng
        have hno : m = rowsIn blocks := by
          have hm1 : ¬ m < rowsIn (blocks.take j) := fun h => by
            have := hgap (.inl ⟨by unfold MAX_DECODE_ATTEMPTS; omega, h⟩)
            omega
          have hm2 : m = rowsIn (blocks.take j) := by have := H.m_le; omega
          rcases hng j with ⟨t, ht, hp⟩ | hz
          · exfalso
            have hjt : j + t < blocks.length := by
              by_contra hc
              rw [sizesOf, List.getD_eq_getElem?_getD, List.getElem?_eq_none (by simp; omega)] at hp
              simp at hp
            rw [sizesOf, List.getD_eq_getElem?_getD, List.getElem?_eq_getElem (by simpa using hjt)] at hp
            simp only [List.getElem_map, Option.getD_some] at hp
            have := hgap (.inr ⟨t, by unfold MAX_DECODE_ATTEMPTS; omega, hjt, hp⟩)
            omega
          · rw [rowsIn_drop_zero hz]; exact hm2
        omega
      · rw [if_neg h0]
        obtain ⟨c2, e2, s2, H2⟩ := popRow_ok HR hn H1 (hpos (by omega)) (pcm := pcm) (cursor := r * info.channels) (legal := q * info.channels) hle hl
        rw [e2, bind_ok]
        dsimp only
        obtain ⟨row, hrow⟩ : ∃ row, row = rows (outCols info.channels blocks) m 1 := ⟨_, rfl⟩
        have hrl : row.length = info.channels := by rw [hrow, length_rows]; simp [outCols]
        rw [← hrow]
        have hmul : r * info.channels + info.channels = (r + 1) * info.channels := by rw [Nat.add_mul, Nat.one_mul]
        rw [hmul]
        have hlen : q * info.channels ≤ (pcm.take (r * info.channels) ++ row ++ pcm.drop ((r + 1) * info.channels)).length := by
          simp only [List.length_append, List.length_take, List.length_drop, hrl]
          omega
        obtain ⟨c3, j3, d, e3, s3, H3, hd, hng⟩ := decodeLoop_ok hn HR hsh q fuel (b := b) H2 (show r + 1 ≤ q by omega) (by omega) hlen
        refine ⟨c3, j3, d + 1, ?_, s1.trans (s2.trans s3), by rw [← Nat.add_assoc, Nat.add_right_comm]; exact H3, by omega, ?_⟩
        · rw [e3]
          have ea : (pcm.take (r * info.channels) ++ row ++ pcm.drop ((r + 1) * info.channels)).take ((r + 1) * info.channels) =
              pcm.take (r * info.channels) ++ row := by
            rw [List.take_append_of_le_length (by simp [hrl]; omega), List.take_of_length_le (by simp [hrl]; omega)]
          have eb : (pcm.take (r * info.channels) ++ row ++ pcm.drop ((r + 1) * info.channels)).drop ((r + 1 + d) * info.channels) =
              pcm.drop ((r + (d + 1)) * info.channels) := by
            have hx : (r + 1 + d) * info.channels = (r + 1) * info.channels + d * info.channels := by rw [Nat.add_mul]
            have hy : (r + (d + 1)) * info.channels = (r + 1) * info.channels + d * info.channels := by rw [← Nat.add_mul]; congr 1; omega
            have hz : (pcm.take (r * info.channels) ++ row).length = (r + 1) * info.channels := by simp [hrl]; omega
            rw [hx, hy, ← List.drop_drop, List.drop_left' hz, List.drop_drop]
          rw [ea, eb, rows_succ, ← hrow]
          have ec : (r + 1 + d) * info.channels = (r + (d + 1)) * info.channels := by congr 1; omega
          rw [ec]
          simp [List.append_assoc]
        · intro h
          have := hng h
          omega
    · have hrq : r = q := by omega
      subst hrq
      rw [if_neg (by omega)]
      refine ⟨c, j, 0, by simp [rows], .refl c, H, by omega, ?_⟩
      intro _
      omega

/-- one decode call -/
theorem decode_ok {b : Build} {info : StreamInfo} (hn : 0 < info.channels) {blocks : List (Nat → Fr)}
    (HR : Rec info.channels blocks) (hsh : Short blocks) {c : AdhocCodec} {j m : Nat} (H : DecSt c info blocks j m) (buf : List F32) :
    ∃ c' j' d, c.decode b buf =
        .ok (c', (rows (outCols info.channels blocks) m d ++ buf.drop (d * info.channels)).map (· * c.scale),
          if 0 < d then some (d * info.channels) else none) ∧
      SameLevel c c' ∧ DecSt c' info blocks j' (m + d) ∧ d ≤ buf.length / info.channels ∧ m + d ≤ rowsIn blocks ∧
      (NoGap (sizesOf blocks) → m + d = min (m + buf.length / info.channels) (rowsIn blocks)) := by
  obtain ⟨c', j', d, e, s, H', hd, hng⟩ := decodeLoop_ok (b := b) hn HR hsh (buf.length / info.channels)
    (buf.length / info.channels * info.channels + 1) (r := 0) (pcm := buf) H (Nat.zero_le _)
    (by have := Nat.le_mul_of_pos_right (buf.length / info.channels) hn; omega) (Nat.div_mul_le_self _ _)
  refine ⟨c', j', d, ?_, s, H', by omega, H'.m_le.trans (rowsIn_take_le _ _), by simpa using hng⟩
  unfold AdhocCodec.decode AdhocCodec.decodeRaw
  rw [H.fl.hinfo]
  simp only [expect, bind_ok]
  rw [udiv_of_pos hn, bind_ok]
  rw [Nat.zero_mul] at e
  rw [e, bind_ok]
  simp only [Nat.zero_add, List.take_zero, List.nil_append, pure_eq_ok, bind_ok, s.scale]
  congr 3
  by_cases h : 0 < d
  · rw [if_pos h, if_pos (Nat.mul_pos h hn)]
  · have : d = 0 := by omega
    subst this; simp

/-- rewinding after encoding -/
theorem decSt_init {c : AdhocCodec} {info : StreamInfo} {blocks : List (Nat → Fr)}
    (H : EncSt c info (flat info.channels blocks) (codesOf blocks)) : DecSt c.init info blocks 0 0 where
  fl := by
    refine ⟨H.hinfo, by simpa [AdhocCodec.init] using H.chans, ?_, ?_, ?_⟩
    · intro k hk
      have hk' : k < c.channelStateList.length := by simpa [AdhocCodec.init] using hk
      simp only [AdhocCodec.init, List.getElem_map]
      have := H.chan k hk'
      exact ⟨by simp [FrameCodec.init], this.hist.weaken, by simp [FrameCodec.init]⟩
    · exact H.bits.reads (t := c.stream.stream.seekStart) rfl (by simp [bitsOf]) (by simp [BitStream.seekStart, bitsOf])
    · simpa [AdhocCodec.init] using isLog_reset H.log
  j_le := by omega
  m_le := by simp

/-- rewinding while decoding -/
theorem DecSt.init {c : AdhocCodec} {info : StreamInfo} {blocks : List (Nat → Fr)} {j m : Nat}
    (H : DecSt c info blocks j m) : DecSt c.init info blocks 0 0 where
  fl := by
    refine ⟨H.fl.hinfo, by simpa [AdhocCodec.init] using H.fl.chans, ?_, ?_, ?_⟩
    · intro k hk
      have hk' : k < c.channelStateList.length := by simpa [AdhocCodec.init] using hk
      simp only [AdhocCodec.init, List.getElem_map]
      have := H.fl.chan k hk'
      exact ⟨by simp [FrameCodec.init], this.hist.weaken, by simp [FrameCodec.init]⟩
    · have := H.fl.bits
      exact ⟨by simp [AdhocCodec.init, BitStream.seekStart, bitsOf], this.chunks, by simp [bitsOf], this.bit⟩
    · simpa [AdhocCodec.init] using isLog_reset H.fl.log
  j_le := by omega
  m_le := by simp

end Adhoc
