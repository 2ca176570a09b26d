import Verif.Props.Resync

/-! # C116: playing leaves the recording as it was -/

namespace Adhoc
open Spec F32

namespace Spec

/-- the codec after reads and seeks -/
def after (b : Build) : AdhocCodec → List Act → R AdhocCodec
  | c, [] => pure c
  | c, .read buf :: acts => do
    let (c, _, _) ← c.decode b buf
    after b c acts
  | c, .seek ms :: acts => do
    let c ← c.seek b (.start ms)
    after b c acts

end Spec

/-- nothing but the places has changed, and zero chunks may have been appended -/
structure Leafed (c c' : AdhocCodec) : Prop where
  hdr : c'.frameHeaderList.reset = c.frameHeaderList.reset
  info : c'.stream.info = c.stream.info
  level : SameLevel c c'
  cap : c.stream.stream.capacity ≤ c'.stream.stream.capacity
  pad : ∃ n, c'.stream.stream.binary = c.stream.stream.binary ++ List.replicate n 0#128

theorem Leafed.refl (c : AdhocCodec) : Leafed c c := ⟨rfl, rfl, .refl c, le_rfl, 0, by simp⟩

theorem Leafed.trans {a b c : AdhocCodec} (h : Leafed a b) (h' : Leafed b c) : Leafed a c where
  hdr := h'.hdr.trans h.hdr
  info := h'.info.trans h.info
  level := h.level.trans h'.level
  cap := h.cap.trans h'.cap
  pad := by
    obtain ⟨n, e⟩ := h.pad
    obtain ⟨m, e'⟩ := h'.pad
    exact ⟨n + m, by rw [e', e, List.append_assoc, List.replicate_add]⟩

/-! ## any codec -/

theorem leafed_frame {b : Build} {fc fc' : FrameCodec} {st st' : AudioStream} {hd hd' : FrameHeaders} {n : Option Nat}
    (e : fc.decodeFrame b st hd = .ok (fc', st', hd', n)) :
    hd'.reset = hd.reset ∧ st'.info = st.info ∧ st.stream.capacity ≤ st'.stream.capacity ∧
      ∃ n, st'.stream.binary = st.stream.binary ++ List.replicate n 0#128 := by
  have hsame : ∃ n, st.stream.binary = st.stream.binary ++ List.replicate n 0#128 := ⟨0, by simp⟩
  rcases hn : hd.next with p | ⟨hd1, _ | hdr⟩
  · unfold FrameCodec.decodeFrame at e
    rw [hn] at e
    cases e
  · unfold FrameCodec.decodeFrame at e
    rw [hn, bind_ok] at e
    have h := Prod.mk.inj (Prod.mk.inj (Except.ok.inj e)).2
    rw [← h.1, ← (Prod.mk.inj h.2).1]
    exact ⟨next_inv hn, rfl, le_rfl, hsame⟩
  · obtain ⟨h1, h2, h3, h4⟩ := decodeFrame_inv hn e
    refine ⟨h1, h2, ?_⟩
    by_cases hs : fc.state = .init
    · exact ⟨(h3 hs).cap1, (h3 hs).pad⟩
    · by_cases h0 : hdr.size = 0
      · rw [(h4 hs).1 h0]; exact ⟨le_rfl, hsame⟩
      · exact ⟨((h4 hs).2 h0).cap1, ((h4 hs).2 h0).pad⟩

theorem leafed_decodeChannel {b : Build} {c : AdhocCodec} {ch : Nat} : Ens (c.decodeChannel b ch) (Leafed c) := by
  unfold AdhocCodec.decodeChannel
  refine Ens.bind (Ens.any _) fun fc _ => ?_
  intro c' h
  obtain ⟨⟨fc', st', hd', n⟩, e, h⟩ := bind_eq_ok.1 h
  obtain ⟨chs, -, h⟩ := bind_eq_ok.1 h
  obtain ⟨h1, h2, h3, h4⟩ := leafed_frame e
  rw [← Except.ok.inj h]
  exact ⟨h1, h2, ⟨rfl, rfl, rfl⟩, h3, h4⟩

theorem leafed_fold {α : Type} {f : AdhocCodec → α → R AdhocCodec} (hf : ∀ c a, Ens (f c a) (Leafed c)) (l : List α) (c : AdhocCodec) :
    Ens (l.foldlM f c) (Leafed c) :=
  Ens.foldlM (P := Leafed c) (fun c1 a h1 c2 e => h1.trans (hf c1 a c2 e)) l c (.refl c)

theorem leafed_bufferAudio {b : Build} {n : Nat} : ∀ (left : Nat) (c : AdhocCodec), Ens (AdhocCodec.bufferAudio b n left c) (fun r => Leafed c r.1)
  | 0, c => Ens.ok (.refl c)
  | left + 1, c => by
    unfold AdhocCodec.bufferAudio
    split
    · refine (leafed_fold (fun c ch => leafed_decodeChannel) _ c).bind fun c1 h1 r e => ?_
      exact h1.trans (leafed_bufferAudio left c1 r e)
    · exact Ens.ok (.refl c)

theorem leafed_channels (c : AdhocCodec) (l : List FrameCodec) : Leafed c { c with channelStateList := l } :=
  ⟨rfl, rfl, ⟨rfl, rfl, rfl⟩, le_rfl, 0, by simp⟩

/-- popping and dropping samples touches the buffers alone -/
theorem popBlock_inv {legal : Nat} : ∀ (n ch : Nat) (c : AdhocCodec) (pcm : List F32) (cursor : Nat),
    Ens (AdhocCodec.popBlock legal n ch c pcm cursor) (fun r => ∃ l, r.1 = { c with channelStateList := l })
  | 0, ch, c, pcm, cursor => Ens.ok ⟨c.channelStateList, rfl⟩
  | n + 1, ch, c, pcm, cursor => by
    unfold AdhocCodec.popBlock
    split
    · refine (Ens.any _).bind fun fc _ => (Ens.any _).bind fun chs _ => (Ens.any _).bind fun pcm _ r e => ?_
      obtain ⟨l, h⟩ := popBlock_inv n (ch + 1) _ _ _ r e
      exact ⟨l, h⟩
    · exact Ens.ok ⟨c.channelStateList, rfl⟩

theorem leafed_decodeLoop {b : Build} {n legal : Nat} : ∀ (fuel : Nat) (c : AdhocCodec) (pcm : List F32) (cursor : Nat),
    Ens (AdhocCodec.decodeLoop b n legal fuel c pcm cursor) (fun r => Leafed c r.1)
  | 0, _, _, _ => Ens.error
  | fuel + 1, c, pcm, cursor => by
    unfold AdhocCodec.decodeLoop
    split
    · refine (leafed_bufferAudio _ c).bind ?_
      rintro ⟨c1, left⟩ h1
      dsimp only
      split
      · exact Ens.ok h1
      · refine (popBlock_inv n 0 c1 pcm cursor).bind ?_
        rintro ⟨c2, pcm2, cur2⟩ ⟨l, h2⟩ r e
        obtain rfl : c2 = { c1 with channelStateList := l } := h2
        exact h1.trans ((leafed_channels c1 l).trans (leafed_decodeLoop fuel _ _ _ r e))
    · exact Ens.ok (.refl c)

theorem leafed_decode {b : Build} (c : AdhocCodec) (buf : List F32) : Ens (c.decode b buf) (fun r => Leafed c r.1) := by
  unfold AdhocCodec.decode AdhocCodec.decodeRaw
  intro r h
  obtain ⟨⟨c1, p1, n1⟩, e, h⟩ := bind_eq_ok.1 h
  obtain ⟨info, -, e⟩ := bind_eq_ok.1 e
  obtain ⟨q, -, e⟩ := bind_eq_ok.1 e
  obtain ⟨⟨c2, p2, n2⟩, e2, e⟩ := bind_eq_ok.1 e
  have h2 := leafed_decodeLoop _ _ _ _ _ e2
  rw [← Except.ok.inj h]
  have := (Prod.mk.inj (Except.ok.inj e)).1
  dsimp only at this h2 ⊢
  rw [← this]
  exact h2

theorem leafed_seekChannel {b : Build} {c : AdhocCodec} {k off : Nat} : Ens (c.seekChannel b k off) (Leafed c) := by
  unfold AdhocCodec.seekChannel
  refine (Ens.any _).bind fun _ _ => (Ens.any _).bind fun hdr _ => (Ens.any _).bind fun fc _ => ?_
  intro c' h
  obtain ⟨⟨fc', st', hd', n⟩, e, h⟩ := bind_eq_ok.1 h
  obtain ⟨chs, -, h⟩ := bind_eq_ok.1 h
  obtain ⟨h1, h2, h3, h4⟩ := leafed_frame e
  rw [← Except.ok.inj h]
  exact ⟨h1, h2, ⟨rfl, rfl, rfl⟩, h3, h4⟩

theorem dropOne_inv (c : AdhocCodec) (n : Nat) : Ens (c.dropOne n) (fun r => ∃ l, r = { c with channelStateList := l }) := by
  unfold AdhocCodec.dropOne
  refine Ens.foldlM (P := fun r => ∃ l, r = { c with channelStateList := l }) ?_ _ c ⟨c.channelStateList, rfl⟩
  rintro _ off ⟨l, rfl⟩
  refine (Ens.any _).bind fun fc _ => (Ens.any _).bind fun chs _ => Ens.ok ⟨chs, rfl⟩

theorem prune_inv {b : Build} {n target : Nat} : ∀ (fuel skipped : Nat) (c : AdhocCodec),
    Ens (c.prune b n target fuel skipped) (fun r => ∃ l, r = { c with channelStateList := l })
  | 0, _, _ => Ens.error
  | fuel + 1, skipped, c => by
    unfold AdhocCodec.prune
    split
    · refine (dropOne_inv c n).bind ?_
      rintro _ ⟨l, rfl⟩
      refine (Ens.any _).bind fun s _ r e => ?_
      obtain ⟨l', rfl⟩ := prune_inv fuel s _ r e
      exact ⟨l', rfl⟩
    · exact Ens.ok ⟨c.channelStateList, rfl⟩

theorem leafed_init (c : AdhocCodec) : Leafed c c.init := ⟨rfl, rfl, ⟨rfl, rfl, rfl⟩, le_rfl, 0, by simp [AdhocCodec.init, BitStream.seekStart]⟩

theorem leafed_seek {b : Build} (c : AdhocCodec) (ms : Nat) : Ens (c.seek b (.start ms)) (Leafed c) := by
  unfold AdhocCodec.seek
  refine (Ens.any _).bind fun info _ => ?_
  dsimp only
  split
  · exact Ens.ok (leafed_init c)
  · unfold AdhocCodec.seekTo
    dsimp only
    refine (Ens.any _).bind fun target _ => (Ens.any _).bind fun blockLen _ => (Ens.any _).bind ?_
    rintro ⟨skipped, block⟩ -
    dsimp only
    refine (Ens.any _).bind fun _ _ => (Ens.any _).bind fun hdr _ => ?_
    refine (leafed_fold (fun c off => leafed_seekChannel) _ _).bind fun c1 h1 c2 e => ?_
    obtain ⟨l, rfl⟩ := prune_inv _ _ _ c2 e
    refine (leafed_init c).trans (Leafed.trans ?_ (h1.trans (leafed_channels c1 l)))
    exact ⟨rfl, rfl, ⟨rfl, rfl, rfl⟩, le_rfl, 0, by simp [BitStream.setBitCursor]⟩

theorem leafed_after {b : Build} : ∀ (acts : List Act) (c : AdhocCodec), Ens (after b c acts) (Leafed c)
  | [], c => Ens.ok (.refl c)
  | .read buf :: acts, c => by
    unfold after
    refine (leafed_decode c buf).bind ?_
    rintro ⟨c1, p1, n1⟩ h1 c2 e
    exact h1.trans (leafed_after acts c1 c2 e)
  | .seek ms :: acts, c => by
    unfold after
    refine (leafed_seek c ms).bind fun c1 h1 c2 e => h1.trans (leafed_after acts c1 c2 e)

/-! ## recordings -/

/-- nothing has been allocated -/
structure Packed (c c' : AdhocCodec) : Prop where
  bin : c'.stream.stream.binary = c.stream.stream.binary
  cap : c'.stream.stream.capacity = c.stream.stream.capacity

theorem Packed.refl (c : AdhocCodec) : Packed c c := ⟨rfl, rfl⟩
theorem Packed.trans {a b c : AdhocCodec} (h : Packed a b) (h' : Packed b c) : Packed a c := ⟨h'.bin.trans h.bin, h'.cap.trans h.cap⟩

/-- the memory of a recording: chunks and length -/
structure Full (c : AdhocCodec) (fs : List Fr) : Prop where
  room : Roomy fs c.stream.stream.binary.length
  cap : c.stream.stream.capacity = (bitsOf fs).length

theorem Full.kept {c c' : AdhocCodec} {fs : List Fr} (H : Full c fs) (h : Packed c c') : Full c' fs :=
  ⟨by rw [h.bin]; exact H.room, by rw [h.cap]; exact H.cap⟩

theorem frame_kept {b : Build} {fc fc' : FrameCodec} {st st' : AudioStream} {hd hd' : FrameHeaders} {m : Option Nat} {fs : List Fr} {i : Nat}
    (hi : i < fs.length) (hf : fs[i].WF) (hsz : fs[i].codes.length < 65536) (hst : fc.state = .init ↔ fs[i].pre = [])
    (hlog : IsLog hd (hdrs 0 fs) i) (hroom : Roomy fs st.stream.binary.length) (hcap : st.stream.capacity = (bitsOf fs).length)
    (e : fc.decodeFrame b st hd = .ok (fc', st', hd', m)) (hr : Reads st'.stream (bitsOf fs) (bitsOf (fs.take (i + 1))).length) :
    st'.stream.binary = st.stream.binary ∧ st'.stream.capacity = st.stream.capacity := by
  obtain ⟨hd1, e1, -⟩ := isLog_next hlog
  rw [hdrs_getElem?, List.getElem?_eq_getElem hi] at e1
  obtain ⟨-, -, g1, g2⟩ := decodeFrame_inv e1 e
  have hsize : ∀ p, (fs[i].hdr p).size = fs[i].codes.length := by
    intro p
    show fs[i].codes.length % 2 ^ 16 = _
    omega
  have hroom := hroom i hi
  have key : ∀ w, Gentle st.stream st'.stream w → (st'.stream.bitCursor - w) / 128 + 2 ≤ st.stream.binary.length →
      st'.stream.binary = st.stream.binary ∧ st'.stream.capacity = st.stream.capacity := by
    intro w g h
    refine ⟨g.keep h, ?_⟩
    have h1 := g.cap1
    have h2 := g.cap2
    have h3 := hr.cursor
    have h4 := hr.inside
    omega
  rw [← hr.cursor] at hroom
  simp only [hsize] at g1 g2
  by_cases hp : fs[i].pre = []
  · have h3 := hf.first hp
    refine key _ (g1 (hst.2 hp)) ?_
    have hl : fs[i].lastWidth = if fs[i].codes.length ≤ 3 then 16 else fs[i].exp := by
      unfold Fr.lastWidth Fr.body
      rw [if_pos hp]
      simp only [List.drop_eq_nil_iff]
    have := hroom (by intro h; rw [h] at h3; simp at h3)
    rw [hl] at this
    exact this
  · obtain ⟨g3, g4⟩ := g2 (fun h => hp (hst.1 h))
    by_cases h0 : fs[i].codes = []
    · rw [g3 (by rw [h0]; rfl)]; exact ⟨rfl, rfl⟩
    · refine key _ (g4 (by intro h; exact h0 (List.eq_nil_of_length_eq_zero h))) ?_
      have hl : fs[i].lastWidth = fs[i].exp := by
        unfold Fr.lastWidth Fr.body
        rw [if_neg hp, if_neg h0]
      have := hroom h0
      rw [hl] at this
      exact this

theorem decodeChannel_kept {b : Build} {c c' : AdhocCodec} {info : StreamInfo} {fs : List Fr} {i : Nat} {Ds Ds' : Nat → List Int}
    {bufs bufs' : Nat → List F32} (H : DecFl c info fs i Ds bufs) (hF : Full c fs) {ch : Nat} (hch : ch < info.channels) (hi : i < fs.length) (hf : fs[i].WF)
    (hsz : fs[i].codes.length < 65536) (hD : Ds ch = [] ↔ fs[i].pre = []) (e : c.decodeChannel b ch = .ok c')
    (H' : DecFl c' info fs (i + 1) Ds' bufs') : Packed c c' := by
  have hch' : ch < c.channelStateList.length := by rw [H.chans]; exact hch
  unfold AdhocCodec.decodeChannel at e
  rw [idx_of_lt hch', bind_ok] at e
  obtain ⟨⟨fc', st', hd', n⟩, e1, e⟩ := bind_eq_ok.1 e
  obtain ⟨chs, -, e⟩ := bind_eq_ok.1 e
  have hc := Except.ok.inj e
  have hbits := H'.bits
  rw [← hc] at hbits ⊢
  have hstate := (H.chan ch hch').state
  have hst : c.channelStateList[ch].state = .init ↔ fs[i].pre = [] := by
    rw [hstate, ← hD]
    by_cases h : Ds ch = [] <;> simp [h]
  have := frame_kept hi hf hsz hst H.log hF.room hF.cap e1 hbits
  exact ⟨this.1, this.2⟩

namespace Resync

theorem decodeBlock_kept {b : Build} {c : AdhocCodec} {info : StreamInfo} {blocks : List (Nat → Fr)} {σ j m : Nat}
    (HR : Rec info.channels blocks) (hsh : Short blocks) (H : DecAt σ c info blocks j m) (hj : j < blocks.length)
    (hF : Full c (flat info.channels blocks)) : Ens (c.decodeBlock b info.channels) (Packed c) := by
  obtain ⟨n, hn⟩ : ∃ n, n = info.channels := ⟨_, rfl⟩
  have ok := decodeChannels_ok (b := b) hn HR hsh H hj
  have key : ∀ k, k ≤ n → Ens ((List.range k).foldlM (fun c ch => AdhocCodec.decodeChannel b c ch) c) (Packed c) := by
    intro k
    induction k with
    | zero => intro _; exact Ens.ok (.refl c)
    | succ k ih =>
      intro hk c2 e
      obtain ⟨c1, e1, -, H1⟩ := ok k (by omega)
      obtain ⟨c2', e2, -, H2⟩ := ok (k + 1) hk
      obtain rfl : c2' = c2 := Except.ok.inj (e2.symm.trans e)
      rw [List.range_succ, foldlM_append', e1, bind_ok] at e
      simp only [List.foldlM_cons, List.foldlM_nil] at e
      obtain ⟨c2'', e3, e⟩ := bind_eq_ok.1 e
      obtain rfl : c2'' = c2' := Except.ok.inj e
      have k1 := ih (by omega) c1 e1
      refine k1.trans ?_
      have hlt : j * n + k < (flat n blocks).length := by
        rw [length_flat]
        calc j * n + k < (j + 1) * n := by rw [Nat.add_mul]; omega
          _ ≤ _ := Nat.mul_le_mul_right _ hj
      have hg := flat_getElem blocks hj (show k < n by omega) hlt
      have hkn : k < info.channels := by omega
      rw [← hn] at hF
      refine decodeChannel_kept H1 (hF.kept k1) hkn hlt (by rw [hg]; exact HR.wf j hj k hkn)
        (by rw [hg, HR.size j hj k hkn]; exact hsh _ (List.getElem_mem hj)) ?_ e3 H2
      rw [hg, HR.pre j hj k hkn]
      simp only [lt_irrefl, if_false]
      rw [← List.length_eq_zero_iff, ← List.length_eq_zero_iff, length_heard]
  have := key n le_rfl
  unfold AdhocCodec.decodeBlock
  rw [← hn]
  exact this

theorem decodeBlock_end_kept {b : Build} {c : AdhocCodec} {info : StreamInfo} {blocks : List (Nat → Fr)} {σ m : Nat}
    (H : DecAt σ c info blocks blocks.length m) : Ens (c.decodeBlock b info.channels) (Packed c) := by
  have hl : blocks.length * info.channels = (flat info.channels blocks).length := (length_flat _ _).symm
  have hfl := H.fl
  rw [hl] at hfl
  unfold AdhocCodec.decodeBlock
  have key : ∀ k, k ≤ info.channels → Ens ((List.range k).foldlM (fun c ch => AdhocCodec.decodeChannel b c ch) c)
      (fun c' => Packed c c' ∧ ∃ Ds bufs, DecFl c' info (flat info.channels blocks) (flat info.channels blocks).length Ds bufs) := by
    intro k
    induction k with
    | zero => intro _; exact Ens.ok ⟨.refl c, _, _, hfl⟩
    | succ k ih =>
      intro hk
      rw [List.range_succ, foldlM_append']
      refine (ih (by omega)).bind ?_
      rintro c1 ⟨k1, Ds, bufs, H1⟩
      simp only [List.foldlM_cons, List.foldlM_nil]
      intro c2 e
      obtain ⟨c2', e1, e'⟩ := bind_eq_ok.1 e
      clear e
      rename' e1 => e
      obtain rfl : c2' = c2 := Except.ok.inj e'
      obtain ⟨c3, e3, -, H3⟩ := decodeChannel_end (b := b) H1 (ch := k) (by omega)
      obtain rfl : c3 = c2' := Except.ok.inj (e3.symm.trans e)
      refine ⟨k1.trans ?_, _, _, H3⟩
      have hch' : k < c1.channelStateList.length := by rw [H1.chans]; omega
      obtain ⟨hd', en, -⟩ := isLog_next H1.log
      unfold AdhocCodec.decodeChannel FrameCodec.decodeFrame at e
      rw [idx_of_lt hch', bind_ok, en, bind_ok, show (hdrs 0 (flat info.channels blocks))[(flat info.channels blocks).length]? = none by simp] at e
      dsimp only at e
      rw [pure_eq_ok, bind_ok] at e
      obtain ⟨chs, -, e⟩ := bind_eq_ok.1 e
      rw [← Except.ok.inj e]
      exact ⟨rfl, rfl⟩
  exact fun c' e => (key _ le_rfl c' e).1

theorem bufferAudio_kept {b : Build} {info : StreamInfo} {blocks : List (Nat → Fr)} {σ : Nat}
    (HR : Rec info.channels blocks) (hsh : Short blocks) : ∀ (left : Nat) {c : AdhocCodec} {j m : Nat} (_ : DecAt σ c info blocks j m)
      (_ : Full c (flat info.channels blocks)), Ens (AdhocCodec.bufferAudio b info.channels left c) (fun r => Packed c r.1)
  | 0, c, _, _, _, _ => Ens.ok (.refl c)
  | left + 1, c, j, m, H, hF => by
    unfold AdhocCodec.bufferAudio
    split
    · by_cases hj : j < blocks.length
      · obtain ⟨c1, e1, -, H1⟩ := decodeBlock_ok (b := b) HR hsh H hj
        have k1 := decodeBlock_kept (b := b) HR hsh H hj hF c1 e1
        rw [e1, bind_ok]
        exact fun r e => k1.trans (bufferAudio_kept HR hsh left H1 (hF.kept k1) r e)
      · obtain rfl : j = blocks.length := by have := H.j_le; omega
        obtain ⟨c1, e1, -, H1⟩ := decodeBlock_end (b := b) H
        have k1 := decodeBlock_end_kept (b := b) H c1 e1
        rw [e1, bind_ok]
        exact fun r e => k1.trans (bufferAudio_kept HR hsh left H1 (hF.kept k1) r e)
    · exact Ens.ok (.refl c)

theorem decodeLoop_kept {b : Build} {info : StreamInfo} (hn : 0 < info.channels) {blocks : List (Nat → Fr)} {σ : Nat}
    (HR : Rec info.channels blocks) (hsh : Short blocks) (q : Nat) :
    ∀ (fuel : Nat) {c : AdhocCodec} {j m r : Nat} {pcm : List F32} (_ : DecAt σ c info blocks j m) (_ : Full c (flat info.channels blocks))
      (_ : q * info.channels ≤ pcm.length),
    Ens (AdhocCodec.decodeLoop b info.channels (q * info.channels) fuel c pcm (r * info.channels)) (fun x => Packed c x.1)
  | 0, _, _, _, _, _, _, _, _ => Ens.error
  | fuel + 1, c, j, m, r, pcm, H, hF, hl => by
    unfold AdhocCodec.decodeLoop
    split
    · rename_i hlt
      have hle : (r + 1) * info.channels ≤ q * info.channels :=
        Nat.mul_le_mul_right _ (Nat.lt_of_mul_lt_mul_right hlt)
      rw [Nat.add_mul, Nat.one_mul] at hle
      obtain ⟨c1, j1, left, e1, -, H1, -, hpos, -⟩ := bufferAudio_ok (b := b) hn HR hsh MAX_DECODE_ATTEMPTS H
      have k1 : Packed c c1 := bufferAudio_kept (b := b) HR hsh _ H hF _ e1
      rw [e1, bind_ok]
      dsimp only
      split
      · exact Ens.ok k1
      · obtain ⟨c2, e2, -, H2⟩ := popRow_ok HR hn H1 (hpos (by omega)) (pcm := pcm) (cursor := r * info.channels) (legal := q * info.channels) hle hl
        obtain ⟨l, h2⟩ := popBlock_inv _ _ _ _ _ _ e2
        rw [e2, bind_ok]
        dsimp only at h2 ⊢
        have k2 : Packed c c2 := by rw [h2]; exact ⟨k1.bin, k1.cap⟩
        have hmul : r * info.channels + info.channels = (r + 1) * info.channels := by rw [Nat.add_mul, Nat.one_mul]
        rw [hmul]
        refine fun x e => k2.trans (decodeLoop_kept hn HR hsh q fuel H2 (hF.kept k2) ?_ x e)
        have hrl : (rows (outColsFrom σ info.channels blocks) m 1).length = info.channels := by rw [length_rows]; simp [outColsFrom]
        simp only [List.length_append, List.length_take, List.length_drop, hrl]
        omega
    · exact Ens.ok (.refl c)

theorem decode_kept {b : Build} {info : StreamInfo} (hn : 0 < info.channels) {blocks : List (Nat → Fr)} {σ : Nat}
    (HR : Rec info.channels blocks) (hsh : Short blocks) {c : AdhocCodec} {j m : Nat} (H : DecAt σ c info blocks j m)
    (hF : Full c (flat info.channels blocks)) (buf : List F32) : Ens (c.decode b buf) (fun r => Packed c r.1) := by
  unfold AdhocCodec.decode AdhocCodec.decodeRaw
  rw [H.fl.hinfo]
  simp only [expect, bind_ok]
  rw [udiv_of_pos hn, bind_ok]
  intro r h
  obtain ⟨⟨c1, p1, n1⟩, e, h⟩ := bind_eq_ok.1 h
  obtain ⟨⟨c2, p2, n2⟩, e2, e⟩ := bind_eq_ok.1 e
  rw [← Except.ok.inj h]
  have h1 := (Prod.mk.inj (Except.ok.inj e)).1
  have := decodeLoop_kept (b := b) hn HR hsh (buf.length / info.channels) _ (r := 0) H hF (Nat.div_mul_le_self _ _) (c2, p2, n2) (by simpa using e2)
  dsimp only at h1 this ⊢
  rw [← h1]
  exact this

theorem seekChannel_kept {b : Build} {c c' : AdhocCodec} {info : StreamInfo} {blocks : List (Nat → Fr)} {j k : Nat}
    (HR : Rec info.channels blocks) (hsh : Short blocks)
    (hj : j < blocks.length) (H : SeekSt c info blocks j k) (hF : Full c (flat info.channels blocks)) (hk : k < info.channels)
    (e : c.seekChannel b (j * info.channels) k = .ok c') (H' : SeekSt c' info blocks j (k + 1)) : Packed c c' := by
  have hlt : j * info.channels + k < (flat info.channels blocks).length := by
    rw [length_flat]
    calc j * info.channels + k < (j + 1) * info.channels := by rw [Nat.add_mul]; omega
      _ ≤ _ := Nat.mul_le_mul_right _ hj
  have hg := flat_getElem blocks hj hk hlt
  have hk' : k < c.channelStateList.length := by rw [H.chans]; exact hk
  have hget : ((hdrs 0 (flat info.channels blocks)))[j * info.channels + k]? =
      some ((flat info.channels blocks)[j * info.channels + k].hdr (0 + (bitsOf ((flat info.channels blocks).take (j * info.channels + k))).length)) := by
    rw [hdrs_getElem?, List.getElem?_eq_getElem hlt]
    rfl
  unfold AdhocCodec.seekChannel at e
  rw [isLog_get H.log, hget, bind_ok] at e
  simp only [expect, bind_ok] at e
  rw [idx_of_lt hk', bind_ok] at e
  obtain ⟨⟨fc', st', hd', n⟩, e1, e⟩ := bind_eq_ok.1 e
  obtain ⟨chs, -, e⟩ := bind_eq_ok.1 e
  have hc := Except.ok.inj e
  have hbits := H'.bits
  rw [← hc] at hbits ⊢
  have := frame_kept hlt (by rw [hg]; exact HR.wf j hj k hk) (by rw [hg, HR.size j hj k hk]; exact hsh _ (List.getElem_mem hj))
    (by simp only [Fr.hdr]; rw [← List.isEmpty_iff]; by_cases h : (flat info.channels blocks)[j * info.channels + k].pre.isEmpty = true <;> simp [h]) H.log hF.room hF.cap e1 hbits
  exact ⟨this.1, this.2⟩

theorem seekTo_kept {b : Build} {c : AdhocCodec} {info : StreamInfo} {blocks : List (Nat → Fr)}
    (HR : Rec info.channels blocks) (hsh : Short blocks)
    (hbits : (bitsOf (flat info.channels blocks)).length < 2 ^ 64)
    {σ j m : Nat} (H : DecAt σ c info blocks j m) (hF : Full c (flat info.channels blocks)) (dt : Nat) : Ens (c.seekTo b info dt) (Packed c) := by
  unfold AdhocCodec.seekTo
  dsimp only
  refine (Ens.any _).bind fun target _ => (Ens.any _).bind fun blockLen _ => (Ens.any _).bind ?_
  rintro ⟨skipped, block⟩ -
  dsimp only
  rw [isLog_get H.fl.log, bind_ok]
  intro c' e
  obtain ⟨hdr, e0, e⟩ := bind_eq_ok.1 e
  have hlt : block * info.channels < (flat info.channels blocks).length := by
    by_contra h
    rw [List.getElem?_eq_none (by simpa using h)] at e0
    cases e0
  rw [hdrs_getElem?, List.getElem?_eq_getElem hlt] at e0
  have e0 : _ = hdr := Except.ok.inj e0
  have hbl : block < blocks.length := by
    rw [length_flat] at hlt
    exact Nat.lt_of_mul_lt_mul_right hlt
  have hst := seekSt_of H (j := block) (p := hdr.bitCursor) (by
    rw [← e0]
    simp only [Fr.hdr, Nat.zero_add]
    refine Nat.mod_eq_of_lt ?_
    have h1 := hbits
    conv at h1 => rw [← List.take_append_drop (block * info.channels) (flat info.channels blocks), bitsOf_append]
    rw [List.length_append] at h1
    omega)
  obtain ⟨c1, e1, e⟩ := bind_eq_ok.1 e
  obtain ⟨l, rfl⟩ := prune_inv _ _ _ c' e
  generalize hc0 : ({ c with stream := { c.stream with stream := c.stream.stream.setBitCursor hdr.bitCursor }
                             frameHeaderList := c.frameHeaderList.setCursor (block * info.channels) } : AdhocCodec) = c0 at *
  have k0 : Packed c c0 := by rw [← hc0]; exact ⟨rfl, rfl⟩
  have key : ∀ k, k ≤ info.channels → Ens ((List.range k).foldlM (fun c off => c.seekChannel b (block * info.channels) off) c0)
      (fun c' => Packed c0 c' ∧ SeekSt c' info blocks block k) := by
    intro k
    induction k with
    | zero => intro _; exact Ens.ok ⟨.refl c0, hst⟩
    | succ k ih =>
      intro hk
      rw [List.range_succ, foldlM_append']
      refine (ih (by omega)).bind ?_
      rintro c1 ⟨k1, H1⟩
      simp only [List.foldlM_cons, List.foldlM_nil]
      intro c2 e
      obtain ⟨c2', e1, e'⟩ := bind_eq_ok.1 e
      clear e
      rename' e1 => e
      obtain rfl : c2' = c2 := Except.ok.inj e'
      obtain ⟨c3, e3, -, H3⟩ := seekChannel_ok (b := b) HR hsh hbl H1 (by omega)
      obtain rfl : c3 = c2' := Except.ok.inj (e3.symm.trans e)
      exact ⟨k1.trans (seekChannel_kept HR hsh hbl H1 ((hF.kept k0).kept k1) (by omega) e H3), H3⟩
  have := (key _ le_rfl c1 e1).1
  exact k0.trans ⟨this.bin, this.cap⟩

theorem after_kept {b : Build} {info : StreamInfo} (hn : 0 < info.channels) {blocks : List (Nat → Fr)}
    (HR : Rec info.channels blocks) (hsh : Short blocks)
    (hbits : (bitsOf (flat info.channels blocks)).length < 2 ^ 64) (hne : blocks ≠ []) :
    ∀ (acts : List Act) (_ : ∀ ms, Act.seek ms ∈ acts → AdhocCodec.seekOffset info ms ≤ rowsIn blocks)
      {c : AdhocCodec} {σ j m : Nat} (_ : DecAt σ c info blocks j m) (_ : Full c (flat info.channels blocks)),
    ∃ c', after b c acts = .ok c' ∧ Packed c c'
  | [], _, c, σ, j, m, H, hF => ⟨c, rfl, .refl c⟩
  | .read buf :: acts, hs, c, σ, j, m, H, hF => by
    obtain ⟨c1, j1, d, e1, -, H1, -⟩ := decode_ok (b := b) hn HR hsh H buf
    have k1 : Packed c c1 := decode_kept (b := b) hn HR hsh H hF buf _ e1
    obtain ⟨c2, e2, k2⟩ := after_kept hn HR hsh hbits hne acts (fun ms h => hs ms (by simp [h])) H1 (hF.kept k1) (b := b)
    refine ⟨c2, ?_, k1.trans k2⟩
    unfold after
    rw [e1, bind_ok]
    exact e2
  | .seek ms :: acts, hs, c, σ, j, m, H, hF => by
    obtain ⟨c1, e1, -, j1, H1⟩ := seek_at (b := b) hn HR hsh hbits H hne ms (hs ms (by simp))
    have k1 : Packed c c1 := by
      have e := e1
      unfold AdhocCodec.seek at e
      rw [H.fl.hinfo, show expect (some info) = .ok info from rfl, bind_ok] at e
      dsimp only at e
      have k0 : Packed c c.init := ⟨rfl, rfl⟩
      split at e
      · rw [← Except.ok.inj e]; exact k0
      · exact k0.trans (seekTo_kept HR hsh hbits (decAt_zero H.init) (hF.kept k0) ms c1 e)
    obtain ⟨c2, e2, k2⟩ := after_kept hn HR hsh hbits hne acts (fun ms h => hs ms (by simp [h])) H1 (hF.kept k1) (b := b)
    refine ⟨c2, ?_, k1.trans k2⟩
    unfold after
    rw [e1, bind_ok]
    exact e2

end Resync

/-- what a save writes once rewound, in terms of what a codec holds -/
theorem file_of_parts {c c' : AdhocCodec} (hh : c'.frameHeaderList.reset = c.frameHeaderList.reset) (hi : c'.stream.info = c.stream.info)
    (hl : c'.compressionLevel = c.compressionLevel) (hb : c'.stream.stream.binary = c.stream.stream.binary)
    (hc : c'.stream.stream.capacity = c.stream.stream.capacity) : file c'.init = file c.init := by
  have h1 : c'.init.frameHeaderList = c.init.frameHeaderList := hh
  have h2 : c'.init.stream = c.init.stream := by
    simp only [AdhocCodec.init, BitStream.seekStart]
    rw [hi, hb, hc]
  have h3 : c'.init.compressionLevel = c.init.compressionLevel := hl
  rw [file_eq, file_eq]
  unfold savedBytes AdhocCodec.encPieces
  rw [h1, h2, h3]

/-- the full claim: whatever file has been opened, reading and seeking in it leaves what a rewound save writes as it was -/
def C116_statement : Prop :=
  ∀ (b : Build) (bytes : List Byte) (c c' : AdhocCodec) (acts : List Act), AdhocCodec.load b bytes = .ok (some c) →
    after b c acts = .ok c' → file c'.init = file c.init

/-- C116 for recordings: after any reads and any seeks to places inside the signal, a rewound save gives the very bytes it would have
given before, both for the encoder's codec and for one loaded from its file. -/
theorem C116_recording_partial (b b' : Build) (info : StreamInfo) (level : Nat) (calls : List (List F32)) (c : AdhocCodec)
    (hn : 0 < info.channels) (h : encodeAll b (fresh info level) calls = .ok c) (hp : Proper info.channels calls) (hne : calls ≠ [])
    (hb : c.stream.stream.bitCursor < 2 ^ 64) (acts : List Act)
    (hs : ∀ ms, Act.seek ms ∈ acts → AdhocCodec.seekOffset info ms ≤ (signal info.channels calls).length) :
    (∃ c', after b' c.init acts = .ok c' ∧ file c'.init = file c.init) ∧
    (info.sampleRate < 2 ^ 32 → info.channels < 2 ^ 32 → calls.length * info.channels < 2 ^ 32 →
      ∃ c0, AdhocCodec.load b (file c) = .ok (some c0) ∧ ∃ c', after b' c0 acts = .ok c' ∧ file c'.init = file c.init) := by
  obtain ⟨-, blocks, H, HR, s⟩ := recorded_of_ok hn h
  have hrec := HR.toRec hn
  have hsh := HR.short hn hp.short
  have hbits : (bitsOf (flat info.channels blocks)).length < 2 ^ 64 := by
    rw [← H.bits.cursor]; exact hb
  have hbne : blocks ≠ [] := by
    rintro rfl
    exact hne (List.eq_nil_of_length_eq_zero (by rw [← HR.len]; rfl))
  have hs' : ∀ ms, Act.seek ms ∈ acts → AdhocCodec.seekOffset info ms ≤ rowsIn blocks := by rw [HR.rows hn]; exact hs
  have hinit := decSt_init H
  have hF : Full c.init (flat info.channels blocks) := ⟨H.room, H.bits.cap.trans H.bits.cursor⟩
  have fin : ∀ c0 : AdhocCodec, Resync.DecAt 0 c0 info blocks 0 0 → Full c0 (flat info.channels blocks) →
      file c0.init = file c.init → ∃ c', after b' c0 acts = .ok c' ∧ file c'.init = file c.init := by
    intro c0 H0 hF0 h0
    obtain ⟨c', e, k⟩ := Resync.after_kept (b := b') hn hrec hsh hbits hbne acts hs' H0 hF0
    have l := leafed_after acts c0 c' e
    exact ⟨c', e, (file_of_parts l.hdr l.info l.level.level k.bin k.cap).trans h0⟩
  refine ⟨fin _ (Resync.decAt_zero hinit) hF (file_of_parts rfl rfl rfl rfl rfl), ?_⟩
  intro hr hc hf
  have V := valued_run (b := b) (calls.map Use.encode) (valued_fresh info level) c (by rw [encodeAll_uses]; exact h)
  have hl := load_saved (b := b) (counted_recording hn hr hc hf h (by rw [H.bits.cursor]; exact hbits)) V []
  rw [List.append_nil, ← file_eq] at hl
  exact ⟨_, hl, fin _ (Resync.decAt_zero (decSt_reloaded hinit)) ⟨hF.room, hF.cap⟩ (file_of_parts rfl rfl rfl rfl rfl)⟩

/-- C116 for every codec whatsoever, whatever its fields hold: reads and seeks that finish never change a stored bit, a header, the
format or the level. All they can do to what a save writes is append zero chunks and raise the stated length. -/
theorem C116_any_partial (b : Build) (c c' : AdhocCodec) (acts : List Act) (h : after b c acts = .ok c') :
    ∃ k cap, c.stream.stream.capacity ≤ cap ∧
      file c'.init = file { c.init with stream := { c.init.stream with stream :=
        { c.init.stream.stream with binary := c.stream.stream.binary ++ List.replicate k 0#128, capacity := cap } } } := by
  have l := leafed_after acts c c' h
  obtain ⟨k, hk⟩ := l.pad
  refine ⟨k, c'.stream.stream.capacity, l.cap, ?_⟩
  have h1 : c'.init.frameHeaderList = c.init.frameHeaderList := l.hdr
  have h2 : c'.init.stream = { c.init.stream with stream :=
        { c.init.stream.stream with binary := c.stream.stream.binary ++ List.replicate k 0#128, capacity := c'.stream.stream.capacity } } := by
    simp only [AdhocCodec.init, BitStream.seekStart]
    rw [l.info, hk]
  have h3 : c'.init.compressionLevel = c.init.compressionLevel := l.level.level
  rw [file_eq, file_eq]
  unfold savedBytes AdhocCodec.encPieces
  rw [h1, h2, h3]

/-- a recording of three samples whose data has been cut away -/
def gutted : R AdhocCodec := do
  let c ← encodeAll .release (fresh { sampleRate := 1000, channels := 1 } 0) [List.replicate 3 (F32.ofInt 0)]
  pure { c with stream := { c.stream with stream := { binary := [], bitCursor := 0, capacity := 0 } } }

/-- C116 as stated fails: a file with a header but no data is accepted, and reading one sample makes the next save longer. -/
theorem C116_false : ¬ C116_statement := by
  intro hall
  have h : (match gutted with
    | .ok c0 => match AdhocCodec.load .release (file c0) with
      | .ok (some c) => match after .release c [.read [F32.ofInt 0]] with
        | .ok c' => decide ((file c'.init).length = (file c.init).length + 32)
        | .error _ => false
      | _ => false
    | .error _ => false) = true := by decide +kernel
  split at h
  · rename_i c0 _
    split at h
    · rename_i c hl
      split at h
      · rename_i c' ha
        have := hall .release (file c0) c c' _ hl ha
        have h := of_decide_eq_true h
        rw [this] at h
        omega
      · cases h
    · cases h
  · cases h

/-- a recording of two calls, read, wound back and forth, and read again: the file is the same, though the codec is not -/
example : Proper 1 loudThenQuiet ∧ (match encodeAll .release (fresh { sampleRate := 1000, channels := 1 } 0) loudThenQuiet with
    | .ok c => match after .release c.init [.read (List.replicate 8 (F32.ofInt 0)), .seek 2, .read (List.replicate 3 (F32.ofInt 0)), .seek 8, .read (List.replicate 4 (F32.ofInt 0))] with
      | .ok c' => decide (file c'.init = file c.init ∧ c'.stream.stream.bitCursor ≠ c.init.stream.stream.bitCursor)
      | .error _ => false
    | .error _ => false) = true :=
  ⟨loudThenQuiet_proper, by decide +kernel⟩

end Adhoc
