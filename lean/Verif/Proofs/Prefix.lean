import Verif.Proofs.Alike
import Verif.Proofs.Append
import Verif.Proofs.Robust

/-! A recording whose later headers are cut off plays the same as long as it goes. -/

namespace Adhoc
open Spec

theorem length_setIdx {α : Type} {l l' : List α} {i : Nat} {a : α} (h : setIdx l i a = .ok l') : l'.length = l.length := by
  unfold setIdx at h
  split at h
  · cases h; simp
  · cases h

/-- the same codec, but the second has more headers -/
structure Longer (n : Nat) (log ext : List FrameHeader) (i : Nat) (c c' : AdhocCodec) : Prop where
  chans : c.channelStateList = c'.channelStateList
  stream : c.stream = c'.stream
  level : c.compressionLevel = c'.compressionLevel
  scale : c.scale = c'.scale
  width : n ≤ c.channelStateList.length
  short : IsLog c.frameHeaderList log i
  long : IsLog c'.frameHeaderList (log ++ ext) i

theorem longer_decodeChannel {b : Build} {n i : Nat} {log ext : List FrameHeader} {c c' : AdhocCodec} (H : Longer n log ext i c c') (hi : i < log.length)
    (ch : Nat) : Same (c.decodeChannel b ch) (c'.decodeChannel b ch) (Longer n log ext (i + 1)) := by
  unfold AdhocCodec.decodeChannel
  rw [← H.chans, ← H.stream]
  refine (Same.refl _).bind ?_
  rintro fc _ rfl
  refine Same.bind (P := fun r r' => r.1 = r'.1 ∧ r.2.1 = r'.2.1 ∧ IsLog r.2.2.1 log (i + 1) ∧ IsLog r'.2.2.1 (log ++ ext) (i + 1)) ?_ ?_
  · obtain ⟨h, e, L⟩ := isLog_next H.short
    obtain ⟨h', e', L'⟩ := isLog_next H.long
    rw [if_pos hi] at L
    rw [if_pos (by rw [List.length_append]; omega)] at L'
    rw [List.getElem?_append_left hi] at e'
    rw [List.getElem?_eq_getElem hi] at e e'
    unfold FrameCodec.decodeFrame
    rw [e, e', bind_ok, bind_ok]
    dsimp only
    cases hc : fc.state with
    | init =>
      dsimp only
      refine (Same.refl _).bind ?_
      rintro r0 _ rfl
      refine (Same.refl _).bind ?_
      rintro r1 _ rfl
      refine (Same.refl _).bind ?_
      rintro r2 _ rfl
      refine (Same.refl _).bind ?_
      rintro r3 _ rfl
      exact Same.ok ⟨rfl, rfl, L, L'⟩
    | decoding =>
      dsimp only
      refine (Same.refl _).bind ?_
      rintro r0 _ rfl
      exact Same.ok ⟨rfl, rfl, L, L'⟩
    | encoding => exact Same.error
  · rintro ⟨f, st, hd, k⟩ ⟨f', st', hd', k'⟩ ⟨g1, g2, g3, g4⟩
    dsimp only at g1 g2 g3 g4 ⊢
    subst g1 g2
    cases hs : setIdx c.channelStateList ch f with
    | error e => exact Same.error
    | ok l =>
      exact Same.ok ⟨rfl, rfl, H.level, H.scale, by rw [length_setIdx hs]; exact H.width, g3, g4⟩

theorem longer_decodeBlock {b : Build} {n : Nat} {log ext : List FrameHeader} : ∀ (l : List Nat) {i : Nat} {c c' : AdhocCodec} (_ : Longer n log ext i c c')
    (_ : i + l.length ≤ log.length),
    Same (l.foldlM (fun c ch => AdhocCodec.decodeChannel b c ch) c) (l.foldlM (fun c ch => AdhocCodec.decodeChannel b c ch) c') (Longer n log ext (i + l.length))
  | [], _, _, _, H, _ => Same.ok H
  | ch :: l, i, c, c', H, hl => by
    rw [List.length_cons] at hl
    rw [List.foldlM_cons, List.foldlM_cons]
    refine (longer_decodeChannel H (by omega) ch).bind fun d d' h => ?_
    rw [List.length_cons, show i + (l.length + 1) = i + 1 + l.length by omega]
    exact longer_decodeBlock l h (by omega)

theorem bufferAudio_done {b : Build} {n : Nat} {c : AdhocCodec} (he : c.isBuffersEmpty = true) (hw : n ≤ c.channelStateList.length)
    (h : c.frameHeaderList.len ≤ c.frameHeaderList.headerCursor) : ∀ left, AdhocCodec.bufferAudio b n left c = .ok (c, 0)
  | 0 => rfl
  | left + 1 => by
    unfold AdhocCodec.bufferAudio AdhocCodec.decodeBlock
    rw [if_pos he, foldlM_done h _ (fun ch hch => by have := List.mem_range.1 hch; omega), bind_ok]
    exact bufferAudio_done he hw h left

theorem longer_bufferAudio {b : Build} {n J : Nat} {log ext : List FrameHeader} (hlog : log.length = J * n) : ∀ (left : Nat) {j : Nat} {c c' d : AdhocCodec}
    {left' : Nat} (_ : Longer n log ext (j * n) c c') (_ : j ≤ J) (_ : AdhocCodec.bufferAudio b n left c = .ok (d, left')) (_ : 0 < left'),
    ∃ d' j', AdhocCodec.bufferAudio b n left c' = .ok (d', left') ∧ Longer n log ext (j' * n) d d' ∧ j' ≤ J
  | 0, _, _, _, _, _, _, _, e, h => by
    unfold AdhocCodec.bufferAudio at e
    cases e
    omega
  | left + 1, j, c, c', d, left', H, hj, e, h => by
    have hemp : c.isBuffersEmpty = c'.isBuffersEmpty := by unfold AdhocCodec.isBuffersEmpty; rw [H.chans]
    by_cases he : c.isBuffersEmpty = true
    · by_cases hJ : j = J
      · rw [bufferAudio_done he H.width (by rw [H.short.len, H.short.cursor, hlog, hJ])] at e
        cases e
        omega
      · unfold AdhocCodec.bufferAudio at e ⊢
        rw [if_pos he] at e
        rw [← hemp, if_pos he]
        unfold AdhocCodec.decodeBlock at e ⊢
        have h1 : (j + 1) * n ≤ J * n := Nat.mul_le_mul_right _ (by omega)
        have h2 : (j + 1) * n = j * n + n := by rw [Nat.add_mul, Nat.one_mul]
        rcases longer_decodeBlock (b := b) (List.range n) H (by rw [List.length_range, hlog]; omega) with ⟨x, e1, -⟩ | ⟨a, a', e1, e2, L⟩
        · rw [e1] at e
          cases e
        · rw [e1, bind_ok] at e
          rw [e2, bind_ok]
          rw [List.length_range, ← h2] at L
          exact longer_bufferAudio hlog left L (by omega) e h
    · unfold AdhocCodec.bufferAudio at e ⊢
      rw [if_neg he] at e
      rw [← hemp, if_neg he]
      cases e
      exact ⟨c', j, rfl, H, hj⟩

theorem longer_popBlock {n k i legal : Nat} {log ext : List FrameHeader} : ∀ (m ch : Nat) {c c' : AdhocCodec} (_ : Longer n log ext i c c') (pcm : List F32)
    (cursor : Nat), Same (AdhocCodec.popBlock legal m ch c pcm cursor) (AdhocCodec.popBlock legal m ch c' pcm cursor)
      (fun r r' => Longer n log ext i r.1 r'.1 ∧ r.2 = r'.2)
  | 0, _, _, _, H, _, _ => Same.ok ⟨H, rfl⟩
  | m + 1, ch, c, c', H, pcm, cursor => by
    unfold AdhocCodec.popBlock
    rw [← H.chans]
    split
    · refine (Same.refl _).bind ?_
      rintro fc _ rfl
      cases hs : setIdx c.channelStateList ch { fc with buffered := fc.buffered.tail } with
      | error e => exact Same.error
      | ok l =>
        rw [bind_ok, bind_ok]
        refine (Same.refl _).bind ?_
        rintro r _ rfl
        have H' : Longer n log ext i { c with channelStateList := l } { c' with channelStateList := l } :=
          ⟨rfl, H.stream, H.level, H.scale, by rw [length_setIdx hs]; exact H.width, H.short, H.long⟩
        exact longer_popBlock (k := k) m (ch + 1) H' _ _
    · exact Same.ok ⟨H, rfl⟩

theorem longer_decodeLoop {b : Build} {n J legal : Nat} {log ext : List FrameHeader} (hlog : log.length = J * n) : ∀ (fuel : Nat) {j : Nat} {c c' d : AdhocCodec}
    {pcm out : List F32} {cursor cursor' : Nat} (_ : Longer n log ext (j * n) c c') (_ : j ≤ J)
    (_ : AdhocCodec.decodeLoop b n legal fuel c pcm cursor = .ok (d, out, cursor')) (_ : legal ≤ cursor'),
    ∃ d' j', AdhocCodec.decodeLoop b n legal fuel c' pcm cursor = .ok (d', out, cursor') ∧ Longer n log ext (j' * n) d d' ∧ j' ≤ J
  | 0, _, _, _, _, _, _, _, _, _, _, e, _ => by
    unfold AdhocCodec.decodeLoop at e
    cases e
  | fuel + 1, j, c, c', d, pcm, out, cursor, cursor', H, hj, e, h => by
    unfold AdhocCodec.decodeLoop at e ⊢
    by_cases hc : cursor < legal
    · rw [if_pos hc] at e ⊢
      cases e1 : AdhocCodec.bufferAudio b n MAX_DECODE_ATTEMPTS c with
      | error x => rw [e1] at e; cases e
      | ok r =>
        obtain ⟨c1, left⟩ := r
        rw [e1, bind_ok] at e
        dsimp only at e
        by_cases hl : left = 0
        · rw [if_pos hl] at e
          cases e
          omega
        · rw [if_neg hl] at e
          obtain ⟨c1', j1, e1', H1, hj1⟩ := longer_bufferAudio hlog _ H hj e1 (by omega)
          rw [e1', bind_ok]
          dsimp only
          rw [if_neg hl]
          rcases longer_popBlock (k := 0) (legal := legal) n 0 H1 pcm cursor with ⟨x, e2, -⟩ | ⟨a, a', e2, e2', H2, h2⟩
          · rw [e2] at e; cases e
          · obtain ⟨a1, a2, a3⟩ := a
            obtain ⟨a1', a2'⟩ := a'
            dsimp only at H2 h2
            subst h2
            rw [e2, bind_ok] at e
            rw [e2', bind_ok]
            exact longer_decodeLoop hlog fuel H2 hj1 e h
    · rw [if_neg hc] at e ⊢
      cases e
      exact ⟨c', j, rfl, H, hj⟩

/-- a decode call that fills its buffer -/
theorem longer_decode {b : Build} {info : StreamInfo} {J j : Nat} {log ext : List FrameHeader} {c c' d : AdhocCodec} {buf out : List F32} {k : Option Nat}
    (hlog : log.length = J * info.channels) (hinfo : c.stream.info = some info) (H : Longer info.channels log ext (j * info.channels) c c') (hj : j ≤ J)
    (e : c.decode b buf = .ok (d, out, k)) (h : buf.length / info.channels * info.channels ≤ k.getD 0) :
    ∃ d' j', c'.decode b buf = .ok (d', out, k) ∧ Longer info.channels log ext (j' * info.channels) d d' ∧ j' ≤ J := by
  unfold AdhocCodec.decode AdhocCodec.decodeRaw at e ⊢
  rw [← H.stream]
  rw [hinfo, show expect (some info) = .ok info from rfl, bind_ok] at e ⊢
  dsimp only at e ⊢
  cases hq : udiv buf.length info.channels with
  | error x => rw [hq] at e; cases e
  | ok q =>
    have hq' : q = buf.length / info.channels := by
      unfold udiv at hq
      split at hq
      · cases hq
      · cases hq; rfl
    rw [hq, bind_ok] at e
    rw [bind_ok]
    cases e1 : AdhocCodec.decodeLoop b info.channels (q * info.channels) (q * info.channels + 1) c buf 0 with
    | error x => rw [e1] at e; cases e
    | ok r =>
      obtain ⟨d1, out1, cur⟩ := r
      rw [e1] at e
      simp only [bind_ok, pure_eq_ok] at e
      injection e with e
      injection e with e2 e
      injection e with e3 e4
      obtain ⟨d', j', e', H', hj'⟩ := longer_decodeLoop hlog _ H hj e1 (by
        rw [hq']
        refine h.trans ?_
        rw [← e4]
        split <;> simp)
      subst e2
      refine ⟨d', j', ?_, H', hj'⟩
      rw [e']
      simp only [bind_ok, pure_eq_ok]
      rw [← H'.scale, e3, e4]

/-- decode calls that stay within the blocks both have headers for -/
theorem longer_decodeAll {b : Build} {info : StreamInfo} (hn : 0 < info.channels) {blocks : List (Nat → Fr)} {ext : List FrameHeader}
    (HR : Rec info.channels blocks) (hsh : Short blocks) (hng : NoGap (sizesOf blocks)) :
    ∀ (bufs : List (List F32)) {c c' : AdhocCodec} {i j m : Nat} (_ : DecSt c info blocks j m)
      (_ : Longer info.channels (hdrs 0 (flat info.channels blocks)) ext (i * info.channels) c c') (_ : i ≤ blocks.length)
      (_ : m + (bufs.map fun buf => buf.length / info.channels).sum ≤ rowsIn blocks),
    (decodeAll b c' bufs).map (·.2) = .ok
      ((readBlocks info.channels ((played info.channels (rowsIn blocks) (codesOf blocks)).drop m) bufs).map fun r => (r.1.map (· * c.scale), r.2))
  | [], _, _, _, _, _, _, _, _, _ => rfl
  | buf :: bufs, c, c', i, j, m, H, L, hi, hm => by
    rw [List.map_cons, List.sum_cons] at hm
    obtain ⟨c1, j1, d, e1, s1, H1, hd, hmd, hlaw⟩ := decode_ok (b := b) hn HR hsh H buf
    have hlaw := hlaw hng
    have hdd : d = buf.length / info.channels := by omega
    obtain ⟨c1', i1, e1', L1, hi1⟩ := longer_decode (J := blocks.length) (by rw [length_hdrs, length_flat]) H.fl.hinfo L hi e1 (by
      rw [← hdd]
      split
      · simp
      · have : d = 0 := by omega
        simp [this])
    have ih := longer_decodeAll (b := b) hn HR hsh hng bufs H1 L1 hi1 (by omega)
    unfold decodeAll
    rw [e1', bind_ok]
    dsimp only
    cases h2 : decodeAll b c1' bufs with
    | error x => rw [h2] at ih; cases ih
    | ok r =>
      rw [h2] at ih
      obtain ⟨c2, outs⟩ := r
      have ih : outs = _ := Except.ok.inj ih
      rw [bind_ok]
      show Except.ok (_ :: outs) = _
      rw [ih, s1.scale]
      have hlen : min (buf.length / info.channels) ((played info.channels (rowsIn blocks) (codesOf blocks)).drop m).length = d := by
        simp only [played, List.length_map, List.length_range, List.length_drop]
        omega
      congr 1
      simp only [readBlocks, List.map_cons]
      rw [hlen, rows_played HR hmd, List.drop_drop]
      congr 2
      by_cases h0 : d = 0
      · subst h0; simp
      · rw [if_pos (by omega), if_neg h0]

end Adhoc
