import Verif.Props.Corrupt
import Verif.Props.Continue

/-! # C152: recording over a file that has been loaded, whatever it holds -/

namespace Adhoc
open Spec F32

namespace Spec

/-- What the lists of a file must hold for `k` headers to be written from the start on: the headers that are already counted are
overwritten where they are, so that each of the three plain lists must have them. The first header behind them is appended to the list of
nibbles and to the list of bits, which are then extended by at most one element. -/
structure HasRoom (h : FrameHeaders) (k : Nat) : Prop where
  sizes : min k h.divisorExpList.nibbleCount ≤ h.frameSizeList.length
  cursors : min k h.divisorExpList.nibbleCount ≤ h.bitCursorList.length
  histories : min k h.divisorExpList.nibbleCount ≤ h.stackHistoryList.length
  nibbles : h.divisorExpList.nibbleCount < k → h.divisorExpList.nibbleCount / 2 ≤ h.divisorExpList.data.length
  bits : h.divisorExpList.nibbleCount < k → h.isInitFrameList.bitCursor / 64 ≤ h.isInitFrameList.binary.length

end Spec

theorem Spec.HasRoom.less {h : FrameHeaders} {k m : Nat} (H : HasRoom h k) (hm : m ≤ k) : HasRoom h m := by
  obtain ⟨h1, h2, h3, h4, h5⟩ := H
  exact ⟨by omega, by omega, by omega, fun h => h4 (by omega), fun h => h5 (by omega)⟩

/-- a result that is there if `q`, and an index out of range otherwise -/
def Turns {α : Type} (q : Prop) (x : R α) (P : α → Prop) : Prop := (q → ∃ a, x = .ok a ∧ P a) ∧ (¬ q → x = .error .index)

theorem Turns.before {α β : Type} {q : Prop} {x : R α} {f : α → R β} {P : α → Prop} {Q : β → Prop} (hx : Fine .release x P)
    (h : ∀ a, P a → Turns q (f a) Q) : Turns q (x >>= f) Q := by
  obtain ⟨a, e, ha⟩ := hx.release
  rw [e, bind_ok]
  exact h a ha

theorem Turns.after {α β : Type} {q : Prop} {x : R α} {f : α → R β} {P : α → Prop} {Q : β → Prop} (hx : Turns q x P)
    (h : ∀ a, P a → Fine .release (f a) Q) : Turns q (x >>= f) Q := by
  refine ⟨fun hq => ?_, fun hq => by rw [hx.2 hq]; rfl⟩
  obtain ⟨a, e, ha⟩ := hx.1 hq
  rw [e, bind_ok]
  exact (h a ha).release

/-- the headers `h` are the headers `o` of a file after `k` of them have been written -/
structure Rewritten (o h : FrameHeaders) (k : Nat) : Prop where
  room : HasRoom o k
  cursor : h.headerCursor = k
  early : k ≤ o.len → h.len = o.len ∧ h.frameSizeList.length = o.frameSizeList.length ∧ h.bitCursorList.length = o.bitCursorList.length ∧
    h.stackHistoryList.length = o.stackHistoryList.length ∧ h.divisorExpList.data.length = o.divisorExpList.data.length ∧
    h.isInitFrameList.bitCursor = o.isInitFrameList.bitCursor ∧ h.isInitFrameList.binary.length = o.isInitFrameList.binary.length
  late : o.len < k → Writable h ∧ h.len = k

theorem setIdx_of_ge {α : Type} {l : List α} {i : Nat} {a : α} (h : l.length ≤ i) : setIdx l i a = .error .index := by
  unfold setIdx
  rw [if_neg (by omega)]

theorem rewritten_push {o h : FrameHeaders} {k : Nat} (H : Rewritten o h k) (x : FrameHeader) :
    Turns (HasRoom o (k + 1)) (h.push x) (fun h' => Rewritten o h' (k + 1)) := by
  have ho : o.len = o.divisorExpList.nibbleCount := rfl
  have hh : h.len = h.divisorExpList.nibbleCount := rfl
  have hr := H.room
  have hc := H.cursor
  by_cases hk : o.len < k
  · -- behind the end of the file
    obtain ⟨hw, hl⟩ := H.late hk
    have room : HasRoom o (k + 1) := ⟨by have := hr.sizes; omega, by have := hr.cursors; omega, by have := hr.histories; omega,
      fun _ => hr.nibbles (by omega), fun _ => hr.bits (by omega)⟩
    refine ⟨fun _ => ?_, fun hn => absurd room hn⟩
    obtain ⟨h', e, h1, h2, h3⟩ := (fine_push (b := .release) hw (by omega) x).release
    exact ⟨h', e, room, by omega, fun hle => by omega, fun _ => ⟨h1, by omega⟩⟩
  · obtain ⟨e1, e2, e3, e4, e5, e6, e7⟩ := H.early (by omega)
    by_cases hlt : k < o.len
    · -- over a header of the file
      have hcond : ¬ h.headerCursor ≥ h.divisorExpList.len := by show ¬ h.headerCursor ≥ h.divisorExpList.nibbleCount; omega
      constructor
      · intro room
        have r1 := room.sizes
        have r2 := room.cursors
        have r3 := room.histories
        have e : h.push x = .ok
            { divisorExpList := h.divisorExpList.set h.headerCursor (BitVec.ofNat 8 x.exponent)
              isInitFrameList := h.isInitFrameList.set h.headerCursor (if x.isInit then 1#64 else 0#64)
              frameSizeList := h.frameSizeList.set h.headerCursor x.size
              bitCursorList := h.bitCursorList.set h.headerCursor (x.bitCursor % 2 ^ 64)
              stackHistoryList := h.stackHistoryList.set h.headerCursor x.history
              headerCursor := h.headerCursor + 1 } := by
          unfold FrameHeaders.push
          dsimp only
          rw [if_neg hcond, setIdx_of_lt (by omega), bind_ok, setIdx_of_lt (by omega), bind_ok, setIdx_of_lt (by omega), bind_ok]
          rfl
        refine ⟨_, e, room, by show h.headerCursor + 1 = _; omega, fun _ => ?_, fun hle => by omega⟩
        refine ⟨?_, by simpa using e2, by simpa using e3, by simpa using e4, ?_, ?_, ?_⟩
        · show (h.divisorExpList.set _ _).nibbleCount = _
          unfold NibbleList.set; dsimp only; split <;> exact e1
        · show (h.divisorExpList.set _ _).data.length = _
          unfold NibbleList.set; dsimp only; split
          · exact e5
          · simpa using e5
        · show (h.isInitFrameList.set _ _).bitCursor = _
          unfold BitVecU64.set; split <;> exact e6
        · show (h.isInitFrameList.set _ _).binary.length = _
          unfold BitVecU64.set; split
          · exact e7
          · simpa using e7
      · intro hn
        unfold FrameHeaders.push
        dsimp only
        rw [if_neg hcond]
        by_cases r1 : k < h.frameSizeList.length
        · rw [setIdx_of_lt (by omega), bind_ok]
          by_cases r2 : k < h.bitCursorList.length
          · rw [setIdx_of_lt (by omega), bind_ok]
            by_cases r3 : k < h.stackHistoryList.length
            · exact absurd ⟨by omega, by omega, by omega, fun h => by omega, fun h => by omega⟩ hn
            · rw [setIdx_of_ge (by omega)]; rfl
          · rw [setIdx_of_ge (by omega)]; rfl
        · rw [setIdx_of_ge (by omega)]; rfl
    · -- the first header behind the end of the file
      have hcond : h.headerCursor ≥ h.divisorExpList.len := by show h.headerCursor ≥ h.divisorExpList.nibbleCount; omega
      have r1 := hr.sizes
      have r2 := hr.cursors
      have r3 := hr.histories
      constructor
      · intro room
        have r4 := room.nibbles (by omega)
        have r5 := room.bits (by omega)
        have hw : Writable h := ⟨⟨by omega, by omega, by omega⟩, by rw [← hh]; omega, by omega⟩
        obtain ⟨h', e, h1, h2, h3⟩ := (fine_push (b := .release) hw (by omega) x).release
        exact ⟨h', e, room, by omega, fun hle => by omega, fun _ => ⟨h1, by omega⟩⟩
      · intro hn
        unfold FrameHeaders.push
        dsimp only
        rw [if_pos hcond]
        by_cases r4 : h.divisorExpList.nibbleCount / 2 ≤ h.divisorExpList.data.length
        · have e : ∃ d, h.divisorExpList.push (BitVec.ofNat 8 x.exponent) = .ok d := by
            unfold NibbleList.push
            dsimp only
            have hg := grow_length h.divisorExpList.data 0#8 _ r4
            rw [idx_of_lt (by rw [hg]; omega), bind_ok, setIdx_of_lt (by rw [hg]; omega), bind_ok]
            exact ⟨_, rfl⟩
          obtain ⟨d, e⟩ := e
          rw [e, bind_ok]
          by_cases r5 : h.isInitFrameList.bitCursor / 64 ≤ h.isInitFrameList.binary.length
          · exact absurd ⟨by omega, by omega, by omega, fun _ => by omega, fun _ => by omega⟩ hn
          · have : h.isInitFrameList.push (if x.isInit then 1#64 else 0#64) = .error .index := by
              unfold BitVecU64.push
              dsimp only
              rw [idx_of_ge (by split <;> (try rw [List.length_append, List.length_singleton]) <;> omega)]
              rfl
            rw [this]; rfl
        · have : h.divisorExpList.push (BitVec.ofNat 8 x.exponent) = .error .index := by
            unfold NibbleList.push
            dsimp only
            rw [idx_of_ge (by split <;> (try rw [List.length_append, List.length_singleton]) <;> omega)]
            rfl
          rw [this]; rfl

theorem turns_encodeFrame {o hd : FrameHeaders} {m : Nat} {fc : FrameCodec} {st : AudioStream} (hs : InBuf st.stream) (H : Rewritten o hd m)
    (ys : List F32) (hst : fc.state = .encoding ∨ (fc.state = .init ∧ 3 ≤ ys.length)) :
    Turns (HasRoom o (m + 1)) (fc.encodeFrame .release st hd ys) (fun r => r.1.state = .encoding ∧ InBuf r.2.1.stream ∧ r.2.1.info = st.info ∧
      Rewritten o r.2.2 (m + 1)) := by
  unfold FrameCodec.encodeFrame
  rcases hst with hst | ⟨hst, h3⟩
  · rw [hst]
    dsimp only
    refine Turns.before (fine_computeOptimal _ _) fun k hk => Turns.after (rewritten_push H _) fun hd' h' => (fine_encodeSamples hk _ _ hs).bind ?_
    rintro ⟨s, h⟩ h2
    exact Fine.ok ⟨rfl, h2, rfl, h'⟩
  · rw [hst]
    dsimp only
    refine Turns.before (fine_idx (by omega)) fun _ _ => Turns.before (fine_writeBits hs _ (by norm_num)) fun _ hs => ?_
    refine Turns.before (fine_idx (by omega)) fun _ _ => Turns.before (fine_writeBits hs _ (by norm_num)) fun _ hs => ?_
    refine Turns.before (fine_idx (by omega)) fun _ _ => Turns.before (fine_writeBits hs _ (by norm_num)) fun _ hs => ?_
    refine Turns.before (fine_computeOptimal _ _) fun k hk => Turns.after (rewritten_push H _) fun hd' h' => (fine_encodeSamples hk _ _ hs).bind ?_
    rintro ⟨s, h⟩ h2
    exact Fine.ok ⟨rfl, h2, rfl, h'⟩

/-- a codec that has written `m` headers over those of a file; `k` of the channels are already recording, the others are in state `st` -/
structure Overwrites (o : FrameHeaders) (c : AdhocCodec) (info : StreamInfo) (st : CodecState) (k m : Nat) : Prop where
  hinfo : c.stream.info = some info
  chans : c.channelStateList.length = info.channels
  inBuf : InBuf c.stream.stream
  headers : Rewritten o c.frameHeaderList m
  state : ∀ i (h : i < c.channelStateList.length), c.channelStateList[i].state = if i < k then .encoding else st
  seq : c.seq.sequence < 507961

theorem turns_encodeChannel {o : FrameHeaders} {c : AdhocCodec} {info : StreamInfo} {st : CodecState} {k m : Nat} (H : Overwrites o c info st k m)
    (hk : k < info.channels) (pcm : List F32) (hst : st = .encoding ∨ (st = .init ∧ 3 ≤ pcm.length / info.channels)) :
    Turns (HasRoom o (m + 1)) (c.encodeChannel .release pcm info.channels (pcm.length / info.channels) k)
      (fun c' => Overwrites o c' info st (k + 1) (m + 1)) := by
  obtain ⟨seq', ys, e1, hseq, hd⟩ := dither_ok (b := .release) (inv := c.invScale) (column info.channels k pcm) H.seq
  have hl : ys.length = pcm.length / info.channels := by rw [← hd.length_eq]; simp [column]
  have hk' : k < c.channelStateList.length := by rw [H.chans]; exact hk
  unfold AdhocCodec.encodeChannel
  rw [deinterleave_ok hk, bind_ok, e1, bind_ok]
  dsimp only
  rw [idx_of_lt hk', bind_ok]
  have hs := H.state k hk'
  rw [if_neg (by omega)] at hs
  refine (turns_encodeFrame H.inBuf H.headers ys (by rw [hs, hl]; exact hst)).after ?_
  rintro ⟨fc, s, hd⟩ ⟨h1, h2, h3, h4⟩
  dsimp only at h1 h2 h3 h4 ⊢
  rw [setIdx_of_lt hk', bind_ok]
  refine Fine.ok ⟨h3.trans H.hinfo, by simpa using H.chans, h2, h4, ?_, hseq⟩
  intro i hi
  simp only [List.getElem_set]
  have hi' : i < c.channelStateList.length := by simpa using hi
  by_cases hik : k = i
  · rw [if_pos hik, if_pos (by omega)]; exact h1
  · rw [if_neg hik, H.state i hi']
    by_cases h : i < k
    · rw [if_pos h, if_pos (by omega)]
    · rw [if_neg h, if_neg (by omega)]

theorem turns_encode {o : FrameHeaders} {c : AdhocCodec} {info : StreamInfo} {st : CodecState} {m : Nat} (H : Overwrites o c info st 0 m)
    (hp : 0 < info.channels) (pcm : List F32) (hst : st = .encoding ∨ (st = .init ∧ 3 ≤ pcm.length / info.channels)) :
    Turns (HasRoom o (m + info.channels)) (c.encode .release pcm) (fun r => Overwrites o r.1 info .encoding 0 (m + info.channels)) := by
  unfold AdhocCodec.encode AdhocCodec.encodeRaw
  rw [H.hinfo]
  simp only [expect, bind_ok]
  rw [udiv_of_pos hp, bind_ok]
  have key : ∀ j, j ≤ info.channels → Turns (HasRoom o (m + j)) ((List.range j).foldlM (fun c ch => c.encodeChannel .release pcm info.channels (pcm.length / info.channels) ch) c)
      (fun c' => Overwrites o c' info st j (m + j)) := by
    intro j
    induction j with
    | zero => exact fun _ => ⟨fun _ => ⟨c, rfl, H⟩, fun hn => absurd H.headers.room hn⟩
    | succ j ih =>
      intro hj
      rw [List.range_succ, List.foldlM_append]
      have ih := ih (by omega)
      by_cases hq : HasRoom o (m + j)
      · obtain ⟨c', e, h'⟩ := ih.1 hq
        rw [e, bind_ok, List.foldlM_cons]
        exact (turns_encodeChannel h' (by omega) pcm hst).after fun c'' h'' => Fine.ok h''
      · refine ⟨fun h => absurd (h.less (by omega)) hq, fun _ => by rw [ih.2 hq]; rfl⟩
  refine (key info.channels le_rfl).after fun c' h' => Fine.ok ?_
  refine ⟨h'.hinfo, h'.chans, h'.inBuf, h'.headers, ?_, h'.seq⟩
  intro i hi
  rw [h'.state i hi, if_pos (by rw [← h'.chans]; exact hi)]
  simp

theorem turns_encodeAll {o : FrameHeaders} {info : StreamInfo} (hp : 0 < info.channels) : ∀ (calls : List (List F32)) {c : AdhocCodec} {m : Nat}
    (_ : Overwrites o c info .encoding 0 m),
    Turns (HasRoom o (m + calls.length * info.channels)) (encodeAll .release c calls)
      (fun c' => Overwrites o c' info .encoding 0 (m + calls.length * info.channels))
  | [], c, m, H => ⟨fun _ => ⟨c, rfl, by simpa using H⟩, fun hn => absurd (by simpa using H.headers.room) hn⟩
  | pcm :: calls, c, m, H => by
    have hlen : m + (pcm :: calls).length * info.channels = m + info.channels + calls.length * info.channels := by
      rw [List.length_cons, Nat.add_mul, Nat.one_mul]; omega
    rw [hlen]
    have h1 := turns_encode H hp pcm (.inl rfl)
    have e : encodeAll .release c (pcm :: calls) = (c.encode .release pcm >>= fun r => encodeAll .release r.1 calls) := by
      unfold encodeAll
      rw [List.foldlM_cons]
      cases c.encode .release pcm <;> rfl
    rw [e]
    by_cases hq : HasRoom o (m + info.channels)
    · obtain ⟨r, e, h'⟩ := h1.1 hq
      rw [e, bind_ok]
      exact turns_encodeAll hp calls h'
    · exact ⟨fun h => absurd (h.less (by omega)) hq, fun _ => by rw [h1.2 hq]; rfl⟩

theorem overwrites_load {bytes : List Byte} {c : AdhocCodec} {info : StreamInfo} (h : AdhocCodec.load .release bytes = .ok (some c))
    (hi : c.stream.info = some info) : Overwrites c.frameHeaderList c info .init 0 0 := by
  obtain ⟨hseq, -⟩ := load_start h
  obtain ⟨n, ⟨info', hi', hn⟩, hl, -, hinit, -⟩ := load_cast h
  rw [hi] at hi'
  cases hi'
  have h1 : c.frameHeaderList.headerCursor = 0 := by rw [← hinit]; rfl
  have h2 : c.stream.stream.bitCursor = 0 := by rw [← hinit]; rfl
  refine ⟨hi, by omega, by unfold InBuf; rw [h2]; simp, ⟨⟨by omega, by omega, by omega, fun h => by omega, fun h => by omega⟩, h1,
    fun _ => ⟨rfl, rfl, rfl, rfl, rfl, rfl, rfl⟩, fun h => by omega⟩, ?_, by rw [hseq]; decide⟩
  intro i hi
  have : ∀ fc ∈ c.channelStateList, fc.state = .init := by
    rw [← hinit]
    intro fc hfc
    obtain ⟨fc', -, rfl⟩ := List.mem_map.1 (show fc ∈ c.channelStateList.map FrameCodec.init from hfc)
    rfl
  rw [if_neg (by omega)]
  exact this _ (List.getElem_mem hi)

/-- C152, exactly, for every file: in a release build, a recording into the codec that has been loaded from it, begun with at least three
blocks, succeeds if and only if the lists of the file have room for its headers, one per call and channel. Otherwise an index is out of range. -/
theorem C152_exactly_partial (bytes : List Byte) (c : AdhocCodec) (info : StreamInfo) (h : AdhocCodec.load .release bytes = .ok (some c))
    (hi : c.stream.info = some info) (hn : 0 < info.channels) (first : List F32) (calls : List (List F32)) (h3 : 3 ≤ first.length / info.channels) :
    (HasRoom c.frameHeaderList ((calls.length + 1) * info.channels) → ∃ c', encodeAll .release c (first :: calls) = .ok c') ∧
    (¬ HasRoom c.frameHeaderList ((calls.length + 1) * info.channels) → encodeAll .release c (first :: calls) = .error .index) := by
  have h1 := turns_encode (overwrites_load h hi) hn first (.inr ⟨rfl, h3⟩)
  have hlen : (calls.length + 1) * info.channels = 0 + info.channels + calls.length * info.channels := by rw [Nat.add_mul, Nat.one_mul]; omega
  rw [hlen]
  have e : encodeAll .release c (first :: calls) = (c.encode .release first >>= fun r => encodeAll .release r.1 calls) := by
    unfold encodeAll
    rw [List.foldlM_cons]
    cases c.encode .release first <;> rfl
  rw [e]
  by_cases hq : HasRoom c.frameHeaderList (0 + info.channels)
  · obtain ⟨r, e, h'⟩ := h1.1 hq
    rw [e, bind_ok]
    have h2 := turns_encodeAll hn calls h'
    exact ⟨fun hr => (h2.1 hr).imp fun _ h => h.1, h2.2⟩
  · exact ⟨fun h => absurd (h.less (by omega)) hq, fun _ => by rw [h1.2 hq]; rfl⟩

/-- a file of 149 bytes that counts five headers and holds two of them: over it two calls can be recorded, and a third one panics -/
def short : List Byte :=
  List.replicate 12 0#8 ++ [5#8, 0#8, 0#8, 0#8] ++ List.replicate 24 0#8 ++ ([2#8] ++ List.replicate 7 0#8 ++ List.replicate 4 0#8) ++
    ([2#8] ++ List.replicate 7 0#8 ++ List.replicate 16 0#8) ++ ([2#8] ++ List.replicate 7 0#8 ++ List.replicate 12 0#8) ++ List.replicate 4 0#8 ++
    [1#8] ++ [64#8, 31#8, 0#8, 0#8] ++ [1#8, 0#8, 0#8, 0#8] ++ List.replicate 40 0#8

example : ∃ c, AdhocCodec.load .release short = .ok (some c) ∧ c.stream.info = some { sampleRate := 8000, channels := 1 } ∧
    HasRoom c.frameHeaderList 2 ∧ ¬ HasRoom c.frameHeaderList 3 := by
  have key : (match AdhocCodec.load .release short with
    | .ok (some c) => decide (c.stream.info = some { sampleRate := 8000, channels := 1 }) &&
        decide (c.frameHeaderList.divisorExpList.nibbleCount = 5 ∧ c.frameHeaderList.frameSizeList.length = 2 ∧
          c.frameHeaderList.bitCursorList.length = 2 ∧ c.frameHeaderList.stackHistoryList.length = 2)
    | _ => false) = true := by decide +kernel
  split at key
  · next c hc =>
    rw [Bool.and_eq_true] at key
    obtain ⟨h1, h2, h3, h4⟩ := of_decide_eq_true key.2
    exact ⟨c, hc, of_decide_eq_true key.1, ⟨by omega, by omega, by omega, by omega, by omega⟩, fun h => by have := h.sizes; omega⟩
  · cases key

/-- C152, the files that every recording can be made over: those whose lists have room for one header more than they count. -/
theorem C152_always_partial (bytes : List Byte) (c : AdhocCodec) (info : StreamInfo) (h : AdhocCodec.load .release bytes = .ok (some c))
    (hi : c.stream.info = some info) (hn : 0 < info.channels) :
    (∀ (first : List F32) (calls : List (List F32)), 3 ≤ first.length / info.channels → ∃ c', encodeAll .release c (first :: calls) = .ok c') ↔
      HasRoom c.frameHeaderList (c.frameHeaderList.len + 1) := by
  have hl : c.frameHeaderList.len = c.frameHeaderList.divisorExpList.nibbleCount := rfl
  constructor
  · intro H
    have h3 : 3 ≤ (List.replicate (3 * info.channels) (F32.ofInt 0)).length / info.channels := by
      rw [List.length_replicate, Nat.mul_div_cancel _ hn]
    obtain ⟨c', e⟩ := H (List.replicate (3 * info.channels) (F32.ofInt 0)) (List.replicate c.frameHeaderList.len []) h3
    by_contra hq
    have := (C152_exactly_partial bytes c info h hi hn _ (List.replicate c.frameHeaderList.len []) h3).2 ?_
    · rw [this] at e; cases e
    · rw [List.length_replicate]
      exact fun h => hq (h.less (Nat.le_mul_of_pos_right _ hn))
  · intro H first calls h3
    refine (C152_exactly_partial bytes c info h hi hn first calls h3).1 ?_
    have h1 := H.sizes
    have h2 := H.cursors
    have h4 := H.histories
    exact ⟨by omega, by omega, by omega, fun _ => H.nibbles (by omega), fun _ => H.bits (by omega)⟩

/-- C152, a file of a recording: whatever calls made it, every recording can be made over it. -/
theorem C152_saved_partial (info : StreamInfo) (level : Nat) (hn : 0 < info.channels) (us : List Use) (c : AdhocCodec)
    (h : Use.runAll .release (fresh info level) us = .ok c) (hc : Counted c) (rest : List Byte) (first : List F32) (calls : List (List F32))
    (h3 : 3 ≤ first.length / info.channels) :
    ∃ c' d, AdhocCodec.load .release (file c ++ rest) = .ok (some c') ∧ encodeAll .release c' (first :: calls) = .ok d := by
  obtain ⟨c', e, -, hok⟩ := C98_over_partial .release info level us c h hc rest (first :: calls)
  obtain ⟨d, hd⟩ := (C25_no_panic info hn level).1 first calls [] h3
  simp only [List.flatMap_nil, List.append_nil] at hd
  rw [encodeAll_uses] at hd
  obtain ⟨d', e', -⟩ := hok d hd
  exact ⟨c', d', e, e'⟩

/-- C152 as stated -/
def C152_statement : Prop :=
  ∀ (bytes : List Byte) (c : AdhocCodec) (info : StreamInfo), AdhocCodec.load .release bytes = .ok (some c) → c.stream.info = some info →
    0 < info.channels → ∀ (first : List F32) (calls : List (List F32)), 3 ≤ first.length / info.channels →
    ∃ c', encodeAll .release c (first :: calls) = .ok c'

/-- C152 is false: over a file that counts one header but does not hold it nothing can be recorded. -/
theorem C152_false : ¬ C152_statement := by
  intro H
  have key : (match AdhocCodec.load .release torn with
    | .ok (some c) => decide (c.stream.info = some { sampleRate := 8000, channels := 1 }) &&
        decide (c.frameHeaderList.divisorExpList.nibbleCount = 1 ∧ c.frameHeaderList.frameSizeList.length = 0)
    | _ => false) = true := by decide +kernel
  split at key
  · next c hc =>
    rw [Bool.and_eq_true] at key
    have hi := of_decide_eq_true key.1
    have hl := of_decide_eq_true key.2
    have h3 : 3 ≤ [F32.ofInt 0, F32.ofInt 0, F32.ofInt 0].length / (StreamInfo.mk 8000 1).channels := by decide
    obtain ⟨c', e⟩ := H torn c _ hc hi (by decide) [F32.ofInt 0, F32.ofInt 0, F32.ofInt 0] [] h3
    rw [(C152_exactly_partial torn c _ hc hi (by decide) _ [] h3).2 fun h => by
      have := h.sizes
      rw [hl.1, hl.2] at this
      simp at this] at e
    cases e
  · cases key

end Adhoc
