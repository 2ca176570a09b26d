import Verif.Proofs.Forget
import Verif.Props.Unchanged
import Verif.Props.Corrupt

/-! # C143: a seek forgets the past -/

namespace Adhoc
open Spec F32

/-! ## the number of channel states stays -/

/-- as many channel states -/
def Broad (c c' : AdhocCodec) : Prop := c'.channelStateList.length = c.channelStateList.length

theorem broad_setIdx {α : Type} {l : List α} {i : Nat} {a : α} : Ens (setIdx l i a) (fun l' => l'.length = l.length) := by
  intro l' h
  unfold setIdx at h
  split at h
  · rw [← Except.ok.inj h, List.length_set]
  · cases h

theorem broad_decodeChannel {b : Build} {c : AdhocCodec} {ch : Nat} : Ens (c.decodeChannel b ch) (Broad c) := by
  unfold AdhocCodec.decodeChannel
  refine (Ens.any _).bind fun fc _ => (Ens.any _).bind fun r _ => broad_setIdx.bind fun l hl => Ens.ok hl

theorem broad_fold {α : Type} {f : AdhocCodec → α → R AdhocCodec} (hf : ∀ c a, Ens (f c a) (Broad c)) (l : List α) (c : AdhocCodec) :
    Ens (l.foldlM f c) (Broad c) :=
  Ens.foldlM (P := Broad c) (fun c1 a h1 c2 e => Eq.trans (hf c1 a c2 e) h1) l c rfl

theorem broad_bufferAudio {b : Build} {n : Nat} : ∀ (left : Nat) (c : AdhocCodec), Ens (AdhocCodec.bufferAudio b n left c) (fun r => Broad c r.1)
  | 0, c => Ens.ok rfl
  | left + 1, c => by
    unfold AdhocCodec.bufferAudio
    split
    · refine (broad_fold (fun c ch => broad_decodeChannel) _ c).bind fun c1 h1 r e => ?_
      exact Eq.trans (broad_bufferAudio left c1 r e) h1
    · exact Ens.ok rfl

theorem broad_popBlock {legal : Nat} : ∀ (n ch : Nat) (c : AdhocCodec) (pcm : List F32) (cursor : Nat),
    Ens (AdhocCodec.popBlock legal n ch c pcm cursor) (fun r => Broad c r.1)
  | 0, ch, c, pcm, cursor => Ens.ok rfl
  | n + 1, ch, c, pcm, cursor => by
    unfold AdhocCodec.popBlock
    split
    · refine (Ens.any _).bind fun fc _ => broad_setIdx.bind fun chs hl => (Ens.any _).bind fun pcm _ r e => ?_
      exact Eq.trans (broad_popBlock n (ch + 1) _ _ _ r e) hl
    · exact Ens.ok rfl

theorem broad_decodeLoop {b : Build} {n legal : Nat} : ∀ (fuel : Nat) (c : AdhocCodec) (pcm : List F32) (cursor : Nat),
    Ens (AdhocCodec.decodeLoop b n legal fuel c pcm cursor) (fun r => Broad c r.1)
  | 0, _, _, _ => Ens.error
  | fuel + 1, c, pcm, cursor => by
    unfold AdhocCodec.decodeLoop
    split
    · refine (broad_bufferAudio _ c).bind ?_
      rintro ⟨c1, left⟩ h1
      dsimp only
      split
      · exact Ens.ok h1
      · refine (broad_popBlock n 0 c1 pcm cursor).bind ?_
        rintro ⟨c2, pcm2, cur2⟩ h2 r e
        exact Eq.trans (broad_decodeLoop fuel _ _ _ r e) (Eq.trans h2 h1)
    · exact Ens.ok rfl

theorem broad_decode {b : Build} (c : AdhocCodec) (buf : List F32) : Ens (c.decode b buf) (fun r => Broad c r.1) := by
  unfold AdhocCodec.decode AdhocCodec.decodeRaw
  refine Ens.bind (P := fun r => Broad c r.1) ?_ fun r h => Ens.ok h
  refine (Ens.any _).bind fun info _ => (Ens.any _).bind fun k _ => (broad_decodeLoop _ _ _ _).bind fun r h => Ens.ok h

theorem broad_seekChannel {b : Build} {c : AdhocCodec} {k off : Nat} : Ens (c.seekChannel b k off) (Broad c) := by
  unfold AdhocCodec.seekChannel
  refine (Ens.any _).bind fun _ _ => (Ens.any _).bind fun hdr _ => (Ens.any _).bind fun fc _ => (Ens.any _).bind fun r _ => broad_setIdx.bind fun l hl => Ens.ok hl

theorem broad_dropOne (c : AdhocCodec) (n : Nat) : Ens (c.dropOne n) (Broad c) := by
  unfold AdhocCodec.dropOne
  refine broad_fold (fun c off => ?_) _ c
  refine (Ens.any _).bind fun fc _ => broad_setIdx.bind fun l hl => ?_
  exact Ens.ok (show Broad c { c with channelStateList := l } from hl)

theorem broad_prune {b : Build} {n target : Nat} : ∀ (fuel skipped : Nat) (c : AdhocCodec), Ens (AdhocCodec.prune b n target fuel skipped c) (Broad c)
  | 0, _, _ => Ens.error
  | fuel + 1, skipped, c => by
    unfold AdhocCodec.prune
    split
    · refine (broad_dropOne c n).bind fun d h => (Ens.any _).bind fun k _ r e => ?_
      exact Eq.trans (broad_prune fuel k d r e) h
    · exact Ens.ok rfl

theorem broad_seek {b : Build} (c : AdhocCodec) (ms : Nat) : Ens (c.seek b (.start ms)) (Broad c) := by
  have hi : c.init.channelStateList.length = c.channelStateList.length := by simp [AdhocCodec.init]
  unfold AdhocCodec.seek
  refine (Ens.any _).bind fun info _ => ?_
  dsimp only
  split
  · exact Ens.ok hi
  · unfold AdhocCodec.seekTo
    refine (Ens.any _).bind fun _ _ => (Ens.any _).bind fun _ _ => (Ens.any _).bind fun _ _ => (Ens.any _).bind fun _ _ => (Ens.any _).bind fun _ _ => ?_
    refine (broad_fold (fun c off => broad_seekChannel) _ _).bind fun d h r e => ?_
    exact Eq.trans (broad_prune _ _ d r e) (Eq.trans h hi)

theorem broad_after {b : Build} : ∀ (acts : List Act) (c : AdhocCodec), Ens (after b c acts) (Broad c)
  | [], c => Ens.ok rfl
  | .read buf :: acts, c => by
    unfold after
    refine (broad_decode c buf).bind ?_
    rintro ⟨d, p, n⟩ h r e
    exact Eq.trans (broad_after acts d r e) h
  | .seek ms :: acts, c => by
    unfold after
    refine (broad_seek c ms).bind fun d h r e => ?_
    exact Eq.trans (broad_after acts d r e) h

/-! ## what is played after a seek -/

variable {q : Prop} {L : Nat}

/-- places to seek to are inside, if `q` holds -/
def Placed (q : Prop) (L : Nat) (c : AdhocCodec) (acts : List Act) : Prop :=
  q → ∀ m, Act.seek m ∈ acts → m ≠ 0 → ∀ k ∈ c.frameHeaderList.bitCursorList, k / 128 ≤ L

theorem sameFile_cursors {c c' : AdhocCodec} (h : c.frameHeaderList.reset = c'.frameHeaderList.reset) :
    c.frameHeaderList.bitCursorList = c'.frameHeaderList.bitCursorList := by
  have e : c.frameHeaderList.reset.bitCursorList = c'.frameHeaderList.reset.bitCursorList := by rw [h]
  exact e

theorem kin_winds {b : Build} : ∀ (acts : List Act) {c c' : AdhocCodec} (_ : Kin q L c c') (_ : Placed q L c acts),
    Sim q (winds b c acts) (winds b c' acts) Eq
  | [], _, _, _, _ => Sim.ok rfl
  | .read buf :: acts, c, c', H, hp => by
    unfold winds
    rcases hd : c.decode b buf with p | ⟨d, r⟩
    · rcases kin_decode (q := q) (b := b) H buf with ⟨e, h1, h2⟩ | ⟨a, a', h1, -, -⟩ | ⟨hq, h⟩
      · rw [h2, ← hd, h1]; exact Sim.error
      · rw [h1] at hd; cases hd
      · exact .inr (.inr ⟨hq, .inl ⟨p, rfl⟩⟩)
    · have hh := (leafed_decode c buf _ hd).hdr
      rw [← hd]
      refine Sim.bind (P := fun x y => Kin q L x.1 y.1 ∧ x.2 = y.2 ∧ x.1 = d) ?_ ?_
      · rcases kin_decode (q := q) (b := b) H buf with h | ⟨a, a', h1, h2, h3, h4⟩ | h
        · exact .inl h
        · refine .inr (.inl ⟨a, a', h1, h2, h3, h4, ?_⟩)
          rw [hd] at h1
          rw [← Except.ok.inj h1]
        · exact .inr (.inr h)
      · rintro ⟨x, p, n⟩ ⟨y, p', n'⟩ ⟨k, e, hx⟩
        dsimp only at k e hx ⊢
        obtain ⟨rfl, rfl⟩ := Prod.mk.inj e
        subst hx
        refine (kin_winds acts k fun hq m hm => ?_).bind ?_
        · rw [sameFile_cursors hh]
          exact hp hq m (List.mem_cons_of_mem _ hm)
        · rintro o _ rfl
          exact Sim.ok rfl
  | .seek ms :: acts, c, c', H, hp => by
    unfold winds
    have hs := kin_seek (q := q) (b := b) H.file (.start ms) fun hq hne => hp hq ms (List.mem_cons_self ..) fun h => hne (by rw [h])
    rcases hs with ⟨e, h1, h2⟩ | ⟨d, d', h1, h2, h3⟩ | ⟨hq, ⟨e, h⟩ | ⟨e, h⟩⟩
    · rw [h1, h2]; exact Sim.error
    · rw [h1, h2, bind_ok, bind_ok]
      refine kin_winds acts h3 fun hq m hm => ?_
      rw [sameFile_cursors (leafed_seek c ms _ h1).hdr]
      exact hp hq m (List.mem_cons_of_mem _ hm)
    · rw [h]; exact .inr (.inr ⟨hq, .inl ⟨e, rfl⟩⟩)
    · rw [h]; exact .inr (.inr ⟨hq, .inr ⟨e, rfl⟩⟩)

theorem sameFile_after {b : Build} {c c' : AdhocCodec} {acts : List Act} (h : after b c acts = .ok c') :
    SameFile c.stream.stream.binary.length c c' := by
  have l := leafed_after acts c c' h
  have w := broad_after acts c c' h
  obtain ⟨n, hn⟩ := l.pad
  refine ⟨l.hdr.symm, l.info.symm, l.level.scale.symm, w.symm, fun i => ?_, fun i hi => chunkAt_of_ge hi, le_rfl, by rw [hn, List.length_append]; omega⟩
  unfold BitStream.chunkAt
  rw [hn]
  by_cases hi : i < c.stream.stream.binary.length
  · rw [List.getElem?_append_left hi]
  · rw [List.getElem?_eq_none (by omega), List.getElem?_append_right (by omega), List.getElem?_replicate]
    split <;> rfl

theorem sim_after {b : Build} {c c' : AdhocCodec} {acts : List Act} (h : after b c acts = .ok c') (ms : Nat) (acts' : List Act)
    (hp : Placed q c.stream.stream.binary.length c (.seek ms :: acts')) :
    Sim q (winds b c (.seek ms :: acts')) (winds b c' (.seek ms :: acts')) Eq := by
  unfold winds
  rcases kin_seek (q := q) (b := b) (sameFile_after h) (.start ms) fun hq hne => hp hq ms (List.mem_cons_self ..) fun h => hne (by rw [h]) with
    ⟨e, h1, h2⟩ | ⟨d, d', h1, h2, h3⟩ | ⟨hq, ⟨e, h⟩ | ⟨e, h⟩⟩
  · rw [h1, h2]; exact Sim.error
  · rw [h1, h2, bind_ok, bind_ok]
    refine kin_winds acts' h3 fun hq m hm => ?_
    rw [sameFile_cursors (leafed_seek c ms _ h1).hdr]
    exact hp hq m (List.mem_cons_of_mem _ hm)
  · rw [h]; exact .inr (.inr ⟨hq, .inl ⟨e, rfl⟩⟩)
  · rw [h]; exact .inr (.inr ⟨hq, .inr ⟨e, rfl⟩⟩)

/-- the full claim: whatever file has been opened and whatever has been read of it, a seek and what follows give what they would have given at once -/
def C143_statement : Prop :=
  ∀ (b : Build) (bytes : List Byte) (c c' : AdhocCodec) (acts : List Act) (ms : Nat) (acts' : List Act), AdhocCodec.load b bytes = .ok (some c) →
    after b c acts = .ok c' → winds b c' (.seek ms :: acts') = winds b c (.seek ms :: acts')

/-- C143 for every codec in every state, if the stored positions are inside the stored chunks, or if it is only wound back to the start: a seek and
all that follows, panics included, do not depend on what has been read and where. -/
theorem C143_inside_partial (b : Build) (c c' : AdhocCodec) (acts : List Act) (h : after b c acts = .ok c') (ms : Nat) (acts' : List Act)
    (hp : (∃ m, Act.seek m ∈ Act.seek ms :: acts' ∧ m ≠ 0) →
      ∀ k ∈ c.frameHeaderList.bitCursorList, k / 128 ≤ c.stream.stream.blocksAllocated) :
    winds b c' (.seek ms :: acts') = winds b c (.seek ms :: acts') := by
  have := (sim_after (q := True) h ms acts' fun _ m hm hm0 => hp ⟨m, hm, hm0⟩).same trivial
  rcases this with ⟨e, h1, h2⟩ | ⟨a, _, h1, h2, rfl⟩
  · rw [h1, h2]
  · rw [h1, h2]

/-- C143 for every codec in every state: if the seek and what follows succeed both at once and after the reads, they give the same. -/
theorem C143_both_partial (b : Build) (c c' : AdhocCodec) (acts : List Act) (h : after b c acts = .ok c') (ms : Nat) (acts' : List Act)
    (outs outs' : List (List F32 × Option Nat)) (h1 : winds b c (.seek ms :: acts') = .ok outs) (h2 : winds b c' (.seek ms :: acts') = .ok outs') :
    outs' = outs :=
  ((sim_after (q := False) h ms acts' fun hf => hf.elim).both h1 h2).symm

theorem cursor_hdrs : ∀ (fs : List Fr) (p : Nat), ∀ x ∈ hdrs p fs, x.bitCursor ≤ p + (bitsOf fs).length
  | [], _ => by simp [hdrs]
  | f :: fs, p => by
    intro x hx
    have e : (bitsOf (f :: fs)).length = f.bits.length + (bitsOf fs).length := by simp [bitsOf]
    rcases List.mem_cons.mp hx with rfl | hx
    · simp only [Fr.hdr]; omega
    · have := cursor_hdrs fs _ x hx
      omega

theorem inside_recording {b : Build} {info : StreamInfo} {level : Nat} {calls : List (List F32)} {c : AdhocCodec} (hn : 0 < info.channels)
    (h : encodeAll b (fresh info level) calls = .ok c) : ∀ k ∈ c.frameHeaderList.bitCursorList, k / 128 ≤ c.stream.stream.blocksAllocated := by
  obtain ⟨-, blocks, H, -, -⟩ := recorded_of_ok hn h
  intro k hk
  rw [H.log.cursors] at hk
  obtain ⟨x, hx, rfl⟩ := List.mem_map.mp hk
  have h1 := cursor_hdrs _ 0 x hx
  have h2 := H.bits.cursor
  have h3 := H.bits.chunks
  show _ ≤ c.stream.stream.binary.length
  omega

/-- C143 for every recording, in memory or loaded from its file: a seek and all that follows do not depend on what has been read and where. -/
theorem C143_recording_partial (b b' : Build) (info : StreamInfo) (hn : 0 < info.channels) (level : Nat) (calls : List (List F32)) (c : AdhocCodec)
    (h : encodeAll b (fresh info level) calls = .ok c) (d : AdhocCodec)
    (hd : d = c ∨ ∃ rest, Counted c ∧ AdhocCodec.load b' (file c ++ rest) = .ok (some d))
    (acts : List Act) (d' : AdhocCodec) (ha : after b' d acts = .ok d') (ms : Nat) (acts' : List Act) :
    winds b' d' (.seek ms :: acts') = winds b' d (.seek ms :: acts') := by
  refine C143_inside_partial b' d d' acts ha ms acts' fun _ => ?_
  rcases hd with rfl | ⟨rest, hc, hl⟩
  · exact inside_recording hn h
  · have V := valued_run (b := b) (calls.map Use.encode) (valued_fresh info level) c (by rw [encodeAll_uses]; exact h)
    rw [file_eq, load_saved hc V rest] at hl
    cases hl
    have hi := inside_recording hn h
    exact hi

/-- a recording of two calls whose data has been cut away and whose second frame is said to begin in the second chunk -/
def astray : R AdhocCodec := do
  let c ← encodeAll .release (fresh { sampleRate := 1000, channels := 1 } 0) [List.replicate 3 (F32.ofInt 0), List.replicate 3 (F32.ofInt 0)]
  pure { c with
    stream := { c.stream with stream := { binary := [], bitCursor := 0, capacity := 0 } }
    frameHeaderList := { c.frameHeaderList with bitCursorList := [0, 248] } }

-- the same seek before and after other reads and seeks, in a recording of two calls and in the file without data, wound back
example : (match encodeAll .release (fresh { sampleRate := 1000, channels := 1 } 0) demo with
    | .ok c => match after .release c [.seek 0, .read (List.replicate 5 (F32.ofInt 0)), .seek 2, .read [F32.ofInt 1]] with
      | .ok c' => decide (c.frameHeaderList.bitCursorList.length = 2) && decide (c'.stream.stream.bitCursor ≠ c.stream.stream.bitCursor) &&
          (match winds .release c' [.seek 4, .read (List.replicate 2 (F32.ofInt 9))], winds .release c [.seek 4, .read (List.replicate 2 (F32.ofInt 9))] with
            | .ok o', .ok o => decide (o' = o) && decide (o.length = 1)
            | _, _ => false)
      | .error _ => false
    | .error _ => false) = true := by decide +kernel

example : (match astray with
    | .ok c => match after .release c.init [.read [F32.ofInt 0]] with
      | .ok c' => decide (c'.stream.stream.binary.length = 2) &&
          (match winds .release c' [.seek 0, .read (List.replicate 2 (F32.ofInt 9))], winds .release c.init [.seek 0, .read (List.replicate 2 (F32.ofInt 9))] with
            | .ok o', .ok o => decide (o' = o) && decide (o.length = 1)
            | _, _ => false)
      | .error _ => false
    | .error _ => false) = true := by decide +kernel

/-- C143 as stated fails: in a file whose stored position is one chunk too far, a seek panics, but not after a read. -/
theorem C143_false : ¬ C143_statement := by
  intro hall
  have h : (match astray with
    | .ok c0 => match AdhocCodec.load .release (file c0) with
      | .ok (some c) => match after .release c [.read [F32.ofInt 0]] with
        | .ok c' => (match winds .release c [.seek 4] with | .ok _ => false | .error _ => true) &&
            (match winds .release c' [.seek 4] with | .ok _ => true | .error _ => false)
        | .error _ => false
      | _ => false
    | .error _ => false) = true := by decide +kernel
  split at h
  · rename_i c0 _
    split at h
    · rename_i c hl
      split at h
      · rename_i c' ha
        have := hall .release (file c0) c c' _ 4 [] hl ha
        rw [this] at h
        cases hw : winds .release c [.seek 4] <;> rw [hw] at h <;> simp at h
      · cases h
    · cases h
  · cases h

end Adhoc
