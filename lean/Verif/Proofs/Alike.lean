import Verif.Proofs.Values

/-! Two codecs that differ only in what decoding does not look at: histories before the first frame, and the dither sequence. -/

namespace Adhoc
open Spec

/-- both panic alike, or both succeed with related results -/
def Same {α : Type} (x y : R α) (P : α → α → Prop) : Prop := (∃ e, x = .error e ∧ y = .error e) ∨ ∃ a a', x = .ok a ∧ y = .ok a' ∧ P a a'

namespace Same

theorem ok {α : Type} {a a' : α} {P : α → α → Prop} (h : P a a') : Same (.ok a) (.ok a') P := .inr ⟨a, a', rfl, rfl, h⟩

theorem bind {α β : Type} {x y : R α} {f g : α → R β} {P : α → α → Prop} {Q : β → β → Prop} (hx : Same x y P)
    (hf : ∀ a a', P a a' → Same (f a) (g a') Q) : Same (x >>= f) (y >>= g) Q := by
  rcases hx with ⟨e, rfl, rfl⟩ | ⟨a, a', rfl, rfl, h⟩
  · exact .inl ⟨e, rfl, rfl⟩
  · exact hf a a' h

theorem refl {α : Type} (x : R α) : Same x x Eq := by
  cases x with
  | error e => exact .inl ⟨e, rfl, rfl⟩
  | ok a => exact ok rfl

theorem error {α : Type} {e : Panic} {P : α → α → Prop} : Same (.error e) (.error e) P := .inl ⟨e, rfl, rfl⟩

theorem foldlM {α β : Type} {f g : β → α → R β} {P : β → β → Prop} (hf : ∀ c c' a, P c c' → Same (f c a) (g c' a) P) :
    ∀ (l : List α) (c c' : β) (_ : P c c'), Same (l.foldlM f c) (l.foldlM g c') P
  | [], _, _, h => ok h
  | a :: l, c, c', h => by
    rw [List.foldlM_cons, List.foldlM_cons]
    exact (hf c c' a h).bind fun d d' h' => foldlM hf l d d' h'

end Same

/-- the two rings end with the same values, at least three -/
def RingAlike (h h' : CircularStack Int) : Prop := ∃ P, Last h P ∧ Last h' P ∧ 3 ≤ P.length

theorem RingAlike.push {h h' : CircularStack Int} (H : RingAlike h h') (x : Int) : RingAlike (h.push x) (h'.push x) := by
  obtain ⟨P, h1, h2, h3⟩ := H
  exact ⟨P ++ [x], h1.push x, h2.push x, by simp; omega⟩

theorem ringAlike_three {h h' : CircularStack Int} (H : Last h []) (H' : Last h' []) (x y z : Int) :
    RingAlike (((h.push x).push y).push z) (((h'.push x).push y).push z) :=
  ⟨[x, y, z], ((H.push x).push y).push z, ((H'.push x).push y).push z, by simp⟩

/-- alike in everything decoding looks at -/
structure ChanAlike (c c' : FrameCodec) : Prop where
  state : c.state = c'.state
  buffered : c.buffered = c'.buffered
  before : c.state = .init → Last c.history [] ∧ Last c'.history []
  after : c.state ≠ .init → RingAlike c.history c'.history

theorem same_decodeSamples {b : Build} {k : Nat} : ∀ (n : Nat) (s : BitStream) {h h' : CircularStack Int} (buf : List F32) (_ : RingAlike h h'),
    Same (FrameCodec.decodeSamples b k n s h buf) (FrameCodec.decodeSamples b k n s h' buf)
      (fun r r' => r.1 = r'.1 ∧ RingAlike r.2.1 r'.2.1 ∧ r.2.2 = r'.2.2)
  | 0, s, h, h', buf, H => Same.ok ⟨rfl, H, rfl⟩
  | n + 1, s, h, h', buf, H => by
    have hp : FrameCodec.predictFrom h = FrameCodec.predictFrom h' := by
      obtain ⟨P, h1, h2, h3⟩ := H
      rw [h1.predict h3, h2.predict h3]
    unfold FrameCodec.decodeSamples
    rw [hp]
    refine (Same.refl _).bind ?_
    rintro r _ rfl
    refine (Same.refl _).bind ?_
    rintro a _ rfl
    exact same_decodeSamples n _ _ (H.push _)

/-- what two runs of `decode_frame` agree on -/
def FrameAlike (r r' : FrameCodec × AudioStream × FrameHeaders × Option Nat) : Prop :=
  ChanAlike r.1 r'.1 ∧ r.2.1 = r'.2.1 ∧ r.2.2.1 = r'.2.2.1

theorem same_decodeFrame {b : Build} {c c' : FrameCodec} (H : ChanAlike c c') (st : AudioStream) (hd : FrameHeaders) :
    Same (c.decodeFrame b st hd) (c'.decodeFrame b st hd) FrameAlike := by
  unfold FrameCodec.decodeFrame
  refine (Same.refl _).bind ?_
  rintro ⟨hd', hdr?⟩ _ rfl
  cases hdr? with
  | none => exact Same.ok ⟨H, rfl, rfl⟩
  | some hdr =>
    dsimp only
    have hs := H.state
    have hbuf := H.buffered
    cases hc : c.state with
    | init =>
      rw [← hs, hc]
      obtain ⟨h1, h2⟩ := H.before hc
      dsimp only
      refine (Same.refl _).bind ?_
      rintro r0 _ rfl
      refine (Same.refl _).bind ?_
      rintro r1 _ rfl
      refine (Same.refl _).bind ?_
      rintro r2 _ rfl
      have hr := ringAlike_three h1 h2 r0.2 r1.2 r2.2
      have e : ∀ k, 1 ≤ k → k ≤ 3 → (((c.history.push r0.2).push r1.2).push r2.2).prev k = (((c'.history.push r0.2).push r1.2).push r2.2).prev k := by
        intro k k1 k3
        obtain ⟨P, p1, p2, p3⟩ := hr
        rw [p1.prev k1 (by omega) (by omega), p2.prev k1 (by omega) (by omega)]
      rw [e 1 (by omega) (by omega), e 2 (by omega) (by omega), e 3 (by omega) (by omega), hbuf]
      refine (same_decodeSamples _ _ _ hr).bind ?_
      rintro r r' ⟨g1, g2, g3⟩
      refine Same.ok ⟨⟨rfl, g3, fun h => absurd h (by simp), fun _ => g2⟩, by rw [g1], rfl⟩
    | decoding =>
      rw [← hs, hc]
      have h1 := H.after (by rw [hc]; decide)
      rw [hbuf]
      refine (same_decodeSamples _ _ _ h1).bind ?_
      rintro r r' ⟨g1, g2, g3⟩
      refine Same.ok ⟨⟨rfl, g3, fun h => absurd h (by simp), fun _ => g2⟩, by rw [g1], rfl⟩
    | encoding =>
      rw [← hs, hc]
      exact Same.error

/-- two codecs that decode alike -/
structure Alike (c c' : AdhocCodec) : Prop where
  headers : c.frameHeaderList = c'.frameHeaderList
  stream : c.stream = c'.stream
  level : c.compressionLevel = c'.compressionLevel
  scale : c.scale = c'.scale
  chans : List.Forall₂ ChanAlike c.channelStateList c'.channelStateList

theorem same_idx {α : Type} {P : α → α → Prop} {l l' : List α} (h : List.Forall₂ P l l') (i : Nat) : Same (idx l i) (idx l' i) P := by
  have hl := h.length_eq
  by_cases hi : i < l.length
  · rw [idx_of_lt hi, idx_of_lt (by omega)]
    exact Same.ok (List.Forall₂.get h hi (by omega))
  · rw [idx_of_ge (by omega), idx_of_ge (by omega)]
    exact Same.error

theorem forall₂_set {α : Type} {P : α → α → Prop} : ∀ {l l' : List α} (_ : List.Forall₂ P l l') (i : Nat) {a a' : α} (_ : P a a'),
    List.Forall₂ P (l.set i a) (l'.set i a')
  | _, _, .nil, _, _, _, _ => .nil
  | _, _, .cons h t, 0, _, _, ha => .cons ha t
  | _, _, .cons h t, i + 1, _, _, ha => .cons h (forall₂_set t i ha)

theorem same_setIdx {α : Type} {P : α → α → Prop} {l l' : List α} (h : List.Forall₂ P l l') (i : Nat) {a a' : α} (ha : P a a') :
    Same (setIdx l i a) (setIdx l' i a') (List.Forall₂ P) := by
  have hl := h.length_eq
  by_cases hi : i < l.length
  · rw [setIdx_of_lt hi, setIdx_of_lt (by omega)]
    exact Same.ok (forall₂_set h i ha)
  · unfold setIdx
    rw [if_neg hi, if_neg (by omega)]
    exact Same.error

theorem same_decodeChannel {b : Build} {c c' : AdhocCodec} (H : Alike c c') (ch : Nat) : Same (c.decodeChannel b ch) (c'.decodeChannel b ch) Alike := by
  unfold AdhocCodec.decodeChannel
  refine (same_idx H.chans ch).bind fun fc fc' hf => ?_
  rw [H.stream, H.headers]
  refine (same_decodeFrame hf _ _).bind ?_
  rintro ⟨f, st, hd, n⟩ ⟨f', st', hd', n'⟩ ⟨g1, g2, g3⟩
  dsimp only at g1 g2 g3 ⊢
  subst g2 g3
  refine (same_setIdx H.chans ch g1).bind fun l l' hl => ?_
  exact Same.ok ⟨rfl, rfl, H.level, H.scale, hl⟩

theorem Alike.empty {c c' : AdhocCodec} (H : Alike c c') : c.isBuffersEmpty = c'.isBuffersEmpty := by
  unfold AdhocCodec.isBuffersEmpty
  have h := H.chans
  generalize c.channelStateList = l at h
  generalize c'.channelStateList = l' at h
  induction h with
  | nil => rfl
  | cons h _ ih => rw [List.all_cons, List.all_cons, ih, h.buffered]

theorem same_bufferAudio {b : Build} {n : Nat} : ∀ (left : Nat) {c c' : AdhocCodec} (_ : Alike c c'),
    Same (AdhocCodec.bufferAudio b n left c) (AdhocCodec.bufferAudio b n left c') (fun r r' => Alike r.1 r'.1 ∧ r.2 = r'.2)
  | 0, _, _, H => Same.ok ⟨H, rfl⟩
  | left + 1, c, c', H => by
    unfold AdhocCodec.bufferAudio
    rw [H.empty]
    split
    · unfold AdhocCodec.decodeBlock
      exact (Same.foldlM (P := Alike) (fun c c' ch h => same_decodeChannel h ch) _ _ _ H).bind fun d d' h => same_bufferAudio left h
    · exact Same.ok ⟨H, rfl⟩

theorem same_popBlock {legal : Nat} : ∀ (n ch : Nat) {c c' : AdhocCodec} (_ : Alike c c') (pcm : List F32) (cursor : Nat),
    Same (AdhocCodec.popBlock legal n ch c pcm cursor) (AdhocCodec.popBlock legal n ch c' pcm cursor) (fun r r' => Alike r.1 r'.1 ∧ r.2 = r'.2)
  | 0, _, _, _, H, _, _ => Same.ok ⟨H, rfl⟩
  | n + 1, ch, c, c', H, pcm, cursor => by
    unfold AdhocCodec.popBlock
    split
    · refine (same_idx H.chans ch).bind fun fc fc' hf => ?_
      have hh : ChanAlike { fc with buffered := fc.buffered.tail } { fc' with buffered := fc'.buffered.tail } :=
        ⟨hf.state, by simp [hf.buffered], hf.before, hf.after⟩
      refine (same_setIdx H.chans ch hh).bind fun l l' hl => ?_
      rw [hf.buffered]
      refine (Same.refl _).bind ?_
      rintro r _ rfl
      have H' : Alike { c with channelStateList := l } { c' with channelStateList := l' } := ⟨H.headers, H.stream, H.level, H.scale, hl⟩
      exact same_popBlock n (ch + 1) H' _ _
    · exact Same.ok ⟨H, rfl⟩

theorem same_decodeLoop {b : Build} {n legal : Nat} : ∀ (fuel : Nat) {c c' : AdhocCodec} (_ : Alike c c') (pcm : List F32) (cursor : Nat),
    Same (AdhocCodec.decodeLoop b n legal fuel c pcm cursor) (AdhocCodec.decodeLoop b n legal fuel c' pcm cursor)
      (fun r r' => Alike r.1 r'.1 ∧ r.2 = r'.2)
  | 0, _, _, _, _, _ => Same.error
  | fuel + 1, c, c', H, pcm, cursor => by
    unfold AdhocCodec.decodeLoop
    split
    · refine (same_bufferAudio _ H).bind ?_
      rintro ⟨d, k⟩ ⟨d', k'⟩ ⟨h1, h2⟩
      dsimp only at h1 h2 ⊢
      subst h2
      split
      · exact Same.ok ⟨h1, rfl⟩
      · refine (same_popBlock _ _ h1 _ _).bind ?_
        rintro ⟨e, p⟩ ⟨e', p'⟩ ⟨h3, h4⟩
        dsimp only at h3 h4 ⊢
        subst h4
        exact same_decodeLoop fuel h3 _ _
    · exact Same.ok ⟨H, rfl⟩

theorem same_decode {b : Build} {c c' : AdhocCodec} (H : Alike c c') (buf : List F32) :
    Same (c.decode b buf) (c'.decode b buf) (fun r r' => Alike r.1 r'.1 ∧ r.2 = r'.2) := by
  unfold AdhocCodec.decode
  refine Same.bind (P := fun r r' => Alike r.1 r'.1 ∧ r.2 = r'.2) ?_ ?_
  · unfold AdhocCodec.decodeRaw
    rw [H.stream]
    refine (Same.refl _).bind ?_
    rintro i _ rfl
    refine (Same.refl _).bind ?_
    rintro q _ rfl
    refine (same_decodeLoop _ H _ _).bind ?_
    rintro ⟨d, k⟩ ⟨d', k'⟩ ⟨h1, h2⟩
    dsimp only at h1 h2 ⊢
    subst h2
    refine Same.ok ⟨h1, ?_⟩
    dsimp only
    rw [h1.scale]
  · rintro ⟨d, k⟩ ⟨d', k'⟩ ⟨h1, h2⟩
    dsimp only at h1 h2 ⊢
    subst h2
    exact Same.ok ⟨h1, rfl⟩

theorem same_decodeAll {b : Build} : ∀ (bufs : List (List F32)) {c c' : AdhocCodec} (_ : Alike c c'),
    Same (decodeAll b c bufs) (decodeAll b c' bufs) (fun r r' => Alike r.1 r'.1 ∧ r.2 = r'.2)
  | [], _, _, H => Same.ok ⟨H, rfl⟩
  | buf :: bufs, c, c', H => by
    unfold decodeAll
    refine (same_decode H buf).bind ?_
    rintro ⟨d, k⟩ ⟨d', k'⟩ ⟨h1, h2⟩
    dsimp only at h1 h2 ⊢
    subst h2
    refine (same_decodeAll bufs h1).bind ?_
    rintro ⟨e, p⟩ ⟨e', p'⟩ ⟨h3, h4⟩
    dsimp only at h3 h4 ⊢
    subst h4
    exact Same.ok ⟨h3, rfl⟩

end Adhoc
