import Verif.Props.Unchanged
import Verif.Proofs.Alike
import Verif.Model.Wav
import Verif.Model.Cli

/-!
# C155: an incomplete block changes nothing

For both codecs, in every state: the samples behind the last whole block of a call of `encode` are dropped, and the places behind the last whole block of the buffer of a
call of `decode` are not filled. Everything else, panics included, is as if the call had been made without them.
-/

namespace Adhoc
open Spec

namespace Spec

/-- `whole` is a number of whole blocks of `n` samples and `rest` is less than a block -/
def Remainder {α : Type} (n : Nat) (whole rest : List α) : Prop := n ∣ whole.length ∧ rest.length < n

end Spec

theorem Spec.Remainder.div {α : Type} {n : Nat} {l t : List α} (h : Remainder n l t) : (l ++ t).length / n = l.length / n := by
  obtain ⟨⟨k, hk⟩, ht⟩ := h
  rw [List.length_append, hk, Nat.mul_add_div (by omega), Nat.div_eq_of_lt ht, Nat.add_zero, Nat.mul_div_cancel_left _ (by omega)]

theorem Spec.Remainder.div_mul {α : Type} {n : Nat} {l t : List α} (h : Remainder n l t) : l.length / n * n = l.length := Nat.div_mul_cancel h.1

theorem same_setIdx_tail {α : Type} {l t : List α} {i : Nat} {a : α} (h : i < l.length) :
    Same (setIdx l i a) (setIdx (l ++ t) i a) (fun p p' => p' = p ++ t ∧ p.length = l.length) := by
  rw [setIdx_of_lt h, setIdx_of_lt (by rw [List.length_append]; omega)]
  exact Same.ok ⟨by rw [List.set_append_left _ _ h], by simp⟩

/-- the same codec and count, and the buffer with the rest behind it -/
def TailAlike {β : Type} (len : Nat) (t : List F32) (r r' : β × List F32 × Nat) : Prop := r'.1 = r.1 ∧ r'.2.1 = r.2.1 ++ t ∧ r'.2.2 = r.2.2 ∧ r.2.1.length = len

theorem popBlock_rest {legal : Nat} (t : List F32) : ∀ (n ch : Nat) (c : AdhocCodec) (pcm : List F32) (cursor : Nat) (_ : legal ≤ pcm.length),
    Same (AdhocCodec.popBlock legal n ch c pcm cursor) (AdhocCodec.popBlock legal n ch c (pcm ++ t) cursor) (TailAlike pcm.length t)
  | 0, ch, c, pcm, cursor, _ => Same.ok ⟨rfl, rfl, rfl, rfl⟩
  | n + 1, ch, c, pcm, cursor, hl => by
    unfold AdhocCodec.popBlock
    split
    · next hc =>
      refine (Same.refl _).bind ?_
      rintro fc _ rfl
      refine (Same.refl _).bind ?_
      rintro chs _ rfl
      refine (same_setIdx_tail (by omega)).bind ?_
      rintro p _ ⟨rfl, hp⟩
      have := popBlock_rest (legal := legal) t n (ch + 1) { c with channelStateList := chs } p (cursor + 1) (by rw [hp]; exact hl)
      rw [hp] at this
      exact this
    · exact Same.ok ⟨rfl, rfl, rfl, rfl⟩

theorem decodeLoop_rest {b : Build} {n legal : Nat} (t : List F32) : ∀ (fuel : Nat) (c : AdhocCodec) (pcm : List F32) (cursor : Nat) (_ : legal ≤ pcm.length),
    Same (AdhocCodec.decodeLoop b n legal fuel c pcm cursor) (AdhocCodec.decodeLoop b n legal fuel c (pcm ++ t) cursor) (TailAlike pcm.length t)
  | 0, c, pcm, cursor, _ => Same.error
  | fuel + 1, c, pcm, cursor, hl => by
    unfold AdhocCodec.decodeLoop
    split
    · refine (Same.refl _).bind ?_
      rintro ⟨c1, left⟩ _ rfl
      dsimp only
      split
      · exact Same.ok ⟨rfl, rfl, rfl, rfl⟩
      · refine (popBlock_rest t n 0 c1 pcm cursor hl).bind ?_
        rintro ⟨c2, p, k⟩ ⟨c2', p', k'⟩ ⟨h1, h2, h3, h4⟩
        dsimp only at h1 h2 h3 h4 ⊢
        subst h1; subst h2; subst h3
        have := decodeLoop_rest (b := b) (n := n) (legal := legal) t fuel c2' p k' (by omega)
        rw [h4] at this
        exact this
    · exact Same.ok ⟨rfl, rfl, rfl, rfl⟩

theorem mapM_congr_mem {α β : Type} {f g : α → R β} : ∀ (l : List α) (_ : ∀ a ∈ l, f a = g a), l.mapM f = l.mapM g
  | [], _ => rfl
  | a :: l, h => by rw [List.mapM_cons, List.mapM_cons, h a (by simp), mapM_congr_mem l fun x hx => h x (by simp [hx])]

/-- C155 for `AdhocCodec::encode`: the same codec, the same panics; only the number returned counts the samples dropped. -/
theorem C155_encode (b : Build) (c : AdhocCodec) (info : StreamInfo) (hi : c.stream.info = some info) (pcm rest : List F32) (h : Remainder info.channels pcm rest) :
    c.encode b (pcm ++ rest) = (c.encode b pcm).map fun r => (r.1, some (pcm.length + rest.length)) := by
  have hn : 0 < info.channels := by have := h.2; omega
  have hd : ∀ ch < info.channels, AdhocCodec.deinterleave (pcm ++ rest) info.channels (pcm.length / info.channels) ch =
      AdhocCodec.deinterleave pcm info.channels (pcm.length / info.channels) ch := by
    intro ch hch
    unfold AdhocCodec.deinterleave
    refine mapM_congr_mem _ fun k hk => ?_
    rw [List.mem_range] at hk
    have h1 : (k + 1) * info.channels ≤ pcm.length := le_trans (Nat.mul_le_mul_right _ hk) (Nat.div_mul_le_self _ _)
    rw [Nat.add_mul, Nat.one_mul] at h1
    rw [idx_of_lt (show k * info.channels + ch < pcm.length by omega), idx_of_lt (by rw [List.length_append]; omega), List.getElem_append_left]
  have hraw : c.encodeRaw b (pcm ++ rest) = c.encodeRaw b pcm := by
    unfold AdhocCodec.encodeRaw
    rw [hi]
    simp only [expect, bind_ok]
    rw [udiv_of_pos hn, udiv_of_pos hn, h.div, bind_ok, bind_ok]
    have key : ∀ (l : List Nat) (_ : ∀ ch ∈ l, ch < info.channels) (c : AdhocCodec),
        l.foldlM (fun c ch => AdhocCodec.encodeChannel b c (pcm ++ rest) info.channels (pcm.length / info.channels) ch) c =
          l.foldlM (fun c ch => AdhocCodec.encodeChannel b c pcm info.channels (pcm.length / info.channels) ch) c := by
      intro l
      induction l with
      | nil => exact fun _ _ => rfl
      | cons ch l ih =>
        intro hl c
        rw [List.foldlM_cons, List.foldlM_cons]
        have : AdhocCodec.encodeChannel b c (pcm ++ rest) info.channels (pcm.length / info.channels) ch =
            AdhocCodec.encodeChannel b c pcm info.channels (pcm.length / info.channels) ch := by
          unfold AdhocCodec.encodeChannel
          rw [hd ch (hl ch (by simp))]
        rw [this]
        congr 1
        funext c'
        exact ih (fun i hi => hl i (by simp [hi])) c'
    exact key _ (fun ch hch => List.mem_range.1 hch) c
  unfold AdhocCodec.encode
  rw [hraw, List.length_append]
  cases c.encodeRaw b pcm <;> rfl

/-- C155 for `AdhocCodec::decode`: the same codec, number and panics; the places behind the last whole block are multiplied like the others (C23) but not filled. -/
theorem C155_decode (b : Build) (c : AdhocCodec) (info : StreamInfo) (hi : c.stream.info = some info) (buf rest : List F32) (h : Remainder info.channels buf rest) :
    c.decode b (buf ++ rest) = (c.decode b buf).map fun r => (r.1, r.2.1 ++ rest.map (· * c.scale), r.2.2) := by
  have hn : 0 < info.channels := by have := h.2; omega
  unfold AdhocCodec.decode AdhocCodec.decodeRaw
  rw [hi]
  simp only [expect, bind_ok]
  rw [udiv_of_pos hn, udiv_of_pos hn, h.div, bind_ok, bind_ok, h.div_mul]
  have hlv := leafed_decodeLoop (b := b) (n := info.channels) (legal := buf.length) (buf.length + 1) c buf 0
  rcases decodeLoop_rest (b := b) (n := info.channels) rest (buf.length + 1) c buf 0 le_rfl with ⟨e, h1, h2⟩ | ⟨⟨c1, p, k⟩, ⟨c1', p', k'⟩, h1, h2, h3, h4, h5, -⟩
  · rw [h1, h2]; rfl
  · dsimp only at h3 h4 h5
    subst h3; subst h4; subst h5
    rw [h1, h2]
    have hs : c1'.scale = c.scale := (hlv _ h1).level.scale
    simp only [bind_ok, pure_eq_ok, List.map_append, hs]
    rfl

/-- C155 for `WavCodec::encode`: everything is the same, the number returned included. -/
theorem C155_wav_encode (w : WavCodec) (pcm rest : List F32) (h : Remainder w.info.channels pcm rest) : w.encode (pcm ++ rest) = w.encode pcm := by
  have hn : 0 < w.info.channels := by have := h.2; omega
  unfold WavCodec.encode
  rw [udiv_of_pos hn, udiv_of_pos hn, h.div, bind_ok, bind_ok, h.div_mul]
  dsimp only
  rw [List.take_left, List.take_length]

theorem wavLoop_tail {bytes : List Byte} {s v : Nat} (t : List F32) : ∀ (fuel cursor : Nat) (out : List F32) (k : Nat) (_ : v ≤ out.length),
    Same (WavCodec.decodeLoop bytes s v fuel cursor out k) (WavCodec.decodeLoop bytes s v fuel cursor (out ++ t) k) (TailAlike out.length t)
  | 0, _, _, _, _ => Same.error
  | fuel + 1, cursor, out, k, hl => by
    unfold WavCodec.decodeLoop
    split
    · next hc =>
      refine (Same.refl _).bind ?_
      rintro x _ rfl
      refine (same_setIdx_tail (by omega)).bind ?_
      rintro p _ ⟨rfl, hp⟩
      have := wavLoop_tail (bytes := bytes) (s := s) (v := v) t fuel (cursor + 1) p (k + 1) (by rw [hp]; exact hl)
      rw [hp] at this
      exact this
    · exact Same.ok ⟨rfl, rfl, rfl, rfl⟩

/-- C155 for `WavCodec::decode`: the places behind the last whole block are left alone. -/
theorem C155_wav_decode (w : WavCodec) (buf rest : List F32) (h : Remainder w.info.channels buf rest) :
    w.decode (buf ++ rest) = (w.decode buf).map fun r => (r.1, r.2.1 ++ rest, r.2.2) := by
  have hn : 0 < w.info.channels := by have := h.2; omega
  unfold WavCodec.decode
  rw [udiv_of_pos hn, udiv_of_pos hn, h.div, bind_ok, bind_ok, h.div_mul]
  dsimp only
  rcases wavLoop_tail (bytes := w.pcm) (s := w.numSamples) rest (buf.length + 1) w.shortCursor buf 0 le_rfl with ⟨e, h1, h2⟩ | ⟨⟨c1, p, k⟩, ⟨c1', p', k'⟩, h1, h2, h3, h4, h5, -⟩
  · rw [h1, h2]; rfl
  · dsimp only at h3 h4 h5
    subst h3; subst h4; subst h5
    rw [h1, h2]
    rfl

-- two blocks of stereo and a sample more, on a recording and on a WAV stream
example : Remainder 2 (List.replicate 4 (F32.ofInt 0)) [F32.ofInt 1] ∧
    (match encodeAll .release (fresh { sampleRate := 8000, channels := 2 } 3) [List.replicate 6 (F32.ofInt 0)] with
    | .ok c => (match c.encode .release (List.replicate 4 (F32.ofInt 0) ++ [F32.ofInt 1]), c.encode .release (List.replicate 4 (F32.ofInt 0)) with
        | .ok (d, some 5), .ok (d', some 4) => decide (d.stream.stream.binary = d'.stream.stream.binary ∧ d.frameHeaderList.len = 4)
        | _, _ => false) &&
      (match c.init.decode .release (List.replicate 4 (F32.ofInt 9) ++ [F32.ofInt 1]) with
        | .ok (_, out, some 4) => decide (out.drop 4 = [F32.ofInt 8] ∧ out.length = 5)
        | _ => false)
    | .error _ => false) = true ∧
    (match (WavCodec.new { sampleRate := 8000, channels := 2 }).encode (List.replicate 4 (F32.ofInt 0) ++ [F32.ofInt 1]) with
    | .ok (w, some 4) => (match ({ w with shortCursor := 0 } : WavCodec).decode (List.replicate 4 (F32.ofInt 9) ++ [F32.ofInt 1]) with
        | .ok (_, out, some 4) => decide (out = List.replicate 4 (F32.ofInt 0) ++ [F32.ofInt 1])
        | _ => false)
    | _ => false) = true := by
  refine ⟨⟨⟨2, rfl⟩, by decide⟩, ?_, ?_⟩ <;> decide +kernel

end Adhoc
