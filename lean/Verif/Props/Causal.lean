import Verif.Props.Levels
import Verif.Props.Append

/-! # C113: what is played depends only on what was recorded up to then -/

namespace Adhoc
open Spec F32

/-- a code depends on the sample at its place alone -/
theorem stored_point {inv : F32} {n ch : Nat} (hch : ch < n) : ∀ {calls calls' : List (List F32)} (_ : List.Forall₂ (fun p p' => p.length = p'.length) calls calls')
    (k i : Nat), (chan ch (signal n calls))[i]? = (chan ch (signal n calls'))[i]? → (stored inv n ch k calls)[i]? = (stored inv n ch k calls')[i]?
  | _, _, .nil, k, i, _ => rfl
  | _, _, .cons (a := pcm) (b := pcm') (l₁ := rest) (l₂ := rest') hl hr, k, i, h => by
    have hc : ∀ (p : List F32) (r : List (List F32)), chan ch (signal n (p :: r)) = column n ch p ++ chan ch (signal n r) := by
      intro p r
      rw [column_eq hch]
      simp [chan, signal]
    have hcl : (column n ch pcm).length = (column n ch pcm').length := by simp [column, hl]
    rw [hc, hc] at h
    simp only [stored]
    rw [List.getElem?_append, List.getElem?_append, List.length_map, List.length_map, length_ditherAt, length_ditherAt, ← hcl, ← hl]
    rw [List.getElem?_append, List.getElem?_append, ← hcl] at h
    by_cases hi : i < (column n ch pcm).length
    · rw [if_pos hi, if_pos hi] at h
      rw [if_pos hi, if_pos hi, List.getElem?_map, List.getElem?_map, ditherAt, ditherAt, List.getElem?_mapIdx, List.getElem?_mapIdx, h]
    · rw [if_neg hi, if_neg hi] at h
      rw [if_neg hi, if_neg hi]
      exact stored_point hch hr _ _ h

/-- recordings of the same shape -/
theorem signal_same {n : Nat} : ∀ {calls calls' : List (List F32)} (_ : List.Forall₂ (fun p p' => p.length = p'.length) calls calls'),
    (signal n calls).length = (signal n calls').length
  | _, _, .nil => rfl
  | _, _, .cons hl hr => by
    have := signal_same (n := n) hr
    simp only [signal, List.flatMap_cons, List.length_append, length_blocksOf] at this ⊢
    rw [this, hl]

/-- the first `m` decoded codes depend on the first `m` codes alone -/
theorem decoded_causal {Q Q' : List Int} {m : Nat} (h : Q.take m = Q'.take m) : (decoded Q).take m = (decoded Q').take m := by
  rcases Nat.lt_or_ge m 3 with h3 | h3
  · have : ∀ Q : List Int, (decoded Q).take m = Q.take m := by
      intro Q
      unfold decoded
      rw [List.take_append, List.take_take, Nat.min_eq_left h3.le]
      rcases Nat.lt_or_ge Q.length 3 with hq | hq
      · rw [List.drop_eq_nil_of_le hq.le]
        simp [residuals, rebuild]
      · rw [show m - (Q.take 3).length = 0 by rw [List.length_take]; omega]
        simp
    rw [this, this, h]
  · rw [← decoded_take (.inr h3), ← decoded_take (.inr h3), h]

/-- C113. Two recordings whose calls have the same lengths and whose first `m` blocks are the same, at any level and whatever the samples: the
first `m` blocks played are the same. -/
theorem C113_causal (b b' : Build) (info : StreamInfo) (level : Nat) (hn : 0 < info.channels) (calls calls' : List (List F32))
    (hl : List.Forall₂ (fun p p' => p.length = p'.length) calls calls') (hs : ∀ pcm ∈ calls, pcm.length / info.channels < 65536)
    (hg : NoGap (calls.map fun pcm => pcm.length / info.channels)) (c c' : AdhocCodec)
    (h : encodeAll b (fresh info level) calls = .ok c) (h' : encodeAll b' (fresh info level) calls' = .ok c')
    (m : Nat) (same : (signal info.channels calls).take m = (signal info.channels calls').take m) :
    ∃ sig sig' : List (List F32), sig.length = (signal info.channels calls).length ∧ sig'.length = (signal info.channels calls').length ∧
      sig.take m = sig'.take m ∧
      (∀ d bufs, ∃ e, decodeAll d c.init bufs = .ok (e, (readBlocks info.channels sig bufs).map fun r => (r.1.map (· * (fresh info level).scale), r.2))) ∧
      (∀ d bufs, ∃ e, decodeAll d c'.init bufs = .ok (e, (readBlocks info.channels sig' bufs).map fun r => (r.1.map (· * (fresh info level).scale), r.2))) := by
  have hlen := signal_same (n := info.channels) hl
  have hm : calls'.map (fun pcm => pcm.length / info.channels) = calls.map (fun pcm => pcm.length / info.channels) := by
    clear hs hg h h' same hlen
    induction hl with
    | nil => rfl
    | cons e _ ih => rw [List.map_cons, List.map_cons, ih, e]
  have hs' : ∀ pcm ∈ calls', pcm.length / info.channels < 65536 := by
    intro pcm hp
    have : pcm.length / info.channels ∈ calls'.map (fun pcm => pcm.length / info.channels) := List.mem_map.2 ⟨pcm, hp, rfl⟩
    rw [hm] at this
    obtain ⟨p, hp, e⟩ := List.mem_map.1 this
    rw [← e]
    exact hs p hp
  obtain ⟨Q, hQ, -, hd⟩ := playback hn h hs hg
  obtain ⟨Q', hQ', -, hd'⟩ := playback hn h' hs' (by rw [hm]; exact hg)
  refine ⟨played info.channels (signal info.channels calls).length Q, played info.channels (signal info.channels calls').length Q', by simp [played], by simp [played], ?_, ?_, ?_⟩
  · rw [← hlen]
    unfold played
    rw [← List.map_take, ← List.map_take]
    apply List.map_congr_left
    intro k hk
    have hk' : k < m := by
      rw [List.take_range] at hk
      have := List.mem_range.1 hk
      omega
    apply List.map_congr_left
    intro ch hch
    have hch := List.mem_range.1 hch
    have hQQ : (Q ch).take m = (Q' ch).take m := by
      rw [(hQ ch hch).2, (hQ' ch hch).2]
      apply List.ext_getElem?
      intro i
      rw [List.getElem?_take, List.getElem?_take]
      split
      · rename_i hi
        apply stored_point hch hl
        have := congrArg (fun l : List (List F32) => l[i]?) same
        simp only [List.getElem?_take, if_pos hi] at this
        simp only [chan, List.getElem?_map, this]
      · rfl
    have := congrArg (fun l : List Int => l[k]?) (decoded_causal hQQ)
    simp only [List.getElem?_take, if_pos hk'] at this
    rw [List.getD_eq_getElem?_getD, List.getD_eq_getElem?_getD, this]
  · intro d bufs
    obtain ⟨e, he, -⟩ := hd d bufs
    exact ⟨e, he⟩
  · intro d bufs
    obtain ⟨e, he, -⟩ := hd' d bufs
    exact ⟨e, he⟩

/-- C113, in sync. If nothing is clipped in either recording (as always at levels 4 to 10), a played sample depends on the recorded sample at
its place alone: where the samples are the same, the same is played, whatever differs before and after. -/
theorem C113_pointwise (b b' : Build) (info : StreamInfo) (hn : 0 < info.channels) (L : Nat) (hL : L ≤ 10) (calls calls' : List (List F32))
    (hl : List.Forall₂ (fun p p' => p.length = p'.length) calls calls') (hp : Proper info.channels calls) (hp' : Proper info.channels calls')
    (hsync : ∀ ch < info.channels, InSync (stored (down L) info.channels ch 0 calls))
    (hsync' : ∀ ch < info.channels, InSync (stored (down L) info.channels ch 0 calls')) :
    ∃ c c' sig sig', encodeAll b (fresh info L) calls = .ok c ∧ encodeAll b' (fresh info L) calls' = .ok c' ∧
      (∀ ch < info.channels, ∀ k : Nat, (chan ch (signal info.channels calls))[k]? = (chan ch (signal info.channels calls'))[k]? →
        (chan ch sig)[k]? = (chan ch sig')[k]?) ∧ sig.length = (signal info.channels calls).length ∧ sig'.length = (signal info.channels calls').length ∧
      (∀ d bufs, ∃ e, decodeAll d c.init bufs = .ok (e, readBlocks info.channels sig (bufs.map (·.map (· * up L))))) ∧
      (∀ d bufs, ∃ e, decodeAll d c'.init bufs = .ok (e, readBlocks info.channels sig' (bufs.map (·.map (· * up L))))) := by
  obtain ⟨c, e, -⟩ := decode_inSync b b info hn hL calls hp hsync
  obtain ⟨c', e', -⟩ := decode_inSync b' b' info hn hL calls' hp' hsync'
  have hlen := signal_same (n := info.channels) hl
  refine ⟨c, c', rescaled L info.channels calls, rescaled L info.channels calls', e, e', ?_, by simp [rescaled], by simp [rescaled], ?_, ?_⟩
  · intro ch hch k hk
    have := stored_point (inv := down L) hch hl 0 k hk
    unfold rescaled
    rw [← hlen]
    simp only [chan, List.getElem?_map]
    rcases Nat.lt_or_ge k (signal info.channels calls).length with hk' | hk'
    · rw [List.getElem?_eq_getElem (by simpa using hk'), List.getElem_range]
      simp [hch, List.getD_eq_getElem?_getD, this]
    · rw [List.getElem?_eq_none (by simpa using hk')]
      rfl
  · intro d
    obtain ⟨c2, e2, h2⟩ := decode_inSync b d info hn hL calls hp hsync
    rw [e] at e2
    obtain rfl := Except.ok.inj e2
    exact h2
  · intro d
    obtain ⟨c2, e2, h2⟩ := decode_inSync b' d info hn hL calls' hp' hsync'
    rw [e'] at e2
    obtain rfl := Except.ok.inj e2
    exact h2

/-- a click added at the end of a recording: the calls have the same lengths and the first four blocks are the same -/
example : List.Forall₂ (fun p p' : List F32 => p.length = p'.length) [[ofInt 1, ofInt 0, ofInt 1, ofInt 0, ofInt 1]] [[ofInt 1, ofInt 0, ofInt 1, ofInt 0, ofInt (-1)]] ∧
    (signal 1 [[ofInt 1, ofInt 0, ofInt 1, ofInt 0, ofInt 1]]).take 4 = (signal 1 [[ofInt 1, ofInt 0, ofInt 1, ofInt 0, ofInt (-1)]]).take 4 ∧
    signal 1 [[ofInt 1, ofInt 0, ofInt 1, ofInt 0, ofInt 1]] ≠ signal 1 [[ofInt 1, ofInt 0, ofInt 1, ofInt 0, ofInt (-1)]] := by
  refine ⟨.cons rfl .nil, by decide +kernel, by decide +kernel⟩

/-- without sync the past matters: the fourth code is the same, but not what is decoded -/
example : decoded [32767, -32767, 32767, -32767] = [32767, -32767, 32767, 0] ∧ decoded [0, 0, 0, -32767] = [0, 0, 0, -32767] := by decide +kernel

end Adhoc
