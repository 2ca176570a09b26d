import Verif.Props.Gaps
import Verif.Props.Levels

/-! # C01, C03 and C04 without the condition on gaps -/

namespace Adhoc
open Spec F32

/-- The stored codes come back, whatever calls are empty. -/
theorem decode_inSync_gaps (b b' : Build) (info : StreamInfo) (hn : 0 < info.channels) {L : Nat} (hL : L ≤ 10) (calls : List (List F32))
    (h3 : ∀ pcm ∈ calls.head?, 3 ≤ pcm.length / info.channels) (hs : ∀ pcm ∈ calls, pcm.length / info.channels < 65536)
    (hsync : ∀ ch < info.channels, InSync (stored (down L) info.channels ch 0 calls)) :
    ∃ c, encodeAll b (fresh info L) calls = .ok c ∧ ∀ bufs, ∃ c',
      decodeAll b' c.init bufs = .ok (c', readGaps info.channels (rescaled L info.channels calls) 0 (calls.map fun pcm => pcm.length / info.channels)
        (bufs.map (·.map (· * up L)))) := by
  obtain ⟨hup, hdown⟩ := fresh_up info hL
  obtain ⟨c, blocks, e, -, -, -⟩ := encodeAll_calls (b := b) hn L calls h3 (.inr ⟨hs, by
    intro ch hch
    rw [hdown]
    exact inSync_quiet (hsync ch hch)⟩)
  refine ⟨c, e, fun bufs => ?_⟩
  obtain ⟨Q, hQ, c', e'⟩ := C07_counts_partial b b' info L hn calls c e hs bufs
  refine ⟨c', ?_⟩
  rw [e', hup, readGaps_map, played_rescaled hsync fun ch hch => by rw [hQ ch hch, hdown]]

/-! ## C01 -/

/-- C01 with any empty calls. As `C01_round_trip`, and also when nine calls in a row say nothing: the samples are the 16-bit quantisation of the signal, in order, and what
every call returns is given by the sizes of the calls (it can return `None` early, C07). -/
theorem C01_gaps (b b' : Build) (info : StreamInfo) (hn : 0 < info.channels) (calls : List (List F32))
    (h3 : ∀ pcm ∈ calls.head?, 3 ≤ pcm.length / info.channels) (hs : ∀ pcm ∈ calls, pcm.length / info.channels < 65536)
    (hsync : ∀ ch < info.channels, InSync (Spec.codes ch (signal info.channels calls))) :
    ∃ c, encodeAll b (fresh info 0) calls = .ok c ∧ ∀ bufs, ∃ c',
      decodeAll b' c.init bufs = .ok (c', readGaps info.channels ((signal info.channels calls).map (·.map quantise)) 0
        (calls.map fun pcm => pcm.length / info.channels) bufs) := by
  have hone : ∀ ch < info.channels, stored (fresh info 0).invScale info.channels ch 0 calls = Spec.codes ch (signal info.channels calls) := by
    intro ch hch
    rw [(fresh_zero info).2, stored_one hch]
  obtain ⟨c, blocks, e, -, -, -⟩ := encodeAll_calls (b := b) hn 0 calls h3 (.inr ⟨hs, by
    intro ch hch
    rw [hone ch hch]
    exact inSync_quiet (hsync ch hch)⟩)
  refine ⟨c, e, fun bufs => ?_⟩
  obtain ⟨Q, hQ, c', e'⟩ := C07_counts_partial b b' info 0 hn calls c e hs bufs
  refine ⟨c', ?_⟩
  rw [e', (fresh_zero info).1, map_mul_one]
  have : played info.channels (signal info.channels calls).length Q =
      played info.channels (signal info.channels calls).length (fun ch => Spec.codes ch (signal info.channels calls)) := by
    unfold played
    apply List.map_congr_left
    intro k _
    apply List.map_congr_left
    intro ch hch
    rw [hQ ch (by simpa using hch), hone ch (by simpa using hch)]
  rw [this, played_inSync signal_width hsync]

/-- three samples, nothing nine times, one sample -/
def pausing : List (List F32) := [F32.ofRat (1 / 2), F32.ofRat (1 / 4), F32.ofRat (1 / 3)] :: List.replicate 9 [] ++ [[F32.ofRat (-1 / 5)]]

example : (∀ pcm ∈ pausing.head?, 3 ≤ pcm.length / 1) ∧ (∀ pcm ∈ pausing, pcm.length / 1 < 65536) ∧ (∀ ch < 1, InSync (Spec.codes ch (signal 1 pausing))) ∧
    (readGaps 1 ((signal 1 pausing).map (·.map quantise)) 0 (pausing.map fun pcm => pcm.length / 1) (List.replicate 6 [F32.ofInt 0])).map Prod.snd =
      [some 1, some 1, some 1, none, some 1, none] := by
  refine ⟨by decide +kernel, by decide +kernel, ?_, by decide +kernel⟩
  intro ch hch
  interval_cases ch
  exact inSync_of_all (by decide +kernel)

/-! ## C03 -/

/-- C03 with any empty calls. -/
theorem C03_gaps (b b' : Build) (info : StreamInfo) (hn : 0 < info.channels) (L : Nat) (h4 : 4 ≤ L) (hL : L ≤ 10) (calls : List (List F32))
    (h3 : ∀ pcm ∈ calls.head?, 3 ≤ pcm.length / info.channels) (hs : ∀ pcm ∈ calls, pcm.length / info.channels < 65536)
    (hu : ∀ pcm ∈ calls, ∀ x ∈ pcm, Unit x) :
    (∀ ch < info.channels, InSync (stored (down L) info.channels ch 0 calls)) ∧
    ∃ c, encodeAll b (fresh info L) calls = .ok c ∧ ∀ bufs, ∃ c',
      decodeAll b' c.init bufs = .ok (c', readGaps info.channels (rescaled L info.channels calls) 0 (calls.map fun pcm => pcm.length / info.channels)
        (bufs.map (·.map (· * up L)))) := by
  have h := fun ch hch => inSync_high h4 hL (n := info.channels) (ch := ch) hch (wide_of_unit hu)
  exact ⟨h, decode_inSync_gaps b b' info hn hL calls h3 hs h⟩

example : (∀ pcm ∈ pausing.head?, 3 ≤ pcm.length / 1) ∧ (∀ pcm ∈ pausing, pcm.length / 1 < 65536) ∧ ∀ pcm ∈ pausing, ∀ x ∈ pcm, Unit x :=
  ⟨by decide +kernel, by decide +kernel, unit_all pausing (by decide +kernel)⟩

/-! ## C04 -/

/-- C04 with any empty calls. -/
theorem C04_gaps (b b' : Build) (info : StreamInfo) (hn : 0 < info.channels) (L : Nat) (hL : L ≤ 10) (calls : List (List F32))
    (h3 : ∀ pcm ∈ calls.head?, 3 ≤ pcm.length / info.channels) (hs : ∀ pcm ∈ calls, pcm.length / info.channels < 65536)
    (hu : ∀ pcm ∈ calls, ∀ x ∈ pcm, Unit x) (hsync : ∀ ch < info.channels, InSync (stored (down L) info.channels ch 0 calls)) :
    ∃ c sig, encodeAll b (fresh info L) calls = .ok c ∧
      List.Forall₂ (List.Forall₂ (Near (levelError L))) (signal info.channels calls) sig ∧
      ∀ bufs, ∃ c', decodeAll b' c.init bufs = .ok (c', readGaps info.channels sig 0 (calls.map fun pcm => pcm.length / info.channels)
        (bufs.map (·.map (· * up L)))) := by
  obtain ⟨c, e, hd⟩ := decode_inSync_gaps b b' info hn hL calls h3 hs hsync
  exact ⟨c, _, e, rescaled_near hL (wide_of_unit hu) (fun _ => hu), hd⟩

/-- at level 6 all its hypotheses are met by `pausing` -/
example : (∀ pcm ∈ pausing, ∀ x ∈ pcm, Unit x) ∧ ∀ ch < 1, InSync (stored (down 6) 1 ch 0 pausing) := by
  have hu := unit_all pausing (by decide +kernel)
  exact ⟨hu, (C03_gaps .debug .debug { sampleRate := 8000, channels := 1 } (by simp) 6 (by omega) (by omega) pausing (by decide +kernel)
    (by decide +kernel) hu).1⟩

end Adhoc
