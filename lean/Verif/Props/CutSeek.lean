import Verif.Props.Seek

/-! # C159: how a recording was cut into calls cannot be heard, seeks included -/

namespace Adhoc
open Spec F32

theorem played_level_zero {info : StreamInfo} {calls : List (List F32)} (hsync : ∀ ch < info.channels, InSync (Spec.codes ch (signal info.channels calls))) :
    (played info.channels (signal info.channels calls).length fun ch => stored (fresh info 0).invScale info.channels ch 0 calls) =
      (signal info.channels calls).map (·.map quantise) := by
  rw [← played_inSync signal_width hsync]
  unfold played
  refine List.map_congr_left fun k _ => List.map_congr_left fun ch hch => ?_
  dsimp only
  rw [stored_level_zero info calls (by simpa using hch)]

/-- C159. Two recordings of the same signal (same whole blocks) at level 0, in sync, cut into calls in any two proper ways and made and played in any builds:
every sequence of seeks and reads, to any time up to the end, gives the same samples and counts on both, rewound, and on the two files loaded; it is what a tape
of the signal gives. -/
theorem C159_cuts (b₁ b₂ b' b'' : Build) (info : StreamInfo) (calls calls' : List (List F32)) (c c' : AdhocCodec) (hn : 0 < info.channels)
    (hsame : signal info.channels calls = signal info.channels calls')
    (hp : Proper info.channels calls) (hp' : Proper info.channels calls') (hne : calls ≠ []) (hne' : calls' ≠ [])
    (hsync : ∀ ch < info.channels, InSync (Spec.codes ch (signal info.channels calls)))
    (h : encodeAll b₁ (fresh info 0) calls = .ok c) (h' : encodeAll b₂ (fresh info 0) calls' = .ok c')
    (hb : c.stream.stream.bitCursor < 2 ^ 64) (hb' : c'.stream.stream.bitCursor < 2 ^ 64) (acts : List Act)
    (hs : ∀ ms, Act.seek ms ∈ acts → AdhocCodec.seekOffset info ms ≤ (signal info.channels calls).length) :
    winds b' c.init acts = winds b'' c'.init acts ∧
    winds b' c.init acts = .ok (tape info.channels (AdhocCodec.seekOffset info) ((signal info.channels calls).map (·.map quantise)) 0 acts) ∧
    (info.sampleRate < 2 ^ 32 → info.channels < 2 ^ 32 → calls.length * info.channels < 2 ^ 32 → calls'.length * info.channels < 2 ^ 32 →
      ∃ l l', AdhocCodec.load b₁ (file c) = .ok (some l) ∧ AdhocCodec.load b₂ (file c') = .ok (some l') ∧ winds b' l acts = winds b'' l' acts) := by
  have hst : ∀ (k : List (List F32)), (∀ ch < info.channels, InSync (Spec.codes ch (signal info.channels k))) →
      ∀ ch < info.channels, InSync (stored (fresh info 0).invScale info.channels ch 0 k) :=
    fun k hk ch hch => by rw [stored_level_zero info k hch]; exact hk ch hch
  have hsync' : ∀ ch < info.channels, InSync (Spec.codes ch (signal info.channels calls')) := by rw [← hsame]; exact hsync
  have k1 := C12_seek_is_skip b₁ b' info 0 calls c hn h hp hne (hst _ hsync) hb acts hs
  have k2 := C12_seek_is_skip b₂ b'' info 0 calls' c' hn h' hp' hne' (hst _ hsync') hb' acts (by rw [← hsame]; exact hs)
  dsimp only at k1 k2
  rw [played_level_zero hsync, (fresh_zero info).1, map_mul_one] at k1
  rw [played_level_zero hsync', (fresh_zero info).1, map_mul_one, ← hsame] at k2
  refine ⟨by rw [k1.1, k2.1], k1.1, fun h1 h2 h3 h4 => ?_⟩
  obtain ⟨l, e, w⟩ := k1.2.2 h1 h2 h3
  obtain ⟨l', e', w'⟩ := k2.2.2 h1 h2 h4
  exact ⟨l, l', e, e', by rw [w, w']⟩

/-- `demo` in one call, without the incomplete block at its end -/
def demoJoined : List (List F32) := [(signal 2 demo).flatten]

/-- the same signal; both can be recorded, and the second and the last block are found in both -/
example : signal 2 demoJoined = signal 2 demo ∧ demoJoined.length = 1 ∧ demo.length = 2 ∧
    ((encodeAll .debug (fresh { sampleRate := 1000, channels := 2 } 0) demoJoined) >>= fun c =>
      winds .debug c.init [.seek 5, .read [F32.ofInt 0, F32.ofInt 0], .seek 1, .read [F32.ofInt 0, F32.ofInt 0], .seek 6, .read [F32.ofInt 0, F32.ofInt 0]]) =
    ((encodeAll .release (fresh { sampleRate := 1000, channels := 2 } 0) demo) >>= fun c =>
      winds .release c.init [.seek 5, .read [F32.ofInt 0, F32.ofInt 0], .seek 1, .read [F32.ofInt 0, F32.ofInt 0], .seek 6, .read [F32.ofInt 0, F32.ofInt 0]]) := by
  decide +kernel

/-- and the one call is proper as well -/
example : Proper 2 demoJoined := by
  have hl : (signal 2 demo).flatten.length = 12 := by decide +kernel
  refine ⟨by simp [demoJoined, hl], by simp [demoJoined, hl], ?_⟩
  intro j
  match j with
  | 0 => exact .inl ⟨0, by simp, by simp [demoJoined, hl]⟩
  | j + 1 => exact .inr fun t => by simp [demoJoined, Nat.add_right_comm j 1 t]

end Adhoc
