import Verif.Proofs.Resync
import Verif.Props.Seek

/-! # C90: seeking restores synchronisation -/

namespace Adhoc
open Spec

namespace Resync

theorem decAt_zero {c : AdhocCodec} {info : StreamInfo} {blocks : List (Nat → Fr)} {j m : Nat} (H : DecSt c info blocks j m) :
    DecAt 0 c info blocks j m := ⟨H.fl, H.j_le, H.m_le, Nat.zero_le _⟩

theorem DecAt.init {σ : Nat} {c : AdhocCodec} {info : StreamInfo} {blocks : List (Nat → Fr)} {j m : Nat} (H : DecAt σ c info blocks j m) :
    DecSt c.init info blocks 0 0 where
  fl := by
    refine ⟨H.fl.hinfo, by simpa [AdhocCodec.init] using H.fl.chans, ?_, ?_, ?_⟩
    · intro k hk
      have hk' : k < c.channelStateList.length := by simpa [AdhocCodec.init] using hk
      simp only [AdhocCodec.init, List.getElem_map]
      have := H.fl.chan k hk'
      exact ⟨by simp [FrameCodec.init], this.hist.weaken, by simp [FrameCodec.init]⟩
    · have := H.fl.bits
      exact ⟨by simp [AdhocCodec.init, BitStream.seekStart, bitsOf], this.chunks, by simp [bitsOf], this.bit⟩
    · simpa [AdhocCodec.init] using isLog_reset H.fl.log
  j_le := by omega
  m_le := by simp

theorem callStart_zero : ∀ sizes : List Nat, callStart sizes 0 = 0
  | [] => rfl
  | _ :: _ => by simp [callStart]

theorem seek_land {b : Build} {c : AdhocCodec} {info : StreamInfo} (hn : 0 < info.channels) {blocks : List (Nat → Fr)}
    (HR : Rec info.channels blocks) (hsh : Short blocks) (hbits : (bitsOf (flat info.channels blocks)).length < 2 ^ 64)
    {σ j m : Nat} (H : DecAt σ c info blocks j m) (hne : blocks ≠ []) (dt : Nat) (ht : AdhocCodec.seekOffset info dt ≤ rowsIn blocks) :
    ∃ c', c.seek b (.start dt) = .ok c' ∧ SameLevel c c' ∧
      ∃ j', (dt = 0 ∧ j' = 0 ∨ land (sizesOf blocks) (AdhocCodec.seekOffset info dt) =
          (((sizesOf blocks).take j').sum - AdhocCodec.seekOffset info dt, (sizesOf blocks).drop j')) ∧
        DecAt (callStart (sizesOf blocks) (AdhocCodec.seekOffset info dt)) c' info blocks j' (AdhocCodec.seekOffset info dt) := by
  unfold AdhocCodec.seek
  rw [H.fl.hinfo, show expect (some info) = .ok info from rfl, bind_ok]
  dsimp only
  have s0 : SameLevel c c.init := ⟨rfl, rfl, rfl⟩
  by_cases h0 : dt = 0
  · subst h0
    refine ⟨c.init, by rw [if_pos rfl]; rfl, s0, 0, .inl ⟨rfl, rfl⟩, ?_⟩
    rw [seekOffset_zero, callStart_zero]
    exact decAt_zero H.init
  · rw [if_neg h0]
    have := rows_le_bits HR
    obtain ⟨c', e, s, j', hl, h⟩ := seekTo_ok (b := b) hn HR hsh hbits (by omega) (decAt_zero H.init) hne dt ht
    exact ⟨c', e, s0.trans s, j', .inr hl, h⟩

theorem seek_at {b : Build} {c : AdhocCodec} {info : StreamInfo} (hn : 0 < info.channels) {blocks : List (Nat → Fr)}
    (HR : Rec info.channels blocks) (hsh : Short blocks) (hbits : (bitsOf (flat info.channels blocks)).length < 2 ^ 64)
    {σ j m : Nat} (H : DecAt σ c info blocks j m) (hne : blocks ≠ []) (dt : Nat) (ht : AdhocCodec.seekOffset info dt ≤ rowsIn blocks) :
    ∃ c', c.seek b (.start dt) = .ok c' ∧ SameLevel c c' ∧
      ∃ j', DecAt (callStart (sizesOf blocks) (AdhocCodec.seekOffset info dt)) c' info blocks j' (AdhocCodec.seekOffset info dt) := by
  obtain ⟨c', e, s, j', -, h⟩ := seek_land (b := b) hn HR hsh hbits H hne dt ht
  exact ⟨c', e, s, j', h⟩

theorem rows_playedFrom {σ n : Nat} {blocks : List (Nat → Fr)} (HR : Rec n blocks) {m d : Nat} (h : m + d ≤ rowsIn blocks) :
    rows (outColsFrom σ n blocks) m d = (((playedFrom σ n (rowsIn blocks) (codesOf blocks)).drop m).take d).flatten := by
  have e : ((playedFrom σ n (rowsIn blocks) (codesOf blocks)).drop m).take d =
      (List.range d).map fun k => (List.range n).map fun ch => out ((heard σ (codesOf blocks ch)).getD (m + k) 0) := by
    apply List.ext_getElem
    · simp [playedFrom]; omega
    · intro i h1 h2
      simp [playedFrom]
  rw [e, ← List.flatMap_def]
  unfold rows outColsFrom
  apply List.flatMap_congr
  intro k hk
  have hk : k < d := by simpa using hk
  rw [List.map_map]
  apply List.map_congr_left
  intro ch hch
  have hl : m + k < (heard σ (codesOf blocks ch)).length := by
    rw [length_heard, HR.length (by simpa using hch)]; omega
  simp [List.getD_eq_getElem?_getD, List.getElem?_eq_getElem hl]

theorem winds_at {b : Build} {info : StreamInfo} (hn : 0 < info.channels) {blocks : List (Nat → Fr)}
    (HR : Rec info.channels blocks) (hsh : Short blocks) (hng : NoGap (sizesOf blocks))
    (hbits : (bitsOf (flat info.channels blocks)).length < 2 ^ 64) (hne : blocks ≠ []) :
    ∀ (acts : List Act) (_ : ∀ ms, Act.seek ms ∈ acts → AdhocCodec.seekOffset info ms ≤ rowsIn blocks)
      {c : AdhocCodec} {σ j m : Nat} (_ : DecAt σ c info blocks j m),
    winds b c acts = .ok ((resyncTape info.channels (AdhocCodec.seekOffset info) (sizesOf blocks) (codesOf blocks) σ m acts).map
      fun r => (r.1.map (· * c.scale), r.2))
  | [], _, c, σ, j, m, H => rfl
  | .seek ms :: acts, hs, c, σ, j, m, H => by
    obtain ⟨c1, e1, s1, j1, H1⟩ := seek_at (b := b) hn HR hsh hbits H hne ms (hs ms (by simp))
    have := winds_at (b := b) hn HR hsh hng hbits hne acts (fun ms h => hs ms (by simp [h])) H1
    unfold winds
    rw [e1, bind_ok, this, s1.scale]
    rfl
  | .read buf :: acts, hs, c, σ, j, m, H => by
    obtain ⟨c1, j1, d, e1, s1, H1, hd, hmd, hlaw⟩ := decode_ok (b := b) hn HR hsh H buf
    have hlaw := hlaw hng
    have ih := winds_at (b := b) hn HR hsh hng hbits hne acts (fun ms h => hs ms (by simp [h])) H1
    have hsum : (sizesOf blocks).sum = rowsIn blocks := rfl
    have hdd : d = min (buf.length / info.channels) ((sizesOf blocks).sum - m) := by
      rw [hsum]
      omega
    unfold winds
    rw [e1, bind_ok]
    dsimp only
    rw [ih, bind_ok, pure_eq_ok, s1.scale]
    simp only [resyncTape]
    rw [← hdd, rows_playedFrom HR hmd, hsum]
    simp only [List.map_cons]
    congr 3
    by_cases h0 : d = 0
    · subst h0; simp
    · rw [if_pos (by omega), if_neg h0]

end Resync

theorem resyncTape_congr {n : Nat} {pos : Nat → Nat} {sizes : List Nat} {Q Q' : Nat → List Int} (h : ∀ ch < n, Q ch = Q' ch) :
    ∀ (acts : List Act) (s m : Nat), resyncTape n pos sizes Q s m acts = resyncTape n pos sizes Q' s m acts
  | [], _, _ => rfl
  | .seek ms :: acts, s, m => by simp only [resyncTape]; exact resyncTape_congr h acts _ _
  | .read buf :: acts, s, m => by
    have e : playedFrom s n sizes.sum Q = playedFrom s n sizes.sum Q' := by
      unfold playedFrom
      apply List.map_congr_left
      intro k _
      apply List.map_congr_left
      intro ch hch
      rw [h ch (by simpa using hch)]
    simp only [resyncTape, e]
    rw [resyncTape_congr h acts]

/-- C90: reads and seeks in any recording, in sync or not. After a seek the decoder plays what it makes of the differences from the first
row of the call it starts with, given the true codes before that row (`heard`); what was played before the seek has no influence. The
recording may be rewound or loaded from a file; if the first thing is a seek, it need not be rewound. -/
theorem C90_seek_resync (b b' : Build) (info : StreamInfo) (level : Nat) (calls : List (List F32)) (c : AdhocCodec)
    (hn : 0 < info.channels) (h : encodeAll b (fresh info level) calls = .ok c) (hp : Proper info.channels calls) (hne : calls ≠ [])
    (hb : c.stream.stream.bitCursor < 2 ^ 64) (acts : List Act)
    (hs : ∀ ms, Act.seek ms ∈ acts → AdhocCodec.seekOffset info ms ≤ (signal info.channels calls).length) :
    let expected := (resyncTape info.channels (AdhocCodec.seekOffset info) (calls.map fun pcm => pcm.length / info.channels)
      (fun ch => stored (fresh info level).invScale info.channels ch 0 calls) 0 0 acts).map fun r => (r.1.map (· * (fresh info level).scale), r.2)
    winds b' c.init acts = .ok expected ∧
    (∀ ms, acts.head? = some (.seek ms) → winds b' c acts = .ok expected) ∧
    (info.sampleRate < 2 ^ 32 → info.channels < 2 ^ 32 → calls.length * info.channels < 2 ^ 32 →
      ∃ c', AdhocCodec.load b (file c) = .ok (some c') ∧ winds b' c' acts = .ok expected) := by
  obtain ⟨-, blocks, H, HR, s⟩ := recorded_of_ok hn h
  have hrec := HR.toRec hn
  have hsh := HR.short hn hp.short
  have hng := recorded_made HR hn hp.gap
  have hbits : (bitsOf (flat info.channels blocks)).length < 2 ^ 64 := by
    rw [← H.bits.cursor]; exact hb
  have hbne : blocks ≠ [] := by
    rintro rfl
    exact hne (List.eq_nil_of_length_eq_zero (by rw [← HR.len]; rfl))
  have hpl : ∀ s m, resyncTape info.channels (AdhocCodec.seekOffset info) (sizesOf blocks) (codesOf blocks) s m acts =
      resyncTape info.channels (AdhocCodec.seekOffset info) (calls.map fun pcm => pcm.length / info.channels)
      (fun ch => stored (fresh info level).invScale info.channels ch 0 calls) s m acts := by
    intro s m
    rw [HR.sizes hn]
    exact resyncTape_congr (fun ch hch => HR.exact hch) _ _ _
  have hs' : ∀ ms, Act.seek ms ∈ acts → AdhocCodec.seekOffset info ms ≤ rowsIn blocks := by rw [HR.rows hn]; exact hs
  have hinit := decSt_init H
  have key : ∀ {c : AdhocCodec} {σ j m : Nat}, Resync.DecAt σ c info blocks j m → _ :=
    Resync.winds_at (b := b') hn hrec hsh hng hbits hbne acts hs'
  have hsc : c.init.scale = (fresh info level).scale := s.scale
  have h1 := key (Resync.decAt_zero hinit)
  rw [hsc, hpl] at h1
  refine ⟨h1, ?_, ?_⟩
  · intro ms hms
    rw [← h1]
    cases acts with
    | nil => cases hms
    | cons a acts =>
      cases hms
      simp only [winds, rewound_init]
  · intro hr hc hf
    have V := valued_run (b := b) (calls.map Use.encode) (valued_fresh info level) c (by rw [encodeAll_uses]; exact h)
    have hl := load_saved (b := b) (counted_recording hn hr hc hf h (by rw [H.bits.cursor]; exact hbits)) V []
    rw [List.append_nil, ← file_eq] at hl
    refine ⟨_, hl, ?_⟩
    have h2 := key (Resync.decAt_zero (decSt_reloaded hinit))
    rw [show (reloaded c info.channels).scale = (fresh info level).scale from s.scale, hpl] at h2
    exact h2

theorem heard_of_inSyncFrom {s : Nat} {Q : List Int} (h : InSyncFrom s Q) (hr : ∀ q ∈ Q, -32768 ≤ q ∧ q ≤ 32767) : heard s Q = Q := by
  unfold heard
  unfold InSyncFrom at h
  generalize max 3 s = t at *
  rw [rebuild_residuals (Q.drop t) (Q.take t), List.take_append_drop]
  · intro n hn
    have := h (n + t) (by omega) (by simp at hn; omega)
    rw [show List.take t Q ++ List.take n (List.drop t Q) = Q.take (n + t) by
      rw [Nat.add_comm, List.take_add]]
    rw [show (Q.drop t).getD n 0 = Q.getD (n + t) 0 by simp [List.getD_eq_getElem?_getD, List.getElem?_drop, Nat.add_comm]]
    exact this
  · exact fun q hq => hr q (List.mem_of_mem_drop hq)

theorem stored_range {inv : F32} {n ch : Nat} : ∀ (calls : List (List F32)) (k : Nat), ∀ q ∈ stored inv n ch k calls, -32768 ≤ q ∧ q ≤ 32767
  | [], _, q, h => by simp [stored] at h
  | pcm :: calls, k, q, h => by
    simp only [stored, List.mem_append] at h
    rcases h with h | h
    · obtain ⟨x, -, rfl⟩ := List.mem_map.1 h
      have := truncateSample_range x
      omega
    · exact stored_range calls _ q h

/-- the signal with the given codes, as it is played when nothing is lost -/
def Spec.faithful (n len : Nat) (Q : Nat → List Int) : List (List F32) :=
  (List.range len).map fun k => (List.range n).map fun ch => out ((Q ch).getD k 0)

theorem resyncTape_reads {n : Nat} {pos : Nat → Nat} {sizes : List Nat} {Q : Nat → List Int} {s : Nat} (h : ∀ ch < n, heard s (Q ch) = Q ch) :
    ∀ (bufs : List (List F32)) (m : Nat), resyncTape n pos sizes Q s m (bufs.map .read) = readBlocks n ((faithful n sizes.sum Q).drop m) bufs
  | [], _ => rfl
  | buf :: bufs, m => by
    have e : playedFrom s n sizes.sum Q = faithful n sizes.sum Q := by
      unfold playedFrom faithful
      apply List.map_congr_left
      intro k _
      apply List.map_congr_left
      intro ch hch
      rw [h ch (by simpa using hch)]
    have hl : (faithful n sizes.sum Q).length = sizes.sum := by simp [faithful]
    simp only [List.map_cons, resyncTape, readBlocks, e, List.length_drop, hl, List.drop_drop]
    rw [resyncTape_reads h bufs]

/-- C90, the repair: if from the call on that contains the target the differences fit, then a seek to it plays the stored codes exactly
from there on, whatever was lost before. -/
theorem C90_repaired (b b' : Build) (info : StreamInfo) (level : Nat) (calls : List (List F32)) (c : AdhocCodec)
    (hn : 0 < info.channels) (h : encodeAll b (fresh info level) calls = .ok c) (hp : Proper info.channels calls) (hne : calls ≠ [])
    (hb : c.stream.stream.bitCursor < 2 ^ 64) (ms : Nat) (hs : AdhocCodec.seekOffset info ms ≤ (signal info.channels calls).length)
    (hsync : ∀ ch < info.channels, InSyncFrom (callStart (calls.map fun pcm => pcm.length / info.channels) (AdhocCodec.seekOffset info ms))
      (stored (fresh info level).invScale info.channels ch 0 calls)) (bufs : List (List F32)) :
    winds b' c (.seek ms :: bufs.map .read) = .ok ((readBlocks info.channels ((faithful info.channels (signal info.channels calls).length
      fun ch => stored (fresh info level).invScale info.channels ch 0 calls).drop (AdhocCodec.seekOffset info ms)) bufs).map
        fun r => (r.1.map (· * (fresh info level).scale), r.2)) := by
  have key := (C90_seek_resync b b' info level calls c hn h hp hne hb (.seek ms :: bufs.map .read) (by
    intro ms' hm
    rcases List.mem_cons.1 hm with hm | hm
    · cases hm; exact hs
    · obtain ⟨x, -, hx⟩ := List.mem_map.1 hm
      cases hx)).2.1 ms rfl
  rw [key]
  simp only [resyncTape]
  rw [resyncTape_reads (fun ch hch => heard_of_inSyncFrom (hsync ch hch) (stored_range _ _))]
  congr 6
  unfold signal
  rw [List.length_flatMap]
  congr 1
  apply List.map_congr_left
  intro pcm _
  rw [length_blocksOf]

/-- full-scale alternation that ends in silence, and a call of silence -/
def loudThenQuiet : List (List F32) :=
  [[F32.ofInt 1, F32.ofInt (-1), F32.ofInt 1, F32.ofInt (-1), F32.ofInt 0, F32.ofInt 0, F32.ofInt 0], List.replicate 3 (F32.ofInt 0)]

theorem loudThenQuiet_proper : Proper 1 loudThenQuiet := by
  refine ⟨by simp [loudThenQuiet], by simp [loudThenQuiet], ?_⟩
  intro j
  match j with
  | 0 => exact .inl ⟨0, by simp, by simp [loudThenQuiet]⟩
  | 1 => exact .inl ⟨0, by simp, by simp [loudThenQuiet]⟩
  | j + 2 => exact .inr fun t => by simp [loudThenQuiet, Nat.add_right_comm j 2 t]

theorem loudThenQuiet_stored : stored (fresh { sampleRate := 1000, channels := 1 } 0).invScale 1 0 0 loudThenQuiet =
    [32767, -32767, 32767, -32767, 0, 0, 0, 0, 0, 0] := by decide +kernel

/-- played from the start, the second call is full-scale noise; after a seek into it (8 ms at 1000 Hz) it is silent. The hypotheses of
both theorems hold. -/
example : Proper 1 loudThenQuiet ∧ (signal 1 loudThenQuiet).length = 10 ∧
    (∃ c, encodeAll .release (fresh { sampleRate := 1000, channels := 1 } 0) loudThenQuiet = .ok c ∧ c.stream.stream.bitCursor < 2 ^ 64) ∧
    AdhocCodec.seekOffset { sampleRate := 1000, channels := 1 } 8 = 8 ∧
    callStart (loudThenQuiet.map fun pcm => pcm.length / 1) 8 = 7 ∧
    InSyncFrom 7 (stored (fresh { sampleRate := 1000, channels := 1 } 0).invScale 1 0 0 loudThenQuiet) ∧
    decoded (stored (fresh { sampleRate := 1000, channels := 1 } 0).invScale 1 0 0 loudThenQuiet) =
      [32767, -32767, 32767, 0, -1, -3, 32760, 32767, 17, -32767] ∧
    heard 7 (stored (fresh { sampleRate := 1000, channels := 1 } 0).invScale 1 0 0 loudThenQuiet) =
      [32767, -32767, 32767, -32767, 0, 0, 0, 0, 0, 0] := by
  rw [loudThenQuiet_stored]
  refine ⟨loudThenQuiet_proper, by decide +kernel, ?_, by decide +kernel, by decide +kernel, ?_, by decide +kernel, by decide +kernel⟩
  · have h : (match encodeAll .release (fresh { sampleRate := 1000, channels := 1 } 0) loudThenQuiet with
      | .ok c => decide (c.stream.stream.bitCursor < 2 ^ 64)
      | .error _ => false) = true := by decide +kernel
    split at h
    · rename_i c hc
      exact ⟨c, hc, of_decide_eq_true h⟩
    · cases h
  · have h : ∀ n < 10, 7 ≤ n → -32767 ≤ ([32767, -32767, 32767, -32767, 0, 0, 0, 0, 0, 0] : List Int).getD n 0 -
        guess (([32767, -32767, 32767, -32767, 0, 0, 0, 0, 0, 0] : List Int).take n) ∧
        ([32767, -32767, 32767, -32767, 0, 0, 0, 0, 0, 0] : List Int).getD n 0 -
        guess (([32767, -32767, 32767, -32767, 0, 0, 0, 0, 0, 0] : List Int).take n) ≤ 32766 := by decide +kernel
    exact fun n h7 hn => h n hn (by omega)

end Adhoc
