import Verif.Props.Gaps
import Verif.Props.SeekAny
import Verif.Props.Resync

/-! # C06, C12, C90, C127 and C130 without the condition on gaps -/

namespace Adhoc
open Spec

namespace Spec

/-- Reads and seeks when any frames may be empty: `sizes` are the sizes of all frames, `sig s` is what is heard when playing started with the frame at row `s`, `m` is the row that
is read next, `have_` are the rows decoded but not delivered and `rest` the sizes of the frames not yet decoded. -/
def gapTape (n : Nat) (pos : Nat → Nat) (sizes : List Nat) (sig : Nat → List (List F32)) :
    (s m : Nat) → (have_ : Nat) → (rest : List Nat) → List Act → List (List F32 × Option Nat)
  | _, _, _, _, [] => []
  | _, _, _, _, .seek ms :: acts => gapTape n pos sizes sig (callStart sizes (pos ms)) (pos ms) (land sizes (pos ms)).1 (land sizes (pos ms)).2 acts
  | s, m, a, rest, .read buf :: acts =>
    let d := (serve (buf.length / n) a rest).1
    ((((sig s).drop m).take d).flatten ++ buf.drop (d * n), if d = 0 then none else some (d * n)) ::
      gapTape n pos sizes sig s (m + d) (serve (buf.length / n) a rest).2.1 (serve (buf.length / n) a rest).2.2 acts

/-- What the calls return is a piece of `sig` from its start, no more than there is room for, and all of it if every buffer has room for a block and there are as many calls as
blocks, and one more for every ten frames. -/
def Drains (n frames : Nat) (sig bufs : List (List F32)) (outs : List (List F32 × Option Nat)) : Prop :=
  ∃ d ≤ sig.length, delivered outs = (sig.take d).flatten ∧ d ≤ (bufs.map (·.length / n)).sum ∧
    ((∀ buf ∈ bufs, n ≤ buf.length) → sig.length + (frames + 9) / 10 ≤ bufs.length → d = sig.length)

end Spec

/-- whether the first frame has been decoded ahead cannot be seen -/
theorem gapTape_ahead {n : Nat} {pos : Nat → Nat} {sizes : List Nat} {sig : Nat → List (List F32)} {z : Nat} {zs : List Nat} (hz : 0 < z) :
    ∀ (acts : List Act) (s m : Nat), gapTape n pos sizes sig s m 0 (z :: zs) acts = gapTape n pos sizes sig s m z zs acts
  | [], _, _ => rfl
  | .seek ms :: acts, _, _ => rfl
  | .read buf :: acts, s, m => by
    obtain ⟨y, rfl⟩ : ∃ y, z = y + 1 := ⟨z - 1, by omega⟩
    have key : serve (buf.length / n) 0 ((y + 1) :: zs) = if buf.length / n = 0 then (0, 0, (y + 1) :: zs) else serve (buf.length / n) (y + 1) zs := by
      rcases buf.length / n with _ | q
      · rfl
      · rw [if_neg (by omega)]
        conv_lhs => unfold serve
        simp [serve]
    have key' : buf.length / n = 0 → serve (buf.length / n) (y + 1) zs = (0, y + 1, zs) := fun h => by rw [h]; rfl
    simp only [gapTape]
    rw [key]
    by_cases h : buf.length / n = 0
    · rw [if_pos h, key' h, gapTape_ahead hz acts]
    · rw [if_neg h]

/-- recordings, in sync or not, from any frame on -/
theorem steps_at {b : Build} {info : StreamInfo} (hn : 0 < info.channels) {blocks : List (Nat → Fr)} (HR : Rec info.channels blocks) (hsh : Short blocks) (σ : Nat) :
    Steps b info.channels (sizesOf blocks) (Resync.outColsFrom σ info.channels blocks) (fun c j m => Resync.DecAt σ c info blocks j m) where
  pos := hn
  width := by simp [Resync.outColsFrom]
  info H := ⟨info, H.fl.hinfo, rfl⟩
  le H := by rw [sizesOf_sum]; exact H.m_le
  empty H := by rw [sizesOf_sum]; exact Resync.isBuffersEmpty_iff hn HR H
  block {c j m} H := by
    by_cases hj : j < blocks.length
    · obtain ⟨c1, e1, s1, H1⟩ := Resync.decodeBlock_ok (b := b) HR hsh H hj
      have hj' : j < (sizesOf blocks).length := by simpa [sizesOf] using hj
      refine ⟨c1, j + 1, e1, s1, H1, ?_, by rw [List.tail_drop]⟩
      rw [sizesOf_sum, sizesOf_sum, rowsIn_take_succ hj, List.drop_eq_getElem_cons hj']
      simp [sizesOf]
    · have hjl : j = blocks.length := by have := H.j_le; omega
      subst hjl
      obtain ⟨c1, e1, s1, H1⟩ := Resync.decodeBlock_end (b := b) H
      have hd : (sizesOf blocks).drop blocks.length = [] := by simp [sizesOf]
      exact ⟨c1, blocks.length, e1, s1, H1, by rw [hd]; rfl, by rw [hd]; rfl⟩
  pop H hm _ _ _ h1 h2 := Resync.popRow_ok HR hn H (by rw [sizesOf_sum] at hm; exact hm) h1 h2

/-- one read -/
theorem Steps.read {b : Build} {n : Nat} {sizes : List Nat} {cols : List (List F32)} {St : AdhocCodec → Nat → Nat → Prop} (T : Steps b n sizes cols St)
    {sig : List (List F32)} (hsig : ∀ m d, m + d ≤ sizes.sum → rows cols m d = ((sig.drop m).take d).flatten) {c : AdhocCodec} {j m : Nat} (H : St c j m)
    (buf : List F32) : ∃ c' j' d, c.decode b buf = .ok (c', (((sig.drop m).take d).flatten ++ buf.drop (d * n)).map (· * c.scale), if d = 0 then none else some (d * n)) ∧
      SameLevel c c' ∧ St c' j' (m + d) ∧
      serve (buf.length / n) ((sizes.take j).sum - m) (sizes.drop j) = (d, (sizes.take j').sum - (m + d), sizes.drop j') := by
  obtain ⟨c1, j1, d, e1, s1, H1, hs⟩ := T.decode H buf
  have hle := T.le H1
  have hsum : (sizes.take j1).sum ≤ sizes.sum := by
    conv_rhs => rw [← List.take_append_drop j1 sizes, List.sum_append]
    omega
  rw [hsig m d (by omega)] at e1
  exact ⟨c1, j1, d, e1, s1, H1, hs⟩

theorem first_call {n : Nat} {blocks : List (Nat → Fr)} (hn : 0 < n) (HR : Rec n blocks) (hne : blocks ≠ []) :
    ∃ z zs, sizesOf blocks = z :: zs ∧ 0 < z := by
  cases blocks with
  | nil => exact absurd rfl hne
  | cons blk blocks =>
    refine ⟨(blk 0).codes.length, sizesOf blocks, rfl, ?_⟩
    have hw := HR.wf 0 (by simp) 0 hn
    have hp := HR.pre 0 (by simp) 0 hn
    simp at hp
    have := hw.first hp
    simp at this
    omega

theorem winds_gaps_at {b : Build} {info : StreamInfo} (hn : 0 < info.channels) {blocks : List (Nat → Fr)} (HR : Rec info.channels blocks) (hsh : Short blocks)
    (hbits : (bitsOf (flat info.channels blocks)).length < 2 ^ 64) (hne : blocks ≠ []) :
    ∀ (acts : List Act) (_ : ∀ ms, Act.seek ms ∈ acts → AdhocCodec.seekOffset info ms ≤ rowsIn blocks) {c : AdhocCodec} {σ j m : Nat}
      (_ : Resync.DecAt σ c info blocks j m),
    winds b c acts = .ok ((gapTape info.channels (AdhocCodec.seekOffset info) (sizesOf blocks) (fun s => playedFrom s info.channels (rowsIn blocks) (codesOf blocks)) σ m
      (((sizesOf blocks).take j).sum - m) ((sizesOf blocks).drop j) acts).map fun r => (r.1.map (· * c.scale), r.2))
  | [], _, c, σ, j, m, H => rfl
  | .seek ms :: acts, hs, c, σ, j, m, H => by
    obtain ⟨c1, e1, s1, j1, hl, H1⟩ := Resync.seek_land (b := b) hn HR hsh hbits H hne ms (hs ms (by simp))
    have ih := winds_gaps_at (b := b) hn HR hsh hbits hne acts (fun ms h => hs ms (by simp [h])) H1
    unfold winds
    rw [e1, bind_ok, ih, s1.scale]
    simp only [gapTape]
    rcases hl with ⟨rfl, rfl⟩ | hl
    · obtain ⟨z, zs, hzs, hz⟩ := first_call hn HR hne
      rw [seekOffset_zero, List.take_zero, List.drop_zero, List.sum_nil, hzs]
      rw [Nat.sub_zero, gapTape_ahead hz]
      simp [land]
    · rw [hl]
  | .read buf :: acts, hs, c, σ, j, m, H => by
    obtain ⟨c1, j1, d, e1, s1, H1, hd⟩ := (steps_at (b := b) hn HR hsh σ).read
      (sig := playedFrom σ info.channels (rowsIn blocks) (codesOf blocks)) (fun m d h => Resync.rows_playedFrom HR h) H buf
    have ih := winds_gaps_at (b := b) hn HR hsh hbits hne acts (fun ms h => hs ms (by simp [h])) H1
    unfold winds
    rw [e1, bind_ok]
    dsimp only
    rw [ih, bind_ok, pure_eq_ok, s1.scale]
    simp only [gapTape]
    rw [hd]
    simp only [List.map_cons]

theorem winds_gaps_clip {b : Build} {info : StreamInfo} (hn : 0 < info.channels) {rows : List (Nat → Clip)}
    (HR : Laid info.channels rows) (h64 : rowSum rows * info.channels < 2 ^ 64) (hne : rows ≠ []) :
    ∀ (acts : List Act) (_ : ∀ ms, Act.seek ms ∈ acts → AdhocCodec.seekOffset info ms ≤ rowSum rows)
      {c : AdhocCodec} {σ j m : Nat} (_ : ClipSt c info rows j m) (_ : Marked c.frameHeaderList info.channels rows),
    winds b c acts = .ok ((gapTape info.channels (AdhocCodec.seekOffset info) (rowSizes rows) (fun _ => sung info.channels rows) σ m
      (((rowSizes rows).take j).sum - m) ((rowSizes rows).drop j) acts).map fun r => (r.1.map (· * c.scale), r.2))
  | [], _, c, σ, j, m, H, _ => rfl
  | .seek ms :: acts, hs, c, σ, j, m, H, M => by
    obtain ⟨c1, e1, s1, j1, hl, H1⟩ := seek_land_clip (b := b) hn HR h64 H M hne ms (hs ms (by simp))
    have ih := winds_gaps_clip (b := b) hn HR h64 hne acts (fun ms h => hs ms (by simp [h])) (σ := callStart (rowSizes rows) (AdhocCodec.seekOffset info ms)) H1
      (M.kept (leafed_seek c ms c1 e1).hdr)
    unfold winds
    rw [e1, bind_ok, ih, s1.scale]
    simp only [gapTape]
    rcases hl with ⟨rfl, rfl⟩ | hl
    · obtain ⟨z, zs, hzs, hz⟩ : ∃ z zs, rowSizes rows = z :: zs ∧ 0 < z := by
        cases rows with
        | nil => exact absurd rfl hne
        | cons r rows =>
          refine ⟨(r 0).size, rowSizes rows, rfl, ?_⟩
          have := HR.start 0 (by simp) 0 hn
          rw [if_pos rfl] at this
          simp at this
          unfold Clip.size
          omega
      rw [seekOffset_zero, List.take_zero, List.drop_zero, List.sum_nil, hzs]
      rw [Nat.sub_zero, gapTape_ahead hz]
      simp [land]
    · rw [hl]
  | .read buf :: acts, hs, c, σ, j, m, H, M => by
    obtain ⟨c1, j1, d, e1, s1, H1, hd⟩ := (steps_clip (b := b) hn HR).read (sig := sung info.channels rows) (fun m d h => rows_sung HR h) H buf
    have ih := winds_gaps_clip (b := b) hn HR h64 hne acts (fun ms h => hs ms (by simp [h])) (σ := σ) H1 (M.kept (leafed_decode c buf _ e1).hdr)
    unfold winds
    rw [e1, bind_ok]
    dsimp only
    rw [ih, bind_ok, pure_eq_ok, s1.scale]
    simp only [gapTape]
    rw [hd]
    simp only [List.map_cons]

/-! ## C06 -/

theorem Steps.drain {b : Build} {n : Nat} {sizes : List Nat} {cols : List (List F32)} {St : AdhocCodec → Nat → Nat → Prop} (T : Steps b n sizes cols St)
    {sig : List (List F32)} (hsig : ∀ m d, m + d ≤ sizes.sum → rows cols m d = ((sig.drop m).take d).flatten) :
    ∀ (bufs : List (List F32)) {c : AdhocCodec} {j m : Nat} (_ : St c j m),
    ∃ c' outs j' m', decodeAll b c bufs = .ok (c', outs) ∧ SameLevel c c' ∧ St c' j' m' ∧ m ≤ m' ∧ m' ≤ m + (bufs.map (·.length / n)).sum ∧
      delivered outs = ((sig.drop m).take (m' - m)).flatten.map (· * c.scale) ∧
      ((∀ buf ∈ bufs, n ≤ buf.length) → sizes.sum - m + ((sizes.drop j).length + 9) / 10 ≤ bufs.length → sizes.sum ≤ m')
  | [], c, j, m, H => ⟨c, [], j, m, rfl, .refl c, H, le_rfl, by simp, by simp [delivered], fun _ h => by simp at h; omega⟩
  | buf :: bufs, c, j, m, H => by
    obtain ⟨c1, j1, d, e1, s1, H1, hs⟩ := T.decode H buf
    obtain ⟨c2, outs, j2, m2, e2, s2, H2, hm, hm2, hl, hend⟩ := T.drain hsig bufs H1
    have h1 := T.le H
    have h2 := T.le H1
    have hsv := serve_sum (buf.length / n) ((sizes.take j).sum - m) (sizes.drop j)
    rw [hs] at hsv
    dsimp only at hsv
    obtain ⟨hsum, hdq, hlen, hprog⟩ := hsv
    have hsplit : ∀ i, (sizes.take i).sum + (sizes.drop i).sum = sizes.sum := fun i => by rw [← List.sum_append, List.take_append_drop]
    refine ⟨c2, _, j2, m2, by unfold decodeAll; rw [e1, bind_ok]; dsimp only; rw [e2, bind_ok]; rfl, s1.trans s2, H2, by omega, ?_, ?_, ?_⟩
    · rw [List.map_cons, List.sum_cons]
      omega
    · unfold delivered at hl ⊢
      rw [List.flatMap_cons, hl, s1.scale]
      have hr : (rows cols m d).length = d * n := by rw [length_rows, T.width]
      have : m2 - m = d + (m2 - (m + d)) := by omega
      rw [this, List.take_add, List.flatten_append, List.map_append, List.drop_drop, ← hsig m d (by have := hsplit j1; omega)]
      by_cases h0 : d = 0
      · subst h0; simp [rows]
      · rw [if_neg h0, Option.getD_some, List.map_append, List.take_left']
        rw [List.length_map, hr]
    · intro hroom hN
      have hq : 0 < buf.length / n := Nat.div_pos (hroom buf (by simp)) T.pos
      rw [List.length_cons] at hN
      apply hend (fun x hx => hroom x (by simp [hx]))
      rcases hprog hq with hd | ⟨h0, hd⟩
      · have := hsplit j1
        omega
      · rw [hd]
        have := hsplit j
        by_cases hz : (sizes.drop j).length = 0
        · have hnil := List.length_eq_zero_iff.1 hz
          rw [hnil] at this
          simp at this
          simp [hnil]
          omega
        · simp only [List.length_drop] at hN hz ⊢
          omega

/-- C06 with any empty calls. The fixed signal is the same, but `None` can come before its end (C07): whatever the buffers, what is delivered is a piece of it from its start, and
enough calls deliver all of it. Rewinding after any number of calls starts over. -/
theorem C06_gaps (b : Build) (info : StreamInfo) (level : Nat) (hn : 0 < info.channels) (calls : List (List F32)) (c : AdhocCodec)
    (h : encodeAll b (fresh info level) calls = .ok c) (hs : ∀ pcm ∈ calls, pcm.length / info.channels < 65536) :
    ∃ sig : List (List F32), sig.length = (signal info.channels calls).length ∧ (∀ blk ∈ sig, blk.length = info.channels) ∧
      ∀ b' bufs, ∃ c' outs, decodeAll b' c.init bufs = .ok (c', outs) ∧ Drains info.channels calls.length sig bufs outs ∧
        ∀ b'' bufs', ∃ c'' outs', decodeAll b'' c'.init bufs' = .ok (c'', outs') ∧ Drains info.channels calls.length sig bufs' outs' := by
  obtain ⟨-, blocks, H, HR, s⟩ := recorded_of_ok hn h
  have hrec := HR.toRec hn
  have hsh := HR.short hn hs
  have hsc : c.init.scale = (fresh info level).scale := s.scale
  obtain ⟨sig, hsig⟩ : ∃ sig, sig = played info.channels (rowsIn blocks) (codesOf blocks) := ⟨_, rfl⟩
  have hlen : sig.length = (signal info.channels calls).length := by rw [hsig, ← HR.rows hn]; simp [played]
  have hsum : (sizesOf blocks).sum = sig.length := by rw [hlen, ← HR.rows hn]; rfl
  have hfr : (sizesOf blocks).length = calls.length := by rw [HR.sizes hn, List.length_map]
  have key : ∀ (b' : Build) (bufs : List (List F32)) {c : AdhocCodec}, DecSt c info blocks 0 0 → c.scale = (fresh info level).scale →
      ∃ c' outs, decodeAll b' c bufs = .ok (c', outs) ∧ Drains info.channels calls.length (sig.map (·.map (· * (fresh info level).scale))) bufs outs ∧
        c'.scale = (fresh info level).scale ∧ ∃ j m, DecSt c' info blocks j m := by
    intro b' bufs c hc hcs
    have T := steps_rec (b := b') hn hrec hsh
    obtain ⟨c', outs, j', m', e, s', H', -, hroom, hl, hend⟩ := T.drain (sig := sig) (fun m d hmd => by rw [hsig]; exact rows_played hrec hmd) bufs hc
    have hle := T.le H'
    have htake : ((sizesOf blocks).take j').sum ≤ (sizesOf blocks).sum := by
      conv_rhs => rw [← List.take_append_drop j' (sizesOf blocks), List.sum_append]
      omega
    rw [List.drop_zero, Nat.sub_zero, hcs] at hl
    refine ⟨c', outs, e, ⟨m', by rw [List.length_map]; omega, by rw [hl, ← List.map_take, List.map_flatten], by omega, fun h1 h2 => ?_⟩,
      s'.scale.trans hcs, j', m', H'⟩
    rw [List.length_map] at h2 ⊢
    have := hend h1 (by rw [List.drop_zero, hfr, Nat.sub_zero, hsum]; exact h2)
    omega
  refine ⟨sig.map (·.map (· * (fresh info level).scale)), by rw [List.length_map]; exact hlen, ?_, ?_⟩
  · intro blk hb
    rw [hsig] at hb
    simp only [played, List.map_map, List.mem_map] at hb
    obtain ⟨k, -, rfl⟩ := hb
    simp
  · intro b' bufs
    obtain ⟨c', outs, e, hD, hs', j, m, H'⟩ := key b' bufs (decSt_init H) hsc
    refine ⟨c', outs, e, hD, fun b'' bufs' => ?_⟩
    obtain ⟨c'', outs', e', hD', -⟩ := key b'' bufs' H'.init hs'
    exact ⟨c'', outs', e', hD'⟩

/-! ## C90 -/

theorem gapTape_congr {n : Nat} {pos : Nat → Nat} {sizes : List Nat} {sig sig' : Nat → List (List F32)} (h : ∀ s, sig s = sig' s) (s m a : Nat) (rest : List Nat)
    (acts : List Act) : gapTape n pos sizes sig s m a rest acts = gapTape n pos sizes sig' s m a rest acts := by rw [funext h]

/-- C90 with any empty calls: reads and seeks in any recording, in sync or not. What every call returns depends only on the sizes of the calls; the samples are as in
`C90_seek_resync`. -/
theorem C90_gaps (b b' : Build) (info : StreamInfo) (level : Nat) (calls : List (List F32)) (c : AdhocCodec)
    (hn : 0 < info.channels) (h : encodeAll b (fresh info level) calls = .ok c) (hshort : ∀ pcm ∈ calls, pcm.length / info.channels < 65536) (hne : calls ≠ [])
    (hb : c.stream.stream.bitCursor < 2 ^ 64) (acts : List Act)
    (hs : ∀ ms, Act.seek ms ∈ acts → AdhocCodec.seekOffset info ms ≤ (signal info.channels calls).length) :
    let sizes := calls.map fun pcm => pcm.length / info.channels
    let expected := (gapTape info.channels (AdhocCodec.seekOffset info) sizes
      (fun s => playedFrom s info.channels sizes.sum fun ch => stored (fresh info level).invScale info.channels ch 0 calls) 0 0 0 sizes acts).map
        fun r => (r.1.map (· * (fresh info level).scale), r.2)
    winds b' c.init acts = .ok expected ∧
    (∀ ms, acts.head? = some (.seek ms) → winds b' c acts = .ok expected) ∧
    (info.sampleRate < 2 ^ 32 → info.channels < 2 ^ 32 → calls.length * info.channels < 2 ^ 32 →
      ∃ c', AdhocCodec.load b (file c) = .ok (some c') ∧ winds b' c' acts = .ok expected) := by
  obtain ⟨-, blocks, H, HR, s⟩ := recorded_of_ok hn h
  have hrec := HR.toRec hn
  have hsh := HR.short hn hshort
  have hbits : (bitsOf (flat info.channels blocks)).length < 2 ^ 64 := by
    rw [← H.bits.cursor]; exact hb
  have hbne : blocks ≠ [] := by
    rintro rfl
    exact hne (List.eq_nil_of_length_eq_zero (by rw [← HR.len]; rfl))
  have hpl : ∀ s, playedFrom s info.channels (rowsIn blocks) (codesOf blocks) =
      playedFrom s info.channels (sizesOf blocks).sum fun ch => stored (fresh info level).invScale info.channels ch 0 calls := by
    intro s
    unfold playedFrom
    apply List.map_congr_left
    intro k _
    apply List.map_congr_left
    intro ch hch
    rw [HR.exact (by simpa using hch)]
  have hs' : ∀ ms, Act.seek ms ∈ acts → AdhocCodec.seekOffset info ms ≤ rowsIn blocks := by rw [HR.rows hn]; exact hs
  have hinit := decSt_init H
  have key : ∀ {c : AdhocCodec} {σ j m : Nat}, Resync.DecAt σ c info blocks j m → _ :=
    winds_gaps_at (b := b') hn hrec hsh hbits hbne acts hs'
  have hsc : c.init.scale = (fresh info level).scale := s.scale
  have h1 := key (Resync.decAt_zero hinit)
  rw [hsc, gapTape_congr hpl, List.take_zero, List.drop_zero, List.sum_nil, Nat.sub_zero, HR.sizes hn] at h1
  refine ⟨h1, ?_, ?_⟩
  · intro ms hms
    rw [← h1]
    cases acts with
    | nil => cases hms
    | cons a acts =>
      cases hms
      simp only [winds, rewound_init]
  · intro hr hc hf
    have V := valued_run (b := b) (calls.map Use.encode) (valued_fresh info level) c (by rw [encodeAll_uses]; exact h)
    have hl := load_saved (b := b) (counted_recording hn hr hc hf h (by rw [H.bits.cursor]; exact hbits)) V []
    rw [List.append_nil, ← file_eq] at hl
    refine ⟨_, hl, ?_⟩
    have h2 := key (Resync.decAt_zero (decSt_reloaded hinit))
    rw [show (reloaded c info.channels).scale = (fresh info level).scale from s.scale, gapTape_congr hpl, List.take_zero, List.drop_zero, List.sum_nil,
      Nat.sub_zero, HR.sizes hn] at h2
    exact h2

/-- `gappy` at 1000 Hz says three samples, nothing nine times, one sample: the hypotheses hold, and a seek to 3 ms is followed by `None`, though one sample is left -/
example : (∀ pcm ∈ gappy, pcm.length / 1 < 65536) ∧ gappy ≠ [] ∧ (signal 1 gappy).length = 4 ∧
    AdhocCodec.seekOffset { sampleRate := 1000, channels := 1 } 3 = 3 ∧
    ((encodeAll .release (fresh { sampleRate := 1000, channels := 1 } 0) gappy) >>= fun c => (winds .release c.init
      [.read [F32.ofInt 0], .seek 3, .read [F32.ofInt 0], .read [F32.ofInt 0], .seek 2, .read [F32.ofInt 0, F32.ofInt 0]]).map fun outs => (outs.map Prod.snd,
        decide (c.stream.stream.bitCursor < 2 ^ 64))) = .ok ([some 1, none, some 1, some 1], true) ∧
    (gapTape 1 (fun ms => ms) (gappy.map fun pcm => pcm.length / 1) (fun _ => List.replicate 4 [F32.ofInt 0]) 0 0 0 (gappy.map fun pcm => pcm.length / 1)
      [.read [F32.ofInt 0], .seek 3, .read [F32.ofInt 0], .read [F32.ofInt 0], .seek 2, .read [F32.ofInt 0, F32.ofInt 0]]).map Prod.snd =
        [some 1, none, some 1, some 1] := by
  decide +kernel

/-! ## C12 -/

/-- C12 with any empty calls: as long as the codes keep in sync, seeking is skipping, whatever calls are empty. -/
theorem C12_gaps (b b' : Build) (info : StreamInfo) (level : Nat) (calls : List (List F32)) (c : AdhocCodec)
    (hn : 0 < info.channels) (h : encodeAll b (fresh info level) calls = .ok c) (hshort : ∀ pcm ∈ calls, pcm.length / info.channels < 65536) (hne : calls ≠ [])
    (hsync : ∀ ch < info.channels, InSync (stored (fresh info level).invScale info.channels ch 0 calls))
    (hb : c.stream.stream.bitCursor < 2 ^ 64) (acts : List Act)
    (hs : ∀ ms, Act.seek ms ∈ acts → AdhocCodec.seekOffset info ms ≤ (signal info.channels calls).length) :
    let sizes := calls.map fun pcm => pcm.length / info.channels
    let expected := (gapTape info.channels (AdhocCodec.seekOffset info) sizes
      (fun _ => played info.channels sizes.sum fun ch => stored (fresh info level).invScale info.channels ch 0 calls) 0 0 0 sizes acts).map
        fun r => (r.1.map (· * (fresh info level).scale), r.2)
    winds b' c.init acts = .ok expected ∧
    (∀ ms, acts.head? = some (.seek ms) → winds b' c acts = .ok expected) ∧
    (info.sampleRate < 2 ^ 32 → info.channels < 2 ^ 32 → calls.length * info.channels < 2 ^ 32 →
      ∃ c', AdhocCodec.load b (file c) = .ok (some c') ∧ winds b' c' acts = .ok expected) := by
  intro sizes
  have key : ∀ s, playedFrom s info.channels sizes.sum (fun ch => stored (fresh info level).invScale info.channels ch 0 calls) =
      played info.channels sizes.sum fun ch => stored (fresh info level).invScale info.channels ch 0 calls := by
    intro s
    have hh : ∀ s, ∀ ch < info.channels, heard s (stored (fresh info level).invScale info.channels ch 0 calls) =
        stored (fresh info level).invScale info.channels ch 0 calls := fun s ch hch =>
      heard_of_inSyncFrom (fun n h1 h2 => hsync ch hch n (by omega) h2) (stored_range _ _)
    unfold playedFrom played
    apply List.map_congr_left
    intro k _
    apply List.map_congr_left
    intro ch hch
    rw [hh s ch (by simpa using hch), ← Resync.heard_zero, hh 0 ch (by simpa using hch)]
  have := C90_gaps b b' info level calls c hn h hshort hne hb acts hs
  dsimp only at this ⊢
  rwa [gapTape_congr key] at this

/-! ## C127 -/

/-- C127 with any empty calls: the library still plays what the player takes out of the file, in the pieces that `readGaps` says. -/
theorem C127_gaps (b b' : Build) (info : StreamInfo) (level : Nat) (hn : 0 < info.channels) (calls : List (List F32)) (c : AdhocCodec)
    (e : encodeAll b (fresh info level) calls = .ok c) (hs : ∀ pcm ∈ calls, pcm.length / info.channels < 65536)
    (hr : info.sampleRate < 2 ^ 32) (hc : info.channels < 2 ^ 32)
    (hf : calls.length * info.channels < 2 ^ 32) (hb : c.stream.stream.bitCursor < 2 ^ 64) (rest : List Byte) :
    (contents (file c ++ rest)).info = info ∧
    ∃ c', AdhocCodec.load b' (file c ++ rest) = .ok (some c') ∧ c'.stream.info = some info ∧
      ∀ bufs, (decodeAll b' c' bufs).map (·.2) =
        .ok (readGaps info.channels (playFile (file c ++ rest)) 0 (calls.map fun pcm => pcm.length / info.channels)
          (bufs.map (·.map (· * F32.ofInt (2 ^ min level 10))))) := by
  obtain ⟨h1, h2⟩ := playFile_recording hn e hs hr hc hf hb rest
  refine ⟨h1, ?_⟩
  have V := valued_run (calls.map Use.encode) (valued_fresh info level) c (by rw [encodeAll_uses]; exact e)
  refine ⟨reloaded c info.channels, by rw [file_eq]; exact load_saved (counted_recording hn hr hc hf e hb) V rest, V.hinfo, ?_⟩
  intro bufs
  obtain ⟨Q, hQ, c1, ed⟩ := C07_counts_partial b b' info level hn calls c e hs bufs
  have hsc : (fresh info level).scale = F32.ofInt (2 ^ min level 10) := (fresh_scale info level).1.eq (is_up (Nat.min_le_right _ _))
  rw [hsc, readGaps_map] at ed
  rw [h2 Q hQ]
  rcases same_decodeAll (b := b') bufs (alike_reloaded V) with ⟨er, h1, h2⟩ | ⟨r, r', h1, h2, -, h3⟩
  · rw [h1] at ed; cases ed
  · rw [h2]
    show Except.ok r'.2 = _
    rw [← h3]
    rw [h1] at ed
    rw [Except.ok.inj ed]

/-- the player finds all four samples in the file of `gappy` -/
example : ((encodeAll .release (fresh { sampleRate := 8000, channels := 1 } 0) gappy).map fun c => (playFile (file c)).length) = .ok 4 := by
  decide +kernel

/-! ## C130 -/

theorem gapTape_map (n : Nat) (pos : Nat → Nat) (sizes : List Nat) (x : F32) (sig : Nat → List (List F32)) : ∀ (acts : List Act) (s m a : Nat) (rest : List Nat),
    (gapTape n pos sizes sig s m a rest acts).map (fun r => (r.1.map (· * x), r.2)) =
      gapTape n pos sizes (fun s => (sig s).map (·.map (· * x))) s m a rest (acts.map (Act.times x))
  | [], _, _, _, _ => rfl
  | .seek ms :: acts, _, _, _, _ => by
    simp only [gapTape, List.map_cons, Act.times]
    exact gapTape_map n pos sizes x sig acts _ _ _ _
  | .read buf :: acts, s, m, a, rest => by
    simp only [gapTape, List.map_cons, Act.times]
    rw [gapTape_map n pos sizes x sig acts, List.length_map]
    simp [List.map_flatten]

/-- C130 with any empty rows: what every read returns depends only on the sizes of the rows; the samples are those of the player from the block on that was sought. -/
theorem C130_gaps (b b' : Build) (bytes : List Byte) (c : AdhocCodec) (h : AdhocCodec.load b bytes = .ok (some c)) (rows : List (Nat → Clip))
    (H : Stores bytes rows) (I : Indexed bytes rows) (hne : rows ≠ []) (hn : 0 < (contents bytes).info.channels) (hl : (contents bytes).level ≤ 30)
    (h64 : (playFile bytes).length * (contents bytes).info.channels < 2 ^ 64) (acts : List Act)
    (hs : ∀ ms, Act.seek ms ∈ acts → AdhocCodec.seekOffset (contents bytes).info ms ≤ (playFile bytes).length) :
    winds b' c acts = .ok (gapTape (contents bytes).info.channels (AdhocCodec.seekOffset (contents bytes).info) (rows.map fun r => (r 0).size)
      (fun _ => playFile bytes) 0 0 0 (rows.map fun r => (r 0).size) (acts.map (Act.times (F32.ofInt (2 ^ (contents bytes).level))))) := by
  obtain ⟨R, -, hx⟩ := ready_to_play h H
  have hsc := scale_ready hl hx
  have hlen : (playFile bytes).length = rowSum rows := by rw [← sung_played H hn]; simp [sung]
  rw [hlen] at h64 hs
  rw [winds_gaps_clip (b := b') hn H.laid h64 hne acts hs (σ := 0) R (ready_to_seek h H I), hsc, gapTape_map, sung_played H hn]
  rfl

/-- the file of `C130_seek`: its second row lands with one of its samples left -/
example : (gapTape 1 (fun ms => ms) [3, 3] (fun _ => List.replicate 6 [F32.ofInt 0]) 0 0 0 [3, 3] [.seek 5, .read [F32.ofInt 0, F32.ofInt 0], .read [F32.ofInt 0]]).map Prod.snd =
    [some 1, none] := by
  decide +kernel

end Adhoc
