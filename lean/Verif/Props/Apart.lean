import Verif.Props.Levels
import Verif.Proofs.Over
import Verif.Proofs.Cli

/-!
# C93, C94: splitting at every level, and channels on their own

The noise is drawn channel by channel within a call, so that at levels above 0 the cut between calls decides which sample gets which noise,
unless there is one channel only.
-/

namespace Adhoc
open Spec F32

/-! ## C93 -/

theorem column_one (pcm : List F32) : column 1 0 pcm = pcm := by
  unfold column
  apply List.ext_getElem
  · simp
  · intro i h1 h2
    simp [List.getD_eq_getElem?_getD, h2]

/-- the codes of a mono recording depend on the samples one after the other, not on the calls -/
theorem stored_mono (inv : F32) : ∀ (calls : List (List F32)) (k : Nat),
    stored inv 1 0 k calls = (ditherAt inv k calls.flatten).map truncateSample
  | [], k => by simp [stored, ditherAt]
  | pcm :: rest, k => by
    rw [stored, stored_mono inv rest, List.flatten_cons, ditherAt_append, List.map_append, column_one]
    simp

theorem length_signal_mono (calls : List (List F32)) : (signal 1 calls).length = calls.flatten.length := by
  unfold signal
  rw [List.length_flatMap, List.length_flatten]
  congr 1
  apply List.map_congr_left
  intro pcm _
  rw [length_blocksOf, Nat.div_one]

/-- C93 for one channel: at every level, how the samples were cut into `encode` calls makes no difference to what is decoded. -/
theorem C93_mono_partial (b₁ b₂ b' : Build) (rate level : Nat) (calls₁ calls₂ : List (List F32)) (c₁ c₂ : AdhocCodec)
    (h₁ : encodeAll b₁ (fresh { sampleRate := rate, channels := 1 } level) calls₁ = .ok c₁)
    (h₂ : encodeAll b₂ (fresh { sampleRate := rate, channels := 1 } level) calls₂ = .ok c₂)
    (hp₁ : Proper 1 calls₁) (hp₂ : Proper 1 calls₂) (hsig : calls₁.flatten = calls₂.flatten) (bufs : List (List F32)) :
    ∃ c₁' c₂' outs, decodeAll b' c₁.init bufs = .ok (c₁', outs) ∧ decodeAll b' c₂.init bufs = .ok (c₂', outs) := by
  obtain ⟨Q₁, hQ₁, -, hd₁⟩ := playback (info := { sampleRate := rate, channels := 1 }) Nat.one_pos h₁ hp₁.short hp₁.gap
  obtain ⟨Q₂, hQ₂, -, hd₂⟩ := playback (info := { sampleRate := rate, channels := 1 }) Nat.one_pos h₂ hp₂.short hp₂.gap
  obtain ⟨c₁', e₁, -⟩ := hd₁ b' bufs
  obtain ⟨c₂', e₂, -⟩ := hd₂ b' bufs
  have hQ : Q₁ 0 = Q₂ 0 := by
    rw [(hQ₁ 0 Nat.one_pos).2, (hQ₂ 0 Nat.one_pos).2]
    show stored _ 1 0 0 calls₁ = stored _ 1 0 0 calls₂
    rw [stored_mono, stored_mono, hsig]
  have hl : (signal 1 calls₁).length = (signal 1 calls₂).length := by
    rw [length_signal_mono, length_signal_mono, hsig]
  have hpl : played 1 (signal 1 calls₁).length Q₁ = played 1 (signal 1 calls₂).length Q₂ := by
    unfold played
    rw [hl]
    apply List.map_congr_left
    intro k _
    simp [List.range_succ, hQ]
  refine ⟨c₁', c₂', _, e₁, ?_⟩
  rw [e₂]
  dsimp only
  rw [hpl]

/-- silence in two channels, in one call and in two -/
def silentOnce : List (List F32) := [List.replicate 12 (ofInt 0)]
def silentTwice : List (List F32) := [List.replicate 6 (ofInt 0), List.replicate 6 (ofInt 0)]

theorem silentOnce_proper : Proper 2 silentOnce := by
  refine ⟨by simp [silentOnce], by simp [silentOnce], ?_⟩
  intro j
  match j with
  | 0 => exact .inl ⟨0, by simp, by simp [silentOnce]⟩
  | j + 1 => exact .inr fun t => by simp [silentOnce, Nat.add_right_comm j 1 t]

theorem silentTwice_proper : Proper 2 silentTwice := by
  refine ⟨by simp [silentTwice], by simp [silentTwice], ?_⟩
  intro j
  match j with
  | 0 => exact .inl ⟨0, by simp, by simp [silentTwice]⟩
  | 1 => exact .inl ⟨0, by simp, by simp [silentTwice]⟩
  | j + 2 => exact .inr fun t => by simp [silentTwice, Nat.add_right_comm j 2 t]

/-- what is decoded from a recording; nothing if anything panics -/
def replay (b : Build) (info : StreamInfo) (level : Nat) (calls bufs : List (List F32)) : List (List F32) :=
  match encodeAll b (fresh info level) calls with
  | .error _ => []
  | .ok c =>
    match decodeAll b c.init bufs with
    | .error _ => []
    | .ok (_, outs) => outs.map (·.1)

theorem silent_differs : replay .release { sampleRate := 8000, channels := 2 } 1 silentOnce [List.replicate 12 (ofInt 0)] ≠
    replay .release { sampleRate := 8000, channels := 2 } 1 silentTwice [List.replicate 12 (ofInt 0)] := by
  decide +kernel

theorem replay_of {b : Build} {info : StreamInfo} {level : Nat} {calls bufs : List (List F32)} {c c' : AdhocCodec}
    {outs : List (List F32 × Option Nat)} (h : encodeAll b (fresh info level) calls = .ok c) (h' : decodeAll b c.init bufs = .ok (c', outs)) :
    replay b info level calls bufs = outs.map (·.1) := by
  unfold replay
  rw [h]
  dsimp only
  rw [h']

/-- C93 is false with more than one channel: at level 1, the same silence recorded with one call and with two calls is played differently. -/
theorem C93_false : ¬ ∀ (b : Build) (info : StreamInfo) (_ : 0 < info.channels) (level : Nat) (_ : level ≤ 10) (calls₁ calls₂ : List (List F32))
    (c₁ c₂ : AdhocCodec) (_ : encodeAll b (fresh info level) calls₁ = .ok c₁) (_ : encodeAll b (fresh info level) calls₂ = .ok c₂)
    (_ : Proper info.channels calls₁) (_ : Proper info.channels calls₂) (_ : signal info.channels calls₁ = signal info.channels calls₂)
    (bufs : List (List F32)), ∃ c₁' c₂' outs, decodeAll b c₁.init bufs = .ok (c₁', outs) ∧ decodeAll b c₂.init bufs = .ok (c₂', outs) := by
  intro h
  obtain ⟨c₁, -, e₁, -⟩ := encodeAll_calls (b := .release) (info := { sampleRate := 8000, channels := 2 }) (by decide) 1 silentOnce
    silentOnce_proper.first (.inl rfl)
  obtain ⟨c₂, -, e₂, -⟩ := encodeAll_calls (b := .release) (info := { sampleRate := 8000, channels := 2 }) (by decide) 1 silentTwice
    silentTwice_proper.first (.inl rfl)
  obtain ⟨c₁', c₂', outs, d₁, d₂⟩ := h .release { sampleRate := 8000, channels := 2 } (by decide) 1 (by decide) silentOnce silentTwice c₁ c₂ e₁ e₂
    silentOnce_proper silentTwice_proper (by decide) [List.replicate 12 (ofInt 0)]
  exact silent_differs ((replay_of e₁ d₁).trans (replay_of e₂ d₂).symm)

theorem near_trans {e : ℚ} {x y z : F32} (h : Near e x y) (h' : Near e x z) : Near (2 * e) y z := by
  obtain ⟨p, q, h1, h2, h3⟩ := h
  obtain ⟨p', r, h1', h4, h5⟩ := h'
  obtain rfl := h1.unique h1'
  refine ⟨q, r, h2, h4, ?_⟩
  have := abs_sub_le q p r
  rw [abs_sub_comm q p] at this
  linarith

theorem forall₂_meet {α : Type} {R S T : α → α → Prop} (h : ∀ x y z, R x y → S x z → T y z) :
    ∀ {xs ys zs : List α}, List.Forall₂ R xs ys → List.Forall₂ S xs zs → List.Forall₂ T ys zs
  | [], _, _, .nil, .nil => .nil
  | _ :: _, _, _, .cons a l, .cons a' l' => .cons (h _ _ _ a a') (forall₂_meet h l l')

/-- C93 with any number of channels: while the decoder stays in sync, how a signal in [-1, 1] was cut into calls changes no sample by more
than twice the error of the level. -/
theorem C93_close_partial (b b' : Build) (info : StreamInfo) (hn : 0 < info.channels) (L : Nat) (hL : L ≤ 10) (calls₁ calls₂ : List (List F32))
    (hp₁ : Proper info.channels calls₁) (hp₂ : Proper info.channels calls₂)
    (hu₁ : ∀ pcm ∈ calls₁, ∀ x ∈ pcm, Unit x) (hu₂ : ∀ pcm ∈ calls₂, ∀ x ∈ pcm, Unit x)
    (hs₁ : ∀ ch < info.channels, InSync (stored (down L) info.channels ch 0 calls₁))
    (hs₂ : ∀ ch < info.channels, InSync (stored (down L) info.channels ch 0 calls₂))
    (hsig : signal info.channels calls₁ = signal info.channels calls₂) :
    ∃ c₁ c₂ sig₁ sig₂, encodeAll b (fresh info L) calls₁ = .ok c₁ ∧ encodeAll b (fresh info L) calls₂ = .ok c₂ ∧
      List.Forall₂ (List.Forall₂ (Near (2 * levelError L))) sig₁ sig₂ ∧
      ∀ bufs, ∃ c₁' c₂',
        decodeAll b' c₁.init bufs = .ok (c₁', readBlocks info.channels sig₁ (bufs.map (·.map (· * up L)))) ∧
        decodeAll b' c₂.init bufs = .ok (c₂', readBlocks info.channels sig₂ (bufs.map (·.map (· * up L)))) := by
  obtain ⟨c₁, sig₁, e₁, n₁, d₁⟩ := C04_error_bound b b' info hn L hL calls₁ hp₁ hu₁ hs₁
  obtain ⟨c₂, sig₂, e₂, n₂, d₂⟩ := C04_error_bound b b' info hn L hL calls₂ hp₂ hu₂ hs₂
  rw [← hsig] at n₂
  refine ⟨c₁, c₂, sig₁, sig₂, e₁, e₂, ?_, ?_⟩
  · refine forall₂_meet ?_ n₁ n₂
    intro x y z h h'
    refine forall₂_meet ?_ h h'
    intro x y z h h'
    exact near_trans h h'
  intro bufs
  obtain ⟨c₁', d₁⟩ := d₁ bufs
  obtain ⟨c₂', d₂⟩ := d₂ bufs
  exact ⟨c₁', c₂', d₁, d₂⟩

/-- the two recordings of silence meet the hypotheses at level 1 -/
example : (∀ ch < 2, InSync (stored (down 1) 2 ch 0 silentOnce)) ∧ (∀ ch < 2, InSync (stored (down 1) 2 ch 0 silentTwice)) ∧
    signal 2 silentOnce = signal 2 silentTwice := by
  refine ⟨?_, ?_, by decide⟩
  · intro ch hch
    exact inSync_of_all (by revert ch; decide +kernel)
  · intro ch hch
    exact inSync_of_all (by revert ch; decide +kernel)

/-- one channel at level 3, in one call and in two -/
example : (∃ c₁, encodeAll .debug (fresh { sampleRate := 8000, channels := 1 } 3) [List.replicate 6 (ofRat (1 / 3))] = .ok c₁) ∧
    (∃ c₂, encodeAll .debug (fresh { sampleRate := 8000, channels := 1 } 3) [List.replicate 4 (ofRat (1 / 3)), List.replicate 2 (ofRat (1 / 3))] = .ok c₂) := by
  have h : (match encodeAll .debug (fresh { sampleRate := 8000, channels := 1 } 3) [List.replicate 6 (ofRat (1 / 3))],
      encodeAll .debug (fresh { sampleRate := 8000, channels := 1 } 3) [List.replicate 4 (ofRat (1 / 3)), List.replicate 2 (ofRat (1 / 3))] with
    | .ok _, .ok _ => true
    | _, _ => false) = true := by decide +kernel
  split at h
  · rename_i c₁ c₂ h₁ h₂
    exact ⟨⟨c₁, h₁⟩, ⟨c₂, h₂⟩⟩
  · cases h

/-! ## C94 -/

theorem column_block {n ch : Nat} (hch : ch < n) (r l : List F32) (hr : r.length = n) :
    column n ch (r ++ l) = r.getD ch (ofInt 0) :: column n ch l := by
  have hn : 0 < n := by omega
  unfold column
  rw [List.length_append, hr, Nat.add_div_left _ hn, List.range_succ_eq_map, List.map_cons, List.map_map]
  congr 1
  · simp only [List.getD_eq_getElem?_getD]
    rw [List.getElem?_append_left (by omega)]
    simp
  · apply List.map_congr_left
    intro k _
    simp only [Function.comp, List.getD_eq_getElem?_getD]
    rw [List.getElem?_append_right (by rw [hr, Nat.succ_mul]; omega)]
    congr 2
    rw [hr, Nat.succ_mul]; omega

theorem column_blocks {n ch : Nat} (hch : ch < n) : ∀ (rs : List (List F32)) (l : List F32) (_ : ∀ r ∈ rs, r.length = n),
    column n ch (rs.flatten ++ l) = rs.map (fun r => r.getD ch (ofInt 0)) ++ column n ch l
  | [], l, _ => by simp
  | r :: rs, l, h => by
    rw [List.flatten_cons, List.append_assoc, column_block hch r _ (h r (by simp)), column_blocks hch rs l fun r hr => h r (by simp [hr])]
    rfl

theorem column_drop {n : Nat} (ch : Nat) (xs : List F32) (d : Nat) :
    column n ch (xs.drop (d * n)) = (column n ch xs).drop d := by
  unfold column
  have hl : (xs.drop (d * n)).length / n = xs.length / n - d := by rw [List.length_drop, Nat.mul_comm d n, Nat.sub_mul_div]
  rw [hl]
  apply List.ext_getElem
  · simp
  · intro i h1 h2
    simp only [List.getElem_map, List.getElem_range, List.getElem_drop, List.getD_eq_getElem?_getD, List.getElem?_drop]
    congr 2
    rw [Nat.add_mul]; omega

theorem length_column (n ch : Nat) (xs : List F32) : (column n ch xs).length = xs.length / n := by simp [column]

/-- reading one channel of a signal is reading that channel of what is read -/
theorem readBlocks_column {n ch : Nat} (hch : ch < n) : ∀ (bufs : List (List F32)) (sig : List (List F32)) (_ : ∀ r ∈ sig, r.length = n),
    readBlocks 1 (sig.map fun r => [r.getD ch (ofInt 0)]) (bufs.map (column n ch)) =
      (readBlocks n sig bufs).map fun r => (column n ch r.1, r.2.map (· / n))
  | [], sig, _ => rfl
  | buf :: bufs, sig, h => by
    have hn : 0 < n := by omega
    rw [List.map_cons, readBlocks, readBlocks, List.map_cons, length_column, List.length_map, Nat.div_one]
    dsimp only
    obtain ⟨d, hd⟩ : ∃ d, d = min (buf.length / n) sig.length := ⟨_, rfl⟩
    rw [← hd, column_blocks hch _ _ fun r hr => h r (List.mem_of_mem_take hr), column_drop ch, Nat.mul_one, ← List.map_drop,
      readBlocks_column hch bufs _ fun r hr => h r (List.mem_of_mem_drop hr), ← List.map_take]
    congr 2
    · congr 1
      induction sig.take d with
      | nil => rfl
      | cons a l ih => rw [List.map_cons, List.map_cons, List.flatten_cons, ih]; rfl
    · split
      · rfl
      · simp [Nat.mul_div_cancel _ hn]

theorem picked_unique {k k' : Nat} {P qs : List Int} (h : Picked k P qs) (h' : Picked k' P qs) (hk : 1 ≤ k ∧ k ≤ 15) (hk' : 1 ≤ k' ∧ k' ≤ 15) :
    k = k' := by
  rcases h.2 with h0 | ⟨e, h0⟩
  · rcases h'.2 with h1 | ⟨e', h1⟩
    · have a := h.1 k' hk'.1 hk'.2 h1
      have b := h'.1 k hk.1 hk.2 h0
      by_contra hne
      rcases Nat.lt_or_gt_of_ne hne with hl | hl
      · have := b.2 hl; omega
      · have := a.2 hl; omega
    · have := h1 k hk.1 hk.2; omega
  · rcases h'.2 with h1 | ⟨e', h1⟩
    · have := h0 k' hk'.1 hk'.2; omega
    · omega

/-- a frame of the encoder is determined by the codes before it and its own -/
theorem frame_unique : ∀ {f g : Fr} (_ : f.WF) (_ : g.WF) (_ : f.pre = g.pre) (_ : f.codes = g.codes), f = g
  | ⟨p, e, q⟩, ⟨p', e', q'⟩, hf, hg, h1, h2 => by
    dsimp only at h1 h2
    subst h1 h2
    have : e = e' := picked_unique hf.picked hg.picked ⟨hf.exp1, hf.exp15⟩ ⟨hg.exp1, hg.exp15⟩
    rw [this]

/-- the frames of the channel recorded alone are its frames in the whole recording -/
theorem frames_alone {n ch : Nat} (hch : ch < n) {calls : List (List F32)} {blocks blocks' : List (Nat → Fr)}
    (H : Recorded n (ofInt 1) calls blocks) (H' : Recorded 1 (ofInt 1) (calls.map (column n ch)) blocks') :
    blocks'.map (· 0) = blocks.map (· ch) := by
  have hl := H.len
  have hl' := H'.len
  rw [List.length_map] at hl'
  have key : ∀ j ≤ calls.length, (blocks'.take j).map (· 0) = (blocks.take j).map (· ch) := by
    intro j
    induction j with
    | zero => intro; rfl
    | succ j ih =>
      intro hj
      have ih := ih (by omega)
      have m := H.made j (by omega) (by omega) ch hch
      have m' := H'.made j (by omega) (by rw [List.length_map]; omega) 0 Nat.one_pos
      have hc : codesOf (blocks'.take j) 0 = codesOf (blocks.take j) ch := by
        have e : ∀ (bs : List (Nat → Fr)) (ch : Nat), codesOf bs ch = (bs.map (· ch)).flatMap Fr.codes := by
          intro bs ch
          simp [codesOf, List.flatMap_map]
        rw [e, e, ih]
      have hf : blocks'[j] 0 = blocks[j] ch := by
        refine frame_unique m'.wf m.wf ?_ ?_
        · rw [m'.pre, m.pre, hc]
        · rw [m'.exact, m.exact, ditherAt_one, ditherAt_one, List.getElem_map, column_one]
      rw [List.take_succ_eq_append_getElem (by omega), List.take_succ_eq_append_getElem (by omega), List.map_append, List.map_append, ih]
      simp [hf]
  have := key calls.length le_rfl
  rwa [List.take_of_length_le (by omega), List.take_of_length_le (by omega)] at this

theorem length_bitsOf_flat (n : Nat) (blocks : List (Nat → Fr)) :
    (bitsOf (flat n blocks)).length = ((List.range n).map fun ch => ((blocks.map (· ch)).map fun f => f.bits.length).sum).sum := by
  induction blocks with
  | nil => simp [bitsOf]
  | cons blk blocks ih =>
    rw [flat_cons, bitsOf_append, List.length_append, ih]
    simp only [List.map_cons, List.sum_cons]
    rw [List.sum_map_add]
    congr 1
    simp [bitsOf, List.length_flatMap, Function.comp_def]

theorem codes_columns {n ch : Nat} (hch : ch < n) (calls : List (List F32)) :
    Spec.codes ch (signal n calls) = calls.flatMap fun pcm => (column n ch pcm).map truncateSample := by
  unfold Spec.codes signal
  rw [List.map_flatMap]
  congr 1
  funext pcm
  rw [column_eq hch, List.map_map]
  rfl

/-- C94: a channel of a level-0 recording is treated as if it had been recorded alone. Recording each channel of the input by itself succeeds;
the bits of these recordings add up to the bits of the recording; and decoding the channel recorded alone into the channel's part of the
buffers gives the channel's part of what decoding the recording gives. -/
theorem C94_alone (b b' : Build) (info : StreamInfo) (hn : 0 < info.channels) (calls : List (List F32)) (c : AdhocCodec)
    (hp : Proper info.channels calls) (h : encodeAll b (fresh info 0) calls = .ok c) :
    ∃ alone : Nat → AdhocCodec,
      (∀ ch < info.channels,
        encodeAll .release (fresh { info with channels := 1 } 0) (calls.map (column info.channels ch)) = .ok (alone ch)) ∧
      c.stream.stream.bitCursor = ((List.range info.channels).map fun ch => (alone ch).stream.stream.bitCursor).sum ∧
      ∀ ch < info.channels, ∀ bufs, ∃ c' a' outs, decodeAll b' c.init bufs = .ok (c', outs) ∧
        decodeAll b' (alone ch).init (bufs.map (column info.channels ch)) =
          .ok (a', outs.map fun r => (column info.channels ch r.1, r.2.map (· / info.channels))) := by
  obtain ⟨n, hnn⟩ : ∃ n, n = info.channels := ⟨_, rfl⟩
  obtain ⟨h3, blocks, H, HR, -⟩ := recorded_of_ok hn h
  have hone := (fresh_zero info).2
  rw [hone] at HR
  have hex : ∀ ch, ∃ a, ch < info.channels →
      encodeAll .release (fresh { info with channels := 1 } 0) (calls.map (column info.channels ch)) = .ok a := by
    intro ch
    obtain ⟨a, -, e, -⟩ := encodeAll_calls (b := .release) (info := { info with channels := 1 }) Nat.one_pos 0 (calls.map (column info.channels ch))
      (by
        intro first hf
        rw [List.head?_map] at hf
        obtain ⟨pcm, hp', rfl⟩ := Option.mem_map.1 hf
        rw [Nat.div_one, length_column]
        exact h3 pcm hp') (.inl rfl)
    exact ⟨a, fun _ => e⟩
  choose alone hal using hex
  refine ⟨alone, hal, ?_, ?_⟩
  · rw [H.bits.cursor, length_bitsOf_flat]
    congr 1
    apply List.map_congr_left
    intro ch hch
    have hch : ch < info.channels := by simpa using hch
    obtain ⟨-, blocks', H', HR', -⟩ := recorded_of_ok Nat.one_pos (hal ch hch)
    rw [(fresh_zero { info with channels := 1 }).2] at HR'
    have hfr := frames_alone hch HR HR'
    rw [H'.bits.cursor, length_bitsOf_flat]
    dsimp only
    simp only [List.range_one, List.map_cons, List.map_nil, List.sum_cons, List.sum_nil, Nat.add_zero]
    rw [← hfr]
  · intro ch hch bufs
    obtain ⟨c', e⟩ := C02_level0_partial b b' info hn calls c hp.short hp.gap h bufs
    have hsz : (calls.map (column info.channels ch)).map (fun pcm : List F32 => pcm.length / 1) = calls.map fun pcm => pcm.length / info.channels := by
      rw [List.map_map]
      apply List.map_congr_left
      intro pcm _
      simp [length_column]
    obtain ⟨a', e'⟩ := C02_level0_partial .release b' { info with channels := 1 } Nat.one_pos (calls.map (column info.channels ch)) (alone ch)
      (by
        intro pcm hpcm
        obtain ⟨p0, hp0, rfl⟩ := List.mem_map.1 hpcm
        show _ / 1 < _
        rw [length_column, Nat.div_one]
        exact hp.short p0 hp0)
      (by
        show NoGap (List.map (fun pcm : List F32 => pcm.length / 1) _)
        rw [hsz]; exact hp.gap) (hal ch hch) (bufs.map (column info.channels ch))
    refine ⟨c', a', _, e, ?_⟩
    rw [e']
    dsimp only
    have hcodes : Spec.codes 0 (signal 1 (calls.map (column info.channels ch))) = Spec.codes ch (signal info.channels calls) := by
      rw [codes_columns Nat.one_pos, codes_columns hch, List.flatMap_map]
      simp only [column_one]
    have hlen : (signal 1 (calls.map (column info.channels ch))).length = (signal info.channels calls).length := by
      rw [← List.length_map (f := fun blk => truncateSample (blk.getD 0 (ofInt 0)))]
      show (Spec.codes 0 _).length = _
      rw [hcodes, Spec.codes, List.length_map]
    have hpl : played 1 (signal 1 (calls.map (column info.channels ch))).length
          (fun k => Spec.codes k (signal 1 (calls.map (column info.channels ch)))) =
        (played info.channels (signal info.channels calls).length fun k => Spec.codes k (signal info.channels calls)).map
          fun r => [r.getD ch (ofInt 0)] := by
      unfold played
      rw [hlen, List.map_map]
      apply List.map_congr_left
      intro k _
      simp [hcodes, hch, List.getD_eq_getElem?_getD]
    rw [hpl, readBlocks_column hch]
    intro r hr
    obtain ⟨k, -, rfl⟩ := List.mem_map.1 hr
    simp

/-- `demo` with its two channels -/
example : Proper 2 demo ∧ ∃ c, encodeAll .release (fresh { sampleRate := 8000, channels := 2 } 0) demo = .ok c := by
  obtain ⟨c, -, e, -⟩ := encodeAll_calls (b := .release) (info := { sampleRate := 8000, channels := 2 }) (by decide) 0 demo
    demo_proper.first (.inl rfl)
  exact ⟨demo_proper, c, e⟩

end Adhoc
