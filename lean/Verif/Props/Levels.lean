import Verif.Proofs.Float
import Verif.Props.RoundTrip

/-! # C03, C04, C57 and levels without overflow (C26) -/

namespace Adhoc
open Spec F32

namespace Spec

/-- a finite sample in [-1, 1] -/
def Unit (x : F32) : Prop := ∃ q, Is x q ∧ |q| ≤ 1

/-- the finite values are no further apart than `e` -/
def Near (e : ℚ) (x y : F32) : Prop := ∃ p q, Is x p ∧ Is y q ∧ |p - q| ≤ e

/-- the factor that level `L` scales with -/
def up (L : Nat) : F32 := ofInt (2 ^ L)

/-- its inverse -/
def down (L : Nat) : F32 := ofRat (1 / 2 ^ L)

/-- what a decoder in sync returns: the stored 16-bit codes of the signal with noise, converted back and scaled up -/
def rescaled (L n : Nat) (calls : List (List F32)) : List (List F32) :=
  (List.range (signal n calls).length).map fun k => (List.range n).map fun ch =>
    normalizeSample ((stored (down L) n ch 0 calls).getD k 0) * up L

/-- the largest error of level `L` -/
def levelError (L : Nat) : ℚ := 2 ^ L * 1.01 / 32767 + 0.00101 * (1 - 1 / 2 ^ L)

end Spec

/-! ## the stored codes -/

theorem is_up {L : Nat} (h : L ≤ 10) : Is (up L) (2 ^ L) := by
  have : |(2 : ℤ) ^ L| ≤ 2 ^ 24 := by
    rw [abs_of_pos (by positivity)]
    exact pow_le_pow_right₀ (by norm_num) (by omega)
  simpa [up] using is_int this

theorem is_down {L : Nat} (h : L ≤ 10) : Is (down L) (1 / 2 ^ L) := by
  have hg : Grid (1 / 2 ^ L) := ⟨1, -(L : ℤ), by norm_num, by omega, by rw [zpow_neg, zpow_natCast]; simp⟩
  have hl : |(1 : ℚ) / 2 ^ L| ≤ 1 := by
    rw [abs_of_pos (by positivity), div_le_one (by positivity)]
    exact one_le_pow₀ (by norm_num)
  exact ⟨hg.rep (lt_of_le_of_lt hl (by norm_num)), ofRat_rep _⟩

theorem fresh_up (info : StreamInfo) {L : Nat} (h : L ≤ 10) : (fresh info L).scale = up L ∧ (fresh info L).invScale = down L := by
  obtain ⟨h1, h2⟩ := fresh_scale info L
  rw [Nat.min_eq_left h] at h1 h2
  exact ⟨h1.eq (is_up h), h2.eq (is_down h)⟩

theorem stored_dithered {inv : F32} {n ch : Nat} (hch : ch < n) : ∀ (calls : List (List F32)) (k : Nat),
    List.Forall₂ (fun x q => ∃ y, Dithered inv x y ∧ q = truncateSample y) (chan ch (signal n calls)) (stored inv n ch k calls)
  | [], _ => .nil
  | pcm :: rest, k => by
    have h1 := dithered_ditherAt inv (k + ch * (pcm.length / n)) (column n ch pcm)
    have h2 := stored_dithered hch (inv := inv) rest (k + n * (pcm.length / n))
    rw [stored]
    have : chan ch (signal n (pcm :: rest)) = column n ch pcm ++ chan ch (signal n rest) := by
      rw [column_eq hch]
      simp [chan, signal]
    rw [this]
    refine List.rel_append ?_ h2
    rw [List.forall₂_map_right_iff]
    exact h1.imp fun x y h => ⟨y, h, rfl⟩

theorem mem_signal {n : Nat} {calls : List (List F32)} {blk : List F32} (h : blk ∈ signal n calls) {x : F32} (hx : x ∈ blk) : ∃ pcm ∈ calls, x ∈ pcm := by
  obtain ⟨pcm, hp, h⟩ := List.mem_flatMap.1 h
  obtain ⟨k, -, rfl⟩ := List.mem_map.1 h
  exact ⟨pcm, hp, List.mem_of_mem_drop (List.mem_of_mem_take hx)⟩

theorem mem_chan {n ch : Nat} (hch : ch < n) {calls : List (List F32)} {x : F32} (h : x ∈ chan ch (signal n calls)) : ∃ pcm ∈ calls, x ∈ pcm := by
  obtain ⟨blk, hb, rfl⟩ := List.mem_map.1 h
  have hw := signal_width blk hb
  rw [List.getD_eq_getElem?_getD, List.getElem?_eq_getElem (by omega), Option.getD_some]
  exact mem_signal hb (List.getElem_mem _)

theorem forall₂_mem_right {α β : Type} {R : α → β → Prop} : ∀ {l : List α} {l' : List β}, List.Forall₂ R l l' → ∀ y ∈ l', ∃ x ∈ l, R x y
  | _, _, .nil, y, h => by cases h
  | _, _, .cons h t, y, hy => by
    rcases List.mem_cons.1 hy with rfl | hy
    · exact ⟨_, List.mem_cons_self, h⟩
    · obtain ⟨x, hx, hr⟩ := forall₂_mem_right t y hy
      exact ⟨x, List.mem_cons_of_mem _ hx, hr⟩

/-- a finite sample in [-1, 1] or hardly outside, as 16-bit samples are -/
def Wide (x : F32) : Prop := ∃ q, Is x q ∧ |q| ≤ 1.00004

theorem wide_of_unit {calls : List (List F32)} (hu : ∀ pcm ∈ calls, ∀ x ∈ pcm, Unit x) : ∀ pcm ∈ calls, ∀ x ∈ pcm, Wide x := by
  intro pcm hp x hx
  obtain ⟨q, h, h1⟩ := hu pcm hp x hx
  exact ⟨q, h, h1.trans (by norm_num)⟩

/-- the codes of level `L` are small -/
theorem stored_small {L : Nat} (hL : L ≤ 10) {n ch : Nat} (hch : ch < n) {calls : List (List F32)} (hu : ∀ pcm ∈ calls, ∀ x ∈ pcm, Wide x) :
    ∀ q ∈ stored (down L) n ch 0 calls, |q| ≤ 32767 ∧ |q| * 2 ^ L ≤ 32802 + 2 * 2 ^ L := by
  intro q hq
  obtain ⟨x, hx, y, hy, rfl⟩ := forall₂_mem_right (stored_dithered hch calls 0) q hq
  obtain ⟨pcm, hp, hx⟩ := mem_chan hch hx
  obtain ⟨r, hr, hr1⟩ := hu pcm hp x hx
  exact ⟨code_abs, dither_code hL (is_down hL) hr hr1 hy⟩

theorem guess_small {Q : List Int} {M : ℤ} (hM : 0 ≤ M) (hM' : M ≤ 32767) (h : ∀ q ∈ Q, |q| ≤ M) : |guess Q| ≤ 7 * M + 1 ∧ |guess Q| ≤ 32767 := by
  have hd : ∀ k, |Q.getD k 0| ≤ M := by
    intro k
    rw [List.getD_eq_getElem?_getD]
    rcases lt_or_ge k Q.length with hk | hk
    · rw [List.getElem?_eq_getElem hk]; exact h _ (List.getElem_mem hk)
    · rw [List.getElem?_eq_none hk]; simpa using hM
  have h1 := hd (Q.length - 3)
  have h2 := hd (Q.length - 2)
  have h3 := hd (Q.length - 1)
  unfold guess
  generalize Q.getD (Q.length - 3) 0 = a at *
  generalize Q.getD (Q.length - 2) 0 = b at *
  generalize Q.getD (Q.length - 1) 0 = c at *
  have := predict_err (h3 := a) (h2 := b) (h1 := c) (by linarith) (by linarith) (by linarith)
  have hr := predict_range a b c
  rw [abs_le] at *
  refine ⟨⟨?_, ?_⟩, by rw [abs_le]; exact hr⟩ <;> omega

theorem residual_small {Q : List Int} {M : ℤ} (hM : 0 ≤ M) (hM' : M ≤ 32767) (h : ∀ q ∈ Q, |q| ≤ M) (n : Nat) (hn : n < Q.length) :
    |Q.getD n 0 - guess (Q.take n)| ≤ 8 * M + 1 ∧ |Q.getD n 0 - guess (Q.take n)| ≤ M + 32767 := by
  obtain ⟨h1, h2⟩ := guess_small hM hM' (Q := Q.take n) (fun q hq => h q (List.mem_of_mem_take hq))
  have h3 := h _ (List.getElem_mem hn)
  rw [List.getD_eq_getElem?_getD, List.getElem?_eq_getElem hn, Option.getD_some]
  rw [abs_le] at *
  rw [abs_le]
  omega

/-- levels 4 to 10 are always in sync -/
theorem inSync_high {L : Nat} (h4 : 4 ≤ L) (hL : L ≤ 10) {n ch : Nat} (hch : ch < n) {calls : List (List F32)} (hu : ∀ pcm ∈ calls, ∀ x ∈ pcm, Wide x) :
    InSync (stored (down L) n ch 0 calls) := by
  have hs : ∀ q ∈ stored (down L) n ch 0 calls, |q| ≤ 2052 := by
    intro q hq
    have h := (stored_small hL hch hu q hq).2
    have hp : (2 : ℤ) ^ 4 ≤ 2 ^ L := pow_le_pow_right₀ (by norm_num) h4
    nlinarith [abs_nonneg q]
  intro k h3 hk
  have := (residual_small (by norm_num) (by norm_num) hs k hk).1
  rw [abs_le] at this
  omega

/-- levels 2 to 10 are always quiet -/
theorem quiet_high {L : Nat} (h2 : 2 ≤ L) (hL : L ≤ 10) {n ch : Nat} (hch : ch < n) {calls : List (List F32)} (hu : ∀ pcm ∈ calls, ∀ x ∈ pcm, Wide x) :
    Quiet (stored (down L) n ch 0 calls) := by
  have hs : ∀ q ∈ stored (down L) n ch 0 calls, |q| ≤ 8202 := by
    intro q hq
    have h := (stored_small hL hch hu q hq).2
    have hp : (2 : ℤ) ^ 2 ≤ 2 ^ L := pow_le_pow_right₀ (by norm_num) h2
    nlinarith [abs_nonneg q]
  intro k h3 hk
  have := (residual_small (by norm_num) (by norm_num) hs k hk).2
  rw [abs_le] at this
  omega

/-! ## what a decoder in sync returns -/

theorem readBlocks_map (n : Nat) (f : F32 → F32) : ∀ (bufs : List (List F32)) (sig : List (List F32)),
    (readBlocks n sig bufs).map (fun r => (r.1.map f, r.2)) = readBlocks n (sig.map (·.map f)) (bufs.map (·.map f))
  | [], sig => rfl
  | buf :: bufs, sig => by
    rw [List.map_cons, readBlocks_cons, readBlocks_cons, List.map_cons, readBlocks_map n f bufs]
    simp [List.map_flatten]

/-- in sync, what is played is what was stored -/
theorem played_rescaled {n L : Nat} {calls : List (List F32)} (hsync : ∀ ch < n, InSync (stored (down L) n ch 0 calls)) {Q : Nat → List Int}
    (hQ : ∀ ch < n, Q ch = stored (down L) n ch 0 calls) :
    (played n (signal n calls).length Q).map (·.map (· * up L)) = rescaled L n calls := by
  unfold played rescaled
  rw [List.map_map]
  apply List.map_congr_left
  intro k hk
  simp only [Function.comp_apply, List.map_map]
  apply List.map_congr_left
  intro ch hch
  have hch : ch < n := by simpa using hch
  simp only [Function.comp_apply]
  have hr : ∀ q ∈ stored (down L) n ch 0 calls, -32767 ≤ q ∧ q ≤ 32767 := by
    intro q hq
    obtain ⟨x, -, y, -, rfl⟩ := forall₂_mem_right (stored_dithered hch calls 0) q hq
    exact truncateSample_range y
  have hlen : (stored (down L) n ch 0 calls).length = (signal n calls).length := by
    rw [← (stored_dithered (inv := down L) hch calls 0).length_eq]; simp [chan]
  rw [hQ ch hch, decoded_of_inSync (hsync ch hch) (fun q hq => by have := hr q hq; omega)]
  have hk : k < (stored (down L) n ch 0 calls).length := by rw [hlen]; simpa using hk
  rw [List.getD_eq_getElem?_getD, List.getElem?_eq_getElem hk, Option.getD_some, out_of_range (hr _ (List.getElem_mem hk))]

/-- The stored codes come back. -/
theorem decode_inSync (b b' : Build) (info : StreamInfo) (hn : 0 < info.channels) {L : Nat} (hL : L ≤ 10) (calls : List (List F32))
    (hp : Proper info.channels calls) (hsync : ∀ ch < info.channels, InSync (stored (down L) info.channels ch 0 calls)) :
    ∃ c, encodeAll b (fresh info L) calls = .ok c ∧ ∀ bufs, ∃ c',
      decodeAll b' c.init bufs = .ok (c', readBlocks info.channels (rescaled L info.channels calls) (bufs.map (·.map (· * up L)))) := by
  obtain ⟨hup, hdown⟩ := fresh_up info hL
  obtain ⟨c, blocks, e, -, -, -⟩ := encodeAll_calls (b := b) hn L calls hp.first (.inr ⟨hp.short, by
    intro ch hch
    rw [hdown]
    exact inSync_quiet (hsync ch hch)⟩)
  refine ⟨c, e, ?_⟩
  obtain ⟨Q, hQ, -, hdec⟩ := playback hn e hp.short hp.gap
  intro bufs
  obtain ⟨c', e', -⟩ := hdec b' bufs
  refine ⟨c', ?_⟩
  rw [e', hup, readBlocks_map, played_rescaled hsync fun ch hch => by rw [(hQ ch hch).2, hdown]]

/-! ## C03 -/

/-- C03. At levels 4 to 10, for every signal in [-1, 1] and every division into calls: the codec is in sync, encoding succeeds in both builds, and
every decoded sample is the stored 16-bit code of the input with noise, scaled up. (`decode` scales what it does not overwrite of the
buffer too.) -/
theorem C03_high_levels (b b' : Build) (info : StreamInfo) (hn : 0 < info.channels) (L : Nat) (h4 : 4 ≤ L) (hL : L ≤ 10)
    (calls : List (List F32)) (hp : Proper info.channels calls) (hu : ∀ pcm ∈ calls, ∀ x ∈ pcm, Unit x) :
    (∀ ch < info.channels, InSync (stored (down L) info.channels ch 0 calls)) ∧
    ∃ c, encodeAll b (fresh info L) calls = .ok c ∧ ∀ bufs, ∃ c',
      decodeAll b' c.init bufs = .ok (c', readBlocks info.channels (rescaled L info.channels calls) (bufs.map (·.map (· * up L)))) := by
  have h := fun ch hch => inSync_high h4 hL (n := info.channels) (ch := ch) hch (wide_of_unit hu)
  exact ⟨h, decode_inSync b b' info hn hL calls hp h⟩

/-- testing for it -/
def isUnit : F32 → Bool
  | .fin q _ => decide (|q| ≤ 1)
  | _ => false

theorem unit_all (l : List (List F32)) (h : l.all (·.all isUnit) = true) : ∀ pcm ∈ l, ∀ x ∈ pcm, Unit x := by
  intro pcm hp x hx
  have := List.all_eq_true.1 (List.all_eq_true.1 h pcm hp) x hx
  cases x with
  | nan => cases this
  | inf s => cases this
  | fin q hq => exact ⟨q, ⟨hq, rfl⟩, by simpa [isUnit] using this⟩

/-- the loudest signal, which is out of sync at level 0, meets the hypotheses -/
example : Proper 1 loud ∧ ∀ pcm ∈ loud, ∀ x ∈ pcm, Unit x := ⟨loud_proper, unit_all loud (by decide +kernel)⟩

/-! ## C04 -/

/-- what was stored is near the signal, also for samples hardly outside [-1, 1] above level 0 -/
theorem rescaled_near {n L : Nat} (hL : L ≤ 10) {calls : List (List F32)} (hu : ∀ pcm ∈ calls, ∀ x ∈ pcm, Wide x)
    (hu' : L = 0 → ∀ pcm ∈ calls, ∀ x ∈ pcm, Unit x) :
    List.Forall₂ (List.Forall₂ (Near (levelError L))) (signal n calls) (rescaled L n calls) := by
  rw [List.forall₂_iff_get]
  refine ⟨by simp [rescaled], ?_⟩
  intro k h1 h2
  simp only [List.get_eq_getElem, rescaled, List.getElem_map, List.getElem_range]
  have hw := signal_width _ (List.getElem_mem h1)
  rw [List.forall₂_iff_get]
  refine ⟨by simp [hw], ?_⟩
  intro ch g1 g2
  have hch : ch < n := by simpa using g2
  simp only [List.get_eq_getElem, List.getElem_map, List.getElem_range]
  have hst := stored_dithered (inv := down L) hch calls 0
  have hlen := hst.length_eq
  rw [List.forall₂_iff_get] at hst
  have hk : k < (stored (down L) n ch 0 calls).length := by rw [← hlen]; simpa [chan] using h1
  obtain ⟨y, hy, hq⟩ := hst.2 k (by simpa [chan] using h1) hk
  simp only [List.get_eq_getElem, chan, List.getElem_map] at hy hq
  rw [List.getD_eq_getElem?_getD, List.getElem?_eq_getElem hk, Option.getD_some, hq]
  rw [List.getD_eq_getElem?_getD, List.getElem?_eq_getElem g1, Option.getD_some] at hy
  obtain ⟨pcm, hpm, hx⟩ := mem_signal (List.getElem_mem h1) (List.getElem_mem g1)
  obtain ⟨r, hr, hr1⟩ := hu pcm hpm _ hx
  have hr2 : |r| ≤ 2 ^ L := by
    by_cases h0 : L = 0
    · obtain ⟨r', i', h'⟩ := hu' h0 pcm hpm _ hx
      rw [Is.unique hr i', h0]
      simpa using h'
    · have : (2 : ℚ) ^ 1 ≤ 2 ^ L := pow_le_pow_right₀ (by norm_num) (by omega)
      refine hr1.trans (le_trans ?_ this)
      norm_num
  obtain ⟨w, iw, ew⟩ := trip_err hL (is_up hL) (is_down hL) hr hr1 hr2 hy
  refine ⟨r, w, hr, iw, ?_⟩
  rw [abs_sub_comm]
  exact ew

/-- the error of a decoder in sync -/
theorem level_error (b b' : Build) (info : StreamInfo) (hn : 0 < info.channels) (L : Nat) (hL : L ≤ 10) (calls : List (List F32))
    (hp : Proper info.channels calls) (hu : ∀ pcm ∈ calls, ∀ x ∈ pcm, Wide x) (hu' : L = 0 → ∀ pcm ∈ calls, ∀ x ∈ pcm, Unit x)
    (hsync : ∀ ch < info.channels, InSync (stored (down L) info.channels ch 0 calls)) :
    ∃ c sig, encodeAll b (fresh info L) calls = .ok c ∧
      List.Forall₂ (List.Forall₂ (Near (levelError L))) (signal info.channels calls) sig ∧
      ∀ bufs, ∃ c', decodeAll b' c.init bufs = .ok (c', readBlocks info.channels sig (bufs.map (·.map (· * up L)))) := by
  obtain ⟨c, e, hd⟩ := decode_inSync b b' info hn hL calls hp hsync
  exact ⟨c, rescaled L info.channels calls, e, rescaled_near hL hu hu', hd⟩

/-- C04. At every level, whenever the codec is in sync, encoding succeeds in both builds, and what is decoded is, block by block and channel
by channel, a signal at most `levelError L` away from the encoded one. -/
theorem C04_error_bound (b b' : Build) (info : StreamInfo) (hn : 0 < info.channels) (L : Nat) (hL : L ≤ 10) (calls : List (List F32))
    (hp : Proper info.channels calls) (hu : ∀ pcm ∈ calls, ∀ x ∈ pcm, Unit x)
    (hsync : ∀ ch < info.channels, InSync (stored (down L) info.channels ch 0 calls)) :
    ∃ c sig, encodeAll b (fresh info L) calls = .ok c ∧
      List.Forall₂ (List.Forall₂ (Near (levelError L))) (signal info.channels calls) sig ∧
      ∀ bufs, ∃ c', decodeAll b' c.init bufs = .ok (c', readBlocks info.channels sig (bufs.map (·.map (· * up L)))) := 
  level_error b b' info hn L hL calls hp (wide_of_unit hu) (fun _ => hu) hsync

/-- at level 0 the hypotheses hold for `demo`, and at levels 4 to 10 for every signal in [-1, 1] (C03) -/
example : Proper 2 demo ∧ (∀ pcm ∈ demo, ∀ x ∈ pcm, Unit x) ∧ ∀ ch < 2, InSync (stored (down 0) 2 ch 0 demo) := by
  refine ⟨demo_proper, ?_, ?_⟩
  · exact unit_all demo (by decide +kernel)
  · intro ch hch
    have : down 0 = ofInt 1 := by simp [down, ofInt]
    rw [this, stored_one hch]
    exact demo_inSync ch hch

/-- the bound in numbers: 0.00003 at level 0, 0.033 at level 10 -/
example : levelError 0 < 0.000031 ∧ levelError 10 < 0.0326 := by
  unfold levelError
  norm_num

/-! ## C26: levels that cannot overflow -/

/-- C26 holds at levels 2 to 10 for every signal in [-1, 1]: no panic in a debug build. -/
theorem C26_high_levels_partial (info : StreamInfo) (hn : 0 < info.channels) (L : Nat) (h2 : 2 ≤ L) (hL : L ≤ 10) (calls : List (List F32))
    (h3 : ∀ first ∈ calls.head?, 3 ≤ first.length / info.channels) (hs : ∀ pcm ∈ calls, pcm.length / info.channels < 65536)
    (hu : ∀ pcm ∈ calls, ∀ x ∈ pcm, Unit x) : ∃ c, encodeAll .debug (fresh info L) calls = .ok c := by
  obtain ⟨c, -, e, -⟩ := encodeAll_calls (b := .debug) hn L calls h3 (.inr ⟨hs, by
    intro ch hch
    rw [(fresh_up info hL).2]
    exact quiet_high h2 hL hch (wide_of_unit hu)⟩)
  exact ⟨c, e⟩

/-! ## C57 -/

/-- C57. For every three 16-bit samples the prediction is at most 1 away from the quadratic extrapolation, limited to [-32767, 32767]. -/
theorem C57_predictor (h3 h2 h1 : ℤ) (a3 : -32768 ≤ h3 ∧ h3 ≤ 32767) (a2 : -32768 ≤ h2 ∧ h2 ≤ 32767) (a1 : -32768 ≤ h1 ∧ h1 ≤ 32767) :
    |predict h3 h2 h1 - max (-32767) (min 32767 (h3 - 3 * h2 + 3 * h1))| ≤ 1 :=
  predict_err (by rw [abs_le]; omega) (by rw [abs_le]; omega) (by rw [abs_le]; omega)

/-- the tolerance is used -/
example : predict 462 14 442 = 1745 ∧ (462 - 3 * 14 + 3 * 442 : ℤ) = 1746 := by decide +kernel

end Adhoc
