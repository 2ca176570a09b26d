import Verif.Props.LongCalls
import Verif.Props.Savings

/-!
# C19, C112: the exact worst case

The encoder compares the sizes of the differences before they are limited to 16 bits and writes them after that. Whatever it picks, a limited
difference is at least one quotient step shorter than the one it was picked for, so no frame takes more than 17 bits per difference.
-/

namespace Adhoc
open Spec F32

/-- one difference: `g` before limiting, `m` after -/
theorem limited_cost {k g m : Nat} (h1 : 1 ≤ k) (h15 : k ≤ 15) (hg : g ≤ 65534) (hm : m ≤ g) (hl : m ≤ 32767) : m / 2 ^ k + g / 2 ^ 15 ≤ g / 2 ^ k := by
  interval_cases k <;> omega

theorem residual_bits_15 {k : Nat} (h1 : 1 ≤ k) (h15 : k ≤ 15) : ∀ (qs P : List Int) (_ : ∀ q ∈ qs, -32767 ≤ q ∧ q ≤ 32767),
    ((residuals P qs).flatMap (riceBits k)).length + frameCost 15 P qs ≤ frameCost k P qs + 17 * qs.length
  | [], P, _ => by simp [residuals, frameCost, gaps]
  | q :: qs, P, h => by
    have ih := residual_bits_15 h1 h15 qs (P ++ [q]) (fun x hx => h x (by simp [hx]))
    have hg := gap_le (P := P) (h q (by simp))
    have hc := limited_cost (m := (max (-32767) (min 32766 (q - guess P))).natAbs) h1 h15 hg (by omega) (by omega)
    simp only [residuals, frameCost, gaps, List.flatMap_cons, List.length_append, List.map_cons, List.sum_cons, length_riceBits, List.length_cons] at ih ⊢
    unfold cost at *
    omega

/-- 16 bits for each code written verbatim and at most 17 for each difference -/
theorem Fr.WF.bits_le_17 {f : Fr} (h : f.WF) (hl : f.codes.length ≤ 131064) : f.bits.length + f.raw.length ≤ 17 * f.codes.length := by
  have h5 : f.codes.length = f.raw.length + f.body.length := by rw [← f.raw_body]; simp
  have h1 := residual_bits_15 h.exp1 h.exp15 f.body (f.pre ++ f.raw) (fun q hq => h.range q (by rw [← f.raw_body]; simp [hq]))
  have h2 := h.opt (by omega) 15 (by omega) le_rfl
  unfold Fr.bits
  rw [List.length_append, length_rawBits]
  omega

theorem bitsOf_le_17 : ∀ (fs : List Fr) (_ : ∀ f ∈ fs, f.bits.length + f.raw.length ≤ 17 * f.codes.length),
    (bitsOf fs).length + (fs.map fun f => f.raw.length).sum ≤ 17 * (fs.map fun f => f.codes.length).sum
  | [], _ => by simp [bitsOf]
  | f :: fs, h => by
    have := bitsOf_le_17 fs (fun g hg => h g (by simp [hg]))
    have := h f (by simp)
    rw [bitsOf_cons, List.length_append, List.map_cons, List.sum_cons, List.map_cons, List.sum_cons, Nat.mul_add]
    omega

/-- C19 with the least possible bound, for calls of at most 131064 blocks: at most 16 bits for each of the first three samples of a channel
and at most 17 bits for every other one, whatever the signal and the level -/
theorem C19_worst_partial (b : Build) (info : StreamInfo) (level : Nat) (hn : 0 < info.channels) (calls : List (List F32)) (c : AdhocCodec)
    (h : encodeAll b (fresh info level) calls = .ok c) (hs : ∀ pcm ∈ calls, pcm.length / info.channels ≤ 131064) (h0 : calls ≠ []) :
    c.stream.stream.len + 3 * info.channels ≤ 17 * (info.channels * (signal info.channels calls).length) := by
  obtain ⟨-, blocks, H, HR, s⟩ := recorded_of_ok hn h
  have hrec := HR.toRec hn
  have hb : ∀ f ∈ flat info.channels blocks, f.bits.length + f.raw.length ≤ 17 * f.codes.length := by
    intro f hf
    obtain ⟨blk, hblk, hf⟩ := List.mem_flatMap.1 hf
    obtain ⟨ch, hch, rfl⟩ := List.mem_map.1 hf
    have hch : ch < info.channels := by simpa using hch
    obtain ⟨j, hj, rfl⟩ := List.getElem_of_mem hblk
    exact (hrec.wf j hj ch hch).bits_le_17 (HR.size_le hs hj hch)
  have h1 := bitsOf_le_17 _ hb
  have h2 : 3 * info.channels ≤ ((flat info.channels blocks).map fun f => f.raw.length).sum := by
    have hl := HR.len
    rcases blocks with _ | ⟨blk, rest⟩
    · simp only [List.length_nil] at hl
      exact absurd (List.length_eq_zero_iff.1 hl.symm) h0
    · have hr : ∀ ch ∈ List.range info.channels, (blk ch).raw.length = 3 := by
        intro ch hch
        have hch : ch < info.channels := by simpa using hch
        have hp : (blk ch).pre = [] := hrec.pre 0 (by simp) ch hch
        have hw : (blk ch).WF := hrec.wf 0 (by simp) ch hch
        have := hw.first hp
        unfold Fr.raw
        rw [if_pos hp, List.length_take]
        omega
      simp only [flat, List.flatMap_cons, List.map_append, List.sum_append, List.map_map, Function.comp_def]
      rw [List.map_congr_left hr]
      simp
      omega
  rw [sum_flat (fun f => f.codes.length) (fun j => (calls.getD j []).length / info.channels)] at h1
  · have e : ((List.range blocks.length).map fun j => (calls.getD j []).length / info.channels).sum = (signal info.channels calls).length := by
      rw [signal, List.length_flatMap, HR.len]
      congr 1
      apply List.ext_getElem
      · simp
      · intro i h1 h2
        have : i < calls.length := by simpa using h2
        simp [List.getD_eq_getElem?_getD, List.getElem?_eq_getElem this]
    rw [e] at h1
    have hc := H.bits.cursor
    show c.stream.stream.bitCursor + _ ≤ _
    omega
  · intro j hj ch hch
    have hj' : j < calls.length := by rw [← HR.len]; exact hj
    rw [(HR.made j hj hj' ch hch).length]
    simp [List.getD_eq_getElem?_getD, List.getElem?_eq_getElem hj']

/-! ## a full-scale alternation -/

/-- `1, -1, 1, ..` or the other way round -/
def fullSwing : Nat → Bool → List F32
  | 0, _ => []
  | n + 1, neg => (if neg then F32.ofInt (-1) else F32.ofInt 1) :: fullSwing n (!neg)

theorem length_fullSwing : ∀ n neg, (fullSwing n neg).length = n
  | 0, _ => rfl
  | n + 1, neg => by rw [fullSwing, List.length_cons, length_fullSwing n]

theorem trunc_fullSwing : ∀ n neg, (fullSwing n neg).map truncateSample = altCodes n (if neg then -32767 else 32767)
  | 0, _ => rfl
  | n + 1, neg => by
    rw [fullSwing, altCodes, List.map_cons, trunc_fullSwing n]
    have h1 : truncateSample (F32.ofInt 1) = 32767 := by decide +kernel
    have h2 : truncateSample (F32.ofInt (-1)) = -32767 := by decide +kernel
    cases neg
    · simp only [Bool.false_eq_true, if_false, h1]; rfl
    · simp only [if_true, h2]; rfl

theorem guess_swing {q : Int} (h : q = 32767 ∨ q = -32767) : guess [q, -q, q] = q := by
  rcases h with rfl | rfl <;> decide +kernel

theorem gaps_swing : ∀ (n : Nat) {q : Int} (_ : q = 32767 ∨ q = -32767), gaps [q, -q, q] (altCodes n (-q)) = List.replicate n 65534
  | 0, _, _ => rfl
  | n + 1, q, h => by
    have ih := gaps_swing n (q := -q) (by omega)
    rw [neg_neg] at ih
    rw [altCodes, gaps, neg_neg, show [q, -q, q] ++ [-q] = [q] ++ [-q, q, -q] from rfl, gaps_split, ih, List.replicate_succ, guess_swing h]
    congr 1
    omega

theorem length_residuals_swing : ∀ (n : Nat) {q : Int} (_ : q = 32767 ∨ q = -32767),
    ((residuals [q, -q, q] (altCodes n (-q))).flatMap (riceBits 15)).length = n * 17
  | 0, _, _ => rfl
  | n + 1, q, h => by
    have ih := length_residuals_swing n (q := -q) (by omega)
    rw [neg_neg] at ih
    rw [altCodes, residuals, neg_neg, show [q, -q, q] ++ [-q] = [q] ++ [-q, q, -q] from rfl, residuals_split, List.flatMap_cons, List.length_append, ih,
      guess_swing h, length_riceBits]
    omega

theorem swing_frame {f : Fr} (hw : f.WF) (hp : f.pre = []) {m : Nat} (hm : m ≤ 131061) (hc : f.codes = altCodes (m + 3) 32767) :
    f.bits.length = 48 + m * 17 := by
  rw [altCodes_three] at hc
  have hraw : f.raw = [32767, -32767, 32767] := by
    unfold Fr.raw
    rw [if_pos hp, hc]
    rfl
  have hbody : f.body = altCodes m (-32767) := by
    unfold Fr.body
    rw [if_pos hp, hc]
    rfl
  have hcost : ∀ k, frameCost k (f.pre ++ f.raw) f.body = m * cost k 65534 := by
    intro k
    rw [hp, hraw, hbody, List.nil_append, frameCost]
    have := gaps_swing m (q := 32767) (.inl rfl)
    rw [this, sum_replicate_cost]
  unfold Fr.bits
  rcases Nat.eq_zero_or_pos m with rfl | hpos
  · rw [hp, hraw, hbody, List.length_append]
    simp [altCodes, residuals, Fr.rawBits]
  · have hexp : f.exp = 15 := by
      have h2 := hw.opt (by rw [hbody, length_altCodes]; omega) 15 (by omega) le_rfl
      rw [hcost, hcost] at h2
      have h3 := Nat.le_of_mul_le_mul_left h2 hpos
      have e1 := hw.exp1
      have e2 := hw.exp15
      revert h3 e1 e2
      generalize f.exp = x
      intro h3 e1 e2
      by_contra hne
      interval_cases x
      all_goals first
        | exact hne rfl
        | norm_num [cost] at h3
    rw [hexp, hp, hraw, hbody, List.nil_append, List.length_append]
    have := length_residuals_swing m (q := 32767) (.inl rfl)
    rw [this]
    rfl

/-- C19: the bound is reached, for every length a call may have. A full-scale alternation of `N` samples takes 16 bits for each of the first three
samples and 17 for each other one (in a release build; a debug build overflows on it, see C26). -/
theorem C19_reached_partial (rate N : Nat) (h3 : 3 ≤ N) (hN : N ≤ 131064) :
    ∃ c, encodeAll .release (fresh { sampleRate := rate, channels := 1 } 0) [fullSwing N false] = .ok c ∧
      c.stream.stream.len + 3 = 17 * N := by
  obtain ⟨m, rfl⟩ : ∃ m, N = m + 3 := ⟨N - 3, by omega⟩
  obtain ⟨c, blocks, e, H, HR, -⟩ := encodeAll_calls (b := .release) (info := { sampleRate := rate, channels := 1 }) (by simp) 0 [fullSwing (m + 3) false]
    (by intro first hf; cases hf; rw [length_fullSwing]; simp) (.inl rfl)
  have hrec := HR.toRec (by simp)
  have hl : blocks.length = 1 := HR.len
  obtain ⟨blk, rfl⟩ := List.length_eq_one_iff.1 hl
  have hcodes : (blk 0).codes = altCodes (m + 3) 32767 := by
    have h1 := HR.exact (ch := 0) (by simp)
    have h2 : codesOf [blk] 0 = (blk 0).codes := by simp [codesOf]
    rw [← h2, h1, (fresh_zero _).2]
    show stored _ 1 0 0 _ = _
    rw [stored_one (by simp)]
    have h3 : signal 1 [fullSwing (m + 3) false] = (fullSwing (m + 3) false).map fun x => [x] := by
      simp only [signal, List.flatMap_cons, List.flatMap_nil, List.append_nil]
      exact blocksOf_mono _
    have := trunc_fullSwing (m + 3) false
    rw [if_neg (by simp)] at this
    rw [h3, Spec.codes, List.map_map, ← this]
    rfl
  have hpre : (blk 0).pre = [] := hrec.pre 0 (by simp) 0 (by simp)
  have hwf : (blk 0).WF := hrec.wf 0 (by simp) 0 (by simp)
  have h1 := swing_frame hwf hpre (by omega) hcodes
  have hflat : flat 1 [blk] = [blk 0] := by simp [flat]
  have hbits := H.bits.cursor
  rw [hflat] at hbits
  refine ⟨c, e, ?_⟩
  show c.stream.stream.bitCursor + 3 = _
  rw [hbits, bitsOf_singleton, h1]
  omega

/-- the hypotheses of C19_worst_partial are met, with equality, by a hundred thousand samples -/
example : ∃ calls c, encodeAll .release (fresh { sampleRate := 44100, channels := 1 } 0) calls = .ok c ∧ calls ≠ [] ∧
    (∀ pcm ∈ calls, pcm.length / 1 ≤ 131064) ∧ c.stream.stream.len + 3 * 1 = 17 * (1 * 100000) := by
  obtain ⟨c, e, hl⟩ := C19_reached_partial 44100 100000 (by norm_num) (by norm_num)
  refine ⟨_, c, e, by simp, ?_, by omega⟩
  intro pcm hp
  obtain rfl : pcm = _ := by simpa using hp
  rw [length_fullSwing]
  norm_num

/-- C112, the true part for all levels: 48 bits for the first three samples of a channel, and for each further one at most 17 bits at the levels 0 to 4 and `21 - L` bits
from there on -/
theorem C112_all_levels_partial (b : Build) (info : StreamInfo) (hn : 0 < info.channels) (L : Nat) (hL : L ≤ 10)
    (calls : List (List F32)) (hs : ∀ pcm ∈ calls, pcm.length / info.channels ≤ 131064) (hc : calls ≠ []) (hu : ∀ pcm ∈ calls, ∀ x ∈ pcm, Unit x)
    (c : AdhocCodec) (h : encodeAll b (fresh info L) calls = .ok c) :
    c.stream.stream.len ≤ info.channels * (48 + min 17 (21 - L) * ((signal info.channels calls).length - 3)) := by
  rcases Nat.lt_or_ge L 4 with h4 | h4
  · rw [Nat.min_eq_left (by omega)]
    have h1 := C19_worst_partial b info L hn calls c h hs hc
    have h3 : 3 ≤ (signal info.channels calls).length := by
      obtain ⟨pcm, rest, rfl⟩ := List.exists_cons_of_ne_nil hc
      have := (recorded_of_ok hn h).1 pcm rfl
      rw [signal, List.flatMap_cons, List.length_append, length_blocksOf]
      omega
    obtain ⟨m, hm⟩ : ∃ m, (signal info.channels calls).length = m + 3 := ⟨_ - 3, (Nat.sub_add_cancel h3).symm⟩
    rw [hm] at h1 ⊢
    rw [Nat.add_sub_cancel]
    have e : 17 * (info.channels * (m + 3)) = info.channels * (48 + 17 * m) + 3 * info.channels := by ring
    omega
  · rw [Nat.min_eq_right (by omega)]
    exact C112_worst_case_partial b info hn L (by omega) hL calls hs hc hu c h

end Adhoc
