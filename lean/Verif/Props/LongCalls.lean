import Verif.Props.Encoding
import Verif.Proofs.Seek
import Mathlib.Tactic.IntervalCases

/-!
# C19, C20 for calls of any length

The encoder sums the sizes it compares in 32 bits. A call of 262164 samples alternating between 1/8 and -1/8 is enough to make the sum for the
parameter 1 start again at 0, so that the worst parameter looks like the best.
-/

namespace Adhoc
open Spec

/-- C20, exact behaviour for calls of any length: the parameter in the header of a frame is the first one with the least positive sum of code lengths
modulo 2^32 (or 1 if all are 0) -/
theorem C20_wrapped_partial (b : Build) (info : StreamInfo) (level : Nat) (hn : 0 < info.channels) (calls : List (List F32))
    (c : AdhocCodec) (h : encodeAll b (fresh info level) calls = .ok c) :
    ∀ Q : Nat → List Int, (∀ ch, Q ch = stored (fresh info level).invScale info.channels ch 0 calls) →
      ∀ j < calls.length, ∀ ch < info.channels, ∃ hdr start len, c.frameHeaderList.get (j * info.channels + ch) = .ok (some hdr) ∧
        start = max 3 (signal info.channels (calls.take j)).length ∧ start + len = (signal info.channels (calls.take (j + 1))).length ∧
        1 ≤ hdr.exponent ∧ hdr.exponent ≤ 15 ∧
        ∀ W : Nat → Nat, (∀ k, W k = ((differences (Q ch) start len).map (riceLength k)).sum % 2 ^ 32) →
          (∀ k, 1 ≤ k → k ≤ 15 → 0 < W k → W hdr.exponent ≤ W k ∧ (k < hdr.exponent → W hdr.exponent < W k)) ∧
          (0 < W hdr.exponent ∨ (hdr.exponent = 1 ∧ ∀ k, 1 ≤ k → k ≤ 15 → W k = 0)) := by
  obtain ⟨hf3, blocks, H, HR, s⟩ := recorded_of_ok hn h
  have hrec := HR.toRec hn
  intro Q hQ j hj ch hch
  rw [hQ, ← HR.exact hch]
  have hjb : j < blocks.length := by rw [HR.len]; exact hj
  have hlt : j * info.channels + ch < (flat info.channels blocks).length := by
    rw [length_flat]
    have : (j + 1) * info.channels ≤ blocks.length * info.channels := Nat.mul_le_mul_right _ hjb
    rw [Nat.add_mul] at this
    omega
  have hget := isLog_get H.log (j * info.channels + ch)
  rw [hdrs_getElem?, List.getElem?_eq_getElem hlt, flat_getElem blocks hjb hch hlt, Option.map_some] at hget
  obtain ⟨f, hfd⟩ : ∃ f, f = blocks[j] ch := ⟨_, rfl⟩
  rw [← hfd] at hget
  have hwf : f.WF := by rw [hfd]; exact hrec.wf j hjb ch hch
  have hpre : f.pre = codesOf (blocks.take j) ch := by rw [hfd]; exact hrec.pre j hjb ch hch
  have hsig : ∀ k, k ≤ blocks.length → (codesOf (blocks.take k) ch).length = (signal info.channels (calls.take k)).length := by
    intro k hk
    have hk' : Recorded info.channels (fresh info level).invScale (calls.take k) (blocks.take k) := by
      refine ⟨by simp [HR.len], ?_⟩
      intro i h1 h2 ch hch
      have h1' : i < blocks.length ∧ i < k := by simp at h1; omega
      have h2' : i < calls.length := by rw [← HR.len]; exact h1'.1
      have := HR.made i h1'.1 h2' ch hch
      rw [List.getElem_take, List.getElem_take, List.take_take, Nat.min_eq_left (by omega)]
      exact this
    rw [(hrec.take k).length hch, hk'.rows hn]
  have hprefix : (f.pre ++ f.raw ++ f.body) <+: codesOf blocks ch := by
    rw [List.append_assoc, f.raw_body, hpre, hfd, ← codesOf_take_succ hjb]
    refine ⟨codesOf (blocks.drop (j + 1)) ch, ?_⟩
    rw [← codesOf_append, List.take_append_drop]
  have hstart : (f.pre ++ f.raw).length = max 3 (signal info.channels (calls.take j)).length := by
    rw [← hsig j (by omega), ← hpre]
    by_cases hp : f.pre = []
    · have := hwf.first hp
      simp [Fr.raw, hp]; omega
    · have := hwf.later hp
      simp [Fr.raw, hp]; omega
  have hstop : (f.pre ++ f.raw).length + f.body.length = (signal info.channels (calls.take (j + 1))).length := by
    rw [← hsig (j + 1) (by omega), codesOf_take_succ hjb, ← hpre, ← hfd, ← f.raw_body]
    simp; omega
  refine ⟨_, (f.pre ++ f.raw).length, f.body.length, hget, hstart, hstop, hwf.exp1, hwf.exp15, ?_⟩
  intro W hW
  have e : ∀ k, wrappedCost k (f.pre ++ f.raw) f.body = W k := by
    intro k
    rw [hW, wrappedCost, frameCost_differences hprefix]
  have := hwf.picked
  simp only [Picked, e] at this
  exact this

/-- in `demo` the frames of the two channels get the parameters 1 and 1 in the first call, where nothing is coded, and 12 and 11 in the second -/
example : ((encodeAll .debug (fresh { sampleRate := 44100, channels := 2 } 0) demo) >>= fun c => do
    let hdrs ← (List.range 5).mapM fun i => c.frameHeaderList.get i
    pure (hdrs.map (·.map (·.exponent)))) = .ok [some 1, some 1, some 12, some 11, none] := by decide +kernel

/-! ## an alternation -/

/-- `q, -q, q, ..` -/
def altCodes : Nat → Int → List Int
  | 0, _ => []
  | n + 1, q => q :: altCodes n (-q)

/-- `0.125, -0.125, 0.125, ..` or the other way round -/
def altSamples : Nat → Bool → List F32
  | 0, _ => []
  | n + 1, neg => (if neg then F32.ofRat (-1 / 8) else F32.ofRat (1 / 8)) :: altSamples n (!neg)

theorem length_altSamples : ∀ n neg, (altSamples n neg).length = n
  | 0, _ => rfl
  | n + 1, neg => by rw [altSamples, List.length_cons, length_altSamples n]

theorem length_altCodes : ∀ n q, (altCodes n q).length = n
  | 0, _ => rfl
  | n + 1, q => by rw [altCodes, List.length_cons, length_altCodes n]

theorem trunc_altSamples : ∀ n neg, (altSamples n neg).map truncateSample = altCodes n (if neg then -4095 else 4095)
  | 0, _ => rfl
  | n + 1, neg => by
    rw [altSamples, altCodes, List.map_cons, trunc_altSamples n]
    have h1 : truncateSample (F32.ofRat (1 / 8)) = 4095 := by decide +kernel
    have h2 : truncateSample (F32.ofRat (-1 / 8)) = -4095 := by decide +kernel
    cases neg
    · simp only [Bool.false_eq_true, if_false, h1]; rfl
    · simp only [if_true, h2]; rfl

theorem altCodes_three (m : Nat) (q : Int) : altCodes (m + 3) q = [q, -q, q] ++ altCodes m (-q) := by
  simp only [altCodes, neg_neg, List.cons_append, List.nil_append]

theorem predict_alt {q : Int} (h : q = 4095 ∨ q = -4095) : predict q (-q) q = 7 * q := by
  rcases h with rfl | rfl <;> decide +kernel

theorem gaps_alt : ∀ (n : Nat) {q : Int} (_ : q = 4095 ∨ q = -4095), gaps [q, -q, q] (altCodes n (-q)) = List.replicate n 32760
  | 0, _, _ => rfl
  | n + 1, q, h => by
    have ih := gaps_alt n (q := -q) (by omega)
    rw [neg_neg] at ih
    rw [altCodes, gaps, neg_neg, show [q, -q, q] ++ [-q] = [q] ++ [-q, q, -q] from rfl, gaps_split, ih, List.replicate_succ]
    have : guess [q, -q, q] = 7 * q := predict_alt h
    rw [this]
    congr 1
    omega

theorem length_residuals_alt : ∀ (n : Nat) {q : Int} (_ : q = 4095 ∨ q = -4095),
    ((residuals [q, -q, q] (altCodes n (-q))).flatMap (riceBits 1)).length = n * 16383
  | 0, _, _ => rfl
  | n + 1, q, h => by
    have ih := length_residuals_alt n (q := -q) (by omega)
    rw [neg_neg] at ih
    rw [altCodes, residuals, neg_neg, show [q, -q, q] ++ [-q] = [q] ++ [-q, q, -q] from rfl, residuals_split, List.flatMap_cons, List.length_append, ih]
    have : guess [q, -q, q] = 7 * q := predict_alt h
    rw [this, length_riceBits]
    omega

theorem sum_replicate_cost (k e : Nat) : ∀ n, ((List.replicate n e).map (cost k)).sum = n * cost k e
  | 0 => by simp
  | n + 1 => by rw [List.replicate_succ, List.map_cons, List.sum_cons, sum_replicate_cost k e n, Nat.add_mul]; omega

/-- the frame the encoder makes of 262164 alternating samples -/
theorem alt_frame {f : Fr} (hw : f.WF) (hp : f.pre = []) {m : Nat} (hm : m = 262161) (hc : f.codes = altCodes (m + 3) 4095) :
    f.exp = 1 ∧ f.bits.length = 48 + m * 16383 := by
  rw [altCodes_three] at hc
  have hraw : f.raw = [4095, -4095, 4095] := by
    unfold Fr.raw
    rw [if_pos hp, hc]
    rfl
  have hbody : f.body = altCodes m (-4095) := by
    unfold Fr.body
    rw [if_pos hp, hc]
    rfl
  have hcost : ∀ k, wrappedCost k (f.pre ++ f.raw) f.body = m * cost k 32760 % 2 ^ 32 := by
    intro k
    rw [hp, hraw, hbody, List.nil_append, wrappedCost, frameCost]
    have := gaps_alt m (q := 4095) (.inl rfl)
    rw [this, sum_replicate_cost]
  have hexp : f.exp = 1 := by
    obtain ⟨h1, -⟩ := hw.picked
    have h2 := (h1 1 (by norm_num) (by norm_num) (by rw [hcost, hm]; norm_num [cost])).1
    rw [hcost, hcost, hm] at h2
    have e1 := hw.exp1
    have e2 := hw.exp15
    revert h2 e1 e2
    generalize f.exp = x
    intro h2 e1 e2
    by_contra hne
    interval_cases x
    · exact hne rfl
    all_goals norm_num [cost] at h2
  refine ⟨hexp, ?_⟩
  unfold Fr.bits
  rw [hexp, hp, hraw, hbody, List.nil_append, List.length_append]
  have := length_residuals_alt m (q := 4095) (.inl rfl)
  rw [this]
  rfl

theorem blocksOf_mono (xs : List F32) : blocksOf 1 xs = xs.map fun x => [x] := by
  unfold blocksOf
  rw [Nat.div_one]
  apply List.ext_getElem
  · simp
  · intro i h1 h2
    have hi : i < xs.length := by simpa using h2
    simp only [List.getElem_map, List.getElem_range, Nat.mul_one]
    rw [List.drop_eq_getElem_cons hi]
    rfl

theorem alt_stored (rate m : Nat) : stored (fresh { sampleRate := rate, channels := 1 } 0).invScale 1 0 0 [altSamples m false] = altCodes m 4095 := by
  rw [(fresh_zero _).2, stored_one (by simp)]
  have h3 : signal 1 [altSamples m false] = (altSamples m false).map fun x => [x] := by
    simp only [signal, List.flatMap_cons, List.flatMap_nil, List.append_nil]
    exact blocksOf_mono _
  have := trunc_altSamples m false
  rw [if_neg (by simp)] at this
  rw [h3, Spec.codes, List.map_map, ← this]
  rfl

/-- 262164 alternating mono samples in one call -/
theorem alt_recorded (rate : Nat) {m : Nat} (hm : m = 262161) :
    ∃ c hdr, encodeAll .release (fresh { sampleRate := rate, channels := 1 } 0) [altSamples (m + 3) false] = .ok c ∧
    c.stream.stream.len = 48 + m * 16383 ∧ c.frameHeaderList.get 0 = .ok (some hdr) ∧ hdr.exponent = 1 := by
  obtain ⟨c, blocks, e, H, HR, -⟩ := encodeAll_calls (b := .release) (info := { sampleRate := rate, channels := 1 }) (by simp) 0 [altSamples (m + 3) false]
    (by intro first hf; cases hf; rw [length_altSamples]; simp) (.inl rfl)
  have hrec := HR.toRec (by simp)
  have hl : blocks.length = 1 := HR.len
  obtain ⟨blk, rfl⟩ := List.length_eq_one_iff.1 hl
  have hcodes : (blk 0).codes = altCodes (m + 3) 4095 := by
    have h1 := HR.exact (ch := 0) (by simp)
    have h2 : codesOf [blk] 0 = (blk 0).codes := by simp [codesOf]
    rw [← h2, h1]
    exact alt_stored rate (m + 3)
  have hpre : (blk 0).pre = [] := hrec.pre 0 (by simp) 0 (by simp)
  have hwf : (blk 0).WF := hrec.wf 0 (by simp) 0 (by simp)
  obtain ⟨h1, h2⟩ := alt_frame hwf hpre hm hcodes
  have hflat : flat 1 [blk] = [blk 0] := by simp [flat]
  have hget := isLog_get H.log 0
  have hbits := H.bits.cursor
  rw [hflat] at hget hbits
  refine ⟨c, _, e, ?_, hget, h1⟩
  show c.stream.stream.bitCursor = _
  rw [hbits, bitsOf_singleton, h2]

/-- **C19** as stated -/
def C19_statement : Prop := ∀ (b : Build) (info : StreamInfo) (level : Nat) (_ : 0 < info.channels) (calls : List (List F32)) (c : AdhocCodec),
  encodeAll b (fresh info level) calls = .ok c →
    c.stream.stream.len ≤ 18 * (info.channels * (signal info.channels calls).length) + 48 * info.channels

/-- C19 is false: six seconds of an alternation at an eighth of the full scale, given in one call, take 537 MB, 16383 bits per sample -/
theorem C19_false : ¬ C19_statement := by
  intro h
  obtain ⟨m, hm⟩ : ∃ m, m = 262161 := ⟨_, rfl⟩
  obtain ⟨c, hdr, e, hl, -, -⟩ := alt_recorded 44100 hm
  have := h .release _ 0 (by simp) _ c e
  have hs : (signal 1 [altSamples (m + 3) false]).length = m + 3 := by
    simp only [signal, List.flatMap_cons, List.flatMap_nil, List.append_nil, length_blocksOf, length_altSamples, Nat.div_one]
  rw [hl, hs] at this
  dsimp only at this
  omega

/-- **C20** as stated, about the first frame of a mono recording -/
def C20_statement : Prop := ∀ (b : Build) (info : StreamInfo) (level : Nat) (_ : info.channels = 1) (pcm : List F32) (c : AdhocCodec) (hdr : FrameHeader),
  encodeAll b (fresh info level) [pcm] = .ok c → c.frameHeaderList.get 0 = .ok (some hdr) →
    ∀ D, D = differences (stored (fresh info level).invScale 1 0 0 [pcm]) 3 (pcm.length - 3) → (∀ d ∈ D, -32767 ≤ d ∧ d ≤ 32766) →
      ∀ k, 1 ≤ k → k ≤ 15 → (D.map (riceLength hdr.exponent)).sum ≤ (D.map (riceLength k)).sum

/-- C20 is false: there the encoder picks the parameter 1 although 15 needs a thousandth of the bits -/
theorem C20_false : ¬ C20_statement := by
  intro h
  obtain ⟨m, hm⟩ : ∃ m, m = 262161 := ⟨_, rfl⟩
  obtain ⟨c, hdr, e, -, hg, hx⟩ := alt_recorded 44100 hm
  have hgap := gaps_differences (altCodes m (-4095)) [4095, -4095, 4095] ([4095, -4095, 4095] ++ altCodes m (-4095)) (List.prefix_refl _)
  have hga := gaps_alt m (q := 4095) (.inl rfl)
  rw [hga, length_altCodes, show ([4095, -4095, 4095] : List Int).length = 3 from rfl] at hgap
  obtain ⟨D, hD⟩ : ∃ D, D = differences (stored (fresh { sampleRate := 44100, channels := 1 } 0).invScale 1 0 0 [altSamples (m + 3) false]) 3
    ((altSamples (m + 3) false).length - 3) := ⟨_, rfl⟩
  have hD' := hD
  rw [alt_stored, length_altSamples, altCodes_three, Nat.add_sub_cancel] at hD'
  rw [← hD'] at hgap
  have key : ∀ k, (D.map (riceLength k)).sum = m * cost k 32760 := by
    intro k
    have e1 : D.map (riceLength k) = (D.map Int.natAbs).map (cost k) := by
      rw [List.map_map]
      apply List.map_congr_left
      intro r _
      simp only [Function.comp, cost, riceLength]
      omega
    rw [e1, ← hgap, sum_replicate_cost]
  have := h .release _ 0 rfl _ c hdr e hg D hD (by
    intro d hd
    have : d.natAbs ∈ List.replicate m 32760 := by rw [hgap]; exact List.mem_map_of_mem hd
    have := List.eq_of_mem_replicate this
    omega) 15 (by norm_num) (by norm_num)
  rw [hx, key, key, hm] at this
  norm_num [cost] at this

end Adhoc
