import Mathlib.Tactic.IntervalCases
import Verif.Props.RoundTrip

/-! # C15, C16, C19, C20, C22, C63: what the encoder records -/

namespace Adhoc
open Spec

/-! ## C15, C16 -/

theorem sum_sizes_hdrs : ∀ (fs : List Fr) (p : Nat), ((hdrs p fs).map FrameHeader.size).sum = (fs.map fun f => f.codes.length % 65536).sum
  | [], _ => rfl
  | f :: fs, p => by
    simp only [hdrs, List.map_cons, List.sum_cons, sum_sizes_hdrs fs]
    rfl

theorem sum_flat {n : Nat} (g : Fr → Nat) (h : Nat → Nat) : ∀ (blocks : List (Nat → Fr)) (_ : ∀ j (hj : j < blocks.length), ∀ ch < n, g (blocks[j] ch) = h j),
    ((flat n blocks).map g).sum = n * ((List.range blocks.length).map h).sum := by
  intro blocks
  induction blocks using List.reverseRecOn with
  | nil => simp
  | append_singleton l a ih =>
    intro hh
    have h1 := ih (fun j hj ch hch => by
      have := hh j (by simp; omega) ch hch
      rwa [List.getElem_append_left hj] at this)
    have h2 : ((List.range n).map (fun ch => g (a ch))).sum = n * h l.length := by
      rw [List.map_congr_left (g := fun _ => h l.length)]
      · simp
      · intro ch hch
        have := hh l.length (by simp) ch (by simpa using hch)
        simpa using this
    rw [flat_append, List.map_append, List.sum_append, h1]
    simp only [List.length_append, List.length_singleton, List.range_succ, List.map_append, List.sum_append, List.map_cons, List.map_nil,
      List.sum_cons, List.sum_nil, Nat.add_zero, Nat.mul_add]
    rw [← h2]
    simp [flat, Function.comp_def]

/-- the count is the sum of the 16-bit frame lengths -/
theorem sampleCount {b : Build} {info : StreamInfo} {level : Nat} (hn : 0 < info.channels) {calls : List (List F32)} {c : AdhocCodec}
    (h : encodeAll b (fresh info level) calls = .ok c) :
    c.calculateSampleCountPerChannel = .ok ((calls.map fun pcm => pcm.length / info.channels % 65536).sum) := by
  obtain ⟨-, blocks, H, HR, s⟩ := recorded_of_ok hn h
  unfold AdhocCodec.calculateSampleCountPerChannel AdhocCodec.info
  rw [H.hinfo]
  simp only [expect, bind_ok]
  rw [H.log.len, mapM_ok (f := fun i => (hdrs 0 (flat info.channels blocks))[i]?) _ (fun i _ => isLog_get H.log i), bind_ok, udiv_of_pos hn]
  have e : ((List.range (hdrs 0 (flat info.channels blocks)).length).map fun i => (hdrs 0 (flat info.channels blocks))[i]?).filterMap id =
      hdrs 0 (flat info.channels blocks) := by
    generalize hdrs 0 (flat info.channels blocks) = l
    rw [List.filterMap_map]
    conv_rhs => rw [← List.filterMap_some (l := l)]
    clear * -
    induction l using List.reverseRecOn with
    | nil => rfl
    | append_singleton l a ih =>
      rw [List.length_append, List.length_singleton, List.range_succ, List.filterMap_append]
      rw [List.filterMap_append, ← ih]
      congr 1
      · apply List.filterMap_congr
        intro i hi
        have : i < l.length := by simpa using hi
        simp [List.getElem?_append_left this]
      · simp
  rw [e, sum_sizes_hdrs, sum_flat (h := fun j => (calls.getD j []).length / info.channels % 65536)]
  · rw [Nat.mul_div_cancel_left _ hn, HR.len]
    congr 2
    apply List.ext_getElem
    · simp
    · intro i h1 h2
      have : i < calls.length := by simpa using h2
      simp [List.getD_eq_getElem?_getD, List.getElem?_eq_getElem this]
  · intro j hj ch hch
    have hj' : j < calls.length := by rw [← HR.len]; exact hj
    rw [(HR.made j hj hj' ch hch).length]
    simp [List.getD_eq_getElem?_getD, List.getElem?_eq_getElem hj']

/-- C15. For calls of fewer than 65536 blocks the count is the number of whole blocks passed to `encode`, at every level. -/
theorem C15_sample_count (b : Build) (info : StreamInfo) (level : Nat) (hn : 0 < info.channels) (calls : List (List F32)) (c : AdhocCodec)
    (h : encodeAll b (fresh info level) calls = .ok c) (hs : ∀ pcm ∈ calls, pcm.length / info.channels < 65536) :
    c.calculateSampleCountPerChannel = .ok (signal info.channels calls).length := by
  rw [sampleCount hn h]
  congr 1
  rw [signal, List.length_flatMap]
  congr 1
  apply List.map_congr_left
  intro pcm hp
  rw [length_blocksOf, Nat.mod_eq_of_lt (hs pcm hp)]

/-- `demo` is counted as 6 blocks -/
example : ∃ c, encodeAll .debug (fresh { sampleRate := 44100, channels := 2 } 0) demo = .ok c ∧ c.calculateSampleCountPerChannel = .ok 6 := by
  obtain ⟨c, h, -⟩ := C01_round_trip .debug .debug { sampleRate := 44100, channels := 2 } (by simp) demo demo_proper demo_inSync
  exact ⟨c, h, C15_sample_count _ _ _ (by simp) _ _ h demo_proper.short⟩

/-- C16, exact behaviour: each call is recorded with its length modulo 65536 -/
theorem C16_long_calls_partial (b : Build) (info : StreamInfo) (level : Nat) (hn : 0 < info.channels) (calls : List (List F32)) (c : AdhocCodec)
    (h : encodeAll b (fresh info level) calls = .ok c) :
    c.calculateSampleCountPerChannel = .ok ((calls.map fun pcm => pcm.length / info.channels % 65536).sum) := sampleCount hn h

/-- C16 is false: any mono signal of 65536 samples in one call encodes without complaint and is counted as empty. -/
theorem C16_false (rate level : Nat) (pcm : List F32) (hl : pcm.length = 65536) :
    ∃ c, (fresh { sampleRate := rate, channels := 1 } level).encode .release pcm = .ok (c, some 65536) ∧
      c.calculateSampleCountPerChannel = .ok 0 := by
  obtain ⟨c, -, e, -, -, -⟩ := encodeAll_calls (b := .release) (info := { sampleRate := rate, channels := 1 }) (by simp) level [pcm]
    (by simp [hl]) (.inl rfl)
  have h0 := sampleCount (by simp) e
  simp only [List.map_cons, List.map_nil, hl] at h0
  unfold encodeAll at e
  rw [List.foldlM_cons] at e
  obtain ⟨c1, e1, e2⟩ := bind_eq_ok.1 e
  obtain ⟨⟨c2, r⟩, e3, e4⟩ := bind_eq_ok.1 e1
  cases e4
  cases e2
  refine ⟨c, ?_, h0⟩
  rw [e3]
  unfold AdhocCodec.encode at e3
  obtain ⟨c3, -, e4⟩ := bind_eq_ok.1 e3
  cases e4
  rw [hl]

/-! ## C19 -/

theorem cost_le_18 {k : Nat} (hk : k = 15) {e : Nat} (he : e ≤ 65534) : cost k e ≤ 18 := by
  subst hk
  unfold cost
  omega

theorem sum_residual_bits (k : Nat) : ∀ (qs P : List Int), ((residuals P qs).flatMap (riceBits k)).length ≤ frameCost k P qs
  | [], P => by simp [residuals, frameCost, gaps]
  | q :: qs, P => by
    have := sum_residual_bits k qs (P ++ [q])
    simp only [residuals, frameCost, gaps, List.flatMap_cons, List.length_append, List.map_cons, List.sum_cons, length_riceBits] at this ⊢
    have h : (max (-32767) (min 32766 (q - guess P))).natAbs ≤ (q - guess P).natAbs := by omega
    have := Nat.div_le_div_right (c := 2 ^ k) h
    unfold frameCost cost at *
    omega

theorem frameCost_15 : ∀ (qs P : List Int) (_ : ∀ q ∈ qs, -32767 ≤ q ∧ q ≤ 32767), frameCost 15 P qs ≤ 18 * qs.length
  | [], P, _ => by simp [frameCost, gaps]
  | q :: qs, P, h => by
    have h1 := frameCost_15 qs (P ++ [q]) (fun x hx => h x (by simp [hx]))
    have h2 := cost_le_18 rfl (gap_le (P := P) (h q (by simp)))
    simp only [frameCost, gaps, List.map_cons, List.sum_cons, List.length_cons] at *
    omega

theorem length_rawBits (f : Fr) : (f.raw.flatMap Fr.rawBits).length = 16 * f.raw.length := by
  rw [List.length_flatMap, List.map_congr_left (g := fun _ => 16)]
  · simp [Nat.mul_comm]
  · intro q _; simp [Fr.rawBits]

theorem Fr.WF.bits_le {f : Fr} (h : f.WF) (hl : f.codes.length ≤ 131064) : f.bits.length ≤ 18 * f.codes.length := by
  have hb : f.body.length ≤ f.codes.length := by
    rw [← f.raw_body]; simp
  have h1 := sum_residual_bits f.exp f.body (f.pre ++ f.raw)
  have h2 := h.opt (by omega) 15 (by omega) le_rfl
  have h3 := frameCost_15 f.body (f.pre ++ f.raw) (fun q hq => h.range q (by rw [← f.raw_body]; simp [hq]))
  have h4 := length_rawBits f
  have h5 : f.codes.length = f.raw.length + f.body.length := by rw [← f.raw_body]; simp
  unfold Fr.bits
  rw [List.length_append, h4]
  omega

theorem riceBits_le {k : Nat} (h1 : 1 ≤ k) (h15 : k ≤ 15) {v : Int} (hv : v.natAbs ≤ 32767) : (riceBits k v).length ≤ 16386 := by
  rw [length_riceBits]
  interval_cases k <;> omega

theorem Fr.WF.bits_le_any {f : Fr} (h : f.WF) : f.bits.length ≤ 16386 * f.codes.length := by
  have hres : ∀ (qs P : List Int), ((residuals P qs).flatMap (riceBits f.exp)).length ≤ 16386 * qs.length := by
    intro qs
    induction qs with
    | nil => intro P; simp [residuals]
    | cons q qs ih =>
      intro P
      have h1 := ih (P ++ [q])
      have h2 := riceBits_le h.exp1 h.exp15 (v := max (-32767) (min 32766 (q - guess P))) (by omega)
      simp only [residuals, List.flatMap_cons, List.length_append, List.length_cons] at h1 ⊢
      omega
  have h1 := hres f.body (f.pre ++ f.raw)
  have h5 : f.codes.length = f.raw.length + f.body.length := by rw [← f.raw_body]; simp
  unfold Fr.bits
  rw [List.length_append, length_rawBits]
  omega

theorem bitsOf_le {K : Nat} : ∀ (fs : List Fr) (_ : ∀ f ∈ fs, f.bits.length ≤ K * f.codes.length),
    (bitsOf fs).length ≤ K * (fs.map fun f => f.codes.length).sum
  | [], _ => by simp [bitsOf]
  | f :: fs, h => by
    have := bitsOf_le fs (fun g hg => h g (by simp [hg]))
    have := h f (by simp)
    rw [bitsOf_cons, List.length_append, List.map_cons, List.sum_cons, Nat.mul_add]
    omega

theorem expansion {K : Nat} {info : StreamInfo} {inv : F32} {calls : List (List F32)} {c : AdhocCodec} {blocks : List (Nat → Fr)}
    (H : EncSt c info (flat info.channels blocks) (codesOf blocks)) (HR : Recorded info.channels inv calls blocks)
    (hK : ∀ j (hj : j < blocks.length), ∀ ch < info.channels, (blocks[j] ch).bits.length ≤ K * (blocks[j] ch).codes.length) :
    c.stream.stream.len ≤ K * (info.channels * (signal info.channels calls).length) ∧
    c.stream.stream.capacityUpperbound ≤ K * (info.channels * (signal info.channels calls).length) + 256 := by
  have hb : ∀ f ∈ flat info.channels blocks, f.bits.length ≤ K * f.codes.length := by
    intro f hf
    obtain ⟨blk, hblk, hf⟩ := List.mem_flatMap.1 hf
    obtain ⟨ch, hch, rfl⟩ := List.mem_map.1 hf
    have hch : ch < info.channels := by simpa using hch
    obtain ⟨j, hj, rfl⟩ := List.getElem_of_mem hblk
    exact hK j hj ch hch
  have h1 := bitsOf_le _ hb
  rw [sum_flat (h := fun j => (calls.getD j []).length / info.channels)] at h1
  · have e : ((List.range blocks.length).map fun j => (calls.getD j []).length / info.channels).sum = (signal info.channels calls).length := by
      rw [signal, List.length_flatMap, HR.len]
      congr 1
      apply List.ext_getElem
      · simp
      · intro i h1 h2
        have : i < calls.length := by simpa using h2
        simp [List.getD_eq_getElem?_getD, List.getElem?_eq_getElem this]
    rw [e] at h1
    have hc := H.bits.cursor
    have hbd := H.bits.bound
    refine ⟨?_, ?_⟩
    · show c.stream.stream.bitCursor ≤ _
      omega
    · unfold BitStream.capacityUpperbound
      omega
  · intro j hj ch hch
    have hj' : j < calls.length := by rw [← HR.len]; exact hj
    rw [(HR.made j hj hj' ch hch).length]
    simp [List.getD_eq_getElem?_getD, List.getElem?_eq_getElem hj']

/-- C19 for calls of at most 131064 blocks. Whatever the signal and the level, the compressed stream holds at most 18 bits per encoded sample (so in particular at most 18
bits per sample plus 48 per channel), and the stream's memory is at most two 128-bit chunks more than that. -/
theorem C19_expansion_partial (b : Build) (info : StreamInfo) (level : Nat) (hn : 0 < info.channels) (calls : List (List F32)) (c : AdhocCodec)
    (h : encodeAll b (fresh info level) calls = .ok c) (hs : ∀ pcm ∈ calls, pcm.length / info.channels ≤ 131064) :
    c.stream.stream.len ≤ 18 * (info.channels * (signal info.channels calls).length) ∧
    c.stream.stream.capacityUpperbound ≤ 18 * (info.channels * (signal info.channels calls).length) + 256 := by
  obtain ⟨-, blocks, H, HR, s⟩ := recorded_of_ok hn h
  exact expansion H HR fun j hj ch hch => ((HR.toRec hn).wf j hj ch hch).bits_le (HR.size_le hs hj hch)

/-- C19 for calls of any length: never more than 16386 bits per encoded sample, and C19_false comes within 3 bits of that. -/
theorem C19_any_length_partial (b : Build) (info : StreamInfo) (level : Nat) (hn : 0 < info.channels) (calls : List (List F32)) (c : AdhocCodec)
    (h : encodeAll b (fresh info level) calls = .ok c) :
    c.stream.stream.len ≤ 16386 * (info.channels * (signal info.channels calls).length) ∧
    c.stream.stream.capacityUpperbound ≤ 16386 * (info.channels * (signal info.channels calls).length) + 256 := by
  obtain ⟨-, blocks, H, HR, s⟩ := recorded_of_ok hn h
  exact expansion H HR fun j hj ch hch => ((HR.toRec hn).wf j hj ch hch).bits_le_any

/-- the bound is nearly tight: the sample after the first three of a full-scale alternation takes 17 bits -/
example : (encodeAll .release (fresh { sampleRate := 8000, channels := 1 } 0) loud).map (fun c => c.stream.stream.len) = .ok (48 + 17) := by
  decide +kernel

/-! ## C20 -/

namespace Spec

/-- length of the Rice code of a residual with parameter `k`: sign, unary quotient and its terminator, remainder -/
def riceLength (k : Nat) (r : Int) : Nat := 1 + r.natAbs / 2 ^ k + 1 + k

/-- the differences to the prediction of codes number `from .. from + len - 1` of a channel -/
def differences (Q : List Int) (start len : Nat) : List Int :=
  (List.range len).map fun k => Q.getD (start + k) 0 - guess (Q.take (start + k))

end Spec

theorem gaps_differences : ∀ (qs P Q : List Int), (P ++ qs) <+: Q → gaps P qs = (differences Q P.length qs.length).map Int.natAbs
  | [], P, Q, _ => by simp [gaps, differences]
  | q :: qs, P, Q, h => by
    have ih := gaps_differences qs (P ++ [q]) Q (by simpa using h)
    obtain ⟨t, rfl⟩ := h
    simp only [gaps, ih, differences, List.map_map, List.length_cons, List.range_succ_eq_map, List.map_cons, List.map_map]
    congr 1
    · simp [List.getD_eq_getElem?_getD]
    · apply List.map_congr_left
      intro k _
      simp [Function.comp, Nat.add_assoc, Nat.add_comm 1 k]

theorem frameCost_differences {k : Nat} {P qs Q : List Int} (h : (P ++ qs) <+: Q) :
    frameCost k P qs = ((differences Q P.length qs.length).map (riceLength k)).sum := by
  rw [frameCost, gaps_differences qs P Q h, List.map_map]
  congr 1
  apply List.map_congr_left
  intro r _
  simp only [Function.comp, cost, riceLength]
  omega

/-- C20 for calls of at most 131064 blocks. Call number `j` makes one frame per channel. Its header holds a parameter between 1 and 15, and among these no other gives fewer
bits for the frame's differences (codes to predictions), where a channel's first three codes are not coded as differences. If all
differences fit into the limits, the frame takes exactly that many bits, and 48 more if it is the first. -/
theorem C20_optimal_parameter_partial (b : Build) (info : StreamInfo) (level : Nat) (hn : 0 < info.channels) (calls : List (List F32))
    (c : AdhocCodec) (h : encodeAll b (fresh info level) calls = .ok c) (hs : ∀ pcm ∈ calls, pcm.length / info.channels ≤ 131064)
    (hbits : c.stream.stream.len < 2 ^ 64) :
    ∀ Q : Nat → List Int, (∀ ch, Q ch = stored (fresh info level).invScale info.channels ch 0 calls) →
      ∀ j < calls.length, ∀ ch < info.channels, ∃ hdr start len, c.frameHeaderList.get (j * info.channels + ch) = .ok (some hdr) ∧
        start = max 3 (signal info.channels (calls.take j)).length ∧ start + len = (signal info.channels (calls.take (j + 1))).length ∧
        1 ≤ hdr.exponent ∧ hdr.exponent ≤ 15 ∧
        (∀ k, 1 ≤ k → k ≤ 15 → ((differences (Q ch) start len).map (riceLength hdr.exponent)).sum ≤
          ((differences (Q ch) start len).map (riceLength k)).sum) ∧
        (InSync (Q ch) → ∃ stop, (c.frameHeaderList.get (j * info.channels + ch + 1) =
              if j * info.channels + ch + 1 < calls.length * info.channels then .ok (some stop) else .ok none) ∧
            (if j * info.channels + ch + 1 < calls.length * info.channels then stop.bitCursor else c.stream.stream.len) =
              hdr.bitCursor + (if j = 0 then 48 else 0) + ((differences (Q ch) start len).map (riceLength hdr.exponent)).sum) := by
  obtain ⟨hf3, blocks, H, HR, s⟩ := recorded_of_ok hn h
  have hrec := HR.toRec hn
  intro Q hQ j hj ch hch
  rw [hQ, ← HR.exact hch]
  have hjb : j < blocks.length := by rw [HR.len]; exact hj
  have hlt : j * info.channels + ch < (flat info.channels blocks).length := by
    rw [length_flat]
    have : (j + 1) * info.channels ≤ blocks.length * info.channels := Nat.mul_le_mul_right _ hjb
    rw [Nat.add_mul] at this
    omega
  have hget := isLog_get H.log (j * info.channels + ch)
  rw [hdrs_getElem?, List.getElem?_eq_getElem hlt, flat_getElem blocks hjb hch hlt, Option.map_some] at hget
  obtain ⟨f, hfd⟩ : ∃ f, f = blocks[j] ch := ⟨_, rfl⟩
  rw [← hfd] at hget
  have hwf : f.WF := by rw [hfd]; exact hrec.wf j hjb ch hch
  have hpre : f.pre = codesOf (blocks.take j) ch := by rw [hfd]; exact hrec.pre j hjb ch hch
  have hsig : ∀ k, k ≤ blocks.length → (codesOf (blocks.take k) ch).length = (signal info.channels (calls.take k)).length := by
    intro k hk
    have hk' : Recorded info.channels (fresh info level).invScale (calls.take k) (blocks.take k) := by
      refine ⟨by simp [HR.len], ?_⟩
      intro i h1 h2 ch hch
      have h1' : i < blocks.length ∧ i < k := by simp at h1; omega
      have h2' : i < calls.length := by rw [← HR.len]; exact h1'.1
      have := HR.made i h1'.1 h2' ch hch
      rw [List.getElem_take, List.getElem_take, List.take_take, Nat.min_eq_left (by omega)]
      exact this
    rw [(hrec.take k).length hch, hk'.rows hn]
  have hprefix : (f.pre ++ f.raw ++ f.body) <+: codesOf blocks ch := by
    rw [List.append_assoc, f.raw_body, hpre, hfd, ← codesOf_take_succ hjb]
    refine ⟨codesOf (blocks.drop (j + 1)) ch, ?_⟩
    rw [← codesOf_append, List.take_append_drop]
  have hstart : (f.pre ++ f.raw).length = max 3 (signal info.channels (calls.take j)).length := by
    rw [← hsig j (by omega), ← hpre]
    by_cases hp : f.pre = []
    · have := hwf.first hp
      simp [Fr.raw, hp]; omega
    · have := hwf.later hp
      simp [Fr.raw, hp]; omega
  have hstop : (f.pre ++ f.raw).length + f.body.length = (signal info.channels (calls.take (j + 1))).length := by
    rw [← hsig (j + 1) (by omega), codesOf_take_succ hjb, ← hpre, ← hfd, ← f.raw_body]
    simp; omega
  have hblen : f.body.length ≤ 131064 := by
    have h1 : f.codes.length ≤ 131064 := by
      rw [hfd]; exact HR.size_le hs hjb hch
    have : f.body.length ≤ f.codes.length := by rw [← f.raw_body]; simp
    omega
  refine ⟨_, (f.pre ++ f.raw).length, f.body.length, hget, hstart, hstop, hwf.exp1, hwf.exp15, ?_, ?_⟩
  · intro k h1 h2
    have := hwf.opt hblen k h1 h2
    rw [frameCost_differences hprefix, frameCost_differences hprefix] at this
    exact this
  · intro hsync
    have hpos : ∀ i, (bitsOf ((flat info.channels blocks).take i)).length < 2 ^ 64 := by
      intro i
      have h1 : (bitsOf (flat info.channels blocks)).length < 2 ^ 64 := by rw [← H.bits.cursor]; exact hbits
      conv at h1 => rw [← List.take_append_drop i (flat info.channels blocks), bitsOf_append]
      rw [List.length_append] at h1
      omega
    obtain ⟨i, hi⟩ : ∃ i, i = j * info.channels + ch := ⟨_, rfl⟩
    rw [← hi] at hlt ⊢
    have hif : (flat info.channels blocks)[i] = f := by
      rw [hfd]
      have := flat_getElem blocks hjb hch (by rw [← hi]; exact hlt)
      rw [← this]
      congr 1
    have hnext : (bitsOf ((flat info.channels blocks).take (i + 1))).length = (bitsOf ((flat info.channels blocks).take i)).length + f.bits.length := by
      rw [List.take_succ_eq_append_getElem hlt, bitsOf_append, List.length_append, bitsOf_singleton, hif]
    have hfb : f.bits.length = (if j = 0 then 48 else 0) + ((differences (codesOf blocks ch) (f.pre ++ f.raw).length f.body.length).map
        (riceLength f.exp)).sum := by
      have hres : ∀ (qs P : List Int), 3 ≤ P.length → (P ++ qs) <+: codesOf blocks ch →
          ((residuals P qs).flatMap (riceBits f.exp)).length = frameCost f.exp P qs := by
        intro qs
        induction qs with
        | nil => intro P _ _; simp [residuals, frameCost, gaps]
        | cons q qs ih =>
          intro P hP hpf
          have h1 := ih (P ++ [q]) (by simp; omega) (by simpa using hpf)
          obtain ⟨t, ht⟩ := hpf
          have h2 := hsync P.length hP (by rw [← ht]; simp)
          rw [← ht] at h2
          have e1 : ((P ++ q :: qs) ++ t).getD P.length 0 = q := by simp [List.getD_eq_getElem?_getD]
          have e2 : ((P ++ q :: qs) ++ t).take P.length = P := by simp
          rw [e1, e2] at h2
          have e3 : max (-32767) (min 32766 (q - guess P)) = q - guess P := by omega
          simp only [residuals, frameCost, gaps, List.flatMap_cons, List.length_append, List.map_cons, List.sum_cons, length_riceBits, e3] at h1 ⊢
          rw [h1]
          rfl
      have hraw : (f.raw.flatMap Fr.rawBits).length = if j = 0 then 48 else 0 := by
        have h4 : (f.raw.flatMap Fr.rawBits).length = 16 * f.raw.length := by
          rw [List.length_flatMap, List.map_congr_left (g := fun _ => 16)]
          · simp [Nat.mul_comm]
          · intro q _; simp [Fr.rawBits]
        rw [h4]
        by_cases hj0 : j = 0
        · subst hj0
          have hp : f.pre = [] := by rw [hpre]; simp
          have := hwf.first hp
          simp [Fr.raw, hp]; omega
        · have hp : f.pre ≠ [] := by
            intro hp
            have h0 : (codesOf (blocks.take j) ch).length = 0 := by rw [← hpre, hp]; rfl
            rw [hsig j (by omega)] at h0
            have hc0 : 0 < calls.length := by omega
            have h3 := hf3 calls[0] (by
              rw [List.head?_eq_getElem?, List.getElem?_eq_getElem hc0]; rfl)
            have hle : 0 < (calls.take j).length := by simp; omega
            have : (blocksOf info.channels calls[0]).length ≤ (signal info.channels (calls.take j)).length := by
              unfold signal
              have e : calls.take j = calls[0] :: (calls.take j).tail := by
                cases hcj : calls.take j with
                | nil => rw [hcj] at hle; simp at hle
                | cons a l =>
                  have : (calls.take j)[0]? = some calls[0] := by
                    rw [List.getElem?_take, if_pos (by omega), List.getElem?_eq_getElem hc0]
                  rw [hcj] at this
                  simp at this
                  simp [this]
              rw [e, List.flatMap_cons, List.length_append]
              omega
            rw [length_blocksOf] at this
            omega
          simp [Fr.raw, hp, hj0]
      unfold Fr.bits
      rw [List.length_append, hraw, hres _ _ hwf.base hprefix, frameCost_differences hprefix]
    have hcnt : calls.length * info.channels = (flat info.channels blocks).length := by rw [length_flat, HR.len]
    by_cases hlast : i + 1 < calls.length * info.channels
    · have hlast' : i + 1 < (flat info.channels blocks).length := by omega
      have hget' := isLog_get H.log (i + 1)
      rw [hdrs_getElem?, List.getElem?_eq_getElem hlast', Option.map_some] at hget'
      refine ⟨_, by rw [if_pos hlast]; exact hget', ?_⟩
      rw [if_pos hlast]
      simp only [Fr.hdr, Nat.zero_add]
      rw [Nat.mod_eq_of_lt (hpos _), Nat.mod_eq_of_lt (hpos _), hnext, hfb]
      omega
    · refine ⟨f.hdr 0, ?_, ?_⟩
      · rw [if_neg hlast, isLog_get H.log (i + 1), List.getElem?_eq_none (by simp; omega)]
      · rw [if_neg hlast]
        simp only [Fr.hdr, Nat.zero_add]
        rw [Nat.mod_eq_of_lt (hpos _)]
        show c.stream.stream.bitCursor = _
        have : (flat info.channels blocks).take (i + 1) = flat info.channels blocks := List.take_of_length_le (by omega)
        rw [H.bits.cursor, Nat.add_assoc, ← hfb, ← hnext, this]

/-- the hypotheses of C20 hold for `demo` -/
example : ∃ c, encodeAll .debug (fresh { sampleRate := 44100, channels := 2 } 0) demo = .ok c ∧ c.stream.stream.len < 2 ^ 64 := by
  obtain ⟨c, h, -⟩ := C01_round_trip .debug .debug { sampleRate := 44100, channels := 2 } (by simp) demo demo_proper demo_inSync
  refine ⟨c, h, ?_⟩
  have h1 := (C19_expansion_partial _ _ _ (by simp) _ _ h (fun pcm hp => (demo_proper.short pcm hp).le.trans (by norm_num))).1
  have h2 : (signal 2 demo).length = 6 := by simp [signal, demo]
  simp only [h2] at h1
  omega

/-! ## C22 -/

/-- C22 for AdhocCodec, exact behaviour: `encode` returns the length of the buffer, but grows the recording by the whole blocks only, so
the two agree only if the buffer holds whole blocks. -/
theorem C22_encode_return_partial (b : Build) (info : StreamInfo) (level : Nat) (hn : 0 < info.channels) (calls : List (List F32))
    (c c' : AdhocCodec) (h : encodeAll b (fresh info level) calls = .ok c) (pcm : List F32) (r : Option Nat)
    (hs : pcm.length / info.channels < 65536) (h' : c.encode b pcm = .ok (c', r)) :
    ∃ m, c.calculateSampleCountPerChannel = .ok m ∧
      c'.calculateSampleCountPerChannel = .ok (m + (blocksOf info.channels pcm).length) ∧
      r = some pcm.length ∧ (r = some ((blocksOf info.channels pcm).length * info.channels) ↔ info.channels ∣ pcm.length) := by
  have h2 : encodeAll b (fresh info level) (calls ++ [pcm]) = .ok c' := by
    unfold encodeAll at h ⊢
    rw [List.foldlM_append, h, bind_ok, List.foldlM_cons, h']
    rfl
  refine ⟨_, sampleCount hn h, ?_, ?_⟩
  · rw [sampleCount hn h2, length_blocksOf]
    simp [Nat.mod_eq_of_lt hs]
  unfold AdhocCodec.encode at h'
  obtain ⟨c1, -, h'⟩ := bind_eq_ok.1 h'
  cases h'
  refine ⟨rfl, ?_⟩
  rw [length_blocksOf, Option.some.injEq]
  exact ⟨fun e => ⟨pcm.length / info.channels, by rw [Nat.mul_comm]; exact e⟩, fun hd => (Nat.div_mul_cancel hd).symm⟩

/-- a stereo call of three blocks and a half after nothing at all meets the hypotheses -/
example : ((fresh { sampleRate := 8000, channels := 2 } 0).encode .debug (List.replicate 7 (F32.ofInt 0))).map (·.2) = .ok (some 7) := by
  decide +kernel

/-- C22 is false for AdhocCodec: 7 samples of stereo are reported as encoded, 3 blocks are recorded. -/
theorem C22_false : (do
    let (c, r) ← (fresh { sampleRate := 8000, channels := 2 } 0).encode .release (List.replicate 7 (F32.ofInt 0))
    let n ← c.calculateSampleCountPerChannel
    pure (r, n * 2)) = .ok (some 7, 6) := by
  decide +kernel

/-! ## C63 -/

namespace Spec

/-- a call on a codec -/
inductive Call
  | encode (pcm : List F32)
  | decode (buf : List F32)
  | rewind
  | seek (t : SeekFrom)
  | load (bytes : List Byte)

/-- a call and what the caller sees of it; a failed load keeps the codec -/
def Call.run (b : Build) (c : AdhocCodec) : Call → R (AdhocCodec × List F32 × Option Nat)
  | .encode pcm => do let (c, r) ← c.encode b pcm; pure (c, [], r)
  | .decode buf => do let (c, out, r) ← c.decode b buf; pure (c, out, r)
  | .rewind => pure (c.init, [], none)
  | .seek t => do let c ← c.seek b t; pure (c, [], none)
  | .load bytes => do
    let r ← AdhocCodec.load b bytes
    match r with
    | none => pure (c, [], none)
    | some c => pure (c, [], some 1)

/-- a sequence of calls -/
def Call.runAll (b : Build) : AdhocCodec → List Call → R (AdhocCodec × List (List F32 × Option Nat))
  | c, [] => pure (c, [])
  | c, x :: xs => do
    let (c, o) ← x.run b c
    let (c, os) ← runAll b c xs
    pure (c, o :: os)

end Spec

theorem ref_run (c : AdhocCodec) (x : Call) : Ref (x.run .debug c) (x.run .release c) := by
  cases x with
  | encode pcm => exact (ref_encode c pcm).bind fun _ => Ref.rfl
  | decode buf => exact (ref_decode c buf).bind fun _ => Ref.rfl
  | rewind => exact Ref.rfl
  | seek t => exact (ref_seek c t).bind fun _ => Ref.rfl
  | load bytes => exact (ref_load bytes).bind fun _ => Ref.rfl

/-- C63. A debug build never computes anything else than a release build: whatever codec and calls (including loads of corrupt files), if
the debug build does not panic then the release build does not panic either, returns the same values and leaves the same codec. -/
theorem C63_builds_agree : ∀ (xs : List Call) (c c' : AdhocCodec) (os : List (List F32 × Option Nat))
    (_ : Call.runAll .debug c xs = .ok (c', os)), Call.runAll .release c xs = .ok (c', os) := by
  have key : ∀ (xs : List Call) (c : AdhocCodec), Ref (Call.runAll .debug c xs) (Call.runAll .release c xs) := by
    intro xs
    induction xs with
    | nil => intro c; exact Ref.rfl
    | cons x xs ih => intro c; exact (ref_run c x).bind fun r => (ih r.1).bind fun _ => Ref.rfl
  intro xs c c' os h
  exact (key xs c).ok h

/-- a debug session without panic -/
example : (Call.runAll .debug (fresh { sampleRate := 1000, channels := 1 } 0)
    [.encode (List.replicate 5 (F32.ofInt 0)), .rewind, .seek (.start 2), .decode (List.replicate 9 (F32.ofInt 1)), .load []]).map (fun r => r.2.map (·.2)) =
    .ok [some 5, none, none, some 3, none] := by
  decide +kernel

end Adhoc
