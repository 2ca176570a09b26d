import Verif.Proofs.Float
import Verif.Props.Encoding

/-! # C72: how much smooth signals are compressed -/

namespace Adhoc
open Spec F32

/-- neighbouring codes fit a parabola up to `D`: their third differences are at most `D` -/
def Spec.Smooth (D : Nat) (Q : List Int) : Prop :=
  ∀ i, i + 3 < Q.length → |Q.getD (i + 3) 0 - 3 * Q.getD (i + 2) 0 + 3 * Q.getD (i + 1) 0 - Q.getD i 0| ≤ D

theorem gap_smooth {D : Nat} {Q : List Int} (h : Smooth D Q) (hr : ∀ q ∈ Q, -32767 ≤ q ∧ q ≤ 32767) {start len : Nat} (h3 : 3 ≤ start)
    (hl : start + len ≤ Q.length) : ∀ r ∈ differences Q start len, r.natAbs ≤ D + 1 := by
  intro r hr'
  obtain ⟨k, hk, rfl⟩ := List.mem_map.1 hr'
  have hk : k < len := by simpa using hk
  obtain ⟨i, hi⟩ : ∃ i, start + k = i + 3 := ⟨start + k - 3, by omega⟩
  have hi' : i + 3 < Q.length := by omega
  have hD := h i hi'
  have hmem : ∀ j, j < Q.length → -32767 ≤ Q.getD j 0 ∧ Q.getD j 0 ≤ 32767 := by
    intro j hj
    rw [List.getD_eq_getElem?_getD, List.getElem?_eq_getElem hj, Option.getD_some]
    exact hr _ (List.getElem_mem hj)
  have e : guess (Q.take (i + 3)) = predict (Q.getD i 0) (Q.getD (i + 1) 0) (Q.getD (i + 2) 0) := by
    have hlen : (Q.take (i + 3)).length = i + 3 := by simp; omega
    unfold guess
    rw [hlen]
    have : ∀ j, j < i + 3 → (Q.take (i + 3)).getD j 0 = Q.getD j 0 := by
      intro j hj
      rw [List.getD_eq_getElem?_getD, List.getD_eq_getElem?_getD, List.getElem?_take, if_pos hj]
    rw [this _ (by omega), this _ (by omega), this _ (by omega)]
    congr 1
  rw [hi, e]
  have a0 := hmem i (by omega)
  have a1 := hmem (i + 1) (by omega)
  have a2 := hmem (i + 2) (by omega)
  have a3 := hmem (i + 3) (by omega)
  have hp := predict_err (h3 := Q.getD i 0) (h2 := Q.getD (i + 1) 0) (h1 := Q.getD (i + 2) 0) (by rw [abs_le]; omega) (by rw [abs_le]; omega)
    (by rw [abs_le]; omega)
  rw [abs_le] at hp hD
  omega

theorem sum_le_const {α : Type} (f : α → Nat) (m : Nat) : ∀ (l : List α) (_ : ∀ a ∈ l, f a ≤ m), (l.map f).sum ≤ m * l.length
  | [], _ => by simp
  | a :: l, h => by
    have := sum_le_const f m l (fun x hx => h x (by simp [hx]))
    have := h a (by simp)
    rw [List.map_cons, List.sum_cons, List.length_cons, Nat.mul_add]
    omega

theorem residual_bits_ge {k : Nat} (hk : 1 ≤ k) : ∀ (qs P : List Int), 3 * qs.length ≤ ((residuals P qs).flatMap (riceBits k)).length
  | [], P => by simp [residuals]
  | q :: qs, P => by
    have := residual_bits_ge hk qs (P ++ [q])
    simp only [residuals, List.flatMap_cons, List.length_append, length_riceBits, List.length_cons] at this ⊢
    generalize (max (-32767) (min 32766 (q - guess P))).natAbs / 2 ^ k = d
    omega

theorem raw_length {f : Fr} (hw : f.WF) : f.raw.length = if f.pre = [] then 3 else 0 := by
  unfold Fr.raw
  split
  · rename_i h
    have := hw.first h
    simp; omega
  · rfl

theorem raw_bits_length (f : Fr) : (f.raw.flatMap Fr.rawBits).length = 16 * f.raw.length := by
  rw [List.length_flatMap, List.map_congr_left (g := fun _ => 16)]
  · simp [Nat.mul_comm]
  · intro q _; simp [Fr.rawBits]

theorem frame_bits_ge {f : Fr} (hw : f.WF) : 3 * f.codes.length + 13 * f.raw.length ≤ f.bits.length := by
  have h1 := residual_bits_ge hw.exp1 f.body (f.pre ++ f.raw)
  have h5 : f.codes.length = f.raw.length + f.body.length := by rw [← f.raw_body]; simp
  unfold Fr.bits
  rw [List.length_append, raw_bits_length]
  omega

theorem bits_smooth {f : Fr} (hw : f.WF) (hl : f.codes.length ≤ 131064) {D : Nat} {Q : List Int} (hp : (f.pre ++ f.raw ++ f.body) <+: Q)
    (h : Smooth D Q) (hr : ∀ q ∈ Q, -32767 ≤ q ∧ q ≤ 32767) {k : Nat} (h1 : 1 ≤ k) (h2 : k ≤ 15) :
    f.bits.length + (2 + k + (D + 1) / 2 ^ k) * f.raw.length ≤ (2 + k + (D + 1) / 2 ^ k) * f.codes.length + 16 * f.raw.length := by
  have h5 : f.codes.length = f.raw.length + f.body.length := by rw [← f.raw_body]; simp
  have b1 := sum_residual_bits f.exp f.body (f.pre ++ f.raw)
  have b2 := hw.opt (by omega) k h1 h2
  have hlen := hp.length_le
  rw [List.length_append] at hlen
  have b3 : frameCost k (f.pre ++ f.raw) f.body ≤ (2 + k + (D + 1) / 2 ^ k) * f.body.length := by
    rw [frameCost_differences hp]
    have := sum_le_const (riceLength k) (2 + k + (D + 1) / 2 ^ k) (differences Q (f.pre ++ f.raw).length f.body.length) (by
      intro r hr'
      have := gap_smooth h hr hw.base hlen r hr'
      have := Nat.div_le_div_right (c := 2 ^ k) this
      unfold riceLength
      omega)
    have hd : (differences Q (f.pre ++ f.raw).length f.body.length).length = f.body.length := by simp [differences]
    rw [hd] at this
    exact this
  unfold Fr.bits
  rw [List.length_append, raw_bits_length, h5, Nat.mul_add]
  omega

theorem bitsOf_length : ∀ fs : List Fr, (bitsOf fs).length = (fs.map fun f => f.bits.length).sum
  | [] => rfl
  | f :: fs => by rw [bitsOf_cons, List.length_append, bitsOf_length fs, List.map_cons, List.sum_cons]

theorem sum_mono {α : Type} {f g : α → Nat} : ∀ (l : List α) (_ : ∀ a ∈ l, f a ≤ g a), (l.map f).sum ≤ (l.map g).sum
  | [], _ => le_rfl
  | a :: l, h => by
    have := sum_mono l (fun x hx => h x (by simp [hx]))
    have := h a (by simp)
    rw [List.map_cons, List.map_cons, List.sum_cons, List.sum_cons]
    omega

theorem sum_lin {α : Type} (a b : Nat) (f g : α → Nat) : ∀ l : List α, (l.map fun x => a * f x + b * g x).sum = a * (l.map f).sum + b * (l.map g).sum
  | [] => rfl
  | x :: l => by
    simp only [List.map_cons, List.sum_cons, sum_lin a b f g l]
    ring

/-- the frames of a recording: how many codes they hold, and how many of them verbatim -/
theorem flat_sums {n : Nat} (hn : 0 < n) {inv : F32} {calls : List (List F32)} {blocks : List (Nat → Fr)} (HR : Recorded n inv calls blocks)
    (hc : calls ≠ []) : ((flat n blocks).map fun f => f.codes.length).sum = n * (signal n calls).length ∧
      ((flat n blocks).map fun f => f.raw.length).sum = n * 3 := by
  have hrec := HR.toRec hn
  constructor
  · rw [sum_flat (h := fun j => (calls.getD j []).length / n)]
    · congr 1
      rw [signal, List.length_flatMap, HR.len]
      congr 1
      apply List.ext_getElem
      · simp
      · intro i h1 h2
        have : i < calls.length := by simpa using h2
        simp [blocksOf, List.getD_eq_getElem?_getD, List.getElem?_eq_getElem this]
    · intro j hj ch hch
      have hj' : j < calls.length := by rw [← HR.len]; exact hj
      rw [(HR.made j hj hj' ch hch).length]
      simp [List.getD_eq_getElem?_getD, List.getElem?_eq_getElem hj']
  · rw [sum_flat (h := fun j => if j = 0 then 3 else 0)]
    · congr 1
      have : blocks.length ≠ 0 := by rw [HR.len]; simpa using hc
      obtain ⟨m, hm⟩ := Nat.exists_eq_succ_of_ne_zero this
      rw [hm, List.range_succ_eq_map, List.map_cons, List.map_map, List.sum_cons]
      have : ((fun j => if j = 0 then 3 else 0) ∘ Nat.succ : Nat → Nat) = fun _ => 0 := by
        funext x
        simp
      rw [this]
      simp
    · intro j hj ch hch
      rw [raw_length (hrec.wf j hj ch hch)]
      have hpre := hrec.pre j hj ch hch
      by_cases h0 : j = 0
      · subst h0
        rw [if_pos rfl, if_pos (by rw [hpre]; simp [codesOf])]
      · rw [if_neg h0, if_neg]
        rw [hpre]
        intro hnil
        have hw := (hrec.wf 0 (by omega) ch hch).first (by rw [hrec.pre 0 (by omega) ch hch]; simp [codesOf])
        have h1 : codesOf (blocks.take 1) ch = [] := by
          have : blocks.take j = blocks.take 1 ++ (blocks.take j).drop 1 := by
            have := List.take_append_drop 1 (blocks.take j)
            rw [List.take_take, Nat.min_eq_left (by omega)] at this
            exact this.symm
          rw [this, codesOf_append] at hnil
          exact (List.append_eq_nil_iff.1 hnil).1
        rw [codesOf_take_succ (j := 0) (by omega)] at h1
        have := (List.append_eq_nil_iff.1 h1).2
        rw [this] at hw
        simp at hw

/-- C72. No recording takes less than 48 bits for the first three samples and 3 bits for each further sample of a channel. If the third
differences of the codes are at most `D`, then for every `k` from 1 to 15 it does not take more than `2 + k + (D + 1) / 2 ^ k` bits for
each further sample; so for `D = 0`, parabolas, ramps and constants, exactly 3. -/
theorem C72_compression (b : Build) (info : StreamInfo) (level : Nat) (hn : 0 < info.channels) (calls : List (List F32)) (hc : calls ≠ [])
    (c : AdhocCodec) (h : encodeAll b (fresh info level) calls = .ok c) (hs : ∀ pcm ∈ calls, pcm.length / info.channels ≤ 131064) :
    info.channels * (48 + 3 * ((signal info.channels calls).length - 3)) ≤ c.stream.stream.len ∧
    (∀ D, (∀ ch < info.channels, Smooth D (stored (fresh info level).invScale info.channels ch 0 calls)) → ∀ k, 1 ≤ k → k ≤ 15 →
      c.stream.stream.len ≤ info.channels * (48 + (2 + k + (D + 1) / 2 ^ k) * ((signal info.channels calls).length - 3))) ∧
    ((∀ ch < info.channels, Smooth 0 (stored (fresh info level).invScale info.channels ch 0 calls)) →
      c.stream.stream.len = info.channels * (48 + 3 * ((signal info.channels calls).length - 3))) := by
  obtain ⟨hf3, blocks, H, HR, s⟩ := recorded_of_ok hn h
  have hrec := HR.toRec hn
  obtain ⟨s1, s2⟩ := flat_sums hn HR hc
  have hN : 3 ≤ (signal info.channels calls).length := by
    cases calls with
    | nil => exact absurd rfl hc
    | cons pcm rest =>
      have := hf3 pcm (by simp)
      simp only [signal, List.flatMap_cons, List.length_append, blocksOf, List.length_map, List.length_range]
      omega
  obtain ⟨N, hNd⟩ : ∃ N, N + 3 = (signal info.channels calls).length := ⟨_, Nat.sub_add_cancel hN⟩
  rw [← hNd] at s1 ⊢
  rw [Nat.add_sub_cancel]
  have hlen : c.stream.stream.len = ((flat info.channels blocks).map fun f => f.bits.length).sum := by
    rw [← bitsOf_length]; exact H.bits.cursor
  have hmem : ∀ f ∈ flat info.channels blocks, ∃ j, ∃ hj : j < blocks.length, ∃ ch < info.channels, f = blocks[j] ch := by
    intro f hf
    obtain ⟨blk, hblk, hf⟩ := List.mem_flatMap.1 hf
    obtain ⟨ch, hch, rfl⟩ := List.mem_map.1 hf
    obtain ⟨j, hj, rfl⟩ := List.getElem_of_mem hblk
    exact ⟨j, hj, ch, by simpa using hch, rfl⟩
  have lower : info.channels * (48 + 3 * N) ≤ c.stream.stream.len := by
    rw [hlen]
    have := sum_mono (f := fun f => 3 * f.codes.length + 13 * f.raw.length) (g := fun f => f.bits.length) (flat info.channels blocks) (by
      intro f hf
      obtain ⟨j, hj, ch, hch, rfl⟩ := hmem f hf
      exact frame_bits_ge (hrec.wf j hj ch hch))
    rw [sum_lin, s1, s2] at this
    calc _ = 3 * (info.channels * (N + 3)) + 13 * (info.channels * 3) := by ring
      _ ≤ _ := this
  have upper : ∀ D, (∀ ch < info.channels, Smooth D (stored (fresh info level).invScale info.channels ch 0 calls)) → ∀ k, 1 ≤ k → k ≤ 15 →
      c.stream.stream.len ≤ info.channels * (48 + (2 + k + (D + 1) / 2 ^ k) * N) := by
    intro D hD k h1 h2
    obtain ⟨w, hw⟩ : ∃ w, w = 2 + k + (D + 1) / 2 ^ k := ⟨_, rfl⟩
    have := sum_mono (f := fun f => 1 * f.bits.length + w * f.raw.length) (g := fun f => w * f.codes.length + 16 * f.raw.length)
      (flat info.channels blocks) (by
        intro f hf
        obtain ⟨j, hj, ch, hch, rfl⟩ := hmem f hf
        have hwf := hrec.wf j hj ch hch
        have hcl := HR.size_le hs hj hch
        have hprefix : ((blocks[j] ch).pre ++ (blocks[j] ch).raw ++ (blocks[j] ch).body) <+: codesOf blocks ch := by
          rw [List.append_assoc, Fr.raw_body, hrec.pre j hj ch hch, ← codesOf_take_succ hj]
          refine ⟨codesOf (blocks.drop (j + 1)) ch, ?_⟩
          rw [← codesOf_append, List.take_append_drop]
        have hrange : ∀ q ∈ codesOf blocks ch, -32767 ≤ q ∧ q ≤ 32767 := by
          intro q hq
          unfold codesOf at hq
          obtain ⟨blk, hblk, hq⟩ := List.mem_flatMap.1 hq
          obtain ⟨i, hi, rfl⟩ := List.getElem_of_mem hblk
          exact (hrec.wf i hi ch hch).range q hq
        have := bits_smooth hwf hcl hprefix (by rw [HR.exact hch]; exact hD ch hch) hrange h1 h2
        rw [← hw] at this
        omega)
    rw [sum_lin, sum_lin, s1, s2, ← hlen, one_mul] at this
    rw [← hw]
    have e1 : w * (info.channels * (N + 3)) = w * (info.channels * N) + w * (info.channels * 3) := by ring
    have e2 : info.channels * (48 + w * N) = w * (info.channels * N) + 16 * (info.channels * 3) := by ring
    rw [e2]
    omega
  refine ⟨lower, upper, fun h0 => le_antisymm ?_ lower⟩
  exact upper 0 h0 1 le_rfl (by norm_num)

/-- at level 0 a signal that is constant in each channel takes 3 bits per sample after the first three -/
theorem C72_constant (b : Build) (info : StreamInfo) (hn : 0 < info.channels) (calls : List (List F32)) (hc : calls ≠ [])
    (c : AdhocCodec) (h : encodeAll b (fresh info 0) calls = .ok c) (hs : ∀ pcm ∈ calls, pcm.length / info.channels ≤ 131064)
    (level : Nat → F32) (hconst : ∀ ch < info.channels, ∀ x ∈ chan ch (signal info.channels calls), x = level ch) :
    c.stream.stream.len = info.channels * (48 + 3 * ((signal info.channels calls).length - 3)) := by
  refine (C72_compression b info 0 hn calls hc c h hs).2.2 fun ch hch => ?_
  rw [(fresh_zero info).2, stored_one hch]
  have hq : ∀ j, j < (Spec.codes ch (signal info.channels calls)).length →
      (Spec.codes ch (signal info.channels calls)).getD j 0 = truncateSample (level ch) := by
    intro j hj
    rw [List.getD_eq_getElem?_getD, List.getElem?_eq_getElem hj, Option.getD_some]
    have hj' : j < (signal info.channels calls).length := by simpa [Spec.codes] using hj
    rw [← hconst ch hch ((signal info.channels calls)[j].getD ch (F32.ofInt 0)) (List.mem_map.2 ⟨_, List.getElem_mem hj', rfl⟩)]
    simp [Spec.codes]
  intro i hi
  rw [hq _ hi, hq _ (by omega), hq _ (by omega), hq _ (by omega), abs_le]
  constructor <;> push_cast <;> omega

/-- five stereo blocks, constant on the left and a ramp on the right: 2 * (48 + 3 * 2) bits -/
example : (encodeAll .debug (fresh { sampleRate := 8000, channels := 2 } 0)
    [[ofInt 1, ofInt 0, ofInt 1, ofRat (1 / 4), ofInt 1, ofRat (1 / 2), ofInt 1, ofRat (3 / 4), ofInt 1, ofInt 1]]).map
      (fun c => c.stream.stream.len) = .ok 108 := by decide +kernel

end Adhoc
