import Verif.Proofs.Seek
import Verif.Spec.Resync

/-! Playing after a seek, whether or not the recording is in sync: the decoder continues from the true codes before the frame it starts with. -/

namespace Adhoc.Resync
open Spec

variable {σ : Nat}

@[simp] theorem length_heard (σ : Nat) (Q : List Int) : (heard σ Q).length = Q.length := by
  simp [heard]; omega

theorem heard_zero (Q : List Int) : heard 0 Q = decoded Q := rfl

theorem heard_append {σ : Nat} {A : List Int} (B : List Int) (h : max 3 σ ≤ A.length) :
    heard σ (A ++ B) = heard σ A ++ rebuild (heard σ A) (residuals A B) := by
  unfold heard
  rw [List.take_append_of_le_length h, List.drop_append_of_le_length h, residuals_append, rebuild_append, List.take_append_drop,
    List.append_assoc]

theorem heard_short {σ : Nat} {Q : List Int} (h : Q.length ≤ max 3 σ) : heard σ Q = Q := by
  unfold heard
  rw [List.take_of_length_le h, List.drop_of_length_le h]
  simp [residuals, rebuild]

theorem heard_take (σ : Nat) (Q : List Int) (n : Nat) : heard σ (Q.take n) = (heard σ Q).take n := by
  by_cases hn : n ≤ max 3 σ
  · rw [heard_short (by simp; omega)]
    unfold heard
    by_cases hq : Q.length ≤ max 3 σ
    · rw [List.take_of_length_le hq, List.drop_of_length_le hq]; simp [residuals, rebuild]
    · rw [List.take_append_of_le_length (by simp; omega), List.take_take, Nat.min_eq_left hn]
  · by_cases hq : Q.length ≤ n
    · rw [List.take_of_length_le hq, List.take_of_length_le (by simpa using hq)]
    · conv_rhs => rw [← List.take_append_drop n Q, heard_append _ (by simp; omega)]
      rw [List.take_left' (by simp; omega)]

/-- a frame decoded from what was heard before it -/
theorem heard_frame {σ : Nat} {f : Fr} (hf : f.WF) (hs : σ ≤ f.pre.length) :
    heard σ f.pre ++ f.raw ++ rebuild (heard σ f.pre ++ f.raw) (residuals (f.pre ++ f.raw) f.body) = heard σ (f.pre ++ f.codes) := by
  by_cases hp : f.pre = []
  · have : σ = 0 := by rw [hp] at hs; simpa using hs
    subst this
    exact hf.decoded
  · have h3 := hf.later hp
    rw [heard_append _ (by omega)]
    simp [Fr.raw, Fr.body, hp]

def outColsFrom (σ n : Nat) (blocks : List (Nat → Fr)) : List (List F32) := (List.range n).map fun ch => (heard σ (codesOf blocks ch)).map out

/-- decoding frame `i` into channel `ch` -/
theorem decodeChannel_ok {b : Build} {c : AdhocCodec} {info : StreamInfo} {fs : List Fr} {i : Nat} {Ds : Nat → List Int}
    {bufs : Nat → List F32} (H : DecFl c info fs i Ds bufs) {ch : Nat} (hch : ch < info.channels) (hi : i < fs.length) (hf : fs[i].WF)
    (hsz : fs[i].codes.length < 65536) (hD : Ds ch = heard σ fs[i].pre) (hst0 : σ ≤ fs[i].pre.length) :
    ∃ c', c.decodeChannel b ch = .ok c' ∧ SameLevel c c' ∧
      DecFl c' info fs (i + 1) (fun k => if k = ch then heard σ (fs[i].pre ++ fs[i].codes) else Ds k)
        (fun k => if k = ch then bufs ch ++ ((heard σ (fs[i].pre ++ fs[i].codes)).drop fs[i].pre.length).map out else bufs k) := by
  have hch' : ch < c.channelStateList.length := by rw [H.chans]; exact hch
  have hsplit : bitsOf fs = bitsOf (fs.take i) ++ fs[i].bits ++ bitsOf (fs.drop (i + 1)) := by
    conv_lhs => rw [← List.take_append_drop i fs, List.drop_eq_getElem_cons hi]
    rw [bitsOf_append, bitsOf_cons, List.append_assoc]
  have hs := H.bits
  rw [hsplit] at hs
  obtain ⟨fc', st', hd', n, e, hdc, hst, hinf, hlog⟩ := decodeFrame_ok (b := b) hf hsz (H.chan ch hch') (by rw [hD]; simp) hs H.log
    (by rw [hdrs_getElem?, List.getElem?_eq_getElem hi]; rfl)
  unfold AdhocCodec.decodeChannel
  rw [idx_of_lt hch', bind_ok, e, bind_ok]
  dsimp only
  rw [setIdx_of_lt hch', bind_ok]
  have hdec := heard_frame hf hst0
  rw [← hD] at hdec
  have hdrop : (heard σ (fs[i].pre ++ fs[i].codes)).drop fs[i].pre.length =
      fs[i].raw ++ rebuild (Ds ch ++ fs[i].raw) (residuals (fs[i].pre ++ fs[i].raw) fs[i].body) := by
    rw [← hdec, List.append_assoc, List.drop_left' (by rw [hD]; simp)]
  refine ⟨_, rfl, ⟨rfl, rfl, rfl⟩, ?_, ?_, ?_, ?_, hlog⟩
  · exact hinf.trans H.hinfo
  · simpa using H.chans
  · intro k hk
    simp only [List.getElem_set]
    by_cases hkc : ch = k
    · subst hkc
      simp only [if_true]
      rw [hdrop, ← hdec]
      exact hdc
    · rw [if_neg hkc, if_neg (fun h => hkc h.symm), if_neg (fun h => hkc h.symm)]
      exact H.chan k (by simpa using hk)
  · have e1 : bitsOf (fs.take (i + 1)) = bitsOf (fs.take i) ++ fs[i].bits := by
      rw [List.take_succ_eq_append_getElem hi, bitsOf_append, bitsOf_singleton]
    rw [e1, hsplit]
    exact hst

/-- the decoder stands before block `j` and has delivered `m` blocks of samples -/
structure DecAt (σ : Nat) (c : AdhocCodec) (info : StreamInfo) (blocks : List (Nat → Fr)) (j m : Nat) : Prop where
  fl : DecFl c info (flat info.channels blocks) (j * info.channels) (fun ch => heard σ (codesOf (blocks.take j) ch))
    (fun ch => ((heard σ (codesOf (blocks.take j) ch)).drop m).map out)
  j_le : j ≤ blocks.length
  m_le : m ≤ rowsIn (blocks.take j)
  start : σ ≤ rowsIn (blocks.take j)

/-- decoding block `j` in the first `k` channels -/
theorem decodeChannels_ok {b : Build} {c : AdhocCodec} {info : StreamInfo} {blocks : List (Nat → Fr)} {j m n : Nat} (hn : n = info.channels)
    (HR : Rec info.channels blocks) (hsh : Short blocks) (H : DecAt σ c info blocks j m) (hj : j < blocks.length) :
    ∀ k, k ≤ n → ∃ c', (List.range k).foldlM (fun c ch => AdhocCodec.decodeChannel b c ch) c = .ok c' ∧ SameLevel c c' ∧
      DecFl c' info (flat n blocks) (j * n + k) (fun ch => heard σ (codesOf (blocks.take (if ch < k then j + 1 else j)) ch))
        (fun ch => ((heard σ (codesOf (blocks.take (if ch < k then j + 1 else j)) ch)).drop m).map out) := by
  intro k
  induction k with
  | zero => intro _; exact ⟨c, rfl, .refl c, by simpa [hn] using H.fl⟩
  | succ k ih =>
    intro hk
    obtain ⟨c1, e1, s1, H1⟩ := ih (by omega)
    have hlt : j * n + k < (flat n blocks).length := by
      rw [length_flat]
      calc j * n + k < (j + 1) * n := by rw [Nat.add_mul]; omega
        _ ≤ _ := Nat.mul_le_mul_right _ hj
    have hg := flat_getElem blocks hj (show k < n by omega) hlt
    have hkn : k < info.channels := by omega
    have hmem : blocks[j] ∈ blocks := List.getElem_mem hj
    obtain ⟨c2, e2, s2, H2⟩ := decodeChannel_ok (σ := σ) (b := b) H1 hkn hlt (by rw [hg]; exact HR.wf j hj k hkn)
      (by rw [hg, HR.size j hj k hkn]; exact hsh _ hmem) (by
        rw [hg, HR.pre j hj k hkn]; simp) (by rw [hg, HR.pre j hj k hkn, (HR.take j).length hkn]; exact H.start)
    refine ⟨c2, ?_, s1.trans s2, ?_⟩
    · rw [List.range_succ, foldlM_append', e1, bind_ok]
      simp only [List.foldlM_cons, List.foldlM_nil]
      rw [e2, bind_ok]
      rfl
    · rw [hg, HR.pre j hj k hkn, ← codesOf_take_succ hj] at H2
      refine DecFl.congr H2 ?_ ?_
      · intro i hi
        by_cases hik : i = k
        · subst hik; simp
        · simp only [if_neg hik]
          by_cases hlt : i < k
          · simp [hlt, Nat.lt_succ_of_lt hlt]
          · simp [hlt, show ¬ i < k + 1 by omega]
      · intro i hi
        by_cases hik : i = k
        · subst hik
          simp only [lt_irrefl, if_false, if_true, Nat.lt_succ_self]
          have hle : codesOf (blocks.take j) i = (codesOf (blocks.take (j + 1)) i).take (codesOf (blocks.take j) i).length := by
            rw [codesOf_take_succ hj]; simp
          have hdt : heard σ (codesOf (blocks.take j) i) = (heard σ (codesOf (blocks.take (j + 1)) i)).take (codesOf (blocks.take j) i).length := by
            conv_lhs => rw [hle]
            exact heard_take _ _ _
          rw [hdt, ← List.map_append]
          congr 1
          have hm : m ≤ (codesOf (blocks.take j) i).length := by
            rw [(HR.take j).length hkn]; exact H.m_le
          generalize heard σ (codesOf (blocks.take (j + 1)) i) = l
          generalize (codesOf (blocks.take j) i).length = p at hm
          rw [List.drop_take]
          conv_rhs => rw [← List.take_append_drop (p - m) (l.drop m), List.drop_drop]
          congr 2
          omega
        · simp only [if_neg hik]
          by_cases hlt : i < k
          · simp [hlt, Nat.lt_succ_of_lt hlt]
          · simp [hlt, show ¬ i < k + 1 by omega]

/-- decoding block `j` -/
theorem decodeBlock_ok {b : Build} {c : AdhocCodec} {info : StreamInfo} {blocks : List (Nat → Fr)} {j m : Nat}
    (HR : Rec info.channels blocks) (hsh : Short blocks) (H : DecAt σ c info blocks j m) (hj : j < blocks.length) :
    ∃ c', c.decodeBlock b info.channels = .ok c' ∧ SameLevel c c' ∧ DecAt σ c' info blocks (j + 1) m := by
  obtain ⟨n, hn⟩ : ∃ n, n = info.channels := ⟨_, rfl⟩
  have key := decodeChannels_ok (b := b) hn HR hsh H hj
  obtain ⟨c', e, s, H'⟩ := key n le_rfl
  refine ⟨c', ?_, s, ?_, by omega, ?_, by rw [rowsIn_take_succ hj]; have := H.start; omega⟩
  · unfold AdhocCodec.decodeBlock
    rw [← hn]; exact e
  · have e1 : (j + 1) * info.channels = j * n + n := by rw [hn, Nat.add_mul, Nat.one_mul]
    rw [e1, ← hn]
    refine H'.congr ?_ ?_ <;> intro i hi <;> simp [show i < n by omega]
  · rw [rowsIn_take_succ hj]
    have := H.m_le
    omega

/-- after the last block -/
theorem decodeBlock_end {b : Build} {c : AdhocCodec} {info : StreamInfo} {blocks : List (Nat → Fr)} {m : Nat}
    (H : DecAt σ c info blocks blocks.length m) :
    ∃ c', c.decodeBlock b info.channels = .ok c' ∧ SameLevel c c' ∧ DecAt σ c' info blocks blocks.length m := by
  have hl : blocks.length * info.channels = (flat info.channels blocks).length := (length_flat _ _).symm
  have key : ∀ k, k ≤ info.channels → ∃ c', (List.range k).foldlM (fun c ch => AdhocCodec.decodeChannel b c ch) c = .ok c' ∧ SameLevel c c' ∧
      DecFl c' info (flat info.channels blocks) (blocks.length * info.channels) (fun ch => heard σ (codesOf (blocks.take blocks.length) ch))
    (fun ch => ((heard σ (codesOf (blocks.take blocks.length) ch)).drop m).map out) := by
    intro k
    induction k with
    | zero => intro _; exact ⟨c, rfl, .refl c, H.fl⟩
    | succ k ih =>
      intro hk
      obtain ⟨c1, e1, s1, H1⟩ := ih (by omega)
      rw [hl] at H1 ⊢
      obtain ⟨c2, e2, s2, H2⟩ := decodeChannel_end (b := b) H1 (ch := k) (by omega)
      refine ⟨c2, ?_, s1.trans s2, H2⟩
      rw [List.range_succ, foldlM_append', e1, bind_ok]
      simp only [List.foldlM_cons, List.foldlM_nil]
      rw [e2, bind_ok]
      rfl
  obtain ⟨c', e, s, H'⟩ := key _ le_rfl
  exact ⟨c', e, s, H', le_rfl, H.m_le, H.start⟩

theorem isBuffersEmpty_iff {c : AdhocCodec} {info : StreamInfo} (hn : 0 < info.channels) {blocks : List (Nat → Fr)} {j m : Nat}
    (HR : Rec info.channels blocks) (H : DecAt σ c info blocks j m) : c.isBuffersEmpty = true ↔ m = rowsIn (blocks.take j) := by
  have hlen : ∀ ch < info.channels, (((heard σ (codesOf (blocks.take j) ch)).drop m).map out).length = rowsIn (blocks.take j) - m := by
    intro ch hch
    simp [(HR.take j).length hch]
  have hm := H.m_le
  unfold AdhocCodec.isBuffersEmpty
  rw [List.all_eq_true]
  constructor
  · intro h
    have h0 : 0 < c.channelStateList.length := by rw [H.fl.chans]; exact hn
    have := h _ (List.getElem_mem h0)
    rw [(H.fl.chan 0 h0).buf, List.isEmpty_iff] at this
    have h2 := hlen 0 hn
    rw [this] at h2
    simp at h2
    omega
  · intro h fc hfc
    obtain ⟨k, hk, rfl⟩ := List.getElem_of_mem hfc
    rw [(H.fl.chan k hk).buf, List.isEmpty_iff, ← List.length_eq_zero_iff, hlen k (by rw [← H.fl.chans]; exact hk)]
    omega

/-- filling the buffers -/
theorem bufferAudio_ok {b : Build} {info : StreamInfo} (hn : 0 < info.channels) {blocks : List (Nat → Fr)}
    (HR : Rec info.channels blocks) (hsh : Short blocks) : ∀ (left : Nat) {c : AdhocCodec} {j m : Nat} (_ : DecAt σ c info blocks j m),
    ∃ c' j' left', AdhocCodec.bufferAudio b info.channels left c = .ok (c', left') ∧ SameLevel c c' ∧ DecAt σ c' info blocks j' m ∧ j ≤ j' ∧
      (0 < left' → m < rowsIn (blocks.take j')) ∧
      ((0 < left ∧ m < rowsIn (blocks.take j)) ∨ (∃ t, t + 2 ≤ left ∧ ∃ h : j + t < blocks.length, 0 < (blocks[j + t] 0).codes.length) → 0 < left')
  | 0, c, j, m, H => ⟨c, j, 0, rfl, .refl c, H, le_rfl, by simp, by
      rintro (h | ⟨t, ht, -⟩)
      · exact h.1
      · omega⟩
  | left + 1, c, j, m, H => by
    have hm := H.m_le
    unfold AdhocCodec.bufferAudio
    by_cases he : c.isBuffersEmpty = true
    · have hme := (isBuffersEmpty_iff hn HR H).1 he
      rw [if_pos he]
      by_cases hj : j < blocks.length
      · obtain ⟨c1, e1, s1, H1⟩ := decodeBlock_ok (b := b) HR hsh H hj
        obtain ⟨c2, j', left', e2, s2, H2, hjj, h3, h4⟩ := bufferAudio_ok (b := b) hn HR hsh left H1
        refine ⟨c2, j', left', by rw [e1, bind_ok]; exact e2, s1.trans s2, H2, by omega, h3, ?_⟩
        rintro (h | ⟨t, ht, hlt, hpos⟩)
        · omega
        · apply h4
          rcases Nat.eq_zero_or_pos t with rfl | htp
          · left
            refine ⟨by omega, ?_⟩
            rw [rowsIn_take_succ hj]
            simp only [Nat.add_zero] at hpos
            omega
          · right
            refine ⟨t - 1, by omega, by omega, ?_⟩
            have e : blocks[j + 1 + (t - 1)]'(by omega) = blocks[j + t] := by congr 1; omega
            rw [e]
            exact hpos
      · have hjl : j = blocks.length := by have := H.j_le; omega
        subst hjl
        obtain ⟨c1, e1, s1, H1⟩ := decodeBlock_end (b := b) H
        obtain ⟨c2, j', left', e2, s2, H2, hjj, h3, h4⟩ := bufferAudio_ok (b := b) hn HR hsh left H1
        refine ⟨c2, j', left', by rw [e1, bind_ok]; exact e2, s1.trans s2, H2, by omega, h3, ?_⟩
        rintro (h | ⟨t, ht, hlt, hpos⟩) <;> omega
    · rw [if_neg he]
      have hme : m ≠ rowsIn (blocks.take j) := fun h => he ((isBuffersEmpty_iff hn HR H).2 h)
      exact ⟨c, j, left + 1, rfl, .refl c, H, le_rfl, fun _ => by omega, fun _ => by omega⟩

theorem rec_heard_take {n : Nat} {blocks : List (Nat → Fr)} (HR : Rec n blocks) (j : Nat) {ch : Nat} (hch : ch < n) :
    heard σ (codesOf (blocks.take j) ch) = (heard σ (codesOf blocks ch)).take (rowsIn (blocks.take j)) := by
  rw [HR.codes_take j hch]
  exact heard_take _ _ _

/-- one row out of the buffers -/
theorem popRow_ok {info : StreamInfo} {blocks : List (Nat → Fr)} (HR : Rec info.channels blocks) (hn : 0 < info.channels)
    {c : AdhocCodec} {j m : Nat} (H : DecAt σ c info blocks j m) (hm : m < rowsIn (blocks.take j)) {legal cursor : Nat} {pcm : List F32}
    (h1 : cursor + info.channels ≤ legal) (h2 : legal ≤ pcm.length) :
    ∃ c', AdhocCodec.popBlock legal info.channels 0 c pcm cursor =
        .ok (c', pcm.take cursor ++ rows (outColsFrom σ info.channels blocks) m 1 ++ pcm.drop (cursor + info.channels), cursor + info.channels) ∧
      SameLevel c c' ∧ DecAt σ c' info blocks j (m + 1) := by
  obtain ⟨c', e, s, H'⟩ := popBlock_ok info.channels 0 H.fl (by omega) h1 h2
  refine ⟨c', ?_, s, ?_, H.j_le, by omega, H.start⟩
  · rw [e]
    have er : rows (outColsFrom σ info.channels blocks) m 1 =
        (List.range' 0 info.channels).map (fun ch => ((heard σ (codesOf blocks ch)).map out).getD m (F32.ofInt 0)) := by
      simp [rows, outColsFrom, List.range_eq_range', Function.comp_def]
    rw [er]
    congr 5
    apply List.map_congr_left
    intro ch hch
    have hch : ch < info.channels := by
      have := List.mem_range'_1.1 hch
      omega
    rw [rec_heard_take HR j hch]
    have hl : m < (heard σ (codesOf blocks ch)).length := by
      rw [length_heard, HR.length hch]
      exact lt_of_lt_of_le hm (rowsIn_take_le _ _)
    rw [List.headD_eq_head?_getD, List.head?_eq_getElem?, List.getElem?_map, List.getElem?_drop, List.getElem?_take, Nat.add_zero, if_pos hm,
      List.getD_eq_getElem?_getD, List.getElem?_map]
  · refine H'.congr (fun _ _ => rfl) ?_
    intro x _
    simp only [Nat.zero_le, if_true]
    rw [← List.map_tail, List.tail_drop]

/-- the output loop -/
theorem decodeLoop_ok {b : Build} {info : StreamInfo} (hn : 0 < info.channels) {blocks : List (Nat → Fr)}
    (HR : Rec info.channels blocks) (hsh : Short blocks) (q : Nat) :
    ∀ (fuel : Nat) {c : AdhocCodec} {j m r : Nat} {pcm : List F32} (_ : DecAt σ c info blocks j m) (_ : r ≤ q) (_ : q - r < fuel)
      (_ : q * info.channels ≤ pcm.length),
    ∃ c' j' d, AdhocCodec.decodeLoop b info.channels (q * info.channels) fuel c pcm (r * info.channels) =
        .ok (c', pcm.take (r * info.channels) ++ rows (outColsFrom σ info.channels blocks) m d ++ pcm.drop ((r + d) * info.channels),
          (r + d) * info.channels) ∧
      SameLevel c c' ∧ DecAt σ c' info blocks j' (m + d) ∧ r + d ≤ q ∧
      (NoGap (sizesOf blocks) → m + d = min (m + (q - r)) (rowsIn blocks))
  | 0, _, _, _, _, _, _, _, h, _ => absurd h (by omega)
  | fuel + 1, c, j, m, r, pcm, H, hr, hf, hl => by
    have hmle : m ≤ rowsIn blocks := H.m_le.trans (rowsIn_take_le _ _)
    unfold AdhocCodec.decodeLoop
    by_cases hlt : r < q
    · have hle : (r + 1) * info.channels ≤ q * info.channels := Nat.mul_le_mul_right _ hlt
      rw [Nat.add_mul, Nat.one_mul] at hle
      rw [if_pos (by omega)]
      obtain ⟨c1, j1, left, e1, s1, H1, hj1, hpos, hgap⟩ := bufferAudio_ok (b := b) hn HR hsh MAX_DECODE_ATTEMPTS H
      rw [e1, bind_ok]
      dsimp only
      by_cases h0 : left = 0
      · rw [if_pos h0]
        refine ⟨c1, j1, 0, by simp [rows], s1, H1, by omega, ?_⟩
        intro hng
        have hno : m = rowsIn blocks := by
          have hm1 : ¬ m < rowsIn (blocks.take j) := fun h => by
            have := hgap (.inl ⟨by unfold MAX_DECODE_ATTEMPTS; omega, h⟩)
            omega
          have hm2 : m = rowsIn (blocks.take j) := by have := H.m_le; omega
          rcases hng j with ⟨t, ht, hp⟩ | hz
          · exfalso
            have hjt : j + t < blocks.length := by
              by_contra hc
              rw [sizesOf, List.getD_eq_getElem?_getD, List.getElem?_eq_none (by simp; omega)] at hp
              simp at hp
            rw [sizesOf, List.getD_eq_getElem?_getD, List.getElem?_eq_getElem (by simpa using hjt)] at hp
            simp only [List.getElem_map, Option.getD_some] at hp
            have := hgap (.inr ⟨t, by unfold MAX_DECODE_ATTEMPTS; omega, hjt, hp⟩)
            omega
          · rw [rowsIn_drop_zero hz]; exact hm2
        omega
      · rw [if_neg h0]
        obtain ⟨c2, e2, s2, H2⟩ := popRow_ok HR hn H1 (hpos (by omega)) (pcm := pcm) (cursor := r * info.channels) (legal := q * info.channels) hle hl
        rw [e2, bind_ok]
        dsimp only
        obtain ⟨row, hrow⟩ : ∃ row, row = rows (outColsFrom σ info.channels blocks) m 1 := ⟨_, rfl⟩
        have hrl : row.length = info.channels := by rw [hrow, length_rows]; simp [outColsFrom]
        rw [← hrow]
        have hmul : r * info.channels + info.channels = (r + 1) * info.channels := by rw [Nat.add_mul, Nat.one_mul]
        rw [hmul]
        have hlen : q * info.channels ≤ (pcm.take (r * info.channels) ++ row ++ pcm.drop ((r + 1) * info.channels)).length := by
          simp only [List.length_append, List.length_take, List.length_drop, hrl]
          omega
        obtain ⟨c3, j3, d, e3, s3, H3, hd, hng⟩ := decodeLoop_ok hn HR hsh q fuel (b := b) H2 (show r + 1 ≤ q by omega) (by omega) hlen
        refine ⟨c3, j3, d + 1, ?_, s1.trans (s2.trans s3), by rw [← Nat.add_assoc, Nat.add_right_comm]; exact H3, by omega, ?_⟩
        · rw [e3]
          have ea : (pcm.take (r * info.channels) ++ row ++ pcm.drop ((r + 1) * info.channels)).take ((r + 1) * info.channels) =
              pcm.take (r * info.channels) ++ row := by
            rw [List.take_append_of_le_length (by simp [hrl]; omega), List.take_of_length_le (by simp [hrl]; omega)]
          have eb : (pcm.take (r * info.channels) ++ row ++ pcm.drop ((r + 1) * info.channels)).drop ((r + 1 + d) * info.channels) =
              pcm.drop ((r + (d + 1)) * info.channels) := by
            have hx : (r + 1 + d) * info.channels = (r + 1) * info.channels + d * info.channels := by rw [Nat.add_mul]
            have hy : (r + (d + 1)) * info.channels = (r + 1) * info.channels + d * info.channels := by rw [← Nat.add_mul]; congr 1; omega
            have hz : (pcm.take (r * info.channels) ++ row).length = (r + 1) * info.channels := by simp [hrl]; omega
            rw [hx, hy, ← List.drop_drop, List.drop_left' hz, List.drop_drop]
          rw [ea, eb, rows_succ, ← hrow]
          have ec : (r + 1 + d) * info.channels = (r + (d + 1)) * info.channels := by congr 1; omega
          rw [ec]
          simp [List.append_assoc]
        · intro h
          have := hng h
          omega
    · have hrq : r = q := by omega
      subst hrq
      rw [if_neg (by omega)]
      refine ⟨c, j, 0, by simp [rows], .refl c, H, by omega, ?_⟩
      intro _
      omega

/-- one decode call -/
theorem decode_ok {b : Build} {info : StreamInfo} (hn : 0 < info.channels) {blocks : List (Nat → Fr)}
    (HR : Rec info.channels blocks) (hsh : Short blocks) {c : AdhocCodec} {j m : Nat} (H : DecAt σ c info blocks j m) (buf : List F32) :
    ∃ c' j' d, c.decode b buf =
        .ok (c', (rows (outColsFrom σ info.channels blocks) m d ++ buf.drop (d * info.channels)).map (· * c.scale),
          if 0 < d then some (d * info.channels) else none) ∧
      SameLevel c c' ∧ DecAt σ c' info blocks j' (m + d) ∧ d ≤ buf.length / info.channels ∧ m + d ≤ rowsIn blocks ∧
      (NoGap (sizesOf blocks) → m + d = min (m + buf.length / info.channels) (rowsIn blocks)) := by
  obtain ⟨c', j', d, e, s, H', hd, hng⟩ := decodeLoop_ok (b := b) hn HR hsh (buf.length / info.channels)
    (buf.length / info.channels * info.channels + 1) (r := 0) (pcm := buf) H (Nat.zero_le _)
    (by have := Nat.le_mul_of_pos_right (buf.length / info.channels) hn; omega) (Nat.div_mul_le_self _ _)
  refine ⟨c', j', d, ?_, s, H', by omega, H'.m_le.trans (rowsIn_take_le _ _), by simpa using hng⟩
  unfold AdhocCodec.decode AdhocCodec.decodeRaw
  rw [H.fl.hinfo]
  simp only [expect, bind_ok]
  rw [udiv_of_pos hn, bind_ok]
  rw [Nat.zero_mul] at e
  rw [e, bind_ok]
  simp only [Nat.zero_add, List.take_zero, List.nil_append, pure_eq_ok, bind_ok, s.scale]
  congr 3
  by_cases h : 0 < d
  · rw [if_pos h, if_pos (Nat.mul_pos h hn)]
  · have : d = 0 := by omega
    subst this; simp

/-- a frame, heard σ by a channel that has pushed the window of its header -/
theorem decodeFrame_seek {b : Build} {f : Fr} (hf : f.WF) (hsz : f.codes.length < 65536) {fc : FrameCodec} {p : Nat}
    (hst : fc.state = if f.pre = [] then .init else .decoding)
    (hh : ∃ g, Last g [] ∧ fc.history = ((g.push (f.hdr p).history.1).push (f.hdr p).history.2.1).push (f.hdr p).history.2.2)
    (hbuf : fc.buffered = []) {st : AudioStream} {pre post : List Bool}
    (hs : Reads st.stream (pre ++ f.bits ++ post) pre.length) {hd : FrameHeaders} {log : List FrameHeader} {i : Nat}
    (hl : IsLog hd log i) (hi : log[i]? = some (f.hdr p)) :
    ∃ fc' st' hd' n, fc.decodeFrame b st hd = .ok (fc', st', hd', n) ∧
      (f.codes ≠ [] → DecChan fc' (heard f.pre.length (f.pre ++ f.codes)) (((heard f.pre.length (f.pre ++ f.codes)).drop f.pre.length).map out)) ∧
      Reads st'.stream (pre ++ f.bits ++ post) (pre ++ f.bits).length ∧ st'.info = st.info ∧
      IsLog hd' log (i + 1) := by
  obtain ⟨g, hg, hhist⟩ := hh
  have hlast : Last fc.history [(f.hdr p).history.1, (f.hdr p).history.2.1, (f.hdr p).history.2.2] := by
    rw [hhist]; exact ((hg.push _).push _).push _
  by_cases hp : f.pre = []
  · obtain ⟨fc', st', hd', n, e, h1, h2, h3, h4⟩ := decodeFrame_ok (b := b) hf hsz (fc := fc) (D := []) (buf := [])
      ⟨by rw [hst, if_pos hp, if_pos rfl], hlast.weaken, hbuf⟩ (by rw [hp]) hs hl hi
    refine ⟨fc', st', hd', n, e, fun hne => ?_, h2, h3, h4⟩
    have hdec := heard_frame (σ := f.pre.length) hf le_rfl
    rw [show heard f.pre.length f.pre = [] by rw [hp]; rfl, List.nil_append] at hdec
    rw [← hdec]
    simpa [hp] using h1
  · have hl3 := hf.later hp
    obtain ⟨A, x, y, z, hA⟩ := split_three hl3
    obtain ⟨f', hf'⟩ : ∃ f' : Fr, f' = { f with pre := [x, y, z] } := ⟨_, rfl⟩
    have hpre' : f'.pre = [x, y, z] := by rw [hf']
    have hcod' : f'.codes = f.codes := by rw [hf']
    have hraw : f.raw = [] := by simp [Fr.raw, hp]
    have hraw' : f'.raw = [] := by simp [Fr.raw, hpre']
    have hbody : f.body = f.codes := by simp [Fr.body, hp]
    have hbody' : f'.body = f.codes := by simp [Fr.body, hpre', hcod']
    have hexp' : f'.exp = f.exp := by rw [hf']
    have hres : residuals f.pre f.codes = residuals [x, y, z] f.codes := by rw [hA]; exact residuals_split _ _ _ _ _
    have hbits : f'.bits = f.bits := by
      simp only [Fr.bits, hraw, hraw', hbody, hbody', hpre', hexp', List.append_nil, hres]
    have hhd : (f.hdr p).history = (x, y, z) := by
      simp only [Fr.hdr, hraw, List.append_nil]; rw [hA]; exact lastThree_split _ _ _ _
    have hhdr : f'.hdr p = f.hdr p := by
      have e1 : f'.pre.isEmpty = f.pre.isEmpty := by rw [hpre', hA]; simp
      have e2 : lastThree (f'.pre ++ f'.raw) = lastThree (f.pre ++ f.raw) := by
        rw [hraw, hraw', List.append_nil, List.append_nil, hpre', hA]
        exact (lastThree_split [] x y z).trans (lastThree_split A x y z).symm
      simp only [Fr.hdr, e1, e2, hexp', hcod']
    have hwf : f'.WF := by
      refine ⟨fun h => ?_, fun _ => by rw [hpre']; simp, by rw [hexp']; exact hf.exp1, by rw [hexp']; exact hf.exp15,
        by rw [hcod']; exact hf.range, ?_, ?_⟩
      · rw [hpre'] at h; cases h
      · have := hf.opt
        simp only [frameCost, hraw, hraw', hbody, hbody', hpre', hexp', List.append_nil] at this ⊢
        rw [hA, gaps_split] at this
        exact this
      · have := hf.picked
        simp only [Picked, wrappedCost, frameCost, hraw, hraw', hbody, hbody', hpre', hexp', List.append_nil] at this ⊢
        rw [hA, gaps_split] at this
        exact this
    rw [hhd] at hlast
    have hD : DecChan fc [x, y, z] [] := ⟨by rw [hst, if_neg hp]; simp, hlast, hbuf⟩
    obtain ⟨fc', st', hd', n, e, h1, h2, h3, h4⟩ := decodeFrame_ok (b := b) hwf (by rw [hcod']; exact hsz) hD (by rw [hpre'])
      (by rw [hbits]; exact hs) hl (by rw [hhdr]; exact hi)
    refine ⟨fc', st', hd', n, e, fun hne => ?_, by rw [hbits] at h2; exact h2, h3, h4⟩
    simp only [hraw', hbody', hpre', List.append_nil, List.nil_append] at h1
    have hh : heard f.pre.length (f.pre ++ f.codes) = f.pre ++ rebuild [x, y, z] (residuals [x, y, z] f.codes) := by
      rw [heard_append _ (by omega), heard_short (by omega), hres, hA, rebuild_split]
    rw [hh, List.drop_left]
    refine ⟨?_, ?_, h1.buf⟩
    · rw [h1.state]; simp [hp]
    · rw [hA]
      refine last_extend h1.hist fun h0 => hne ?_
      have := congrArg List.length h0
      simp at this
      exact this

/-- channels below `k` hold block `j` (if it is in sync), the others have only an old history -/
structure SeekSt (c : AdhocCodec) (info : StreamInfo) (blocks : List (Nat → Fr)) (j k : Nat) : Prop where
  hinfo : c.stream.info = some info
  chans : c.channelStateList.length = info.channels
  done : (∃ h : j < blocks.length, (blocks[j] 0).codes ≠ []) → ∀ ch (h : ch < c.channelStateList.length), ch < k →
    DecChan c.channelStateList[ch] (heard (rowsIn (blocks.take j)) (codesOf (blocks.take (j + 1)) ch))
      (((heard (rowsIn (blocks.take j)) (codesOf (blocks.take (j + 1)) ch)).drop (rowsIn (blocks.take j))).map out)
  rest : ∀ ch (h : ch < c.channelStateList.length), k ≤ ch → Last c.channelStateList[ch].history []
  bits : Reads c.stream.stream (bitsOf (flat info.channels blocks)) (bitsOf ((flat info.channels blocks).take (j * info.channels + k))).length
  log : IsLog c.frameHeaderList (hdrs 0 (flat info.channels blocks)) (j * info.channels + k)

theorem seekChannel_ok {b : Build} {c : AdhocCodec} {info : StreamInfo} {blocks : List (Nat → Fr)} {j k : Nat}
    (HR : Rec info.channels blocks) (hsh : Short blocks)
    (hj : j < blocks.length) (H : SeekSt c info blocks j k) (hk : k < info.channels) :
    ∃ c', c.seekChannel b (j * info.channels) k = .ok c' ∧ SameLevel c c' ∧ SeekSt c' info blocks j (k + 1) := by
  obtain ⟨n, hn⟩ : ∃ n, n = info.channels := ⟨_, rfl⟩
  have hlt : j * info.channels + k < (flat info.channels blocks).length := by
    rw [length_flat]
    calc j * info.channels + k < (j + 1) * info.channels := by rw [Nat.add_mul]; omega
      _ ≤ _ := Nat.mul_le_mul_right _ hj
  have hg := flat_getElem blocks hj hk hlt
  obtain ⟨f, hfd⟩ : ∃ f, f = blocks[j] k := ⟨_, rfl⟩
  rw [← hfd] at hg
  have hwf : f.WF := by rw [hfd]; exact HR.wf j hj k hk
  have hpre : f.pre = codesOf (blocks.take j) k := by rw [hfd]; exact HR.pre j hj k hk
  have hsize : f.codes.length = (blocks[j] 0).codes.length := by rw [hfd]; exact HR.size j hj k hk
  have hcodes : f.pre ++ f.codes = codesOf (blocks.take (j + 1)) k := by rw [codesOf_take_succ hj, hpre, hfd]
  have hplen : f.pre.length = rowsIn (blocks.take j) := by rw [hpre, (HR.take j).length hk]
  have hsync' : (∃ h : j < blocks.length, (blocks[j] 0).codes ≠ []) → f.codes ≠ [] := by
    rintro ⟨_, hne⟩ h
    exact hne (List.eq_nil_of_length_eq_zero (by rw [← hsize, h]; rfl))
  have hk' : k < c.channelStateList.length := by rw [H.chans]; exact hk
  have hget : ((hdrs 0 (flat info.channels blocks)))[j * info.channels + k]? =
      some (f.hdr (bitsOf ((flat info.channels blocks).take (j * info.channels + k))).length) := by
    rw [hdrs_getElem?, List.getElem?_eq_getElem hlt, hg]
    simp
  have hsplit : bitsOf (flat info.channels blocks) = bitsOf ((flat info.channels blocks).take (j * info.channels + k)) ++ f.bits ++
      bitsOf ((flat info.channels blocks).drop (j * info.channels + k + 1)) := by
    conv_lhs => rw [← List.take_append_drop (j * info.channels + k) (flat info.channels blocks), List.drop_eq_getElem_cons hlt, hg]
    rw [bitsOf_append, bitsOf_cons, List.append_assoc]
  have hs := H.bits
  rw [hsplit] at hs
  obtain ⟨p, hpd⟩ : ∃ p, p = (bitsOf ((flat info.channels blocks).take (j * info.channels + k))).length := ⟨_, rfl⟩
  rw [← hpd] at hget
  obtain ⟨fc0, hfc0⟩ : ∃ fc0 : FrameCodec, fc0 =
    { state := if (f.hdr p).isInit then .init else .decoding
      history := ((c.channelStateList[k].history.push (f.hdr p).history.1).push (f.hdr p).history.2.1).push (f.hdr p).history.2.2
      buffered := [] } := ⟨_, rfl⟩
  obtain ⟨fc', st', hd', m, e, h1, h2, h3, h4⟩ := decodeFrame_seek (b := b) hwf
    (by rw [hsize]; exact hsh _ (List.getElem_mem hj)) (fc := fc0) (p := p) (by rw [hfc0]; simp [Fr.hdr, List.isEmpty_iff])
    ⟨_, H.rest k hk' le_rfl, by rw [hfc0]⟩ (by rw [hfc0]) hs H.log hget
  unfold AdhocCodec.seekChannel
  rw [isLog_get H.log, hget, bind_ok]
  simp only [expect, bind_ok]
  rw [idx_of_lt hk', bind_ok]
  rw [hfc0] at e
  rw [e, bind_ok]
  dsimp only
  rw [setIdx_of_lt hk', bind_ok]
  refine ⟨_, rfl, ⟨rfl, rfl, rfl⟩, h3.trans H.hinfo, by simpa using H.chans, ?_, ?_, ?_, h4⟩
  · intro hS ch hch hck
    simp only [List.getElem_set]
    by_cases hkc : k = ch
    · subst hkc
      simp only [if_true]
      rw [← hcodes, ← hplen]
      exact h1 (hsync' hS)
    · rw [if_neg hkc]
      exact H.done hS ch (by simpa using hch) (by omega)
  · intro ch hch hck
    simp only [List.getElem_set]
    rw [if_neg (show ¬ k = ch by omega)]
    exact H.rest ch (by simpa using hch) (by omega)
  · have e1 : bitsOf ((flat info.channels blocks).take (j * info.channels + (k + 1))) =
        bitsOf ((flat info.channels blocks).take (j * info.channels + k)) ++ f.bits := by
      rw [← Nat.add_assoc, List.take_succ_eq_append_getElem hlt, bitsOf_append, bitsOf_singleton, hg]
    rw [e1, hsplit]
    exact h2

theorem seekChannels_ok {b : Build} {c : AdhocCodec} {info : StreamInfo} {blocks : List (Nat → Fr)} {j : Nat}
    (HR : Rec info.channels blocks) (hsh : Short blocks)
    (hj : j < blocks.length) (H : SeekSt c info blocks j 0) :
    ∃ c', (List.range info.channels).foldlM (fun c off => c.seekChannel b (j * info.channels) off) c = .ok c' ∧ SameLevel c c' ∧
      c'.channelStateList.length = info.channels ∧
      ((∃ h : j < blocks.length, (blocks[j] 0).codes ≠ []) → DecAt (rowsIn (blocks.take j)) c' info blocks (j + 1) (rowsIn (blocks.take j))) := by
  have key : ∀ k, k ≤ info.channels → ∃ c', (List.range k).foldlM (fun c off => AdhocCodec.seekChannel b c (j * info.channels) off) c = .ok c' ∧
      SameLevel c c' ∧ SeekSt c' info blocks j k := by
    intro k
    induction k with
    | zero => intro _; exact ⟨c, rfl, .refl c, H⟩
    | succ k ih =>
      intro hk
      obtain ⟨c1, e1, s1, H1⟩ := ih (by omega)
      obtain ⟨c2, e2, s2, H2⟩ := seekChannel_ok (b := b) HR hsh hj H1 (by omega)
      refine ⟨c2, ?_, s1.trans s2, H2⟩
      rw [List.range_succ, foldlM_append', e1, bind_ok]
      simp only [List.foldlM_cons, List.foldlM_nil]
      rw [e2, bind_ok]
      rfl
  obtain ⟨c', e, s, H'⟩ := key info.channels le_rfl
  refine ⟨c', e, s, H'.chans, fun hS => ?_⟩
  refine ⟨⟨H'.hinfo, H'.chans, ?_, ?_, ?_⟩, hj, ?_, by rw [rowsIn_take_succ hj]; omega⟩
  · intro ch hch
    have hch' : ch < info.channels := by rw [← H'.chans]; exact hch
    exact H'.done hS ch hch hch'
  · have := H'.bits
    rwa [show j * info.channels + info.channels = (j + 1) * info.channels by rw [Nat.add_mul, Nat.one_mul]] at this
  · have := H'.log
    rwa [show j * info.channels + info.channels = (j + 1) * info.channels by rw [Nat.add_mul, Nat.one_mul]] at this
  · rw [rowsIn_take_succ hj]; omega

theorem dropOne_ok {c : AdhocCodec} {info : StreamInfo} {blocks : List (Nat → Fr)} {j m : Nat} (H : DecAt σ c info blocks j m)
    (hm : m < rowsIn (blocks.take j)) : ∃ c', c.dropOne info.channels = .ok c' ∧ SameLevel c c' ∧ DecAt σ c' info blocks j (m + 1) := by
  have key : ∀ k, k ≤ info.channels → ∃ c', (List.range k).foldlM (fun (c : AdhocCodec) off => do
      let fc ← idx c.channelStateList off
      let chs ← setIdx c.channelStateList off { fc with buffered := fc.buffered.tail }
      pure { c with channelStateList := chs }) c = .ok c' ∧ SameLevel c c' ∧
      DecFl c' info (flat info.channels blocks) (j * info.channels) (fun ch => heard σ (codesOf (blocks.take j) ch))
        (fun ch => ((heard σ (codesOf (blocks.take j) ch)).drop (if ch < k then m + 1 else m)).map out) := by
    intro k
    induction k with
    | zero => intro _; exact ⟨c, rfl, .refl c, by simpa using H.fl⟩
    | succ k ih =>
      intro hk
      obtain ⟨c1, e1, s1, H1⟩ := ih (by omega)
      have hk' : k < c1.channelStateList.length := by rw [H1.chans]; omega
      rw [List.range_succ, foldlM_append', e1, bind_ok]
      simp only [List.foldlM_cons, List.foldlM_nil]
      rw [idx_of_lt hk', bind_ok, setIdx_of_lt hk', bind_ok]
      refine ⟨_, rfl, s1.trans ⟨rfl, rfl, rfl⟩, H1.hinfo, by simpa using H1.chans, ?_, H1.bits, H1.log⟩
      intro ch hch
      simp only [List.getElem_set]
      by_cases hkc : k = ch
      · subst hkc
        have := H1.chan k hk'
        simp only [lt_irrefl, if_false] at this
        simp only [if_true, Nat.lt_succ_self]
        refine ⟨this.state, this.hist, ?_⟩
        dsimp only
        rw [this.buf, ← List.map_tail, List.tail_drop]
      · rw [if_neg hkc]
        have := H1.chan ch (by simpa using hch)
        by_cases hlt : ch < k
        · simpa [hlt, Nat.lt_succ_of_lt hlt] using this
        · simpa [hlt, show ¬ ch < k + 1 by omega] using this
  obtain ⟨c', e, s, H'⟩ := key info.channels le_rfl
  refine ⟨c', e, s, ⟨H'.congr (fun _ _ => rfl) fun i hi => by simp [hi], H.j_le, by omega, H.start⟩⟩

theorem prune_ok {b : Build} {info : StreamInfo} (hn : 0 < info.channels) {blocks : List (Nat → Fr)} {j t : Nat}
    (ht : t ≤ rowsIn (blocks.take j)) (h64 : t * info.channels < 2 ^ 64) : ∀ (fuel m : Nat) (c : AdhocCodec) (_ : DecAt σ c info blocks j m) (_ : m ≤ t)
      (_ : t - m < fuel), ∃ c', c.prune b info.channels (t * info.channels) fuel (m * info.channels) = .ok c' ∧ SameLevel c c' ∧ DecAt σ c' info blocks j t
  | 0, m, c, _, _, hf => by omega
  | fuel + 1, m, c, H, hm, hf => by
    conv in AdhocCodec.prune _ _ _ _ _ _ => unfold AdhocCodec.prune
    by_cases hlt : m < t
    · rw [if_pos (Nat.mul_lt_mul_of_pos_right hlt hn)]
      obtain ⟨c1, e1, s1, H1⟩ := dropOne_ok H (by omega)
      rw [e1, bind_ok]
      have h1 : m * info.channels + info.channels = (m + 1) * info.channels := by rw [Nat.add_mul, Nat.one_mul]
      have h2 : (m + 1) * info.channels ≤ t * info.channels := Nat.mul_le_mul_right _ hlt
      rw [h1, chkU_nat (by omega), bind_ok]
      obtain ⟨c2, e2, s2, H2⟩ := prune_ok hn ht h64 fuel (m + 1) c1 H1 (by omega) (by omega)
      exact ⟨c2, e2, s1.trans s2, H2⟩
    · have : m = t := by omega
      subst this
      rw [if_neg (lt_irrefl _)]
      exact ⟨c, rfl, .refl c, H⟩

theorem seekSt_of {c : AdhocCodec} {info : StreamInfo} {blocks : List (Nat → Fr)} {j0 m : Nat} (H : DecAt σ c info blocks j0 m) {j : Nat}
    {p : Nat} (hp : p = (bitsOf ((flat info.channels blocks).take (j * info.channels))).length) :
    SeekSt { c with stream := { c.stream with stream := c.stream.stream.setBitCursor p }
                    frameHeaderList := c.frameHeaderList.setCursor (j * info.channels) } info blocks j 0 where
  hinfo := H.fl.hinfo
  chans := H.fl.chans
  done := by intro _ ch _ h; omega
  rest := fun ch hch _ => (H.fl.chan ch hch).hist.weaken
  bits := by
    have := H.fl.bits
    refine ⟨by simpa [BitStream.setBitCursor] using hp, this.chunks, ?_, this.bit⟩
    rw [Nat.add_zero]
    conv_rhs => rw [← List.take_append_drop (j * info.channels) (flat info.channels blocks), bitsOf_append]
    simp
  log := isLog_setCursor H.fl.log _

theorem callStart_sizes : ∀ {blocks : List (Nat → Fr)} {j t : Nat} (_ : j < blocks.length) (_ : t ≤ rowsIn (blocks.take (j + 1)))
    (_ : (t = 0 ∧ j = 0) ∨ (rowsIn (blocks.take j) < t ∧ (j < blocks.length → t ≤ rowsIn (blocks.take (j + 1))))),
    callStart (sizesOf blocks) t = rowsIn (blocks.take j)
  | [], _, _, h, _, _ => by simp at h
  | blk :: blocks, 0, t, _, h, _ => by
    simp [rowsIn] at h
    simp [sizesOf, callStart, h]
  | blk :: blocks, j + 1, t, hj, h, hs => by
    rcases hs with ⟨-, h0⟩ | ⟨h1, h2⟩
    · omega
    · have e : ∀ i, rowsIn ((blk :: blocks).take (i + 1)) = (blk 0).codes.length + rowsIn (blocks.take i) := by
        intro i; simp [rowsIn]
      rw [e] at h h1 ⊢
      have hj' : j < blocks.length := by simpa using hj
      have : ¬ t ≤ (blk 0).codes.length := by omega
      simp only [sizesOf, List.map_cons, callStart, this, if_false]
      congr 1
      exact callStart_sizes hj' (by omega) (.inr ⟨by omega, fun _ => by omega⟩)

theorem land_of : ∀ {sizes : List Nat} {j t : Nat} (_ : j < sizes.length) (_ : t ≤ (sizes.take (j + 1)).sum)
    (_ : (t = 0 ∧ j = 0) ∨ (sizes.take j).sum < t), land sizes t = ((sizes.take (j + 1)).sum - t, sizes.drop (j + 1))
  | [], _, _, h, _, _ => by simp at h
  | z :: zs, 0, t, _, h, _ => by
    simp at h
    simp [land, h]
  | z :: zs, j + 1, t, hj, h, hs => by
    rcases hs with ⟨-, h0⟩ | h1
    · omega
    · rw [List.take_succ_cons, List.sum_cons] at h h1
      have hj' : j < zs.length := by simpa using hj
      have : ¬ t ≤ z := by omega
      simp only [land, this, if_false]
      rw [land_of hj' (by omega) (.inr (by omega)), List.take_succ_cons, List.sum_cons, List.drop_succ_cons]
      congr 1
      omega

theorem seekTo_ok {b : Build} {c : AdhocCodec} {info : StreamInfo} (hn : 0 < info.channels) {blocks : List (Nat → Fr)}
    (HR : Rec info.channels blocks) (hsh : Short blocks)
    (hbits : (bitsOf (flat info.channels blocks)).length < 2 ^ 64) (h64 : rowsIn blocks * info.channels < 2 ^ 64)
    {j m : Nat} (H : DecAt σ c info blocks j m) (hne : blocks ≠ []) (dt : Nat) (ht : AdhocCodec.seekOffset info dt ≤ rowsIn blocks) :
    ∃ c', c.seekTo b info dt = .ok c' ∧ SameLevel c c' ∧
      ∃ j', land (sizesOf blocks) (AdhocCodec.seekOffset info dt) =
          (((sizesOf blocks).take j').sum - AdhocCodec.seekOffset info dt, (sizesOf blocks).drop j') ∧
        DecAt (callStart (sizesOf blocks) (AdhocCodec.seekOffset info dt)) c' info blocks j' (AdhocCodec.seekOffset info dt) := by
  obtain ⟨t, htd⟩ : ∃ t, t = AdhocCodec.seekOffset info dt := ⟨_, rfl⟩
  rw [← htd] at ht ⊢
  unfold AdhocCodec.seekTo
  dsimp only
  rw [← htd]
  have htn : t * info.channels ≤ rowsIn blocks * info.channels := Nat.mul_le_mul_right _ ht
  rw [chkU_nat (by omega), bind_ok, udiv_of_pos hn, bind_ok, H.fl.log.len, length_hdrs, length_flat, Nat.mul_div_cancel _ hn]
  obtain ⟨j', e, hj', hspec⟩ := findBlock_ok (b := b) hn H.fl.log hsh h64 t (blocks.length + 1) 0 (by omega) (by omega)
    (by simp; omega)
  rw [List.take_zero, rowsIn_nil, Nat.zero_mul] at e
  rw [e, bind_ok]
  dsimp only
  have hpos : 0 < blocks.length := List.length_pos_iff.2 hne
  have hjlt : j' < blocks.length := by
    rcases hspec with ⟨-, h⟩ | ⟨h1, h2⟩
    · omega
    · by_contra hc
      rw [List.take_of_length_le (by omega)] at h1
      omega
  have hreach : t ≤ rowsIn (blocks.take (j' + 1)) := by
    rcases hspec with ⟨h, -⟩ | ⟨-, h⟩
    · omega
    · exact h hjlt
  have hle : rowsIn (blocks.take j') ≤ t := by
    rcases hspec with ⟨-, h⟩ | ⟨h, -⟩
    · subst h; simp
    · omega
  have hcne : (blocks[j'] 0).codes ≠ [] := by
    intro h0
    rcases hspec with ⟨-, h⟩ | ⟨h1, -⟩
    · subst h
      have hw := HR.wf 0 hjlt 0 hn
      have hp := HR.pre 0 hjlt 0 hn
      simp at hp
      have := hw.first hp
      rw [h0] at this
      simp at this
    · rw [rowsIn_take_succ hjlt, h0] at hreach
      simp at hreach
      omega
  have hlt : j' * info.channels + 0 < (flat info.channels blocks).length := by
    rw [length_flat]
    exact Nat.mul_lt_mul_of_pos_right hjlt hn
  rw [isLog_get H.fl.log, hdrs_getElem?, List.getElem?_eq_getElem (by simpa using hlt)]
  simp only [Option.map_some, expect, bind_ok]
  have hpos64 : (bitsOf ((flat info.channels blocks).take (j' * info.channels))).length < 2 ^ 64 := by
    have h1 := hbits
    conv at h1 => rw [← List.take_append_drop (j' * info.channels) (flat info.channels blocks), bitsOf_append]
    rw [List.length_append] at h1
    omega
  have hst := seekSt_of H (j := j')
    (p := ((flat info.channels blocks)[j' * info.channels].hdr (0 + (bitsOf ((flat info.channels blocks).take (j' * info.channels))).length)).bitCursor) (by
      simp only [Fr.hdr, Nat.zero_add]
      exact Nat.mod_eq_of_lt hpos64)
  obtain ⟨c1, e1, s1, hl1, H1⟩ := seekChannels_ok (b := b) HR hsh hjlt hst
  rw [e1, bind_ok]
  have hfuel : t - rowsIn (blocks.take j') < t * info.channels + 1 := by
    have := Nat.le_mul_of_pos_right t hn
    omega
  have s0 : SameLevel c c1 := ⟨s1.level, s1.scale, s1.inv⟩
  obtain ⟨c2, e2, s2, H2⟩ := prune_ok (b := b) hn hreach (by omega) (t * info.channels + 1) _ c1 (H1 ⟨hjlt, hcne⟩) hle hfuel
  have hsum : ∀ i, ((sizesOf blocks).take i).sum = rowsIn (blocks.take i) := fun i => by
    unfold sizesOf rowsIn
    rw [List.map_take]
  refine ⟨c2, e2, s0.trans s2, j' + 1, ?_, ?_⟩
  · apply land_of
    · simpa [sizesOf] using hjlt
    · rw [hsum]; exact hreach
    · rw [hsum]
      rcases hspec with h | h
      · exact .inl h
      · exact .inr h.1
  · rw [callStart_sizes hjlt hreach hspec]
    exact H2

end Adhoc.Resync
