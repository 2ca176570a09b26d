import Verif.Proofs.Codec

/-! Seeking in a recording whose channels are in sync. -/

namespace Adhoc
open Spec

/-! ## a frame from the window in its header -/

theorem guess_lastThree (P : List Int) : guess P = predict (lastThree P).1 (lastThree P).2.1 (lastThree P).2.2 := rfl

theorem split_three {P : List Int} (h : 3 ≤ P.length) : ∃ A a b c, P = A ++ [a, b, c] := by
  refine ⟨P.take (P.length - 3), P[P.length - 3], P[P.length - 2], P[P.length - 1], ?_⟩
  conv_lhs => rw [← List.take_append_drop (P.length - 3) P]
  congr 1
  rw [List.drop_eq_getElem_cons (by omega), List.drop_eq_getElem_cons (by omega), List.drop_eq_getElem_cons (by omega),
    List.drop_eq_nil_of_le (by omega)]
  congr 2
  · congr 1; omega
  · congr 2; omega

theorem lastThree_split (A : List Int) (a b c : Int) : lastThree (A ++ [a, b, c]) = (a, b, c) := by
  unfold lastThree
  have e1 : (A ++ [a, b, c]).length - 3 = A.length := by simp
  have e2 : (A ++ [a, b, c]).length - 2 = A.length + 1 := by simp
  have e3 : (A ++ [a, b, c]).length - 1 = A.length + 2 := by simp
  rw [e1, e2, e3]
  simp [List.getD_eq_getElem?_getD]

theorem guess_split (A : List Int) (a b c : Int) : guess (A ++ [a, b, c]) = predict a b c := by
  rw [guess_lastThree, lastThree_split]

theorem residuals_split : ∀ (qs A : List Int) (a b c : Int), residuals (A ++ [a, b, c]) qs = residuals [a, b, c] qs
  | [], _, _, _, _ => rfl
  | q :: qs, A, a, b, c => by
    simp only [residuals, guess_split, show guess [a, b, c] = predict a b c from guess_split [] a b c]
    congr 1
    rw [show A ++ [a, b, c] ++ [q] = (A ++ [a]) ++ [b, c, q] by simp, show [a, b, c] ++ [q] = [a] ++ [b, c, q] by rfl,
      residuals_split qs (A ++ [a]), residuals_split qs [a]]

theorem gaps_split : ∀ (qs A : List Int) (a b c : Int), gaps (A ++ [a, b, c]) qs = gaps [a, b, c] qs
  | [], _, _, _, _ => rfl
  | q :: qs, A, a, b, c => by
    simp only [gaps, guess_split, show guess [a, b, c] = predict a b c from guess_split [] a b c]
    congr 1
    rw [show A ++ [a, b, c] ++ [q] = (A ++ [a]) ++ [b, c, q] by simp, show [a, b, c] ++ [q] = [a] ++ [b, c, q] by rfl,
      gaps_split qs (A ++ [a]), gaps_split qs [a]]

theorem rebuild_split : ∀ (qs A : List Int) (a b c : Int), rebuild (A ++ [a, b, c]) qs = rebuild [a, b, c] qs
  | [], _, _, _, _ => rfl
  | q :: qs, A, a, b, c => by
    simp only [rebuild, guess_split, show guess [a, b, c] = predict a b c from guess_split [] a b c]
    generalize max (-32768) (min 32767 (q + predict a b c)) = d
    congr 1
    rw [show A ++ [a, b, c] ++ [d] = (A ++ [a]) ++ [b, c, d] by simp, show [a, b, c] ++ [d] = [a] ++ [b, c, d] by rfl,
      rebuild_split qs (A ++ [a]), rebuild_split qs [a]]

theorem last_extend {h : CircularStack Int} {A qs : List Int} {a b c : Int} (H : Last h ([a, b, c] ++ qs)) (hq : qs ≠ []) :
    Last h (A ++ [a, b, c] ++ qs) := by
  obtain ⟨old, H⟩ := H
  refine ⟨[], ?_⟩
  have hl : 1 ≤ qs.length := List.length_pos_iff.2 hq
  have e1 : (([a, b, c] ++ qs).reverse ++ old).take 4 = ([a, b, c] ++ qs).reverse.take 4 :=
    List.take_append_of_le_length (by simp; omega)
  have e2 : ((A ++ [a, b, c] ++ qs).reverse ++ []).take 4 = ([a, b, c] ++ qs).reverse.take 4 := by
    rw [List.append_nil, List.append_assoc, List.reverse_append]
    exact List.take_append_of_le_length (by simp; omega)
  rw [e2, ← e1]
  exact H

/-- a frame, decoded by a channel that has pushed the window of its header -/
theorem decodeFrame_seek {b : Build} {f : Fr} (hf : f.WF) (hsz : f.codes.length < 65536) {fc : FrameCodec} {p : Nat}
    (hst : fc.state = if f.pre = [] then .init else .decoding)
    (hh : ∃ g, Last g [] ∧ fc.history = ((g.push (f.hdr p).history.1).push (f.hdr p).history.2.1).push (f.hdr p).history.2.2)
    (hbuf : fc.buffered = []) {st : AudioStream} {pre post : List Bool}
    (hs : Reads st.stream (pre ++ f.bits ++ post) pre.length) {hd : FrameHeaders} {log : List FrameHeader} {i : Nat}
    (hl : IsLog hd log i) (hi : log[i]? = some (f.hdr p)) :
    ∃ fc' st' hd' n, fc.decodeFrame b st hd = .ok (fc', st', hd', n) ∧
      (f.codes ≠ [] → InSync (f.pre ++ f.codes) → DecChan fc' (f.pre ++ f.codes) (f.codes.map out)) ∧
      Reads st'.stream (pre ++ f.bits ++ post) (pre ++ f.bits).length ∧ st'.info = st.info ∧
      IsLog hd' log (i + 1) := by
  obtain ⟨g, hg, hhist⟩ := hh
  have hlast : Last fc.history [(f.hdr p).history.1, (f.hdr p).history.2.1, (f.hdr p).history.2.2] := by
    rw [hhist]; exact ((hg.push _).push _).push _
  by_cases hp : f.pre = []
  · obtain ⟨fc', st', hd', n, e, h1, h2, h3, h4⟩ := decodeFrame_ok (b := b) hf hsz (fc := fc) (D := []) (buf := [])
      ⟨by rw [hst, if_pos hp, if_pos rfl], hlast.weaken, hbuf⟩ (by rw [hp]) hs hl hi
    refine ⟨fc', st', hd', n, e, fun hne hsync => ?_, h2, h3, h4⟩
    have hdec := hf.decoded
    rw [hp] at hdec
    simp only [decoded_nil, List.nil_append] at hdec
    rw [hp] at h1 ⊢
    simp only [List.nil_append] at h1 ⊢
    rw [hdec] at h1
    rw [hp, List.nil_append] at hsync
    rwa [decoded_of_inSync hsync (fun q hq => by have := hf.range q hq; omega)] at h1
  · have hl3 := hf.later hp
    obtain ⟨A, x, y, z, hA⟩ := split_three hl3
    obtain ⟨f', hf'⟩ : ∃ f' : Fr, f' = { f with pre := [x, y, z] } := ⟨_, rfl⟩
    have hpre' : f'.pre = [x, y, z] := by rw [hf']
    have hcod' : f'.codes = f.codes := by rw [hf']
    have hraw : f.raw = [] := by simp [Fr.raw, hp]
    have hraw' : f'.raw = [] := by simp [Fr.raw, hpre']
    have hbody : f.body = f.codes := by simp [Fr.body, hp]
    have hbody' : f'.body = f.codes := by simp [Fr.body, hpre', hcod']
    have hexp' : f'.exp = f.exp := by rw [hf']
    have hres : residuals f.pre f.codes = residuals [x, y, z] f.codes := by rw [hA]; exact residuals_split _ _ _ _ _
    have hbits : f'.bits = f.bits := by
      simp only [Fr.bits, hraw, hraw', hbody, hbody', hpre', hexp', List.append_nil, hres]
    have hhd : (f.hdr p).history = (x, y, z) := by
      simp only [Fr.hdr, hraw, List.append_nil]; rw [hA]; exact lastThree_split _ _ _ _
    have hhdr : f'.hdr p = f.hdr p := by
      have e1 : f'.pre.isEmpty = f.pre.isEmpty := by rw [hpre', hA]; simp
      have e2 : lastThree (f'.pre ++ f'.raw) = lastThree (f.pre ++ f.raw) := by
        rw [hraw, hraw', List.append_nil, List.append_nil, hpre', hA]
        exact (lastThree_split [] x y z).trans (lastThree_split A x y z).symm
      simp only [Fr.hdr, e1, e2, hexp', hcod']
    have hwf : f'.WF := by
      refine ⟨fun h => ?_, fun _ => by rw [hpre']; simp, by rw [hexp']; exact hf.exp1, by rw [hexp']; exact hf.exp15,
        by rw [hcod']; exact hf.range, ?_, ?_⟩
      · rw [hpre'] at h; cases h
      · have := hf.opt
        simp only [frameCost, hraw, hraw', hbody, hbody', hpre', hexp', List.append_nil] at this ⊢
        rw [hA, gaps_split] at this
        exact this
      · have := hf.picked
        simp only [Picked, wrappedCost, frameCost, hraw, hraw', hbody, hbody', hpre', hexp', List.append_nil] at this ⊢
        rw [hA, gaps_split] at this
        exact this
    rw [hhd] at hlast
    have hD : DecChan fc [x, y, z] [] := ⟨by rw [hst, if_neg hp]; simp, hlast, hbuf⟩
    obtain ⟨fc', st', hd', n, e, h1, h2, h3, h4⟩ := decodeFrame_ok (b := b) hwf (by rw [hcod']; exact hsz) hD (by rw [hpre'])
      (by rw [hbits]; exact hs) hl (by rw [hhdr]; exact hi)
    refine ⟨fc', st', hd', n, e, fun hne hsync => ?_, by rw [hbits] at h2; exact h2, h3, h4⟩
    simp only [hraw', hbody', hpre', List.append_nil, List.nil_append] at h1
    have hreb : rebuild [x, y, z] (residuals [x, y, z] f.codes) = f.codes := by
      have hre := rebuild_residuals f.codes f.pre (by
        intro n hn
        have := hsync (f.pre.length + n) (by omega) (by simp; omega)
        rw [List.take_length_add_append] at this
        rwa [show (f.pre ++ f.codes).getD (f.pre.length + n) 0 = f.codes.getD n 0 by
          rw [List.getD_eq_getElem?_getD, List.getElem?_append_right (by omega), Nat.add_sub_cancel_left, List.getD_eq_getElem?_getD]] at this)
        (fun q hq => by have := hf.range q hq; omega)
      rw [hres] at hre
      rw [hA, rebuild_split] at hre
      exact hre
    rw [hreb] at h1
    refine ⟨?_, ?_, h1.buf⟩
    · rw [h1.state]; simp [hp]
    · rw [hA]; exact last_extend h1.hist hne

/-! ## all channels of a block -/

/-- the recording is in sync and block `j` is not empty -/
def SyncAt (n : Nat) (blocks : List (Nat → Fr)) (j : Nat) : Prop :=
  (∀ ch < n, InSync (codesOf blocks ch)) ∧ ∃ h : j < blocks.length, (blocks[j] 0).codes ≠ []

/-- channels below `k` hold block `j` (if it is in sync), the others have only an old history -/
structure SeekSt (c : AdhocCodec) (info : StreamInfo) (blocks : List (Nat → Fr)) (j k : Nat) : Prop where
  hinfo : c.stream.info = some info
  chans : c.channelStateList.length = info.channels
  done : SyncAt info.channels blocks j → ∀ ch (h : ch < c.channelStateList.length), ch < k →
    DecChan c.channelStateList[ch] (codesOf (blocks.take (j + 1)) ch) (((codesOf (blocks.take (j + 1)) ch).drop (rowsIn (blocks.take j))).map out)
  rest : ∀ ch (h : ch < c.channelStateList.length), k ≤ ch → Last c.channelStateList[ch].history []
  bits : Reads c.stream.stream (bitsOf (flat info.channels blocks)) (bitsOf ((flat info.channels blocks).take (j * info.channels + k))).length
  log : IsLog c.frameHeaderList (hdrs 0 (flat info.channels blocks)) (j * info.channels + k)

theorem seekChannel_ok {b : Build} {c : AdhocCodec} {info : StreamInfo} {blocks : List (Nat → Fr)} {j k : Nat}
    (HR : Rec info.channels blocks) (hsh : Short blocks)
    (hj : j < blocks.length) (H : SeekSt c info blocks j k) (hk : k < info.channels) :
    ∃ c', c.seekChannel b (j * info.channels) k = .ok c' ∧ SameLevel c c' ∧ SeekSt c' info blocks j (k + 1) := by
  obtain ⟨n, hn⟩ : ∃ n, n = info.channels := ⟨_, rfl⟩
  have hlt : j * info.channels + k < (flat info.channels blocks).length := by
    rw [length_flat]
    calc j * info.channels + k < (j + 1) * info.channels := by rw [Nat.add_mul]; omega
      _ ≤ _ := Nat.mul_le_mul_right _ hj
  have hg := flat_getElem blocks hj hk hlt
  obtain ⟨f, hfd⟩ : ∃ f, f = blocks[j] k := ⟨_, rfl⟩
  rw [← hfd] at hg
  have hwf : f.WF := by rw [hfd]; exact HR.wf j hj k hk
  have hpre : f.pre = codesOf (blocks.take j) k := by rw [hfd]; exact HR.pre j hj k hk
  have hsize : f.codes.length = (blocks[j] 0).codes.length := by rw [hfd]; exact HR.size j hj k hk
  have hcodes : f.pre ++ f.codes = codesOf (blocks.take (j + 1)) k := by rw [codesOf_take_succ hj, hpre, hfd]
  have hall : f.pre ++ f.codes <+: codesOf blocks k := by
    rw [hcodes]
    exact ⟨codesOf (blocks.drop (j + 1)) k, by rw [← codesOf_append, List.take_append_drop]⟩
  have hsync' : SyncAt info.channels blocks j → f.codes ≠ [] ∧ InSync (f.pre ++ f.codes) := by
    rintro ⟨hsync, _, hne⟩
    refine ⟨fun h => hne (List.eq_nil_of_length_eq_zero (by rw [← hsize, h]; rfl)), ?_⟩
    rw [List.prefix_iff_eq_take.1 hall]
    exact (hsync k hk).take _
  have hk' : k < c.channelStateList.length := by rw [H.chans]; exact hk
  have hget : ((hdrs 0 (flat info.channels blocks)))[j * info.channels + k]? =
      some (f.hdr (bitsOf ((flat info.channels blocks).take (j * info.channels + k))).length) := by
    rw [hdrs_getElem?, List.getElem?_eq_getElem hlt, hg]
    simp
  have hsplit : bitsOf (flat info.channels blocks) = bitsOf ((flat info.channels blocks).take (j * info.channels + k)) ++ f.bits ++
      bitsOf ((flat info.channels blocks).drop (j * info.channels + k + 1)) := by
    conv_lhs => rw [← List.take_append_drop (j * info.channels + k) (flat info.channels blocks), List.drop_eq_getElem_cons hlt, hg]
    rw [bitsOf_append, bitsOf_cons, List.append_assoc]
  have hs := H.bits
  rw [hsplit] at hs
  obtain ⟨p, hpd⟩ : ∃ p, p = (bitsOf ((flat info.channels blocks).take (j * info.channels + k))).length := ⟨_, rfl⟩
  rw [← hpd] at hget
  obtain ⟨fc0, hfc0⟩ : ∃ fc0 : FrameCodec, fc0 =
    { state := if (f.hdr p).isInit then .init else .decoding
      history := ((c.channelStateList[k].history.push (f.hdr p).history.1).push (f.hdr p).history.2.1).push (f.hdr p).history.2.2
      buffered := [] } := ⟨_, rfl⟩
  obtain ⟨fc', st', hd', m, e, h1, h2, h3, h4⟩ := decodeFrame_seek (b := b) hwf
    (by rw [hsize]; exact hsh _ (List.getElem_mem hj)) (fc := fc0) (p := p) (by rw [hfc0]; simp [Fr.hdr, List.isEmpty_iff])
    ⟨_, H.rest k hk' le_rfl, by rw [hfc0]⟩ (by rw [hfc0]) hs H.log hget
  unfold AdhocCodec.seekChannel
  rw [isLog_get H.log, hget, bind_ok]
  simp only [expect, bind_ok]
  rw [idx_of_lt hk', bind_ok]
  rw [hfc0] at e
  rw [e, bind_ok]
  dsimp only
  rw [setIdx_of_lt hk', bind_ok]
  refine ⟨_, rfl, ⟨rfl, rfl, rfl⟩, h3.trans H.hinfo, by simpa using H.chans, ?_, ?_, ?_, h4⟩
  · intro hS ch hch hck
    simp only [List.getElem_set]
    by_cases hkc : k = ch
    · subst hkc
      simp only [if_true]
      rw [← hcodes, List.drop_left' (by rw [hpre, (HR.take j).length hk])]
      exact h1 (hsync' hS).1 (hsync' hS).2
    · rw [if_neg hkc]
      exact H.done hS ch (by simpa using hch) (by omega)
  · intro ch hch hck
    simp only [List.getElem_set]
    rw [if_neg (show ¬ k = ch by omega)]
    exact H.rest ch (by simpa using hch) (by omega)
  · have e1 : bitsOf ((flat info.channels blocks).take (j * info.channels + (k + 1))) =
        bitsOf ((flat info.channels blocks).take (j * info.channels + k)) ++ f.bits := by
      rw [← Nat.add_assoc, List.take_succ_eq_append_getElem hlt, bitsOf_append, bitsOf_singleton, hg]
    rw [e1, hsplit]
    exact h2

theorem seekChannels_ok {b : Build} {c : AdhocCodec} {info : StreamInfo} {blocks : List (Nat → Fr)} {j : Nat}
    (HR : Rec info.channels blocks) (hsh : Short blocks)
    (hj : j < blocks.length) (H : SeekSt c info blocks j 0) :
    ∃ c', (List.range info.channels).foldlM (fun c off => c.seekChannel b (j * info.channels) off) c = .ok c' ∧ SameLevel c c' ∧
      c'.channelStateList.length = info.channels ∧
      (SyncAt info.channels blocks j → DecSt c' info blocks (j + 1) (rowsIn (blocks.take j))) := by
  have key : ∀ k, k ≤ info.channels → ∃ c', (List.range k).foldlM (fun c off => AdhocCodec.seekChannel b c (j * info.channels) off) c = .ok c' ∧
      SameLevel c c' ∧ SeekSt c' info blocks j k := by
    intro k
    induction k with
    | zero => intro _; exact ⟨c, rfl, .refl c, H⟩
    | succ k ih =>
      intro hk
      obtain ⟨c1, e1, s1, H1⟩ := ih (by omega)
      obtain ⟨c2, e2, s2, H2⟩ := seekChannel_ok (b := b) HR hsh hj H1 (by omega)
      refine ⟨c2, ?_, s1.trans s2, H2⟩
      rw [List.range_succ, foldlM_append', e1, bind_ok]
      simp only [List.foldlM_cons, List.foldlM_nil]
      rw [e2, bind_ok]
      rfl
  obtain ⟨c', e, s, H'⟩ := key info.channels le_rfl
  refine ⟨c', e, s, H'.chans, fun hS => ?_⟩
  have hsync := hS.1
  have hdec : ∀ ch < info.channels, decoded (codesOf (blocks.take (j + 1)) ch) = codesOf (blocks.take (j + 1)) ch := by
    intro ch hch
    have hpf : codesOf (blocks.take (j + 1)) ch <+: codesOf blocks ch :=
      ⟨codesOf (blocks.drop (j + 1)) ch, by rw [← codesOf_append, List.take_append_drop]⟩
    have hin : InSync (codesOf (blocks.take (j + 1)) ch) := by
      rw [List.prefix_iff_eq_take.1 hpf]; exact (hsync ch hch).take _
    refine decoded_of_inSync hin fun q hq => ?_
    obtain ⟨blk, hb, hq⟩ := List.mem_flatMap.1 hq
    obtain ⟨i, hi, rfl⟩ := List.getElem_of_mem hb
    have := ((HR.take (j + 1)).wf i hi ch hch).range q hq
    omega
  refine ⟨⟨H'.hinfo, H'.chans, ?_, ?_, ?_⟩, hj, ?_⟩
  · intro ch hch
    have hch' : ch < info.channels := by rw [← H'.chans]; exact hch
    rw [hdec ch hch']
    exact H'.done hS ch hch hch'
  · have := H'.bits
    rwa [show j * info.channels + info.channels = (j + 1) * info.channels by rw [Nat.add_mul, Nat.one_mul]] at this
  · have := H'.log
    rwa [show j * info.channels + info.channels = (j + 1) * info.channels by rw [Nat.add_mul, Nat.one_mul]] at this
  · rw [rowsIn_take_succ hj]; omega

/-! ## pruning -/

theorem dropOne_ok {c : AdhocCodec} {info : StreamInfo} {blocks : List (Nat → Fr)} {j m : Nat} (H : DecSt c info blocks j m)
    (hm : m < rowsIn (blocks.take j)) : ∃ c', c.dropOne info.channels = .ok c' ∧ SameLevel c c' ∧ DecSt c' info blocks j (m + 1) := by
  have key : ∀ k, k ≤ info.channels → ∃ c', (List.range k).foldlM (fun (c : AdhocCodec) off => do
      let fc ← idx c.channelStateList off
      let chs ← setIdx c.channelStateList off { fc with buffered := fc.buffered.tail }
      pure { c with channelStateList := chs }) c = .ok c' ∧ SameLevel c c' ∧
      DecFl c' info (flat info.channels blocks) (j * info.channels) (fun ch => decoded (codesOf (blocks.take j) ch))
        (fun ch => ((decoded (codesOf (blocks.take j) ch)).drop (if ch < k then m + 1 else m)).map out) := by
    intro k
    induction k with
    | zero => intro _; exact ⟨c, rfl, .refl c, by simpa using H.fl⟩
    | succ k ih =>
      intro hk
      obtain ⟨c1, e1, s1, H1⟩ := ih (by omega)
      have hk' : k < c1.channelStateList.length := by rw [H1.chans]; omega
      rw [List.range_succ, foldlM_append', e1, bind_ok]
      simp only [List.foldlM_cons, List.foldlM_nil]
      rw [idx_of_lt hk', bind_ok, setIdx_of_lt hk', bind_ok]
      refine ⟨_, rfl, s1.trans ⟨rfl, rfl, rfl⟩, H1.hinfo, by simpa using H1.chans, ?_, H1.bits, H1.log⟩
      intro ch hch
      simp only [List.getElem_set]
      by_cases hkc : k = ch
      · subst hkc
        have := H1.chan k hk'
        simp only [lt_irrefl, if_false] at this
        simp only [if_true, Nat.lt_succ_self]
        refine ⟨this.state, this.hist, ?_⟩
        dsimp only
        rw [this.buf, ← List.map_tail, List.tail_drop]
      · rw [if_neg hkc]
        have := H1.chan ch (by simpa using hch)
        by_cases hlt : ch < k
        · simpa [hlt, Nat.lt_succ_of_lt hlt] using this
        · simpa [hlt, show ¬ ch < k + 1 by omega] using this
  obtain ⟨c', e, s, H'⟩ := key info.channels le_rfl
  refine ⟨c', e, s, ⟨H'.congr (fun _ _ => rfl) fun i hi => by simp [hi], H.j_le, by omega⟩⟩

theorem prune_ok {b : Build} {info : StreamInfo} (hn : 0 < info.channels) {blocks : List (Nat → Fr)} {j t : Nat}
    (ht : t ≤ rowsIn (blocks.take j)) (h64 : t * info.channels < 2 ^ 64) : ∀ (fuel m : Nat) (c : AdhocCodec) (_ : DecSt c info blocks j m) (_ : m ≤ t)
      (_ : t - m < fuel), ∃ c', c.prune b info.channels (t * info.channels) fuel (m * info.channels) = .ok c' ∧ SameLevel c c' ∧ DecSt c' info blocks j t
  | 0, m, c, _, _, hf => by omega
  | fuel + 1, m, c, H, hm, hf => by
    conv in AdhocCodec.prune _ _ _ _ _ _ => unfold AdhocCodec.prune
    by_cases hlt : m < t
    · rw [if_pos (Nat.mul_lt_mul_of_pos_right hlt hn)]
      obtain ⟨c1, e1, s1, H1⟩ := dropOne_ok H (by omega)
      rw [e1, bind_ok]
      have h1 : m * info.channels + info.channels = (m + 1) * info.channels := by rw [Nat.add_mul, Nat.one_mul]
      have h2 : (m + 1) * info.channels ≤ t * info.channels := Nat.mul_le_mul_right _ hlt
      rw [h1, chkU_nat (by omega), bind_ok]
      obtain ⟨c2, e2, s2, H2⟩ := prune_ok hn ht h64 fuel (m + 1) c1 H1 (by omega) (by omega)
      exact ⟨c2, e2, s1.trans s2, H2⟩
    · have : m = t := by omega
      subst this
      rw [if_neg (lt_irrefl _)]
      exact ⟨c, rfl, .refl c, H⟩

theorem dropOne_runs {c : AdhocCodec} {n : Nat} (h : n ≤ c.channelStateList.length) :
    ∃ c', c.dropOne n = .ok c' ∧ c'.channelStateList.length = c.channelStateList.length := by
  have key : ∀ k, k ≤ n → ∃ c', (List.range k).foldlM (fun (c : AdhocCodec) off => do
      let fc ← idx c.channelStateList off
      let chs ← setIdx c.channelStateList off { fc with buffered := fc.buffered.tail }
      pure { c with channelStateList := chs }) c = .ok c' ∧ c'.channelStateList.length = c.channelStateList.length := by
    intro k
    induction k with
    | zero => intro _; exact ⟨c, rfl, rfl⟩
    | succ k ih =>
      intro hk
      obtain ⟨c1, e1, h1⟩ := ih (by omega)
      have hk' : k < c1.channelStateList.length := by omega
      rw [List.range_succ, foldlM_append', e1, bind_ok]
      simp only [List.foldlM_cons, List.foldlM_nil]
      rw [idx_of_lt hk', bind_ok, setIdx_of_lt hk', bind_ok]
      exact ⟨_, rfl, by simpa using h1⟩
  exact key n le_rfl

theorem prune_runs {b : Build} {n t : Nat} (hn : 0 < n) (h64 : t * n < 2 ^ 64) : ∀ (fuel m : Nat) (c : AdhocCodec) (_ : n ≤ c.channelStateList.length)
    (_ : m ≤ t) (_ : t - m < fuel), ∃ c', c.prune b n (t * n) fuel (m * n) = .ok c'
  | 0, m, c, _, _, hf => by omega
  | fuel + 1, m, c, H, hm, hf => by
    conv in AdhocCodec.prune _ _ _ _ _ _ => unfold AdhocCodec.prune
    by_cases hlt : m < t
    · rw [if_pos (Nat.mul_lt_mul_of_pos_right hlt hn)]
      obtain ⟨c1, e1, h1⟩ := dropOne_runs H
      rw [e1, bind_ok]
      have h2 : m * n + n = (m + 1) * n := by rw [Nat.add_mul, Nat.one_mul]
      have h3 : (m + 1) * n ≤ t * n := Nat.mul_le_mul_right _ hlt
      rw [h2, chkU_nat (by omega), bind_ok]
      exact prune_runs hn h64 fuel (m + 1) c1 (by omega) (by omega) (by omega)
    · have : m = t := by omega
      subst this
      rw [if_neg (lt_irrefl _)]
      exact ⟨c, rfl⟩

/-! ## finding the block -/

/-- looking at the header of block `j` -/
theorem header_at {hd : FrameHeaders} {n i : Nat} (hn : 0 < n) {blocks : List (Nat → Fr)} (hl : IsLog hd (hdrs 0 (flat n blocks)) i)
    (hsh : Short blocks) {j : Nat} (hj : j < blocks.length) :
    ∃ hdr, hd.get (j * n) = .ok (some hdr) ∧ hdr.size = (blocks[j] 0).codes.length := by
  have hlt : j * n + 0 < (flat n blocks).length := by
    rw [length_flat]
    exact Nat.mul_lt_mul_of_pos_right hj hn
  have hg := flat_getElem blocks hj hn hlt
  simp only [Nat.add_zero] at hg
  refine ⟨(blocks[j] 0).hdr (0 + (bitsOf ((flat n blocks).take (j * n))).length), ?_, ?_⟩
  · rw [isLog_get hl, hdrs_getElem?, List.getElem?_eq_getElem (by simpa using hlt), hg]
    rfl
  · have := hsh _ (List.getElem_mem hj)
    exact Nat.mod_eq_of_lt this

/-- one step of the search -/
theorem findBlock_step {b : Build} {hd : FrameHeaders} {n target blockLen fuel skipped block : Nat} (h1 : block < blockLen) (h2 : skipped < target)
    {hdr : FrameHeader} (hg : hd.get (block * n) = .ok (some hdr)) (h3 : skipped + hdr.size * n < 2 ^ 64) :
    AdhocCodec.findBlock b hd n target blockLen (fuel + 1) skipped block =
      if skipped + hdr.size * n ≥ target then .ok (skipped, block)
      else AdhocCodec.findBlock b hd n target blockLen fuel (skipped + hdr.size * n) (block + 1) := by
  have h4 : hdr.size * n < 2 ^ 64 := lt_of_le_of_lt (Nat.le_add_left _ _) h3
  rw [AdhocCodec.findBlock, if_pos ⟨h1, h2⟩, hg, bind_ok, show expect (some hdr) = .ok hdr from rfl, bind_ok, chkU_nat h4, bind_ok,
    chkU_nat h3, bind_ok, pure_eq_ok]

theorem findBlock_stop {b : Build} {hd : FrameHeaders} {n target blockLen fuel skipped block : Nat} (h : ¬ (block < blockLen ∧ skipped < target)) :
    AdhocCodec.findBlock b hd n target blockLen (fuel + 1) skipped block = .ok (skipped, block) := by
  conv_lhs => unfold AdhocCodec.findBlock
  rw [if_neg h]
  rfl

/-- the search from block `j` on: it ends in the first block that reaches the target, or behind the last one -/
theorem findBlock_ok {b : Build} {hd : FrameHeaders} {n i : Nat} (hn : 0 < n) {blocks : List (Nat → Fr)} (hl : IsLog hd (hdrs 0 (flat n blocks)) i)
    (hsh : Short blocks) (h64 : rowsIn blocks * n < 2 ^ 64) (t : Nat) :
    ∀ (fuel j : Nat), j ≤ blocks.length → blocks.length - j < fuel → (rowsIn (blocks.take j) < t ∨ (j = 0 ∧ t = 0)) →
      ∃ j', AdhocCodec.findBlock b hd n (t * n) blocks.length fuel (rowsIn (blocks.take j) * n) j = .ok (rowsIn (blocks.take j') * n, j') ∧
        j' ≤ blocks.length ∧
        ((t = 0 ∧ j' = 0) ∨ (rowsIn (blocks.take j') < t ∧ (j' < blocks.length → t ≤ rowsIn (blocks.take (j' + 1))))) := by
  intro fuel
  induction fuel with
  | zero => intro j _ hf _; omega
  | succ fuel ih =>
    intro j hj hf ht
    by_cases hc : j < blocks.length ∧ rowsIn (blocks.take j) < t
    · obtain ⟨hdr, hg, hsz⟩ := header_at hn hl hsh hc.1
      have hsum : rowsIn (blocks.take j) * n + hdr.size * n = rowsIn (blocks.take (j + 1)) * n := by
        rw [← Nat.add_mul, rowsIn_take_succ hc.1, hsz]
      have hle : rowsIn (blocks.take (j + 1)) * n ≤ rowsIn blocks * n := Nat.mul_le_mul_right _ (rowsIn_take_le _ _)
      rw [findBlock_step hc.1 (Nat.mul_lt_mul_of_pos_right hc.2 hn) hg (by rw [hsum]; exact lt_of_le_of_lt hle h64), hsum]
      by_cases hge : t ≤ rowsIn (blocks.take (j + 1))
      · rw [if_pos (show _ ≥ _ from Nat.mul_le_mul_right _ hge)]
        exact ⟨j, rfl, hj, .inr ⟨hc.2, fun _ => hge⟩⟩
      · rw [if_neg (fun h => hge (Nat.le_of_mul_le_mul_right h hn))]
        exact ih (j + 1) hc.1 (by omega) (.inl (by omega))
    · rw [findBlock_stop (by
        rintro ⟨h1, h2⟩
        exact hc ⟨h1, Nat.lt_of_mul_lt_mul_right h2⟩)]
      refine ⟨j, rfl, hj, ?_⟩
      rcases ht with ht | ⟨h1, h2⟩
      · exact .inr ⟨ht, fun h => absurd ⟨h, ht⟩ hc⟩
      · exact .inl ⟨h2, h1⟩

/-! ## seeking -/

theorem seekSt_of {c : AdhocCodec} {info : StreamInfo} {blocks : List (Nat → Fr)} {j0 m : Nat} (H : DecSt c info blocks j0 m) {j : Nat}
    {p : Nat} (hp : p = (bitsOf ((flat info.channels blocks).take (j * info.channels))).length) :
    SeekSt { c with stream := { c.stream with stream := c.stream.stream.setBitCursor p }
                    frameHeaderList := c.frameHeaderList.setCursor (j * info.channels) } info blocks j 0 where
  hinfo := H.fl.hinfo
  chans := H.fl.chans
  done := by intro _ ch _ h; omega
  rest := fun ch hch _ => (H.fl.chan ch hch).hist.weaken
  bits := by
    have := H.fl.bits
    refine ⟨by simpa [BitStream.setBitCursor] using hp, this.chunks, ?_, this.bit⟩
    rw [Nat.add_zero]
    conv_rhs => rw [← List.take_append_drop (j * info.channels) (flat info.channels blocks), bitsOf_append]
    simp
  log := isLog_setCursor H.fl.log _

theorem seekTo_ok {b : Build} {c : AdhocCodec} {info : StreamInfo} (hn : 0 < info.channels) {blocks : List (Nat → Fr)}
    (HR : Rec info.channels blocks) (hsh : Short blocks)
    (hbits : (bitsOf (flat info.channels blocks)).length < 2 ^ 64) (h64 : rowsIn blocks * info.channels < 2 ^ 64)
    {j m : Nat} (H : DecSt c info blocks j m) (hne : blocks ≠ []) (dt : Nat) (ht : AdhocCodec.seekOffset info dt ≤ rowsIn blocks) :
    ∃ c', c.seekTo b info dt = .ok c' ∧ ((∀ ch < info.channels, InSync (codesOf blocks ch)) →
      SameLevel c c' ∧ ∃ j', DecSt c' info blocks j' (AdhocCodec.seekOffset info dt)) := by
  obtain ⟨t, htd⟩ : ∃ t, t = AdhocCodec.seekOffset info dt := ⟨_, rfl⟩
  rw [← htd] at ht ⊢
  unfold AdhocCodec.seekTo
  dsimp only
  rw [← htd]
  have htn : t * info.channels ≤ rowsIn blocks * info.channels := Nat.mul_le_mul_right _ ht
  rw [chkU_nat (by omega), bind_ok, udiv_of_pos hn, bind_ok, H.fl.log.len, length_hdrs, length_flat, Nat.mul_div_cancel _ hn]
  obtain ⟨j', e, hj', hspec⟩ := findBlock_ok (b := b) hn H.fl.log hsh h64 t (blocks.length + 1) 0 (by omega) (by omega)
    (by simp; omega)
  rw [List.take_zero, rowsIn_nil, Nat.zero_mul] at e
  rw [e, bind_ok]
  dsimp only
  have hpos : 0 < blocks.length := List.length_pos_iff.2 hne
  have hjlt : j' < blocks.length := by
    rcases hspec with ⟨-, h⟩ | ⟨h1, h2⟩
    · omega
    · by_contra hc
      rw [List.take_of_length_le (by omega)] at h1
      omega
  have hreach : t ≤ rowsIn (blocks.take (j' + 1)) := by
    rcases hspec with ⟨h, -⟩ | ⟨-, h⟩
    · omega
    · exact h hjlt
  have hle : rowsIn (blocks.take j') ≤ t := by
    rcases hspec with ⟨-, h⟩ | ⟨h, -⟩
    · subst h; simp
    · omega
  have hcne : (blocks[j'] 0).codes ≠ [] := by
    intro h0
    rcases hspec with ⟨-, h⟩ | ⟨h1, -⟩
    · subst h
      have hw := HR.wf 0 hjlt 0 hn
      have hp := HR.pre 0 hjlt 0 hn
      simp at hp
      have := hw.first hp
      rw [h0] at this
      simp at this
    · rw [rowsIn_take_succ hjlt, h0] at hreach
      simp at hreach
      omega
  have hlt : j' * info.channels + 0 < (flat info.channels blocks).length := by
    rw [length_flat]
    exact Nat.mul_lt_mul_of_pos_right hjlt hn
  rw [isLog_get H.fl.log, hdrs_getElem?, List.getElem?_eq_getElem (by simpa using hlt)]
  simp only [Option.map_some, expect, bind_ok]
  have hpos64 : (bitsOf ((flat info.channels blocks).take (j' * info.channels))).length < 2 ^ 64 := by
    have h1 := hbits
    conv at h1 => rw [← List.take_append_drop (j' * info.channels) (flat info.channels blocks), bitsOf_append]
    rw [List.length_append] at h1
    omega
  have hst := seekSt_of H (j := j')
    (p := ((flat info.channels blocks)[j' * info.channels].hdr (0 + (bitsOf ((flat info.channels blocks).take (j' * info.channels))).length)).bitCursor) (by
      simp only [Fr.hdr, Nat.zero_add]
      exact Nat.mod_eq_of_lt hpos64)
  obtain ⟨c1, e1, s1, hl1, H1⟩ := seekChannels_ok (b := b) HR hsh hjlt hst
  rw [e1, bind_ok]
  have hfuel : t - rowsIn (blocks.take j') < t * info.channels + 1 := by
    have := Nat.le_mul_of_pos_right t hn
    omega
  have s0 : SameLevel c c1 := ⟨s1.level, s1.scale, s1.inv⟩
  by_cases hsync : ∀ ch < info.channels, InSync (codesOf blocks ch)
  · obtain ⟨c2, e2, s2, H2⟩ := prune_ok (b := b) hn hreach (by omega) (t * info.channels + 1) _ c1 (H1 ⟨hsync, hjlt, hcne⟩) hle hfuel
    exact ⟨c2, e2, fun _ => ⟨s0.trans s2, j' + 1, H2⟩⟩
  · obtain ⟨c2, e2⟩ := prune_runs (b := b) hn (t := t) (by omega) (t * info.channels + 1) _ c1 (by omega) hle hfuel
    exact ⟨c2, e2, fun h => absurd h hsync⟩

/-- a target behind the end -/
theorem seekTo_beyond {b : Build} {c : AdhocCodec} {info : StreamInfo} (hn : 0 < info.channels) {blocks : List (Nat → Fr)}
    (hsh : Short blocks) (h64 : rowsIn blocks * info.channels < 2 ^ 64)
    {j m : Nat} (H : DecSt c info blocks j m) (dt : Nat) (ht : blocks = [] ∨ rowsIn blocks < AdhocCodec.seekOffset info dt)
    (ht64 : AdhocCodec.seekOffset info dt * info.channels < 2 ^ 64) : c.seekTo b info dt = .error .expect := by
  obtain ⟨t, htd⟩ : ∃ t, t = AdhocCodec.seekOffset info dt := ⟨_, rfl⟩
  rw [← htd] at ht ht64
  unfold AdhocCodec.seekTo
  dsimp only
  rw [← htd]
  rw [chkU_nat (by omega), bind_ok, udiv_of_pos hn, bind_ok, H.fl.log.len, length_hdrs, length_flat, Nat.mul_div_cancel _ hn]
  obtain ⟨j', e, hj', hspec⟩ := findBlock_ok (b := b) hn H.fl.log hsh h64 t (blocks.length + 1) 0 (by omega) (by omega)
    (by simp; omega)
  rw [List.take_zero, rowsIn_nil, Nat.zero_mul] at e
  rw [e, bind_ok]
  dsimp only
  have hend : blocks.length ≤ j' := by
    rcases ht with rfl | ht
    · simp
    · by_contra hc
      have hc : j' < blocks.length := by omega
      rcases hspec with ⟨h, -⟩ | ⟨-, h⟩
      · omega
      · have := h hc
        have := rowsIn_take_le blocks (j' + 1)
        omega
  rw [isLog_get H.fl.log, List.getElem?_eq_none (by
    rw [length_hdrs, length_flat]
    exact Nat.mul_le_mul_right _ hend)]
  rfl

/-- every code takes at least a bit -/
theorem bits_ge (f : Fr) : f.codes.length ≤ f.bits.length := by
  unfold Fr.bits
  rw [← f.raw_body, List.length_append, List.length_append, List.length_flatMap, List.length_flatMap]
  have h1 : f.raw.length ≤ (f.raw.map fun a => (Fr.rawBits a).length).sum := by
    generalize f.raw = l
    induction l with
    | nil => simp
    | cons x l ih => simp [Fr.rawBits]; simp [Fr.rawBits] at ih; omega
  have h2 : f.body.length ≤ ((residuals (f.pre ++ f.raw) f.body).map fun a => (riceBits f.exp a).length).sum := by
    rw [← length_residuals (f.pre ++ f.raw) f.body]
    generalize residuals (f.pre ++ f.raw) f.body = l
    induction l with
    | nil => simp
    | cons x l ih =>
      simp only [List.length_cons, List.map_cons, List.sum_cons, length_riceBits] at ih ⊢
      generalize x.natAbs / 2 ^ f.exp = y
      omega
  omega

theorem rows_le_bits {n : Nat} {blocks : List (Nat → Fr)} (HR : Rec n blocks) : rowsIn blocks * n ≤ (bitsOf (flat n blocks)).length := by
  suffices ∀ k, k ≤ blocks.length → rowsIn (blocks.take k) * n ≤ (bitsOf (flat n (blocks.take k))).length by
    simpa using this blocks.length le_rfl
  intro k
  induction k with
  | zero => intro _; simp
  | succ k ih =>
    intro hk
    have := ih (by omega)
    rw [rowsIn_take_succ (by omega), List.take_succ_eq_append_getElem (by omega), flat_append, bitsOf_append, List.length_append, Nat.add_mul]
    have h : (blocks[k] 0).codes.length * n ≤ (bitsOf (flat n [blocks[k]])).length := by
      rw [flat, List.flatMap_singleton, bitsOf, List.length_flatMap]
      have : ∀ m, m ≤ n → (blocks[k] 0).codes.length * m ≤ (((List.range m).map blocks[k]).map fun f => f.bits.length).sum := by
        intro m
        induction m with
        | zero => intro _; simp
        | succ m ihm =>
          intro hm
          have h1 := ihm (by omega)
          have h2 := bits_ge (blocks[k] m)
          rw [HR.size k (by omega) m (by omega)] at h2
          rw [List.range_succ]
          simp only [List.map_append, List.sum_append, List.map_cons, List.map_nil, List.sum_cons, List.sum_nil]
          rw [Nat.mul_succ]
          omega
      exact this n le_rfl
    omega

end Adhoc
