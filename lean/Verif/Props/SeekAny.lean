import Verif.Spec.Index
import Verif.Props.AnyFile
import Verif.Props.Unchanged

/-! # C130: seeking in the files of any encoder -/

namespace Adhoc
open Spec

/-! ## what seeking needs of the headers -/

/-- flags, positions and histories fit the rows -/
structure Marked (hd : FrameHeaders) (n : Nat) (rows : List (Nat → Clip)) : Prop where
  flag : ∀ j < rows.length, ∀ ch < n, (hd.isInitFrameList.get (j * n + ch) == 1#64) = decide (j = 0)
  position : ∀ j < rows.length, hd.bitCursorList[j * n]? = some (soundOf (inOrder n (rows.take j))).length
  history : ∀ j < rows.length, 0 < j → ∀ ch < n, ∃ A a b c, hd.stackHistoryList[j * n + ch]? = some (a, b, c) ∧ grown (rows.take j) ch = A ++ [a, b, c]

theorem Marked.kept {hd hd' : FrameHeaders} {n : Nat} {rows : List (Nat → Clip)} (H : Marked hd n rows) (h : hd'.reset = hd.reset) : Marked hd' n rows := by
  have h1 : hd'.isInitFrameList = hd.isInitFrameList := by
    have : hd'.reset.isInitFrameList = hd.reset.isInitFrameList := by rw [h]
    exact this
  have h2 : hd'.bitCursorList = hd.bitCursorList := by
    have : hd'.reset.bitCursorList = hd.reset.bitCursorList := by rw [h]
    exact this
  have h3 : hd'.stackHistoryList = hd.stackHistoryList := by
    have : hd'.reset.stackHistoryList = hd.reset.stackHistoryList := by rw [h]
    exact this
  exact ⟨by rw [h1]; exact H.flag, by rw [h2]; exact H.position, by rw [h3]; exact H.history⟩

theorem Listed.get {hd : FrameHeaders} {log : List (Nat × Nat)} {i : Nat} (H : Listed hd log i) {k : Nat} (h : k < log.length) :
    ∃ hdr, hd.get k = .ok (some hdr) ∧ hdr.size = log[k].2 ∧ hd.bitCursorList[k]? = some hdr.bitCursor ∧
      hd.stackHistoryList[k]? = some hdr.history ∧ hdr.isInit = (hd.isInitFrameList.get k == 1#64) := by
  unfold FrameHeaders.get
  have hs := H.size k h
  have h1 : k < hd.frameSizeList.length := by
    by_contra hc
    rw [List.getElem?_eq_none (by omega)] at hs
    cases hs
  have h2 : k < hd.bitCursorList.length := by have := H.starts; omega
  have h3 : k < hd.stackHistoryList.length := by have := H.hist; omega
  have hlen : hd.len = log.length := H.len
  rw [if_pos (by rw [hlen]; exact h), idx_of_lt h1, bind_ok, idx_of_lt h2, bind_ok, idx_of_lt h3, bind_ok]
  refine ⟨_, rfl, ?_, List.getElem?_eq_getElem h2, List.getElem?_eq_getElem h3, rfl⟩
  rw [List.getElem?_eq_getElem h1] at hs
  exact Option.some.inj hs

theorem Listed.get_none {hd : FrameHeaders} {log : List (Nat × Nat)} {i : Nat} (H : Listed hd log i) {k : Nat} (h : log.length ≤ k) :
    hd.get k = .ok none := by
  unfold FrameHeaders.get
  have hlen : hd.len = log.length := H.len
  rw [if_neg (by rw [hlen]; omega)]
  rfl

theorem Listed.setCursor {hd : FrameHeaders} {log : List (Nat × Nat)} {i : Nat} (H : Listed hd log i) (k : Nat) : Listed (hd.setCursor k) log k :=
  ⟨rfl, H.len, H.par, H.size, H.starts, H.hist⟩

/-! ## a channel -/

/-- seeking, row `j`: the channels below `k` are done, the others hold anything -/
structure Winding (c : AdhocCodec) (info : StreamInfo) (rows : List (Nat → Clip)) (j k : Nat) : Prop where
  hinfo : c.stream.info = some info
  chans : c.channelStateList.length = info.channels
  done : ∀ ch (h : ch < c.channelStateList.length), ch < k → DecChan c.channelStateList[ch] (grown (rows.take (j + 1)) ch)
    (((grown (rows.take (j + 1)) ch).drop (rowSum (rows.take j))).map out)
  rest : ∀ ch (h : ch < c.channelStateList.length), k ≤ ch → Last c.channelStateList[ch].history []
  bits : Reads c.stream.stream (soundOf (inOrder info.channels rows)) (soundOf ((inOrder info.channels rows).take (j * info.channels + k))).length
  log : Listed c.frameHeaderList ((inOrder info.channels rows).map Clip.entry) (j * info.channels + k)
  marks : Marked c.frameHeaderList info.channels rows

theorem seekChannel_clip {b : Build} {c : AdhocCodec} {info : StreamInfo} {rows : List (Nat → Clip)} {j k : Nat} (HR : Laid info.channels rows)
    (hj : j < rows.length) (hne : (rows[j] 0).size ≠ 0) (H : Winding c info rows j k) (hk : k < info.channels) :
    ∃ c', c.seekChannel b (j * info.channels) k = .ok c' ∧ SameLevel c c' ∧ Winding c' info rows j (k + 1) := by
  have hlt : j * info.channels + k < (inOrder info.channels rows).length := by
    rw [length_inOrder]
    calc j * info.channels + k < (j + 1) * info.channels := by rw [Nat.add_mul]; omega
      _ ≤ _ := Nat.mul_le_mul_right _ hj
  have hg := inOrder_getElem rows hj hk hlt
  have hmem : rows[j] ∈ rows := List.getElem_mem hj
  obtain ⟨f, hfd⟩ : ∃ f, f = rows[j] k := ⟨_, rfl⟩
  rw [← hfd] at hg
  have hp : f.parameter ≤ 15 := by rw [hfd]; exact HR.parameter _ hmem k hk
  have hq : ∀ q ∈ f.first, -32767 ≤ q ∧ q ≤ 32767 := by rw [hfd]; exact HR.first _ hmem k hk
  have hr : ∀ q ∈ f.steps, -32767 ≤ q ∧ q ≤ 32767 := by rw [hfd]; exact HR.steps _ hmem k hk
  have hsz : f.size ≠ 0 := by rw [hfd, HR.size _ hmem k hk]; exact hne
  have hgrow : grown (rows.take (j + 1)) k = grow (grown (rows.take j) k) f := by rw [grown_take_succ hj, hfd]
  have hlen : (grown (rows.take j) k).length = rowSum (rows.take j) := HR.length j hk
  have hk' : k < c.channelStateList.length := by rw [H.chans]; exact hk
  have hsplit : soundOf (inOrder info.channels rows) = soundOf ((inOrder info.channels rows).take (j * info.channels + k)) ++ f.bits ++
      soundOf ((inOrder info.channels rows).drop (j * info.channels + k + 1)) := by
    conv_lhs => rw [← List.take_append_drop (j * info.channels + k) (inOrder info.channels rows), List.drop_eq_getElem_cons hlt, hg]
    rw [soundOf_append, soundOf_cons, List.append_assoc]
  have hs := H.bits
  rw [hsplit] at hs
  obtain ⟨hdr, eg, -, -, hh, hi⟩ := H.log.get (k := j * info.channels + k) (by rw [List.length_map]; exact hlt)
  have hent : ((inOrder info.channels rows).map Clip.entry)[j * info.channels + k]? = some f.entry := by
    rw [List.getElem?_map, List.getElem?_eq_getElem hlt, hg]; rfl
  rw [H.marks.flag j hj k hk] at hi
  have hr0 := H.rest k hk' le_rfl
  obtain ⟨fc0, hfc0⟩ : ∃ fc0 : FrameCodec, fc0 =
    { state := if hdr.isInit then .init else .decoding
      history := ((c.channelStateList[k].history.push hdr.history.1).push hdr.history.2.1).push hdr.history.2.2
      buffered := [] } := ⟨_, rfl⟩
  have key : ∃ fc' st' hd' m, fc0.decodeFrame b c.stream c.frameHeaderList = .ok (fc', st', hd', m) ∧
      DecChan fc' (grow (grown (rows.take j) k) f) (((grow (grown (rows.take j) k) f).drop (rowSum (rows.take j))).map out) ∧
      Reads st'.stream (soundOf ((inOrder info.channels rows).take (j * info.channels + k)) ++ f.bits ++
        soundOf ((inOrder info.channels rows).drop (j * info.channels + k + 1)))
        (soundOf ((inOrder info.channels rows).take (j * info.channels + k)) ++ f.bits).length ∧
      st'.info = c.stream.info ∧ Listed hd' ((inOrder info.channels rows).map Clip.entry) (j * info.channels + k + 1) := by
    rcases HR.three hj hk with ⟨h0, h3⟩ | ⟨h3, h0⟩
    · rw [← hfd] at h3
      have hj0 : j = 0 := by
        by_contra hc
        have := HR.start j hj k hk
        rw [← hfd, if_neg hc] at this
        omega
      have hD : DecChan fc0 [] [] := by
        refine ⟨?_, ?_, by rw [hfc0]⟩
        · rw [hfc0, hi, hj0]; rfl
        · rw [hfc0]; exact (((hr0.push _).push _).push _).weaken
      obtain ⟨fc', st', hd', m, e, h1, h2, h3', h4⟩ := decodeFrame_clip (b := b) hp hq hr hD (.inl ⟨rfl, h3⟩) hs H.log hent
      refine ⟨fc', st', hd', m, e, ?_, h2, h3', h4⟩
      rw [h0]
      have : rowSum (rows.take j) = 0 := by rw [← hlen, h0]; rfl
      rw [this, List.drop_zero]
      exact h1
    · rw [← hfd] at h0
      have hj0 : 0 < j := by
        rcases Nat.eq_zero_or_pos j with rfl | h
        · simp [grown] at h3
        · exact h
      obtain ⟨A, x, y, z, eh, hA⟩ := H.marks.history j hj hj0 k hk
      rw [hh] at eh
      have eh := Option.some.inj eh
      have hD : DecChan fc0 [x, y, z] [] := by
        refine ⟨?_, ?_, by rw [hfc0]⟩
        · rw [hfc0, hi, decide_eq_false (by omega)]; rfl
        · rw [hfc0, eh]; exact ((hr0.push _).push _).push _
      obtain ⟨fc', st', hd', m, e, h1, h2, h3', h4⟩ := decodeFrame_clip (b := b) hp hq hr hD (.inr ⟨by simp, h0⟩) hs H.log hent
      refine ⟨fc', st', hd', m, e, ?_, h2, h3', h4⟩
      have hst : f.steps ≠ [] := by
        intro h
        apply hsz
        simp [Clip.size, h0, h]
      have e1 : grow [x, y, z] f = [x, y, z] ++ rebuild [x, y, z] f.steps := by simp [grow, h0]
      have e2 : grow (grown (rows.take j) k) f = A ++ [x, y, z] ++ rebuild [x, y, z] f.steps := by
        rw [grow, h0, List.append_nil, hA, rebuild_split]
      have hrl : rebuild [x, y, z] f.steps ≠ [] := by
        intro h
        have := congrArg List.length h
        rw [length_rebuild] at this
        exact hst (List.eq_nil_of_length_eq_zero this)
      refine ⟨?_, ?_, ?_⟩
      · rw [h1.state, e1, e2, if_neg (by simp), if_neg (by simp)]
      · rw [e2]
        have := h1.hist
        rw [e1] at this
        exact last_extend this hrl
      · rw [h1.buf, e2, List.drop_left' (by rw [← hA]; exact hlen), h0]
        simp
  obtain ⟨fc', st', hd', m, e, h1, h2, h3, h4⟩ := key
  have hreset : hd'.reset = c.frameHeaderList.reset := (leafed_frame e).1
  unfold AdhocCodec.seekChannel
  rw [eg, bind_ok]
  simp only [expect, bind_ok]
  rw [idx_of_lt hk', bind_ok]
  rw [hfc0] at e
  rw [e, bind_ok]
  dsimp only
  rw [setIdx_of_lt hk', bind_ok]
  refine ⟨_, rfl, ⟨rfl, rfl, rfl⟩, h3.trans H.hinfo, by simpa using H.chans, ?_, ?_, ?_, h4, H.marks.kept hreset⟩
  · intro ch hch hck
    simp only [List.getElem_set]
    by_cases hkc : k = ch
    · subst hkc
      simp only [if_true]
      rw [hgrow]
      exact h1
    · rw [if_neg hkc]
      exact H.done ch (by simpa using hch) (by omega)
  · intro ch hch hck
    simp only [List.getElem_set]
    rw [if_neg (show ¬ k = ch by omega)]
    exact H.rest ch (by simpa using hch) (by omega)
  · have e1 : soundOf ((inOrder info.channels rows).take (j * info.channels + (k + 1))) =
        soundOf ((inOrder info.channels rows).take (j * info.channels + k)) ++ f.bits := by
      rw [← Nat.add_assoc, List.take_succ_eq_append_getElem hlt, soundOf_append, hg, soundOf_cons]; simp [soundOf]
    rw [e1, hsplit]
    exact h2

theorem seekChannels_clip {b : Build} {c : AdhocCodec} {info : StreamInfo} {rows : List (Nat → Clip)} {j : Nat} (HR : Laid info.channels rows)
    (hj : j < rows.length) (hne : (rows[j] 0).size ≠ 0) (H : Winding c info rows j 0) :
    ∃ c', (List.range info.channels).foldlM (fun c off => c.seekChannel b (j * info.channels) off) c = .ok c' ∧ SameLevel c c' ∧
      ClipSt c' info rows (j + 1) (rowSum (rows.take j)) := by
  have key : ∀ k, k ≤ info.channels → ∃ c', (List.range k).foldlM (fun c off => AdhocCodec.seekChannel b c (j * info.channels) off) c = .ok c' ∧
      SameLevel c c' ∧ Winding c' info rows j k := by
    intro k
    induction k with
    | zero => intro _; exact ⟨c, rfl, .refl c, H⟩
    | succ k ih =>
      intro hk
      obtain ⟨c1, e1, s1, H1⟩ := ih (by omega)
      obtain ⟨c2, e2, s2, H2⟩ := seekChannel_clip (b := b) HR hj hne H1 (by omega)
      refine ⟨c2, ?_, s1.trans s2, H2⟩
      rw [List.range_succ, foldlM_append', e1, bind_ok]
      simp only [List.foldlM_cons, List.foldlM_nil]
      rw [e2, bind_ok]
      rfl
  obtain ⟨c', e, s, H'⟩ := key info.channels le_rfl
  have hmul : j * info.channels + info.channels = (j + 1) * info.channels := by rw [Nat.add_mul, Nat.one_mul]
  have hb := H'.bits
  have hl := H'.log
  rw [hmul] at hb hl
  refine ⟨c', e, s, ⟨⟨H'.hinfo, H'.chans, fun ch hch => H'.done ch hch (by rw [← H'.chans]; exact hch), hb, hl⟩, hj, ?_⟩⟩
  rw [rowSum_take_succ hj]; omega

/-! ## pruning -/

theorem dropOne_clip {c : AdhocCodec} {info : StreamInfo} {rows : List (Nat → Clip)} {j m : Nat} (H : ClipSt c info rows j m)
    (hm : m < rowSum (rows.take j)) : ∃ c', c.dropOne info.channels = .ok c' ∧ SameLevel c c' ∧ ClipSt c' info rows j (m + 1) := by
  have key : ∀ k, k ≤ info.channels → ∃ c', (List.range k).foldlM (fun (c : AdhocCodec) off => do
      let fc ← idx c.channelStateList off
      let chs ← setIdx c.channelStateList off { fc with buffered := fc.buffered.tail }
      pure { c with channelStateList := chs }) c = .ok c' ∧ SameLevel c c' ∧
      ClipFl c' info (inOrder info.channels rows) (j * info.channels) (fun ch => grown (rows.take j) ch)
        (fun ch => ((grown (rows.take j) ch).drop (if ch < k then m + 1 else m)).map out) := by
    intro k
    induction k with
    | zero => intro _; exact ⟨c, rfl, .refl c, by simpa using H.fl⟩
    | succ k ih =>
      intro hk
      obtain ⟨c1, e1, s1, H1⟩ := ih (by omega)
      have hk' : k < c1.channelStateList.length := by rw [H1.chans]; omega
      rw [List.range_succ, foldlM_append', e1, bind_ok]
      simp only [List.foldlM_cons, List.foldlM_nil]
      rw [idx_of_lt hk', bind_ok, setIdx_of_lt hk', bind_ok]
      refine ⟨_, rfl, s1.trans ⟨rfl, rfl, rfl⟩, H1.hinfo, by simpa using H1.chans, ?_, H1.bits, H1.log⟩
      intro ch hch
      simp only [List.getElem_set]
      by_cases hkc : k = ch
      · subst hkc
        have := H1.chan k hk'
        simp only [lt_irrefl, if_false] at this
        simp only [if_true, Nat.lt_succ_self]
        refine ⟨this.state, this.hist, ?_⟩
        dsimp only
        rw [this.buf, ← List.map_tail, List.tail_drop]
      · rw [if_neg hkc]
        have := H1.chan ch (by simpa using hch)
        by_cases hlt : ch < k
        · simpa [hlt, Nat.lt_succ_of_lt hlt] using this
        · simpa [hlt, show ¬ ch < k + 1 by omega] using this
  obtain ⟨c', e, s, H'⟩ := key info.channels le_rfl
  refine ⟨c', e, s, ⟨H'.congr (fun _ _ => rfl) fun i hi => by simp [hi], H.j_le, by omega⟩⟩

theorem prune_clip {b : Build} {info : StreamInfo} (hn : 0 < info.channels) {rows : List (Nat → Clip)} {j t : Nat}
    (ht : t ≤ rowSum (rows.take j)) (h64 : t * info.channels < 2 ^ 64) : ∀ (fuel m : Nat) (c : AdhocCodec) (_ : ClipSt c info rows j m) (_ : m ≤ t)
      (_ : t - m < fuel), ∃ c', c.prune b info.channels (t * info.channels) fuel (m * info.channels) = .ok c' ∧ SameLevel c c' ∧ ClipSt c' info rows j t
  | 0, m, c, _, _, hf => by omega
  | fuel + 1, m, c, H, hm, hf => by
    conv in AdhocCodec.prune _ _ _ _ _ _ => unfold AdhocCodec.prune
    by_cases hlt : m < t
    · rw [if_pos (Nat.mul_lt_mul_of_pos_right hlt hn)]
      obtain ⟨c1, e1, s1, H1⟩ := dropOne_clip H (by omega)
      rw [e1, bind_ok]
      have h1 : m * info.channels + info.channels = (m + 1) * info.channels := by rw [Nat.add_mul, Nat.one_mul]
      have h2 : (m + 1) * info.channels ≤ t * info.channels := Nat.mul_le_mul_right _ hlt
      rw [h1, chkU_nat (by omega), bind_ok]
      obtain ⟨c2, e2, s2, H2⟩ := prune_clip hn ht h64 fuel (m + 1) c1 H1 (by omega) (by omega)
      exact ⟨c2, e2, s1.trans s2, H2⟩
    · have : m = t := by omega
      subst this
      rw [if_neg (lt_irrefl _)]
      exact ⟨c, rfl, .refl c, H⟩

/-! ## the search -/

theorem findBlock_clip {b : Build} {hd : FrameHeaders} {n i : Nat} (hn : 0 < n) {rows : List (Nat → Clip)}
    (hl : Listed hd ((inOrder n rows).map Clip.entry) i) (h64 : rowSum rows * n < 2 ^ 64) (t : Nat) :
    ∀ (fuel j : Nat), j ≤ rows.length → rows.length - j < fuel → (rowSum (rows.take j) < t ∨ (j = 0 ∧ t = 0)) →
      ∃ j', AdhocCodec.findBlock b hd n (t * n) rows.length fuel (rowSum (rows.take j) * n) j = .ok (rowSum (rows.take j') * n, j') ∧
        j' ≤ rows.length ∧
        ((t = 0 ∧ j' = 0) ∨ (rowSum (rows.take j') < t ∧ (j' < rows.length → t ≤ rowSum (rows.take (j' + 1))))) := by
  intro fuel
  induction fuel with
  | zero => intro j _ hf _; omega
  | succ fuel ih =>
    intro j hj hf ht
    by_cases hc : j < rows.length ∧ rowSum (rows.take j) < t
    · have hlt : j * n + 0 < (inOrder n rows).length := by
        rw [length_inOrder]
        exact Nat.mul_lt_mul_of_pos_right hc.1 hn
      have hg := inOrder_getElem rows hc.1 hn hlt
      obtain ⟨hdr, eg, hsz, -⟩ := hl.get (k := j * n) (by rw [List.length_map]; exact hlt)
      have hsz : hdr.size = (rows[j] 0).size := by
        rw [hsz, List.getElem_map]
        simp only [Nat.add_zero] at hg
        rw [hg]
        rfl
      have hsum : rowSum (rows.take j) * n + hdr.size * n = rowSum (rows.take (j + 1)) * n := by
        rw [← Nat.add_mul, rowSum_take_succ hc.1, hsz]
      have hle : rowSum (rows.take (j + 1)) * n ≤ rowSum rows * n := Nat.mul_le_mul_right _ (rowSum_take_le _ _)
      rw [findBlock_step hc.1 (Nat.mul_lt_mul_of_pos_right hc.2 hn) eg (by rw [hsum]; exact lt_of_le_of_lt hle h64), hsum]
      by_cases hge : t ≤ rowSum (rows.take (j + 1))
      · rw [if_pos (show _ ≥ _ from Nat.mul_le_mul_right _ hge)]
        exact ⟨j, rfl, hj, .inr ⟨hc.2, fun _ => hge⟩⟩
      · rw [if_neg (fun h => hge (Nat.le_of_mul_le_mul_right h hn))]
        exact ih (j + 1) hc.1 (by omega) (.inl (by omega))
    · rw [findBlock_stop (by
        rintro ⟨h1, h2⟩
        exact hc ⟨h1, Nat.lt_of_mul_lt_mul_right h2⟩)]
      refine ⟨j, rfl, hj, ?_⟩
      rcases ht with ht | ⟨h1, h2⟩
      · exact .inr ⟨ht, fun h => absurd ⟨h, ht⟩ hc⟩
      · exact .inl ⟨h2, h1⟩

theorem inOrder_take (n : Nat) (rows : List (Nat → Clip)) (j : Nat) : inOrder n (rows.take j) = (inOrder n rows).take (j * n) := by
  rcases Nat.lt_or_ge j rows.length with h | h
  · conv_rhs => rw [← List.take_append_drop j rows, inOrder_append]
    rw [List.take_left' (by rw [length_inOrder, List.length_take, Nat.min_eq_left h.le])]
  · rw [List.take_of_length_le h, List.take_of_length_le (by rw [length_inOrder]; exact Nat.mul_le_mul_right _ h)]

theorem seekTo_clip {b : Build} {c : AdhocCodec} {info : StreamInfo} (hn : 0 < info.channels) {rows : List (Nat → Clip)}
    (HR : Laid info.channels rows) (h64 : rowSum rows * info.channels < 2 ^ 64) {j m : Nat} (H : ClipSt c info rows j m)
    (M : Marked c.frameHeaderList info.channels rows) (hne : rows ≠ []) (dt : Nat) (ht : AdhocCodec.seekOffset info dt ≤ rowSum rows) :
    ∃ c', c.seekTo b info dt = .ok c' ∧ SameLevel c c' ∧ ∃ j', land (rowSizes rows) (AdhocCodec.seekOffset info dt) =
        (((rowSizes rows).take j').sum - AdhocCodec.seekOffset info dt, (rowSizes rows).drop j') ∧
      ClipSt c' info rows j' (AdhocCodec.seekOffset info dt) := by
  obtain ⟨t, htd⟩ : ∃ t, t = AdhocCodec.seekOffset info dt := ⟨_, rfl⟩
  rw [← htd] at ht ⊢
  unfold AdhocCodec.seekTo
  dsimp only
  rw [← htd]
  have htn : t * info.channels ≤ rowSum rows * info.channels := Nat.mul_le_mul_right _ ht
  have hlen : c.frameHeaderList.len = rows.length * info.channels := by
    have : c.frameHeaderList.len = _ := H.fl.log.len
    rw [this, List.length_map, length_inOrder]
  rw [chkU_nat (by omega), bind_ok, udiv_of_pos hn, bind_ok, hlen, Nat.mul_div_cancel _ hn]
  obtain ⟨j', e, hj', hspec⟩ := findBlock_clip (b := b) hn H.fl.log h64 t (rows.length + 1) 0 (by omega) (by omega)
    (by simp [rowSum]; omega)
  rw [List.take_zero, show rowSum [] = 0 from rfl, Nat.zero_mul] at e
  rw [e, bind_ok]
  dsimp only
  have hpos : 0 < rows.length := List.length_pos_iff.2 hne
  have hjlt : j' < rows.length := by
    rcases hspec with ⟨-, h⟩ | ⟨h1, h2⟩
    · omega
    · by_contra hc
      rw [List.take_of_length_le (by omega)] at h1
      omega
  have hreach : t ≤ rowSum (rows.take (j' + 1)) := by
    rcases hspec with ⟨h, -⟩ | ⟨-, h⟩
    · omega
    · exact h hjlt
  have hle : rowSum (rows.take j') ≤ t := by
    rcases hspec with ⟨-, h⟩ | ⟨h, -⟩
    · subst h; simp [rowSum]
    · omega
  have hcne : (rows[j'] 0).size ≠ 0 := by
    intro h0
    rcases hspec with ⟨-, h⟩ | ⟨h1, -⟩
    · subst h
      have := HR.start 0 hjlt 0 hn
      rw [if_pos rfl] at this
      unfold Clip.size at h0
      omega
    · rw [rowSum_take_succ hjlt, h0] at hreach
      omega
  have hlt : j' * info.channels < (inOrder info.channels rows).length := by
    rw [length_inOrder]
    exact Nat.mul_lt_mul_of_pos_right hjlt hn
  obtain ⟨hdr, eg, -, hpos', -⟩ := H.fl.log.get (k := j' * info.channels) (by rw [List.length_map]; exact hlt)
  rw [M.position j' hjlt] at hpos'
  have hpos' := Option.some.inj hpos'
  rw [eg, bind_ok]
  simp only [expect, bind_ok]
  have hst : Winding { c with stream := { c.stream with stream := c.stream.stream.setBitCursor hdr.bitCursor }
                              frameHeaderList := c.frameHeaderList.setCursor (j' * info.channels) } info rows j' 0 := by
    refine ⟨H.fl.hinfo, H.fl.chans, ?_, ?_, ?_, H.fl.log.setCursor _, M.kept rfl⟩
    · intro ch _ h; omega
    · intro ch hch _; exact (H.fl.chan ch hch).hist.weaken
    · have := H.fl.bits
      rw [Nat.add_zero, ← inOrder_take]
      refine ⟨hpos'.symm, this.chunks, ?_, this.bit⟩
      rw [inOrder_take]
      conv_rhs => rw [← List.take_append_drop (j' * info.channels) (inOrder info.channels rows), soundOf_append]
      simp
  obtain ⟨c1, e1, s1, H1⟩ := seekChannels_clip (b := b) HR hjlt hcne hst
  rw [e1, bind_ok]
  have hfuel : t - rowSum (rows.take j') < t * info.channels + 1 := by
    have := Nat.le_mul_of_pos_right t hn
    omega
  have s0 : SameLevel c c1 := ⟨s1.level, s1.scale, s1.inv⟩
  obtain ⟨c2, e2, s2, H2⟩ := prune_clip (b := b) hn hreach (by omega) (t * info.channels + 1) _ c1 H1 hle hfuel
  have hsum : ∀ i, ((rowSizes rows).take i).sum = rowSum (rows.take i) := fun i => by
    unfold rowSizes rowSum
    rw [List.map_take]
  refine ⟨c2, e2, s0.trans s2, j' + 1, ?_, H2⟩
  apply Resync.land_of
  · simpa [rowSizes] using hjlt
  · rw [hsum]; exact hreach
  · rw [hsum]
    rcases hspec with h | h
    · exact .inl h
    · exact .inr h.1

theorem ClipSt.init {c : AdhocCodec} {info : StreamInfo} {rows : List (Nat → Clip)} {j m : Nat} (H : ClipSt c info rows j m) : ClipSt c.init info rows 0 0 := by
  refine ⟨⟨H.fl.hinfo, by simpa [AdhocCodec.init] using H.fl.chans, ?_, ?_, ?_⟩, Nat.zero_le _, Nat.zero_le _⟩
  · intro k hk
    have hk' : k < c.channelStateList.length := by simpa [AdhocCodec.init] using hk
    simp only [AdhocCodec.init, List.getElem_map, List.take_zero]
    exact ⟨rfl, (H.fl.chan k hk').hist.weaken, rfl⟩
  · have := H.fl.bits
    exact ⟨by simp [AdhocCodec.init, BitStream.seekStart, soundOf], this.chunks, by simp [soundOf], this.bit⟩
  · have := H.fl.log.setCursor 0
    rw [Nat.zero_mul]
    exact this

theorem seek_land_clip {b : Build} {c : AdhocCodec} {info : StreamInfo} (hn : 0 < info.channels) {rows : List (Nat → Clip)}
    (HR : Laid info.channels rows) (h64 : rowSum rows * info.channels < 2 ^ 64) {j m : Nat} (H : ClipSt c info rows j m)
    (M : Marked c.frameHeaderList info.channels rows) (hne : rows ≠ []) (dt : Nat) (ht : AdhocCodec.seekOffset info dt ≤ rowSum rows) :
    ∃ c', c.seek b (.start dt) = .ok c' ∧ SameLevel c c' ∧ ∃ j', (dt = 0 ∧ j' = 0 ∨ land (rowSizes rows) (AdhocCodec.seekOffset info dt) =
        (((rowSizes rows).take j').sum - AdhocCodec.seekOffset info dt, (rowSizes rows).drop j')) ∧
      ClipSt c' info rows j' (AdhocCodec.seekOffset info dt) := by
  unfold AdhocCodec.seek
  rw [H.fl.hinfo, show expect (some info) = .ok info from rfl, bind_ok]
  dsimp only
  have s0 : SameLevel c c.init := ⟨rfl, rfl, rfl⟩
  by_cases h0 : dt = 0
  · subst h0
    refine ⟨c.init, by rw [if_pos rfl]; rfl, s0, 0, .inl ⟨rfl, rfl⟩, ?_⟩
    rw [seekOffset_zero]
    exact H.init
  · rw [if_neg h0]
    obtain ⟨c', e, s, j', hl, h⟩ := seekTo_clip (b := b) hn HR h64 H.init (M.kept rfl) hne dt ht
    exact ⟨c', e, s0.trans s, j', .inr hl, h⟩

theorem seek_clip {b : Build} {c : AdhocCodec} {info : StreamInfo} (hn : 0 < info.channels) {rows : List (Nat → Clip)}
    (HR : Laid info.channels rows) (h64 : rowSum rows * info.channels < 2 ^ 64) {j m : Nat} (H : ClipSt c info rows j m)
    (M : Marked c.frameHeaderList info.channels rows) (hne : rows ≠ []) (dt : Nat) (ht : AdhocCodec.seekOffset info dt ≤ rowSum rows) :
    ∃ c', c.seek b (.start dt) = .ok c' ∧ SameLevel c c' ∧ ∃ j', ClipSt c' info rows j' (AdhocCodec.seekOffset info dt) := by
  obtain ⟨c', e, s, j', -, h⟩ := seek_land_clip (b := b) hn HR h64 H M hne dt ht
  exact ⟨c', e, s, j', h⟩

/-- reads and seeks -/
theorem winds_clip {b : Build} {info : StreamInfo} (hn : 0 < info.channels) {rows : List (Nat → Clip)}
    (HR : Laid info.channels rows) (hng : NoGap (rowSizes rows)) (h64 : rowSum rows * info.channels < 2 ^ 64) (hne : rows ≠ []) :
    ∀ (acts : List Act) (_ : ∀ ms, Act.seek ms ∈ acts → AdhocCodec.seekOffset info ms ≤ rowSum rows)
      {c : AdhocCodec} {j m : Nat} (_ : ClipSt c info rows j m) (_ : Marked c.frameHeaderList info.channels rows),
    winds b c acts = .ok ((tape info.channels (AdhocCodec.seekOffset info) (sung info.channels rows) m acts).map
      fun r => (r.1.map (· * c.scale), r.2))
  | [], _, c, j, m, H, _ => rfl
  | .seek ms :: acts, hs, c, j, m, H, M => by
    obtain ⟨c1, e1, s1, j1, H1⟩ := seek_clip (b := b) hn HR h64 H M hne ms (hs ms (by simp))
    have := winds_clip (b := b) hn HR hng h64 hne acts (fun ms h => hs ms (by simp [h])) H1 (M.kept (leafed_seek c ms c1 e1).hdr)
    unfold winds
    rw [e1, bind_ok, this, s1.scale]
    rfl
  | .read buf :: acts, hs, c, j, m, H, M => by
    obtain ⟨c1, j1, d, e1, s1, H1, hd, hmd, hlaw⟩ := decode_clip (b := b) hn HR H buf
    have hlaw := hlaw hng
    have ih := winds_clip (b := b) hn HR hng h64 hne acts (fun ms h => hs ms (by simp [h])) H1 (M.kept (leafed_decode c buf _ e1).hdr)
    have hdd : d = min (buf.length / info.channels) ((sung info.channels rows).length - m) := by
      simp only [sung, List.length_map, List.length_range]
      omega
    unfold winds
    rw [e1, bind_ok]
    dsimp only
    rw [ih, bind_ok, pure_eq_ok, s1.scale]
    simp only [tape]
    rw [← hdd, rows_sung HR hmd]
    simp only [List.map_cons]
    congr 3
    by_cases h0 : d = 0
    · subst h0; simp
    · rw [if_pos (by omega), if_neg h0]

/-! ## the tables of a file -/

theorem signedNumber_little {x : Int} (h : InI 16 x) : signedNumber (littleI16 x) = x := by
  have h := inI16.1 h
  unfold signedNumber littleI16
  rw [numberOf_little, Nat.mod_eq_of_lt (by norm_num; omega)]
  split <;> omega

theorem groups_three (a b c : List Byte) (ha : a.length = 2) (hb : b.length = 2) (hc : c.length = 2) : groups 2 3 (a ++ b ++ c) = [a, b, c] := by
  have := groups_flatMap (f := id) [a, b, c] (w := 2) (by simp [ha, hb, hc]) []
  simpa using this

theorem index_slim {s : AdhocCodec.Slim} {info : StreamInfo} (hc : Counted (ofSlim s)) (ht : TypedHeaders s.frameHeaderList) (hi : s.stream.info = some info)
    (rest : List Byte) :
    index (savedBytes (ofSlim s) ++ rest) =
      { firsts := (List.range (8 * (8 * s.frameHeaderList.isInitFrameList.binary.length))).map fun p => bitW s.frameHeaderList.isInitFrameList.binary p
        positions := s.frameHeaderList.bitCursorList
        histories := s.frameHeaderList.stackHistoryList.map fun t => [t.1, t.2.1, t.2.2] } := by
  have c1 := hc.nibbles
  have c3 := hc.bits
  have c5 := hc.sizes
  have c6 := hc.cursors
  have c7 := hc.hist
  simp only [ofSlim] at c1 c3 c5 c6 c7
  rw [file_slim hi rest]
  unfold index
  dsimp only
  have l4 : ∀ (w n : Nat) (l : List Byte), (little w n ++ l).drop w = l := fun w n l => List.drop_left' (length_little w n)
  have t4 : ∀ (w n : Nat) (l : List Byte), (little w n ++ l).take w = little w n := fun w n l => List.take_left' (length_little w n)
  have n8 : ∀ m : Nat, m < 2 ^ 64 → numberOf (little 8 m) = m := fun m hm => by
    rw [numberOf_little]; exact Nat.mod_eq_of_lt (lt_of_lt_of_le hm (by norm_num))
  rw [l4 4, table_ok (w := 1) c1 (length_flatMap_width _ fun b _ => length_little 1 b.toNat)]
  dsimp only
  rw [l4 4, table_ok (w := 8) c3 (length_flatMap_width _ fun b _ => length_little 8 b.toNat)]
  dsimp only
  rw [l4 16, table_ok (w := 2) c5 (length_flatMap_width _ fun b _ => length_little 2 b)]
  dsimp only
  rw [table_ok (w := 8) c6 (length_flatMap_width _ fun b _ => length_little 8 b)]
  dsimp only
  rw [table_ok (w := 6) c7 (length_flatMap_width _ fun t _ => by simp [littleI16, length_little])]
  dsimp only
  rw [t4 8, t4 8, n8 _ c6, n8 _ c7, little_words (w := 8) rfl, bitsIn_bytesOf]
  have e1 := groups_flatMap (f := little 8) s.frameHeaderList.bitCursorList (fun b _ => length_little 8 b) []
  have e2 := groups_flatMap (w := 6) (f := fun t : Int × Int × Int => littleI16 t.1 ++ littleI16 t.2.1 ++ littleI16 t.2.2) s.frameHeaderList.stackHistoryList
    (fun t _ => by simp [littleI16, length_little]) []
  rw [List.append_nil] at e1 e2
  rw [e1, e2, List.map_map, List.map_map]
  congr 1
  · conv_rhs => rw [← List.map_id s.frameHeaderList.bitCursorList]
    apply List.map_congr_left
    intro x hx
    exact n8 x (ht.cursors x hx)
  · apply List.map_congr_left
    intro t htm
    obtain ⟨h1, h2, h3⟩ := ht.hist t htm
    rw [Function.comp_apply, groups_three (littleI16 t.1) (littleI16 t.2.1) (littleI16 t.2.2) (length_little 2 _) (length_little 2 _) (length_little 2 _)]
    simp only [List.map_cons, List.map_nil, signedNumber_little h1, signedNumber_little h2, signedNumber_little h3]

/-- a loaded file whose tables fit is ready to be sought in -/
theorem ready_to_seek {b : Build} {bytes : List Byte} {c : AdhocCodec} (h : AdhocCodec.load b bytes = .ok (some c)) {rows : List (Nat → Clip)}
    (H : Stores bytes rows) (F : Indexed bytes rows) : Marked c.frameHeaderList (contents bytes).info.channels rows := by
  obtain ⟨s, rest, info, hs, hi, -, h2, -⟩ := load_holds h
  obtain ⟨k1, k2, k3, k4⟩ := back_slim hs
  have q1 := (contents_slim k2 k4 hi rest).1
  have q := index_slim k2 k3 hi rest
  rw [← k1] at q1 q
  obtain ⟨f1, f2, f3⟩ := F
  rw [q] at f1 f2 f3
  rw [h2]
  refine Marked.kept ⟨?_, f2, ?_⟩ rfl
  · intro j hj ch hch
    rw [← f1 j hj ch hch, BitVecU64.get_eq]
    generalize j * (contents bytes).info.channels + ch = p
    rw [List.getD_eq_getElem?_getD, List.getElem?_map]
    rcases Nat.lt_or_ge p (8 * (8 * s.frameHeaderList.isInitFrameList.binary.length)) with hp | hp
    · rw [List.getElem?_range hp]
      simp only [Option.map_some, Option.getD_some]
      cases bitW s.frameHeaderList.isInitFrameList.binary p <;> rfl
    · rw [List.getElem?_eq_none (by simpa using hp)]
      have : bitW s.frameHeaderList.isInitFrameList.binary p = false := by
        unfold bitW
        rw [List.getElem?_eq_none (by omega)]
        simp
      rw [this]
      rfl
  · intro j hj hj0 ch hch
    have hf := f3 j hj hj0 ch hch
    rw [channels_clip H, List.getElem?_map] at hf
    have hD : ((List.range (contents bytes).info.channels).map fun ch => grown rows ch).getD ch [] = grown rows ch := by
      simp [List.getD_eq_getElem?_getD, hch]
    have h3 : 3 ≤ (grown (rows.take j) ch).length := by
      rcases H.laid.three hj hch with ⟨h0, -⟩ | ⟨h3, -⟩
      · have hl := H.laid.length j hch
        have h1 := H.laid.start 0 (by omega) 0 (by omega)
        have h2 := rowSum_take_succ (rows := rows) (j := 0) (by omega)
        rw [if_pos rfl] at h1
        rw [h0] at hl
        exfalso
        have : rowSum (rows.take 1) ≤ rowSum (rows.take j) := by
          have := rowSum_take_le (rows.take j) 1
          rwa [List.take_take, Nat.min_eq_left hj0] at this
        unfold Clip.size at h2
        rw [Nat.zero_add] at h2
        rw [List.length_nil] at hl
        omega
      · exact h3
    have hpre : (grown rows ch).take (samplesIn (rows.take j)) = grown (rows.take j) ch := (H.laid.grown_take j hch).symm
    rw [hD, hpre, show samplesIn (rows.take j) = (grown (rows.take j) ch).length from (H.laid.length j hch).symm] at hf
    obtain ⟨A, x, y, z, hA⟩ := split_three h3
    refine ⟨A, x, y, z, ?_, hA⟩
    rw [hA, List.drop_left' (by simp)] at hf
    obtain ⟨t, ht, e⟩ := Option.map_eq_some_iff.1 hf
    simp only [List.cons.injEq, and_true] at e
    rw [ht]
    obtain ⟨t1, t2, t3⟩ := t
    obtain ⟨e1, e2, e3⟩ := e
    rw [← e1, ← e2, ← e3]

theorem tape_map (n : Nat) (pos : Nat → Nat) (x : F32) (sig : List (List F32)) : ∀ (acts : List Act) (m : Nat),
    (tape n pos sig m acts).map (fun r => (r.1.map (· * x), r.2)) = tape n pos (sig.map (·.map (· * x))) m (acts.map (Act.times x))
  | [], _ => rfl
  | .seek ms :: acts, m => by
    simp only [tape, List.map_cons, Act.times]
    exact tape_map n pos x sig acts (pos ms)
  | .read buf :: acts, m => by
    simp only [tape, List.map_cons, Act.times]
    rw [ tape_map n pos x sig acts, List.length_map, List.length_map]
    simp [List.map_flatten]

/-! ## C130 -/

/-- C130. Take a file as in C128 whose tables for seeking fit (`Verif/Spec/Index.lean`). Then reading and seeking in it, in any order, is reading
and winding a tape that holds what the player of `Verif/Spec/Player.lean` plays, as long as every seek goes to a block that exists or to the
end. `seekOffset` is `(rate / 1000.0 * ms) as u64` in single precision (see C14). -/
theorem C130_seek (b b' : Build) (bytes : List Byte) (c : AdhocCodec) (h : AdhocCodec.load b bytes = .ok (some c)) (rows : List (Nat → Clip))
    (H : Stores bytes rows) (I : Indexed bytes rows) (hne : rows ≠ []) (hn : 0 < (contents bytes).info.channels) (hl : (contents bytes).level ≤ 30)
    (hg : NoGap (rows.map fun r => (r 0).size)) (h64 : (playFile bytes).length * (contents bytes).info.channels < 2 ^ 64) (acts : List Act)
    (hs : ∀ ms, Act.seek ms ∈ acts → AdhocCodec.seekOffset (contents bytes).info ms ≤ (playFile bytes).length) :
    winds b' c acts = .ok (tape (contents bytes).info.channels (AdhocCodec.seekOffset (contents bytes).info) (playFile bytes) 0
      (acts.map (Act.times (F32.ofInt (2 ^ (contents bytes).level))))) := by
  obtain ⟨R, -, hx⟩ := ready_to_play h H
  have hsc := scale_ready hl hx
  have hlen : (playFile bytes).length = rowSum rows := by rw [← sung_played H hn]; simp [sung]
  rw [hlen] at h64 hs
  rw [winds_clip (b := b') hn H.laid hg h64 hne acts hs R (ready_to_seek h H I), hsc, tape_map, sung_played H hn]

/-- C130, the other seeks: whatever the tables for seeking say, a seek behind the end panics, as in a recording (C13). -/
theorem C130_beyond (b b' : Build) (bytes : List Byte) (c : AdhocCodec) (h : AdhocCodec.load b bytes = .ok (some c)) (rows : List (Nat → Clip))
    (H : Stores bytes rows) (hn : 0 < (contents bytes).info.channels)
    (h64 : (playFile bytes).length * (contents bytes).info.channels < 2 ^ 64) (ms : Nat)
    (hs : (playFile bytes).length < AdhocCodec.seekOffset (contents bytes).info ms)
    (hs64 : AdhocCodec.seekOffset (contents bytes).info ms * (contents bytes).info.channels < 2 ^ 64) :
    c.seek b' (.start ms) = .error .expect := by
  obtain ⟨R, -, -⟩ := ready_to_play h H
  have hlen : (playFile bytes).length = rowSum rows := by rw [← sung_played H hn]; simp [sung]
  rw [hlen] at h64 hs
  generalize (contents bytes).info = info at *
  unfold AdhocCodec.seek
  rw [R.fl.hinfo, show expect (some info) = .ok info from rfl, bind_ok]
  dsimp only
  have h0 : ms ≠ 0 := by
    rintro rfl
    rw [seekOffset_zero] at hs
    omega
  rw [if_neg h0]
  obtain ⟨t, htd⟩ : ∃ t, t = AdhocCodec.seekOffset info ms := ⟨_, rfl⟩
  have R := R.init
  rw [← htd] at hs hs64
  unfold AdhocCodec.seekTo
  dsimp only
  rw [← htd]
  have hlen : c.init.frameHeaderList.len = rows.length * info.channels := by
    have : c.init.frameHeaderList.len = _ := R.fl.log.len
    rw [this, List.length_map, length_inOrder]
  rw [chkU_nat hs64, bind_ok, udiv_of_pos hn, bind_ok, hlen, Nat.mul_div_cancel _ hn]
  obtain ⟨j', e, hj', hspec⟩ := findBlock_clip (b := b') hn R.fl.log h64 t (rows.length + 1) 0 (by omega) (by omega)
    (by simp [rowSum]; omega)
  rw [List.take_zero, show rowSum [] = 0 from rfl, Nat.zero_mul] at e
  rw [e, bind_ok]
  dsimp only
  have hend : rows.length ≤ j' := by
    by_contra hc
    have hc : j' < rows.length := by omega
    rcases hspec with ⟨h, -⟩ | ⟨-, h⟩
    · omega
    · have := h hc
      have := rowSum_take_le rows (j' + 1)
      omega
  rw [R.fl.log.get_none (by rw [List.length_map, length_inOrder]; exact Nat.mul_le_mul_right _ hend)]
  rfl

/-- the file `foreignFile` at 1000 Hz with one more sample and with tables that fit: the second row starts at bit 59, after the codes 7, 33, 67 -/
def indexedFile : List Byte :=
  ([12, 0, 0, 0] ++ ([1, 0, 0, 0, 0, 0, 0, 0] ++ [3] ++ [2, 0, 0, 0]) ++ ([1, 0, 0, 0, 0, 0, 0, 0] ++ [1, 0, 0, 0, 0, 0, 0, 0] ++ List.replicate 16 77) ++
    ([2, 0, 0, 0, 0, 0, 0, 0] ++ [5, 0, 2, 0]) ++ ([2, 0, 0, 0, 0, 0, 0, 0] ++ [0, 0, 0, 0, 0, 0, 0, 0, 59, 0, 0, 0, 0, 0, 0, 0]) ++
    ([2, 0, 0, 0, 0, 0, 0, 0] ++ List.replicate 6 255 ++ [7, 0, 33, 0, 67, 0]) ++ [8, 8, 8, 8] ++ [1, 232, 3, 0, 0, 1, 0, 0, 0] ++
    ([1, 0, 0, 0, 0, 0, 0, 0] ++ [5, 0, 254, 255, 7, 0, 100, 49, 1, 0, 0, 0, 0, 0, 0, 0]) ++ List.replicate 16 200 ++ List.replicate 16 1 ++
    [42]).map (BitVec.ofNat 8)

/-- the hypotheses of C130 hold for it, with seeks to every block and to the end -/
example : let rows : List (Nat → Clip) := [fun _ => ⟨3, [5, -2, 7], [1, -9]⟩, fun _ => ⟨0, [], [2, 1]⟩]
    Stores indexedFile rows ∧ Indexed indexedFile rows ∧ (contents indexedFile).info.channels = 1 ∧ (contents indexedFile).level = 12 ∧
    (playFile indexedFile).length = 7 ∧ (∃ c, AdhocCodec.load .debug indexedFile = .ok (some c)) ∧
    ∀ ms ≤ 8, AdhocCodec.seekOffset (contents indexedFile).info ms = ms := by
  have e : (contents indexedFile).info.channels = 1 := by decide +kernel
  refine ⟨⟨⟨?_, ?_, ?_, ?_, ?_, ?_⟩, ?_, ?_, ?_, ?_⟩, ⟨?_, ?_, ?_⟩, e, by decide +kernel, by decide +kernel, ?_, by decide +kernel⟩
  · simp
  · intro j hj ch _
    match j, hj with
    | 0, _ => rfl
    | 1, _ => rfl
  · simp
  · simp
  · simp
  · simp [Clip.size]
  · rw [e]; decide +kernel
  · rw [e]; decide +kernel
  · rw [e]; decide +kernel
  · rw [e]; decide +kernel
  · rw [e]; decide +kernel
  · rw [e]; decide +kernel
  · rw [e]; decide +kernel
  · have : ((AdhocCodec.load .debug indexedFile).toOption.bind id).isSome = true := by decide +kernel
    generalize AdhocCodec.load .debug indexedFile = r at this
    match r, this with
    | .ok (some c), _ => exact ⟨c, rfl⟩

/-- what a file plays after a seek to the last block -/
def lastBlock (bytes : List Byte) : R (List (List F32 × Option Nat)) :=
  AdhocCodec.load .release bytes >>= fun c => match c with
    | some c => winds .release c [.seek 6, .read [F32.ofInt 0]]
    | none => .ok []

/-- a seek finds the code 166; the factor is 4096 -/
example : lastBlock indexedFile = .ok [([normalizeSample 166 * F32.ofInt 4096], some 1)] := by decide +kernel

/-- the tables matter: with the code 66 in the history, or with the second row marked as a first one, a seek finds something else -/
example : lastBlock (indexedFile.set 103 66#8) = .ok [([normalizeSample 160 * F32.ofInt 4096], some 1)] ∧
    (lastBlock (indexedFile.set 25 3#8) = lastBlock indexedFile → False) := by decide +kernel

end Adhoc
