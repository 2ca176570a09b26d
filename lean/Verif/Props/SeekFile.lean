import Verif.Props.Forget
import Verif.Props.Endings

/-! # C153: seeking in a file that has been loaded, whatever it holds -/

namespace Adhoc
open Spec F32

namespace Spec

/-- the sizes of the complete rows of frames of a file with `n` channels, as the first channel has them -/
def frameRows (h : FrameHeaders) (n : Nat) : List Nat :=
  (List.range (h.divisorExpList.nibbleCount / n)).map fun i => h.frameSizeList.getD (i * n) 0

/-- The time `ms` is in the file, or it is the start: there is a complete row, and the rows have as many samples as the time amounts to. The number
of samples is taken modulo 2^64, as a release build does. -/
def InFile (h : FrameHeaders) (info : StreamInfo) (ms : Nat) : Prop :=
  ms = 0 ∨ frameRows h info.channels ≠ [] ∧
    AdhocCodec.seekOffset info ms * info.channels % 2 ^ 64 ≤ (frameRows h info.channels).sum * info.channels

instance (h : FrameHeaders) (info : StreamInfo) (ms : Nat) : Decidable (InFile h info ms) := by unfold InFile; infer_instance

end Spec

theorem chkU_release {n x : Nat} : chkU .release n (x : Int) = .ok (x % 2 ^ n) := by
  by_cases h : x < 2 ^ n
  · rw [chkU_nat h, Nat.mod_eq_of_lt h]
  · unfold chkU
    rw [if_neg (by rintro ⟨-, h'⟩; exact h (by exact_mod_cast h'))]
    show Except.ok (asU n x) = _
    unfold asU
    congr 1

theorem get_some {h : FrameHeaders} (H : Readable h) {i : Nat} (hi : i < h.len) :
    ∃ hdr, h.get i = .ok (some hdr) ∧ hdr.size = h.frameSizeList.getD i 0 ∧ hdr.bitCursor ∈ h.bitCursorList := by
  have h1 := H.sizes
  have h2 := H.cursors
  have h3 := H.hist
  unfold FrameHeaders.get
  rw [if_pos hi, idx_of_lt (by omega), idx_of_lt (by omega), idx_of_lt (by omega)]
  refine ⟨_, rfl, ?_, List.getElem_mem _⟩
  show h.frameSizeList[i] = _
  rw [List.getD_eq_getElem?_getD, List.getElem?_eq_getElem (by omega), Option.getD_some]

theorem get_none {h : FrameHeaders} {i : Nat} (hi : ¬ i < h.len) : h.get i = .ok none := by
  unfold FrameHeaders.get
  rw [if_neg hi]
  rfl

theorem sum_take_le (l : List Nat) (k : Nat) : (l.take k).sum ≤ l.sum := by
  conv => rhs; rw [← List.take_append_drop k l, List.sum_append]
  omega

theorem findBlock_any {h : FrameHeaders} (H : Readable h) {n : Nat} (hn : 0 < n) (h64 : (frameRows h n).sum * n < 2 ^ 64) (target : Nat) :
    ∀ (fuel j : Nat), j ≤ h.len / n → h.len / n < j + fuel → (j = 0 ∨ ((frameRows h n).take j).sum * n < target) →
      ∃ s k, AdhocCodec.findBlock .release h n target (h.len / n) fuel (((frameRows h n).take j).sum * n) j = .ok (s, k) ∧ s ≤ target ∧ k ≤ h.len / n ∧
        (k < h.len / n ↔ j < h.len / n ∧ target ≤ (frameRows h n).sum * n) := by
  have hlen : (frameRows h n).length = h.len / n := by simp [frameRows]; rfl
  intro fuel
  induction fuel with
  | zero => intro j _ hf; omega
  | succ fuel ih =>
    intro j hj hf hs
    by_cases hc : j < h.len / n ∧ ((frameRows h n).take j).sum * n < target
    · have hjn : j * n < h.len := by
        have := Nat.mul_lt_mul_of_pos_right hc.1 hn
        have := Nat.div_mul_le_self h.len n
        omega
      obtain ⟨hdr, eg, hsz, -⟩ := get_some H hjn
      have hrow : (frameRows h n)[j]'(by omega) = hdr.size := by rw [hsz]; simp [frameRows]
      have hsum : ((frameRows h n).take j).sum * n + hdr.size * n = ((frameRows h n).take (j + 1)).sum * n := by
        rw [← Nat.add_mul, List.take_succ_eq_append_getElem (by omega), List.sum_append, List.sum_singleton, hrow]
      have hle : ((frameRows h n).take (j + 1)).sum * n ≤ (frameRows h n).sum * n := Nat.mul_le_mul_right _ (sum_take_le _ _)
      rw [findBlock_step hc.1 hc.2 eg (by rw [hsum]; omega), hsum]
      by_cases hge : ((frameRows h n).take (j + 1)).sum * n ≥ target
      · rw [if_pos hge]
        exact ⟨_, _, rfl, by omega, by omega, by constructor <;> intro _ <;> omega⟩
      · rw [if_neg hge]
        obtain ⟨s, k, e, h1, h2, h3⟩ := ih (j + 1) (by omega) (by omega) (.inr (by omega))
        refine ⟨s, k, e, h1, h2, h3.trans ⟨fun h => ⟨hc.1, h.2⟩, fun h => ⟨?_, h.2⟩⟩⟩
        by_contra hlast
        rw [List.take_of_length_le (by omega)] at hge
        omega
    · rw [findBlock_stop hc]
      refine ⟨_, _, rfl, ?_, hj, ?_⟩
      · rcases hs with rfl | hs
        · simp
        · omega
      · rcases hs with rfl | hs
        · simp only [List.take_zero, List.sum_nil, Nat.zero_mul] at hc
          constructor
          · intro h; exact ⟨h, by omega⟩
          · exact fun h => h.1
        · constructor <;> intro _ <;> omega

/-- a loaded codec that is being played and sought; `o` are the headers of the file -/
structure Rolling (o : FrameHeaders) (c : AdhocCodec) (info : StreamInfo) : Prop where
  sane : Sane c info
  same : c.frameHeaderList.reset = o.reset
  inside : ∀ k ∈ o.bitCursorList, k / 128 ≤ c.stream.stream.binary.length

theorem Rolling.next {o : FrameHeaders} {c c' : AdhocCodec} {info : StreamInfo} (H : Rolling o c info) (h : Sane c' info) (l : Leafed c c') : Rolling o c' info := by
  refine ⟨h, l.hdr.trans H.same, fun k hk => ?_⟩
  obtain ⟨n, hn⟩ := l.pad
  have := H.inside k hk
  rw [hn, List.length_append]
  omega

theorem fine_seekChannel {c : AdhocCodec} {info : StreamInfo} (H : Sane c info) {start off : Nat} (hoff : off < info.channels)
    (hc : c.frameHeaderList.headerCursor = start + off) :
    (start + off < c.frameHeaderList.len → ∃ c', c.seekChannel .release start off = .ok c' ∧ Sane c' info ∧
      c'.frameHeaderList = c.frameHeaderList.setCursor (start + off + 1)) ∧
    (¬ start + off < c.frameHeaderList.len → c.seekChannel .release start off = .error .expect) := by
  have hoff' : off < c.channelStateList.length := by rw [H.chans]; exact hoff
  unfold AdhocCodec.seekChannel
  constructor
  · intro hlt
    obtain ⟨hdr, eg, -, -⟩ := get_some H.readable hlt
    rw [eg, bind_ok]
    simp only [expect, bind_ok]
    rw [idx_of_lt hoff', bind_ok]
    have hst : ∀ fc : FrameCodec, fc.state = (if hdr.isInit then .init else .decoding) → fc.state ≠ .encoding := by
      intro fc h; rw [h]; split <;> simp
    obtain ⟨⟨fc, st, hd, r⟩, e, h1, h2, h3, h4⟩ := (fine_decodeFrame (b := .release) (fc := { state := if hdr.isInit then .init else .decoding, history := ((c.channelStateList[off].history.push hdr.history.1).push hdr.history.2.1).push hdr.history.2.2, buffered := [] })
      H.inBuf H.readable (by omega) (hst _ rfl)).release
    rw [e, bind_ok]
    dsimp only at h1 h2 h3 h4 ⊢
    rw [setIdx_of_lt hoff', bind_ok]
    have hsame : SameHeaders c.frameHeaderList hd := ⟨by rw [h4]; rfl⟩
    refine ⟨_, rfl, ⟨h3.trans H.hinfo, H.pos, by simpa using H.chans, h2, hsame.readable H.readable, ?_⟩, by dsimp only; rw [h4, hc]⟩
    intro x hx
    rcases List.mem_or_eq_of_mem_set hx with hx | rfl
    · exact H.state x hx
    · rw [h1]; simp
  · intro hlt
    rw [get_none hlt]
    rfl

theorem fine_dropOne {c : AdhocCodec} {info : StreamInfo} (H : Sane c info) {n : Nat} (hn : n ≤ info.channels) :
    Fine .release (c.dropOne n) (fun c' => Sane c' info) := by
  unfold AdhocCodec.dropOne
  have key : ∀ (l : List Nat) (_ : ∀ i ∈ l, i < info.channels) (c : AdhocCodec) (_ : Sane c info), Fine .release (l.foldlM (fun (c : AdhocCodec) off => do
      let fc ← idx c.channelStateList off
      let chs ← setIdx c.channelStateList off { fc with buffered := fc.buffered.tail }
      pure { c with channelStateList := chs }) c) (fun c' => Sane c' info) := by
    intro l
    induction l with
    | nil => exact fun _ c H => Fine.ok H
    | cons ch l ih =>
      intro hl c H
      have hch : ch < c.channelStateList.length := by rw [H.chans]; exact hl ch (by simp)
      rw [List.foldlM_cons, idx_of_lt hch, bind_ok, setIdx_of_lt hch, bind_ok, pure_eq_ok, bind_ok]
      refine ih (fun i hi => hl i (by simp [hi])) _ ⟨H.hinfo, H.pos, by simpa using H.chans, H.inBuf, H.readable, ?_⟩
      intro x hx
      rcases List.mem_or_eq_of_mem_set hx with hx | rfl
      · exact H.state x hx
      · exact H.state c.channelStateList[ch] (List.getElem_mem hch)
  exact key _ (fun i hi => by rw [List.mem_range] at hi; omega) c H

theorem prune_any {n target : Nat} (hn : 0 < n) (h64 : target + n < 2 ^ 64) {info : StreamInfo} (hc : n ≤ info.channels) : ∀ (fuel x : Nat) (c : AdhocCodec)
    (_ : Sane c info) (_ : 0 < fuel) (_ : target < x + fuel), ∃ c', AdhocCodec.prune .release n target fuel x c = .ok c' ∧ Sane c' info
  | 0, x, c, H, h0, hf => absurd h0 (by omega)
  | fuel + 1, x, c, H, h0, hf => by
    unfold AdhocCodec.prune
    split
    · next hx =>
      obtain ⟨c1, e, H1⟩ := (fine_dropOne H hc).release
      rw [e, bind_ok, chkU_nat (by omega), bind_ok]
      exact prune_any hn h64 hc fuel (x + n) c1 H1 (by omega) (by omega)
    · exact ⟨c, rfl, H⟩

theorem sum_le_of_forall {l : List Nat} {m : Nat} (h : ∀ x ∈ l, x ≤ m) : l.sum ≤ l.length * m := by
  induction l with
  | nil => simp
  | cons x l ih =>
    rw [List.sum_cons, List.length_cons, Nat.add_mul, Nat.one_mul]
    have h1 := h x (by simp)
    have h2 := ih fun y hy => h y (by simp [hy])
    omega

theorem sum_frameRows {h : FrameHeaders} {n : Nat} (hsz : ∀ x ∈ h.frameSizeList, x < 2 ^ 16) (hlen : h.len < 2 ^ 32) :
    (frameRows h n).sum * n < 2 ^ 48 := by
  have h1 : (frameRows h n).sum ≤ (frameRows h n).length * 65535 := by
    refine sum_le_of_forall fun x hx => ?_
    obtain ⟨i, -, rfl⟩ := List.mem_map.1 hx
    rw [List.getD_eq_getElem?_getD]
    cases e : h.frameSizeList[i * n]? with
    | none => simp
    | some y =>
      have := hsz y (List.mem_of_getElem? e)
      rw [Option.getD_some]; omega
  have h2 : (frameRows h n).length = h.len / n := by simp [frameRows]; rfl
  rw [h2] at h1
  calc (frameRows h n).sum * n ≤ h.len / n * 65535 * n := Nat.mul_le_mul_right _ h1
    _ = h.len / n * n * 65535 := by ring
    _ ≤ h.len * 65535 := Nat.mul_le_mul_right _ (Nat.div_mul_le_self _ _)
    _ < 2 ^ 48 := by omega

theorem seek_any {o : FrameHeaders} {c : AdhocCodec} {info : StreamInfo} (H : Rolling o c info) (hch : info.channels < 2 ^ 32) (hlen : o.len < 2 ^ 32)
    (hsz : ∀ x ∈ o.frameSizeList, x < 2 ^ 16) (ms : Nat) :
    (InFile o info ms → ∃ c', c.seek .release (.start ms) = .ok c' ∧ Sane c' info) ∧
    (¬ InFile o info ms → c.seek .release (.start ms) = .error .expect) := by
  have hp := H.sane.pos
  have hrd : Readable o.reset := by
    rw [← H.same]
    exact ⟨H.sane.readable.sizes, H.sane.readable.cursors, H.sane.readable.hist⟩
  have hl : o.reset.len = o.len := rfl
  have hinit : ∀ fc ∈ c.init.channelStateList, fc.state ≠ .encoding := by
    intro fc hfc
    obtain ⟨fc', -, rfl⟩ := List.mem_map.1 (show fc ∈ c.channelStateList.map FrameCodec.init from hfc)
    simp [FrameCodec.init]
  have hheaders : c.init.frameHeaderList = o.reset := H.same
  have hrows : frameRows o.reset info.channels = frameRows o info.channels := rfl
  unfold AdhocCodec.seek
  rw [H.sane.hinfo]
  simp only [expect, bind_ok]
  by_cases h0 : ms = 0
  · rw [if_pos h0]
    refine ⟨fun _ => ⟨_, rfl, H.sane.hinfo, hp, by simpa [AdhocCodec.init] using H.sane.chans, by show 0 / 128 ≤ _; simp, hheaders ▸ hrd, hinit⟩, fun hn => absurd (.inl h0) hn⟩
  rw [if_neg h0]
  unfold AdhocCodec.seekTo
  dsimp only
  rw [chkU_release, bind_ok, udiv_of_pos hp, bind_ok, hheaders]
  generalize ht : AdhocCodec.seekOffset info ms * info.channels % 2 ^ 64 = target
  have hsum := sum_frameRows (n := info.channels) hsz hlen
  obtain ⟨s, k, e, hs, hk, hiff⟩ := findBlock_any hrd hp (by rw [hrows]; omega) target (o.len / info.channels + 1) 0 (Nat.zero_le _) (by rw [hl]; omega) (.inl rfl)
  rw [List.take_zero, List.sum_nil, Nat.zero_mul, hl] at e
  rw [hl, e, bind_ok]
  dsimp only
  have hmul : k * info.channels ≤ o.len := le_trans (Nat.mul_le_mul_right _ (by rw [hl] at hk; exact hk)) (Nat.div_mul_le_self _ _)
  have hin : InFile o info ms ↔ k < o.len / info.channels := by
    rw [hl] at hiff
    rw [hiff, hrows]
    unfold InFile
    rw [ht]
    have : frameRows o info.channels ≠ [] ↔ 0 < o.len / info.channels := by
      rw [← List.length_pos_iff]
      have h2 : (frameRows o info.channels).length = o.len / info.channels := by simp [frameRows]; rfl
      rw [h2]
    rw [this]
    exact ⟨fun h => h.resolve_left h0, .inr⟩
  have hrow : k < o.len / info.channels ↔ k * info.channels + info.channels ≤ o.len := by
    rw [← Nat.succ_le_iff, Nat.le_div_iff_mul_le hp, Nat.succ_mul]
  -- the row is there, or one of its headers is missing
  have fold : ∀ (d : AdhocCodec), Sane d info → d.frameHeaderList = o.reset.setCursor (k * info.channels) → ∀ m, m ≤ info.channels →
      (k * info.channels + m ≤ o.len → ∃ d', (List.range m).foldlM (fun c off => AdhocCodec.seekChannel .release c (k * info.channels) off) d = .ok d' ∧ Sane d' info ∧
        d'.frameHeaderList = o.reset.setCursor (k * info.channels + m)) ∧
      (¬ k * info.channels + m ≤ o.len → (List.range m).foldlM (fun c off => AdhocCodec.seekChannel .release c (k * info.channels) off) d = .error .expect) := by
    intro d hd hdh m
    induction m with
    | zero => exact fun _ => ⟨fun _ => ⟨d, rfl, hd, hdh⟩, fun hn => absurd hmul hn⟩
    | succ m ih =>
      intro hm
      have ih := ih (by omega)
      rw [List.range_succ, List.foldlM_append]
      by_cases hfit : k * info.channels + m ≤ o.len
      · obtain ⟨d', e', h1, h2⟩ := ih.1 hfit
        rw [e', bind_ok, List.foldlM_cons]
        have step := fine_seekChannel h1 (start := k * info.channels) (off := m) (by omega) (by rw [h2]; rfl)
        have hl' : d'.frameHeaderList.len = o.len := by rw [h2]; rfl
        rw [hl'] at step
        constructor
        · intro h
          obtain ⟨d'', e'', h3, h4⟩ := step.1 (by omega)
          rw [e'', bind_ok]
          exact ⟨d'', rfl, h3, by rw [h4, h2]; rfl⟩
        · intro h
          rw [step.2 (by omega)]
          rfl
      · refine ⟨fun h => by omega, fun _ => ?_⟩
        rw [ih.2 hfit]
        rfl
  by_cases hget : k * info.channels < o.len
  · obtain ⟨hdr, eg, -, hmem⟩ := get_some hrd (show k * info.channels < o.reset.len from hget)
    rw [eg, bind_ok, show expect (some hdr) = .ok hdr from rfl, bind_ok]
    have hd : Sane ({ c.init with
        stream := { c.init.stream with stream := c.init.stream.stream.setBitCursor hdr.bitCursor }
        frameHeaderList := o.reset.setCursor (k * info.channels) } : AdhocCodec) info :=
      ⟨H.sane.hinfo, hp, by simpa [AdhocCodec.init] using H.sane.chans, H.inside _ hmem, ⟨hrd.sizes, hrd.cursors, hrd.hist⟩, hinit⟩
    have hf := fold _ hd rfl info.channels le_rfl
    rw [hin, hrow]
    constructor
    · intro h
      obtain ⟨d', e', h1, -⟩ := hf.1 h
      rw [e', bind_ok]
      have hle : target ≤ (frameRows o info.channels).sum * info.channels := by
        rw [hl, hrows] at hiff
        exact (hiff.1 (hrow.2 h)).2
      exact prune_any hp (by omega) le_rfl _ _ d' h1 (by omega) (by omega)
    · intro h
      rw [hf.2 h]
      rfl
  · rw [get_none (show ¬ k * info.channels < o.reset.len from hget)]
    refine ⟨fun h => ?_, fun _ => rfl⟩
    have := hrow.1 (hin.1 h)
    omega

theorem winds_any {o : FrameHeaders} {info : StreamInfo} (hch : info.channels < 2 ^ 32) (hlen : o.len < 2 ^ 32) (hsz : ∀ x ∈ o.frameSizeList, x < 2 ^ 16) :
    ∀ (acts : List Act) {c : AdhocCodec} (_ : Rolling o c info),
    ((∀ ms, Act.seek ms ∈ acts → InFile o info ms) → ∃ outs, winds .release c acts = .ok outs) ∧
    (¬ (∀ ms, Act.seek ms ∈ acts → InFile o info ms) → winds .release c acts = .error .expect)
  | [], c, H => ⟨fun _ => ⟨[], rfl⟩, fun h => absurd (by simp) h⟩
  | .read buf :: acts, c, H => by
    obtain ⟨⟨c', out, n⟩, e, h1, -⟩ := (fine_decode (b := .release) H.sane buf).release
    have ih := winds_any hch hlen hsz acts (H.next h1 (leafed_decode c buf _ e))
    have hmem : (∀ ms, Act.seek ms ∈ Act.read buf :: acts → InFile o info ms) ↔ ∀ ms, Act.seek ms ∈ acts → InFile o info ms := by simp
    rw [hmem]
    unfold winds
    rw [e, bind_ok]
    dsimp only
    refine ⟨fun h => ?_, fun h => by rw [ih.2 h]; rfl⟩
    obtain ⟨outs, e'⟩ := ih.1 h
    rw [e', bind_ok]
    exact ⟨_, rfl⟩
  | .seek ms :: acts, c, H => by
    have hmem : (∀ m, Act.seek m ∈ Act.seek ms :: acts → InFile o info m) ↔ InFile o info ms ∧ ∀ m, Act.seek m ∈ acts → InFile o info m := by
      constructor
      · exact fun h => ⟨h ms (by simp), fun m hm => h m (by simp [hm])⟩
      · rintro ⟨h1, h2⟩ m hm
        rcases List.mem_cons.1 hm with h | h
        · cases h; exact h1
        · exact h2 m h
    rw [hmem]
    have hs := seek_any H hch hlen hsz ms
    unfold winds
    by_cases hq : InFile o info ms
    · obtain ⟨c', e, h1⟩ := hs.1 hq
      have ih := winds_any hch hlen hsz acts (H.next h1 (leafed_seek c ms _ e))
      rw [e, bind_ok]
      exact ⟨fun h => ih.1 h.2, fun h => ih.2 fun h' => h ⟨hq, h'⟩⟩
    · exact ⟨fun h => absurd h.1 hq, fun _ => by rw [hs.2 hq]; rfl⟩

/-- the three lists of a file have all the headers it counts (exactly what it takes to play it, C32) -/
def Complete (h : FrameHeaders) : Prop :=
  h.len ≤ h.frameSizeList.length ∧ h.len ≤ h.bitCursorList.length ∧ h.len ≤ h.stackHistoryList.length

/-- C153, exactly, for every file that can be played and whose stored positions are in its chunks: in a release build, a sequence of reads and seeks
succeeds if and only if all the times that are sought are in the file. Otherwise it panics because a header is missing. -/
theorem C153_exactly_partial (bytes : List Byte) (c : AdhocCodec) (info : StreamInfo) (h : AdhocCodec.load .release bytes = .ok (some c))
    (hi : c.stream.info = some info) (hn : 0 < info.channels) (hr : Complete c.frameHeaderList)
    (hp : ∀ k ∈ c.frameHeaderList.bitCursorList, k / 128 ≤ c.stream.stream.binary.length) (acts : List Act) :
    ((∀ ms, Act.seek ms ∈ acts → InFile c.frameHeaderList info ms) → ∃ outs, winds .release c acts = .ok outs) ∧
    (¬ (∀ ms, Act.seek ms ∈ acts → InFile c.frameHeaderList info ms) → winds .release c acts = .error .expect) := by
  obtain ⟨s, rest, info', hs, hi', h1, h2, h3, h4, -⟩ := load_holds h
  obtain ⟨-, hcount, htyped, -⟩ := back_slim hs
  have hii : info' = info := by
    rw [h3] at hi
    rw [show ({ s.stream with stream := s.stream.stream.seekStart } : AudioStream).info = s.stream.info from rfl, hi'] at hi
    exact Option.some.inj hi
  subst hii
  refine winds_any ((hcount.rate _ hi').2) ?_ ?_ acts ⟨⟨hi, hn, by rw [h4]; simp, ?_, ⟨hr.1, hr.2.1, hr.2.2⟩, ?_⟩, rfl, hp⟩
  · rw [h2]; exact hcount.count
  · rw [h2]; exact htyped.sizes
  · rw [h3]; show 0 / 128 ≤ _; simp
  · intro fc hfc
    rw [h4, List.mem_replicate] at hfc
    rw [hfc.2]
    simp [FrameCodec.new]

theorem ref_winds : ∀ (acts : List Act) (c : AdhocCodec), Ref (winds .debug c acts) (winds .release c acts)
  | [], _ => Ref.rfl
  | .read buf :: acts, c => (ref_decode c buf).bind fun _ => (ref_winds acts _).bind fun _ => Ref.rfl
  | .seek ms :: acts, c => (ref_seek c _).bind fun _ => ref_winds acts _

/-- C153 in a debug build: the same, except that the numbers in the file may make it overflow. -/
theorem C153_debug_partial (bytes : List Byte) (c : AdhocCodec) (info : StreamInfo) (h : AdhocCodec.load .debug bytes = .ok (some c))
    (hi : c.stream.info = some info) (hn : 0 < info.channels) (hr : Complete c.frameHeaderList)
    (hp : ∀ k ∈ c.frameHeaderList.bitCursorList, k / 128 ≤ c.stream.stream.binary.length) (acts : List Act) :
    winds .debug c acts = .error .overflow ∨
    (((∀ ms, Act.seek ms ∈ acts → InFile c.frameHeaderList info ms) → ∃ outs, winds .debug c acts = .ok outs ∧ winds .release c acts = .ok outs) ∧
      (¬ (∀ ms, Act.seek ms ∈ acts → InFile c.frameHeaderList info ms) → winds .debug c acts = .error .expect)) := by
  rcases ref_winds acts c with e | e
  · rw [e]
    obtain ⟨h1, h2⟩ := C153_exactly_partial bytes c info ((ref_load bytes).ok h) hi hn hr hp acts
    refine .inr ⟨fun hin => ?_, h2⟩
    obtain ⟨outs, eo⟩ := h1 hin
    exact ⟨outs, eo, eo⟩
  · exact .inl e

-- a file of two calls whose second frame is said to begin at bit 3 and which has a position too many: the times up to 6 are in it and 7 is not
example : (match encodeAll .release (fresh { sampleRate := 1000, channels := 1 } 0) [List.replicate 3 (F32.ofInt 0), List.replicate 3 (F32.ofInt 1)] with
    | .ok c0 => match AdhocCodec.load .release (file { c0 with frameHeaderList := { c0.frameHeaderList with bitCursorList := [0, 3, 5] } }) with
      | .ok (some c) => decide (c.stream.info = some { sampleRate := 1000, channels := 1 }) &&
          decide (c.frameHeaderList.len = 2 ∧ c.frameHeaderList.len ≤ c.frameHeaderList.frameSizeList.length ∧
            c.frameHeaderList.len ≤ c.frameHeaderList.bitCursorList.length ∧ c.frameHeaderList.len ≤ c.frameHeaderList.stackHistoryList.length) &&
          decide (∀ k ∈ c.frameHeaderList.bitCursorList, k / 128 ≤ c.stream.stream.binary.length) &&
          decide (InFile c.frameHeaderList { sampleRate := 1000, channels := 1 } 6 ∧ ¬ InFile c.frameHeaderList { sampleRate := 1000, channels := 1 } 7) &&
          (match winds .release c [.seek 4, .read [F32.ofInt 5], .seek 6], winds .release c [.seek 4, .read [F32.ofInt 5], .seek 7] with
            | .ok _, .error .expect => true
            | _, _ => false)
      | _ => false
    | .error _ => false) = true := by decide +kernel

/-- C153 as stated -/
def C153_statement : Prop :=
  ∀ (bytes : List Byte) (c : AdhocCodec) (info : StreamInfo), AdhocCodec.load .release bytes = .ok (some c) → c.stream.info = some info →
    0 < info.channels → Complete c.frameHeaderList → ∀ acts : List Act, (∀ ms, Act.seek ms ∈ acts → InFile c.frameHeaderList info ms) →
    ∃ outs, winds .release c acts = .ok outs

/-- C153 is false: the position of the second frame of this file is one chunk too far, and a seek to it panics. -/
theorem C153_false : ¬ C153_statement := by
  intro hall
  have h : (match astray with
    | .ok c0 => match AdhocCodec.load .release (file c0) with
      | .ok (some c) => (match winds .release c [.seek 4] with | .ok _ => false | .error _ => true) &&
          decide (c.stream.info = some { sampleRate := 1000, channels := 1 }) &&
          decide (c.frameHeaderList.len ≤ c.frameHeaderList.frameSizeList.length ∧ c.frameHeaderList.len ≤ c.frameHeaderList.bitCursorList.length ∧
            c.frameHeaderList.len ≤ c.frameHeaderList.stackHistoryList.length) &&
          decide (InFile c.frameHeaderList { sampleRate := 1000, channels := 1 } 4)
      | _ => false
    | .error _ => false) = true := by decide +kernel
  split at h
  · rename_i c0 _
    split at h
    · rename_i c hl
      simp only [Bool.and_eq_true, decide_eq_true_eq] at h
      obtain ⟨⟨⟨h1, h2⟩, h3⟩, h4⟩ := h
      obtain ⟨outs, e⟩ := hall (file c0) c _ hl h2 (by decide) h3 [.seek 4] (by
        intro ms hms
        simp only [List.mem_singleton, Act.seek.injEq] at hms
        rw [hms]; exact h4)
      rw [e] at h1
      cases h1
    · cases h
  · cases h

end Adhoc
