import Verif.Props.Unchanged
import Verif.Props.Endings
import Verif.Props.Protocol
import Verif.Props.Bounds

/-! # C32: exactly which files can be played -/

namespace Adhoc
open Spec F32

/-- the header cursor has only passed headers that are there -/
structure Trod (h : FrameHeaders) : Prop where
  len : h.headerCursor ≤ h.len
  sizes : h.headerCursor ≤ h.frameSizeList.length
  cursors : h.headerCursor ≤ h.bitCursorList.length
  hist : h.headerCursor ≤ h.stackHistoryList.length

/-- the headers are the same, and the cursor has gone over `k` more, or to the end, all of which were there -/
structure Strode (k : Nat) (h h' : FrameHeaders) : Prop where
  same : SameHeaders h h'
  fwd : min h.len (h.headerCursor + k) ≤ h'.headerCursor
  trod : Trod h → Trod h'

theorem Strode.refl (h : FrameHeaders) : Strode 0 h h := ⟨.refl h, by omega, id⟩

theorem Strode.trans {j k : Nat} {a b c : FrameHeaders} (h : Strode j a b) (h' : Strode k b c) : Strode (j + k) a c := by
  refine ⟨h.same.trans h'.same, ?_, fun t => h'.trod (h.trod t)⟩
  have h1 := h.fwd
  have h2 := h'.fwd
  rw [h.same.len] at h2
  omega

theorem Strode.less {j k : Nat} {a b : FrameHeaders} (h : Strode j a b) (hk : k ≤ j) : Strode k a b :=
  ⟨h.same, by have := h.fwd; omega, h.trod⟩

theorem strode_next {h h' : FrameHeaders} {x : Option FrameHeader} (e : h.next = .ok (h', x)) : Strode 1 h h' := by
  unfold FrameHeaders.next at e
  dsimp only at e
  split at e
  · rename_i hlt
    obtain ⟨s, hs, e⟩ := bind_eq_ok.1 e
    obtain ⟨c, hc, e⟩ := bind_eq_ok.1 e
    obtain ⟨t, ht, e⟩ := bind_eq_ok.1 e
    have := (Prod.mk.inj (Except.ok.inj e)).1
    subst this
    refine ⟨⟨rfl⟩, by show min h.len (h.headerCursor + 1) ≤ h.headerCursor + 1; omega, fun t => ?_⟩
    have lt_of : ∀ {α : Type} {l : List α} {i : Nat} {a : α}, idx l i = .ok a → i < l.length := by
      intro α l i a h
      by_contra hn
      rw [idx_far (by omega)] at h
      cases h
    exact ⟨hlt, lt_of hs, lt_of hc, lt_of ht⟩
  · rename_i hge
    have := (Prod.mk.inj (Except.ok.inj e)).1
    subst this
    refine ⟨.refl h, ?_, id⟩
    have : ¬ h.headerCursor < h.len := hge
    omega

theorem strode_frame {b : Build} {fc fc' : FrameCodec} {st st' : AudioStream} {hd hd' : FrameHeaders} {n : Option Nat}
    (e : fc.decodeFrame b st hd = .ok (fc', st', hd', n)) : Strode 1 hd hd' := by
  unfold FrameCodec.decodeFrame at e
  obtain ⟨⟨hd1, hdr⟩, hn, e⟩ := bind_eq_ok.1 e
  have h1 := strode_next hn
  suffices hd1 = hd' by subst this; exact h1
  dsimp only at e
  split at e
  · exact (Prod.mk.inj (Prod.mk.inj (Prod.mk.inj (Except.ok.inj e)).2).2).1
  · split at e
    · obtain ⟨_, -, e⟩ := bind_eq_ok.1 e
      obtain ⟨_, -, e⟩ := bind_eq_ok.1 e
      obtain ⟨_, -, e⟩ := bind_eq_ok.1 e
      obtain ⟨_, -, e⟩ := bind_eq_ok.1 e
      exact (Prod.mk.inj (Prod.mk.inj (Prod.mk.inj (Except.ok.inj e)).2).2).1
    · obtain ⟨_, -, e⟩ := bind_eq_ok.1 e
      exact (Prod.mk.inj (Prod.mk.inj (Prod.mk.inj (Except.ok.inj e)).2).2).1
    · cases e

theorem strode_decodeChannel {b : Build} {c : AdhocCodec} {ch : Nat} :
    Ens (c.decodeChannel b ch) (fun c' => Strode 1 c.frameHeaderList c'.frameHeaderList) := by
  unfold AdhocCodec.decodeChannel
  refine (Ens.any _).bind fun fc _ => ?_
  intro c' h
  obtain ⟨⟨fc', st', hd', n⟩, e, h⟩ := bind_eq_ok.1 h
  obtain ⟨chs, -, h⟩ := bind_eq_ok.1 h
  rw [← Except.ok.inj h]
  exact strode_frame e

theorem strode_decodeBlock {b : Build} {n : Nat} (c : AdhocCodec) :
    Ens (c.decodeBlock b n) (fun c' => Strode n c.frameHeaderList c'.frameHeaderList) := by
  unfold AdhocCodec.decodeBlock
  induction n with
  | zero => exact Ens.ok (.refl _)
  | succ n ih =>
    rw [List.range_succ, foldlM_append']
    refine ih.bind fun c1 h1 => ?_
    simp only [List.foldlM_cons, List.foldlM_nil]
    exact strode_decodeChannel.bind fun c2 h2 => Ens.ok (h1.trans h2)

theorem strode_bufferAudio {b : Build} {n : Nat} (hn : 0 < n) : ∀ (left : Nat) (c : AdhocCodec),
    Ens (AdhocCodec.bufferAudio b n left c) (fun r => Strode (if 0 < left ∧ r.2 = 0 then 1 else 0) c.frameHeaderList r.1.frameHeaderList)
  | 0, c => Ens.ok (by simpa using Strode.refl _)
  | left + 1, c => by
    unfold AdhocCodec.bufferAudio
    split
    · refine (strode_decodeBlock c).bind fun c1 h1 r e => ?_
      have h2 := strode_bufferAudio hn left c1 r e
      exact (h1.trans h2).less (by split <;> omega)
    · exact Ens.ok ((Strode.refl _).less (by simp))

theorem strode_decodeLoop {b : Build} {n legal : Nat} (hn : 0 < n) : ∀ (fuel : Nat) (c : AdhocCodec) (pcm : List F32) (cursor : Nat),
    Ens (AdhocCodec.decodeLoop b n legal fuel c pcm cursor)
      (fun r => Strode (if r.2.2 < legal then 1 else 0) c.frameHeaderList r.1.frameHeaderList)
  | 0, _, _, _ => Ens.error
  | fuel + 1, c, pcm, cursor => by
    unfold AdhocCodec.decodeLoop
    split
    · refine (strode_bufferAudio hn _ c).bind ?_
      rintro ⟨c1, left⟩ h1
      dsimp only at h1 ⊢
      split
      · rename_i h0
        rw [if_pos ⟨by decide, h0⟩] at h1
        exact Ens.ok (h1.less (by split <;> omega))
      · refine (popBlock_inv n 0 c1 pcm cursor).bind ?_
        rintro ⟨c2, pcm2, cur2⟩ ⟨l, h2⟩ r e
        obtain rfl : c2 = { c1 with channelStateList := l } := h2
        have h3 := strode_decodeLoop hn fuel _ _ _ r e
        exact (h1.trans h3).less (by omega)
    · rename_i hge
      exact Ens.ok ((Strode.refl _).less (by rw [if_neg hge]))

theorem strode_decode {b : Build} {c c' : AdhocCodec} {info : StreamInfo} {buf pcm : List F32} {k : Option Nat}
    (hi : c.stream.info = some info) (hn : 0 < info.channels)
    (e : c.decode b buf = .ok (c', pcm, k)) :
    Strode (if k.getD 0 < buf.length / info.channels * info.channels then 1 else 0) c.frameHeaderList c'.frameHeaderList := by
  unfold AdhocCodec.decode AdhocCodec.decodeRaw at e
  rw [hi] at e
  simp only [expect, bind_ok] at e
  rw [udiv_of_pos hn, bind_ok] at e
  obtain ⟨⟨c1, p1, n1⟩, e, h⟩ := bind_eq_ok.1 e
  obtain ⟨⟨c2, p2, n2⟩, e2, e⟩ := bind_eq_ok.1 e
  have h2 := strode_decodeLoop hn _ _ _ _ _ e2
  dsimp only at h2 h e
  obtain ⟨r1, r2⟩ := Prod.mk.inj (Except.ok.inj e)
  obtain ⟨-, r3⟩ := Prod.mk.inj r2
  obtain ⟨q1, q2⟩ := Prod.mk.inj (Except.ok.inj h)
  obtain ⟨-, q3⟩ := Prod.mk.inj q2
  subst r1
  subst q1
  have : k.getD 0 = n2 := by
    rw [← q3, ← r3]
    split <;> simp; omega
  rw [this]
  exact h2

/-- reads that finish give something -/
theorem winds_of_after {b : Build} : ∀ (acts : List Act) {c c' : AdhocCodec}, after b c acts = .ok c' → ∃ outs, winds b c acts = .ok outs
  | [], _, _, _ => ⟨[], rfl⟩
  | .read buf :: acts, c, c', h => by
    unfold after at h
    obtain ⟨⟨c1, p, k⟩, e, h⟩ := bind_eq_ok.1 h
    obtain ⟨outs, e2⟩ := winds_of_after acts h
    refine ⟨(p, k) :: outs, ?_⟩
    unfold winds
    rw [e, bind_ok]
    dsimp only
    rw [e2]
    rfl
  | .seek ms :: acts, c, c', h => by
    unfold after at h
    obtain ⟨c1, e, h⟩ := bind_eq_ok.1 h
    obtain ⟨outs, e2⟩ := winds_of_after acts h
    refine ⟨outs, ?_⟩
    unfold winds
    rw [e, bind_ok, e2]

theorem runAll_of_after {b : Build} : ∀ (bufs : List (List F32)) (c : AdhocCodec), Use.runAll b c (bufs.map .decode) = after b c (bufs.map .read)
  | [], _ => rfl
  | buf :: bufs, c => by
    simp only [List.map_cons, Use.runAll, after, Use.run, bind_assoc, pure_bind]
    congr 1
    funext r
    exact runAll_of_after bufs r.1

theorem strode_reads {b : Build} {info : StreamInfo} (hn : 0 < info.channels) {buf : List F32} {M : Nat} (hM : M < buf.length / info.channels * info.channels) :
    ∀ (k : Nat) {c c' : AdhocCodec} (_ : c.stream.info = some info)
      (_ : ∀ k outs, winds b c (List.replicate k (.read buf)) = .ok outs → (outs.map fun o => o.2.getD 0).sum ≤ M),
      after b c (List.replicate k (.read buf)) = .ok c' → Strode k c.frameHeaderList c'.frameHeaderList
  | 0, c, c', _, _, h => by
    obtain rfl : c = c' := Except.ok.inj h
    exact .refl _
  | k + 1, c, c', hi, hb, h => by
    have h0 := h
    rw [List.replicate_succ] at h
    unfold after at h
    obtain ⟨⟨c1, p, o⟩, e, h⟩ := bind_eq_ok.1 h
    dsimp only at h
    have tail : ∀ j outs, winds b c1 (List.replicate j (.read buf)) = .ok outs → o.getD 0 + (outs.map fun o => o.2.getD 0).sum ≤ M := by
      intro j outs hw
      have := hb (j + 1) ((p, o) :: outs) (by
        rw [List.replicate_succ]
        unfold winds
        rw [e, bind_ok]
        dsimp only
        rw [hw]
        rfl)
      simpa using this
    have h1 := strode_decode hi hn e
    rw [if_pos (by have := tail 0 [] rfl; simp at this; omega)] at h1
    have hi1 : c1.stream.info = some info := (leafed_decode c buf _ e).info.trans hi
    have h2 := strode_reads hn hM k hi1 (fun j outs hw => by have := tail j outs hw; omega) h
    exact (h1.trans h2).less (by omega)

/-- C32, exactly: in a release build, the codec loaded from a file survives every sequence of decode calls and rewinds if and only if it
has at least one channel and each of its three header vectors is at least as long as the header count. -/
theorem C32_exactly_partial (bytes : List Byte) (c : AdhocCodec) (h : AdhocCodec.load .release bytes = .ok (some c)) :
    (∀ us : List Use, (∀ pcm, Use.encode pcm ∉ us) → ∃ c', Use.runAll .release c us = .ok c') ↔
      (∀ info, c.stream.info = some info → 0 < info.channels) ∧
      c.frameHeaderList.len ≤ c.frameHeaderList.frameSizeList.length ∧ c.frameHeaderList.len ≤ c.frameHeaderList.bitCursorList.length ∧
      c.frameHeaderList.len ≤ c.frameHeaderList.stackHistoryList.length := by
  obtain ⟨K, n, -, hinfo, hbound⟩ := C79_bounded_by_file .release bytes c h
  obtain ⟨info, hi, hin⟩ : ∃ info, c.stream.info = some info ∧ info.channels = n := by
    cases hc : c.stream.info with
    | none => rw [hc] at hinfo; cases hinfo
    | some info => rw [hc] at hinfo; exact ⟨info, rfl, Option.some.inj hinfo⟩
  constructor
  · intro hall
    have hdec : ∀ bufs : List (List F32), ∃ c', after .release c (bufs.map .read) = .ok c' := by
      intro bufs
      obtain ⟨c', e⟩ := hall (bufs.map .decode) (by simp)
      exact ⟨c', by rw [← runAll_of_after]; exact e⟩
    have hn : 0 < info.channels := by
      rcases Nat.eq_zero_or_pos info.channels with h0 | h0
      · obtain ⟨c', e⟩ := hdec [[]]
        simp only [List.map_cons, List.map_nil, after] at e
        obtain ⟨r, e, -⟩ := bind_eq_ok.1 e
        unfold AdhocCodec.decode AdhocCodec.decodeRaw at e
        rw [hi] at e
        simp only [expect, bind_ok, h0] at e
        cases e
      · exact h0
    refine ⟨fun i h' => by rw [hi] at h'; cases h'; exact hn, ?_⟩
    set M := 65535 * ((K + n - 1) / n) * n with hMdef
    have hrep : ∀ k (buf : List F32), List.replicate k (Act.read buf) = (List.replicate k buf).map .read := by simp
    set buf : List F32 := List.replicate ((M + 1) * info.channels) (F32.ofInt 0) with hbuf
    have hM : M < buf.length / info.channels * info.channels := by
      rw [hbuf, List.length_replicate, Nat.mul_div_cancel _ hn]
      calc M < M + 1 := Nat.lt_succ_self _
        _ ≤ (M + 1) * info.channels := Nat.le_mul_of_pos_right _ hn
    have hb : ∀ k outs, winds .release c (List.replicate k (.read buf)) = .ok outs → (outs.map fun o => o.2.getD 0).sum ≤ M := by
      intro k outs hw
      have := hbound _ outs hw
      have hs : seeksIn (List.replicate k (Act.read buf)) = 0 := by
        rw [hrep]
        clear * -
        induction k with
        | zero => rfl
        | succ k ih => simp [seeksIn]
      rw [hs] at this
      simpa [hMdef] using this
    obtain ⟨c', e⟩ := hdec (List.replicate c.frameHeaderList.len buf)
    rw [← hrep] at e
    have st := strode_reads hn hM _ hi hb e
    have hcur : c.frameHeaderList.headerCursor = 0 := by
      obtain ⟨_, -, -, -, hinit, -⟩ := load_cast h
      rw [← hinit]
      rfl
    have tr := st.trod ⟨by omega, by omega, by omega, by omega⟩
    have hf := st.fwd
    rw [hcur] at hf
    have h1 := tr.sizes
    have h2 := tr.cursors
    have h3 := tr.hist
    have hsame := st.same.eq
    rw [hsame] at h1 h2 h3
    have e1 : ∀ i, (c.frameHeaderList.setCursor i).headerCursor = i := fun _ => rfl
    rw [e1] at h1 h2 h3
    have e2 : ∀ i, (c.frameHeaderList.setCursor i).frameSizeList = c.frameHeaderList.frameSizeList := fun _ => rfl
    have e3 : ∀ i, (c.frameHeaderList.setCursor i).bitCursorList = c.frameHeaderList.bitCursorList := fun _ => rfl
    have e4 : ∀ i, (c.frameHeaderList.setCursor i).stackHistoryList = c.frameHeaderList.stackHistoryList := fun _ => rfl
    rw [e2] at h1
    rw [e3] at h2
    rw [e4] at h3
    omega
  · rintro ⟨hpos, h1, h2, h3⟩ us hus
    have := C32_corrupt_files_partial .release bytes
    obtain ⟨r, e, hr⟩ := this.release
    rw [h] at e
    obtain rfl := Except.ok.inj e
    obtain ⟨c', e', -⟩ := (hr c rfl info hi (hpos info hi) h1 h2 h3 us hus).release
    exact ⟨c', e'⟩

/-- both sides occur: the file of an empty recording, and the same with a header count of 1 -/
example : (∃ c, AdhocCodec.load .release (torn.set 12 0#8) = .ok (some c) ∧ c.frameHeaderList.len ≤ c.frameHeaderList.frameSizeList.length) ∧
    (∃ c, AdhocCodec.load .release torn = .ok (some c) ∧ ¬ c.frameHeaderList.len ≤ c.frameHeaderList.frameSizeList.length) := by
  constructor
  · have h : (match AdhocCodec.load .release (torn.set 12 0#8) with
      | .ok (some c) => decide (c.frameHeaderList.len ≤ c.frameHeaderList.frameSizeList.length)
      | _ => false) = true := by decide +kernel
    split at h
    · exact ⟨_, by assumption, of_decide_eq_true h⟩
    · cases h
  · have h : (match AdhocCodec.load .release torn with
      | .ok (some c) => decide (¬ c.frameHeaderList.len ≤ c.frameHeaderList.frameSizeList.length)
      | _ => false) = true := by decide +kernel
    split at h
    · exact ⟨_, by assumption, of_decide_eq_true h⟩
    · cases h

end Adhoc
