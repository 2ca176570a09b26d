import Verif.Proofs.Values
import Verif.Proofs.Terminate
import Verif.Model.Wav
import Verif.Model.Cli

/-! Every loop ends, on any state of the codecs, and playing is bounded by the frame headers that are left. -/

namespace Adhoc
open Spec

/-- the computation ends: with a result in `P`, or with a panic -/
structure Halts {α : Type} (x : R α) (P : α → Prop) : Prop where
  ends : x ≠ .error .fuel
  post : Ens x P

namespace Halts

theorem ok {α : Type} {a : α} {P : α → Prop} (h : P a) : Halts (.ok a) P := ⟨by simp, .ok h⟩

theorem error {α : Type} {e : Panic} {P : α → Prop} (h : e ≠ .fuel) : Halts (.error e) P := ⟨by simpa using h, .error⟩

theorem bind {α β : Type} {x : R α} {f : α → R β} {P : α → Prop} {Q : β → Prop} (hx : Halts x P) (hf : ∀ a, P a → Halts (f a) Q) :
    Halts (x >>= f) Q :=
  ⟨BitStream.bind_ne_fuel hx.ends fun a ha => (hf a (hx.post a ha)).ends, hx.post.bind fun a ha => (hf a ha).post⟩

theorem mono {α : Type} {x : R α} {P Q : α → Prop} (hx : Halts x P) (h : ∀ a, P a → Q a) : Halts x Q :=
  ⟨hx.ends, fun a ha => h a (hx.post a ha)⟩

theorem of {α : Type} {x : R α} (h : x ≠ .error .fuel) : Halts x (fun a => x = .ok a) := ⟨h, fun _ h => h⟩

theorem any {α : Type} {x : R α} (h : x ≠ .error .fuel) : Halts x (fun _ => True) := ⟨h, .any x⟩

theorem foldlM {α β : Type} {f : β → α → R β} {P : β → Prop} (hf : ∀ c a, P c → Halts (f c a) P) :
    ∀ (l : List α) (c : β) (_ : P c), Halts (l.foldlM f c) P
  | [], _, h => ok h
  | a :: l, c, h => by
    rw [List.foldlM_cons]
    exact (hf c a h).bind fun c' h' => foldlM hf l c' h'

theorem mapM {α β : Type} {f : α → R β} (hf : ∀ a, f a ≠ .error .fuel) (l : List α) : Halts (l.mapM f) (fun _ => True) := by
  induction l with
  | nil => exact ok trivial
  | cons a l ih =>
    rw [List.mapM_cons]
    exact (any (hf a)).bind fun _ _ => ih.bind fun _ _ => ok trivial

end Halts

theorem halts_idx {α : Type} (l : List α) (i : Nat) : Halts (idx l i) (fun a => l[i]? = some a) :=
  (Halts.of (BitStream.idx_ne_fuel l i)).mono fun _ h => idx_eq_ok.1 h

theorem halts_setIdx {α : Type} (l : List α) (i : Nat) (a : α) : Halts (setIdx l i a) (fun l' => i < l.length ∧ l' = l.set i a) :=
  (Halts.of (BitStream.setIdx_ne_fuel l i a)).mono fun _ h => setIdx_eq_ok.1 h

theorem halts_chkU (b : Build) (n : Nat) (x : Int) : Halts (chkU b n x) (fun y => x = y ∨ b = .release ∧ (y : Int) = x % 2 ^ n) := by
  unfold chkU
  split
  · exact Halts.ok (.inl (by omega))
  · cases b
    · exact Halts.error (by simp)
    · exact Halts.ok (.inr ⟨rfl, Int.toNat_of_nonneg (Int.emod_nonneg _ (by positivity))⟩)

theorem halts_udiv (a n : Nat) : Halts (udiv a n) (fun q => 0 < n ∧ q = a / n) := by
  unfold udiv
  split
  · exact Halts.error (by simp)
  · exact Halts.ok ⟨by omega, rfl⟩

theorem halts_expect {α : Type} (o : Option α) : Halts (expect o) (fun a => o = some a) := by
  cases o
  · exact Halts.error (by simp)
  · exact Halts.ok rfl

theorem halts_clampI (x lo hi : Int) : Halts (clampI x lo hi) (fun _ => True) := by
  unfold clampI
  split
  · exact Halts.error (by simp)
  · exact Halts.ok trivial

/-! ## decoding -/

theorem halts_decodeSamples {b : Build} {k : Nat} : ∀ (n : Nat) (s : BitStream) (h : CircularStack Int) (buf : List F32),
    Halts (FrameCodec.decodeSamples b k n s h buf) (fun r => r.2.2.length = buf.length + n)
  | 0, _, _, _ => Halts.ok rfl
  | n + 1, s, h, buf => by
    unfold FrameCodec.decodeSamples
    refine (Halts.any (BitStream.readCompressed_ne_fuel b s k)).bind fun r _ => (halts_clampI _ _ _).bind fun a _ => ?_
    refine (halts_decodeSamples n _ _ _).mono fun x hx => ?_
    rw [hx, List.length_append, List.length_singleton]; omega

theorem halts_readRaw (s : BitStream) : Halts (FrameCodec.readRaw s) (fun _ => True) := by
  unfold FrameCodec.readRaw
  exact (Halts.any (BitStream.readBits_ne_fuel s 16)).bind fun _ _ => Halts.ok trivial

/-- how many headers can be read at all -/
def Spec.headersHeld (h : FrameHeaders) : Nat :=
  min h.len (min h.frameSizeList.length (min h.bitCursorList.length h.stackHistoryList.length))

theorem halts_next {h : FrameHeaders} (H : ∀ x ∈ h.frameSizeList, x < 2 ^ 16) : Halts h.next (fun r =>
    (h.len ≤ h.headerCursor ∧ r = (h, none)) ∨
      (h.headerCursor < headersHeld h ∧ r.1 = h.setCursor (h.headerCursor + 1) ∧ ∃ hdr, r.2 = some hdr ∧ hdr.size < 2 ^ 16)) := by
  unfold FrameHeaders.next
  dsimp only
  split
  · next hl =>
    refine (halts_idx _ _).bind fun size h1 => (halts_idx _ _).bind fun cur h2 => (halts_idx _ _).bind fun hist h3 => Halts.ok (.inr ⟨?_, rfl, _, rfl, ?_⟩)
    · obtain ⟨h1, -⟩ := List.getElem?_eq_some_iff.1 h1
      obtain ⟨h2, -⟩ := List.getElem?_eq_some_iff.1 h2
      obtain ⟨h3, -⟩ := List.getElem?_eq_some_iff.1 h3
      have hl : h.headerCursor < h.len := hl
      unfold headersHeld
      omega
    · exact H size (List.mem_of_getElem? h1)
  · next hl => exact Halts.ok (.inl ⟨by have : ¬ h.headerCursor < h.len := hl; omega, rfl⟩)

theorem halts_decodeFrame {b : Build} {fc : FrameCodec} {st : AudioStream} {hd : FrameHeaders} (H : ∀ x ∈ hd.frameSizeList, x < 2 ^ 16) :
    Halts (fc.decodeFrame b st hd) (fun r => r.2.1.info = st.info ∧
      ((hd.len ≤ hd.headerCursor ∧ r.1 = fc ∧ r.2.2.1 = hd) ∨
        (hd.headerCursor < headersHeld hd ∧ r.2.2.1 = hd.setCursor (hd.headerCursor + 1) ∧ r.1.buffered.length ≤ fc.buffered.length + 65535))) := by
  unfold FrameCodec.decodeFrame
  refine (halts_next H).bind ?_
  rintro ⟨hd', o⟩ (⟨h1, h2⟩ | ⟨h1, h2, hdr, h3, h4⟩)
  · cases h2
    exact Halts.ok ⟨rfl, .inl ⟨h1, rfl, rfl⟩⟩
  · dsimp only at h2 h3
    subst h2 h3
    dsimp only
    split
    · refine (halts_readRaw _).bind fun _ _ => (halts_readRaw _).bind fun _ _ => (halts_readRaw _).bind fun _ _ => ?_
      refine (halts_decodeSamples _ _ _ _).bind fun r hr => Halts.ok ⟨rfl, .inr ⟨h1, rfl, ?_⟩⟩
      dsimp only
      rw [hr]
      simp only [List.length_append, List.length_cons, List.length_nil]
      omega
    · refine (halts_decodeSamples _ _ _ _).bind fun r hr => Halts.ok ⟨rfl, .inr ⟨h1, rfl, ?_⟩⟩
      dsimp only
      rw [hr]
      omega
    · exact Halts.error (by simp)

/-- a codec whose sizes are 16-bit values -/
structure Cast (c : AdhocCodec) (n : Nat) (base : FrameHeaders) : Prop where
  chans : ∃ info, c.stream.info = some info ∧ info.channels = n
  headers : c.frameHeaderList = base.setCursor c.frameHeaderList.headerCursor
  sizes : ∀ x ∈ base.frameSizeList, x < 2 ^ 16
  width : c.channelStateList.length ≤ n

theorem Cast.sizes' {c : AdhocCodec} {n : Nat} {base : FrameHeaders} (H : Cast c n base) : ∀ x ∈ c.frameHeaderList.frameSizeList, x < 2 ^ 16 := by
  rw [H.headers]; exact H.sizes

/-- the buffer of channel `i` -/
def bufLen (c : AdhocCodec) (i : Nat) : Nat := ((c.channelStateList[i]?).map fun fc => fc.buffered.length).getD 0

theorem bufLen_set {c : AdhocCodec} {ch : Nat} (h : ch < c.channelStateList.length) (fc : FrameCodec) (st : AudioStream) (hd : FrameHeaders) (i : Nat) :
    bufLen { c with channelStateList := c.channelStateList.set ch fc, stream := st, frameHeaderList := hd } i = if i = ch then fc.buffered.length else bufLen c i := by
  unfold bufLen
  dsimp only
  rw [List.getElem?_set]
  by_cases hi : ch = i
  · subst hi; simp [h]
  · rw [if_neg hi, if_neg (Ne.symm hi)]

theorem halts_decodeChannel {b : Build} {c : AdhocCodec} {n : Nat} {base : FrameHeaders} (H : Cast c n base) (ch : Nat) :
    Halts (c.decodeChannel b ch) (fun c' => Cast c' n base ∧ c'.channelStateList.length = c.channelStateList.length ∧
      ch < c.channelStateList.length ∧ (∀ i, i ≠ ch → bufLen c' i = bufLen c i) ∧
      ((base.len ≤ c.frameHeaderList.headerCursor ∧ c'.frameHeaderList.headerCursor = c.frameHeaderList.headerCursor ∧ bufLen c' ch = bufLen c ch) ∨
       (c.frameHeaderList.headerCursor < headersHeld base ∧ c'.frameHeaderList.headerCursor = c.frameHeaderList.headerCursor + 1 ∧
          bufLen c' ch ≤ bufLen c ch + 65535))) := by
  unfold AdhocCodec.decodeChannel
  refine (halts_idx _ _).bind fun fc hfc => (halts_decodeFrame H.sizes').bind ?_
  rintro ⟨fc', st, hd, o⟩ ⟨hi, hr⟩
  refine (halts_setIdx _ _ _).bind fun chs hchs => Halts.ok ?_
  obtain ⟨hlt, rfl⟩ := hchs
  have hb : bufLen c ch = fc.buffered.length := by unfold bufLen; rw [hfc]; rfl
  have hlen : c.frameHeaderList.len = base.len := by rw [H.headers]; rfl
  have hheld : headersHeld c.frameHeaderList = headersHeld base := by rw [H.headers]; rfl
  refine ⟨⟨?_, ?_, H.sizes, by simpa using H.width⟩, by simp, hlt, fun i hi' => ?_, ?_⟩
  · obtain ⟨info, h1, h2⟩ := H.chans
    exact ⟨info, by rw [← h1]; exact hi, h2⟩
  · dsimp only
    rcases hr with ⟨-, -, h⟩ | ⟨-, h, -⟩
    · dsimp only at h; rw [h]; exact H.headers
    · dsimp only at h; rw [h]; conv_lhs => rw [H.headers]
      rfl
  · rw [bufLen_set hlt, if_neg hi']
  · rw [bufLen_set hlt, if_pos rfl, hb]
    dsimp only at hr ⊢
    rcases hr with ⟨h1, h2, h3⟩ | ⟨h1, h2, h3⟩
    · exact .inl ⟨by omega, by rw [h3], by rw [h2]⟩
    · exact .inr ⟨by omega, by rw [h2]; rfl, h3⟩

/-- at most `B` blocks can still be played -/
def Left (c : AdhocCodec) (n : Nat) (base : FrameHeaders) (B : Nat) : Prop :=
  ∃ D R, (∀ i, bufLen c i ≤ D) ∧ headersHeld base ≤ c.frameHeaderList.headerCursor + R * n ∧ D + 65535 * R ≤ B

theorem halts_decodeBlock {b : Build} {c : AdhocCodec} {n : Nat} {base : FrameHeaders} (H : Cast c n base)
    (he : ∀ i, bufLen c i = 0) {R : Nat} (hR : headersHeld base ≤ c.frameHeaderList.headerCursor + R * n) :
    Halts (c.decodeBlock b n) (fun c' => Cast c' n base ∧ Left c' n base (65535 * R)) := by
  have key : ∀ j, Halts ((List.range j).foldlM (fun c ch => c.decodeChannel b ch) c) (fun c' => Cast c' n base ∧
      (∀ i, i < j → bufLen c' i ≤ 65535) ∧ (∀ i, j ≤ i → bufLen c' i = 0) ∧
      ((headersHeld base ≤ c.frameHeaderList.headerCursor ∧ c'.frameHeaderList.headerCursor = c.frameHeaderList.headerCursor ∧ ∀ i, bufLen c' i = 0) ∨
        (c.frameHeaderList.headerCursor < headersHeld base ∧
          min (headersHeld base) (c.frameHeaderList.headerCursor + j) ≤ c'.frameHeaderList.headerCursor))) := by
    intro j
    induction j with
    | zero =>
      refine Halts.ok ⟨H, fun i hi => absurd hi (by omega), fun i _ => he i, ?_⟩
      rcases Nat.lt_or_ge c.frameHeaderList.headerCursor (headersHeld base) with h | h
      · exact .inr ⟨h, by omega⟩
      · exact .inl ⟨h, rfl, he⟩
    | succ j ih =>
      rw [List.range_succ, List.foldlM_append]
      refine ih.bind fun c1 ⟨H1, h1, h2, h3⟩ => ?_
      rw [List.foldlM_cons]
      refine (halts_decodeChannel H1 j).bind fun c2 ⟨H2, hl, hj, ho, hc⟩ => Halts.ok ⟨H2, ?_, ?_, ?_⟩
      · intro i hi
        by_cases hij : i = j
        · subst hij
          have := h2 i le_rfl
          rcases hc with ⟨-, -, h⟩ | ⟨-, -, h⟩ <;> omega
        · rw [ho i hij]; exact h1 i (by omega)
      · intro i hi
        rw [ho i (by omega)]; exact h2 i (by omega)
      · have hle : headersHeld base ≤ base.len := Nat.min_le_left _ _
        rcases h3 with ⟨h3, h4, h5⟩ | ⟨h3, h4⟩
        · left
          refine ⟨h3, ?_⟩
          rcases hc with ⟨-, h, h'⟩ | ⟨h, -, -⟩
          · refine ⟨by omega, fun i => ?_⟩
            by_cases hij : i = j
            · subst hij; rw [h', h5]
            · rw [ho i hij, h5]
          · omega
        · right
          refine ⟨h3, ?_⟩
          rcases hc with ⟨h, h', -⟩ | ⟨h, h', -⟩ <;> omega
  refine (key n).mono fun c' ⟨H', h1, h2, h3⟩ => ⟨H', ?_⟩
  rcases h3 with ⟨h3, h4, h5⟩ | ⟨h3, h4⟩
  · exact ⟨0, 0, fun i => by rw [h5], by omega, by omega⟩
  · match R, hR with
    | 0, hR => omega
    | R + 1, hR =>
      refine ⟨65535, R, fun i => ?_, ?_, by omega⟩
      · rcases Nat.lt_or_ge i n with h | h
        · exact h1 i h
        · rw [h2 i h]; omega
      · rw [Nat.add_mul, Nat.one_mul] at hR
        omega

theorem empty_bufLen {c : AdhocCodec} : c.isBuffersEmpty = true ↔ ∀ i, bufLen c i = 0 := by
  unfold AdhocCodec.isBuffersEmpty
  rw [List.all_eq_true]
  constructor
  · intro h i
    unfold bufLen
    cases e : c.channelStateList[i]? with
    | none => rfl
    | some fc =>
      have := h fc (List.mem_of_getElem? e)
      simp only [List.isEmpty_iff] at this
      simp [this]
  · intro h fc hfc
    obtain ⟨i, hi⟩ := List.mem_iff_getElem?.1 hfc
    have := h i
    unfold bufLen at this
    rw [hi] at this
    simpa [List.length_eq_zero_iff] using this

theorem halts_bufferAudio {b : Build} {n : Nat} {base : FrameHeaders} {B : Nat} : ∀ (left : Nat) {c : AdhocCodec} (_ : Cast c n base)
    (_ : Left c n base B),
    Halts (AdhocCodec.bufferAudio b n left c) (fun r => Cast r.1 n base ∧ Left r.1 n base B ∧ (0 < r.2 → ∃ i, 0 < bufLen r.1 i))
  | 0, c, H, HB => Halts.ok ⟨H, HB, fun h => absurd h (by simp)⟩
  | left + 1, c, H, HB => by
    unfold AdhocCodec.bufferAudio
    split
    · next he =>
      rw [empty_bufLen] at he
      obtain ⟨D, R, -, h2, h3⟩ := HB
      refine (halts_decodeBlock H he h2).bind fun c' ⟨H', D', R', k1, k2, k3⟩ => ?_
      exact halts_bufferAudio left H' ⟨D', R', k1, k2, by omega⟩
    · next he =>
      refine Halts.ok ⟨H, HB, fun _ => ?_⟩
      rw [empty_bufLen] at he
      push Not at he
      obtain ⟨i, hi⟩ := he
      exact ⟨i, Nat.pos_of_ne_zero hi⟩

theorem halts_popBlock {n : Nat} {base : FrameHeaders} {legal : Nat} : ∀ (m ch : Nat) {c : AdhocCodec} {pcm : List F32} (cursor : Nat) (_ : Cast c n base)
    (_ : cursor + m ≤ legal),
    Halts (AdhocCodec.popBlock legal m ch c pcm cursor) (fun r => Cast r.1 n base ∧ r.2.2 = cursor + m ∧ r.2.1.length = pcm.length ∧
      r.1.channelStateList.length = c.channelStateList.length ∧
      r.1.frameHeaderList = c.frameHeaderList ∧ (∀ i, bufLen r.1 i = if ch ≤ i ∧ i < ch + m then bufLen c i - 1 else bufLen c i) ∧
      r.1.scale = c.scale)
  | 0, ch, c, pcm, cursor, H, _ => Halts.ok ⟨H, rfl, rfl, rfl, rfl, fun i => by rw [if_neg (by omega)], rfl⟩
  | m + 1, ch, c, pcm, cursor, H, hl => by
    unfold AdhocCodec.popBlock
    rw [if_pos (by omega)]
    refine (halts_idx _ _).bind fun fc hfc => ?_
    dsimp only
    refine (halts_setIdx _ _ _).bind ?_
    rintro _ ⟨hlt, rfl⟩
    refine (halts_setIdx _ _ _).bind ?_
    rintro _ ⟨hlt', rfl⟩
    have hset := fun i => bufLen_set hlt { fc with buffered := fc.buffered.tail } c.stream c.frameHeaderList i
    have hb : bufLen c ch = fc.buffered.length := by unfold bufLen; rw [hfc]; rfl
    have H' : Cast { c with channelStateList := c.channelStateList.set ch { fc with buffered := fc.buffered.tail } } n base :=
      ⟨H.chans, H.headers, H.sizes, by simpa using H.width⟩
    refine (halts_popBlock m (ch + 1) (cursor + 1) H' (by omega)).mono ?_
    rintro ⟨c', pcm', cur'⟩ ⟨k1, k2, k3, k4, k5, k6, k7⟩
    refine ⟨k1, by dsimp only at k2 ⊢; omega, by simpa using k3, by simpa using k4, k5, fun i => ?_, k7⟩
    rw [k6 i]
    have := hset i
    dsimp only at this ⊢
    rw [this]
    by_cases hi : i = ch
    · subst hi
      rw [if_neg (by omega), if_pos rfl, if_pos (by omega), hb]
      simp
    · rw [if_neg hi]
      by_cases h2 : ch + 1 ≤ i ∧ i < ch + 1 + m
      · rw [if_pos h2, if_pos (by omega)]
      · rw [if_neg h2, if_neg (by omega)]

theorem halts_decodeLoop {b : Build} {n : Nat} {base : FrameHeaders} (hn : 0 < n) {q : Nat} : ∀ (fuel : Nat) {c : AdhocCodec} {pcm : List F32} (j B : Nat)
    (_ : Cast c n base) (_ : Left c n base B) (_ : q < j + fuel) (_ : j ≤ q),
    Halts (AdhocCodec.decodeLoop b n (q * n) fuel c pcm (j * n)) (fun r => Cast r.1 n base ∧ r.2.1.length = pcm.length ∧
      ∃ k, r.2.2 = (j + k) * n ∧ j + k ≤ q ∧ k ≤ B ∧ Left r.1 n base (B - k))
  | 0, _, _, _, _, _, _, hf, hj => absurd hf (by omega)
  | fuel + 1, c, pcm, j, B, H, HB, hf, hj => by
    unfold AdhocCodec.decodeLoop
    split
    · next hlt =>
      have hlt : j < q := Nat.lt_of_mul_lt_mul_right hlt
      refine (halts_bufferAudio _ H HB).bind fun ⟨c1, left⟩ ⟨H1, HB1, hpos⟩ => ?_
      dsimp only at H1 HB1 hpos ⊢
      split
      · exact Halts.ok ⟨H1, rfl, 0, rfl, hj, Nat.zero_le _, HB1⟩
      · next hleft =>
        obtain ⟨i, hi⟩ := hpos (by omega)
        have hle : j * n + n ≤ q * n := by
          have := Nat.mul_le_mul_right n (show j + 1 ≤ q by omega)
          rwa [Nat.add_mul, Nat.one_mul] at this
        refine (halts_popBlock n 0 (j * n) H1 hle).bind ?_
        rintro ⟨c2, pcm2, cur2⟩ ⟨H2, k2, k3, k4, k5, k6, -⟩
        dsimp only at k2 k3 k4 k5 k6 ⊢
        have hcur : cur2 = (j + 1) * n := by rw [k2, Nat.add_mul, Nat.one_mul]
        rw [hcur]
        obtain ⟨D, R, d1, d2, d3⟩ := HB1
        have hD : 0 < D := lt_of_lt_of_le hi (d1 i)
        have HB2 : Left c2 n base (B - 1) := by
          refine ⟨D - 1, R, fun i => ?_, by rw [k5]; exact d2, by omega⟩
          rw [k6 i]
          have := d1 i
          split
          · omega
          · next h =>
            have : bufLen c1 i = 0 := by
              unfold bufLen
              rw [List.getElem?_eq_none (by have := H1.width; omega)]
              rfl
            omega
        refine (halts_decodeLoop hn fuel (j + 1) (B - 1) H2 HB2 (by omega) (by omega)).mono ?_
        rintro ⟨c3, pcm3, cur3⟩ ⟨m1, m2, k, m3, m4, m5, m6⟩
        refine ⟨m1, by rw [m2, k3], k + 1, by rw [m3]; congr 1; omega, by omega, by omega, ?_⟩
        rw [show B - (k + 1) = B - 1 - k by omega]
        exact m6
    · next hlt =>
      exact Halts.ok ⟨H, rfl, 0, rfl, hj, Nat.zero_le _, HB⟩

theorem Left.mono {c : AdhocCodec} {n : Nat} {base : FrameHeaders} {B B' : Nat} (h : Left c n base B) (hB : B ≤ B') : Left c n base B' := by
  obtain ⟨D, R, h1, h2, h3⟩ := h
  exact ⟨D, R, h1, h2, by omega⟩

/-- a decode call ends; it returns whole blocks, and they are taken from what is left -/
theorem halts_decode {b : Build} {n : Nat} {base : FrameHeaders} {c : AdhocCodec} {B : Nat} (H : Cast c n base) (HB : Left c n base B) (buf : List F32) :
    Halts (c.decode b buf) (fun r => Cast r.1 n base ∧ r.2.1.length = buf.length ∧ ∃ k, r.2.2.getD 0 = k * n ∧ k ≤ B ∧ k * n ≤ buf.length ∧
      (r.2.2 ≠ none → 0 < k ∧ 0 < n) ∧ Left r.1 n base (B - k)) := by
  unfold AdhocCodec.decode AdhocCodec.decodeRaw
  obtain ⟨info, h1, h2⟩ := H.chans
  rw [h1]
  simp only [expect, bind_ok]
  rw [h2]
  have key : Halts (do
      let q ← udiv buf.length n
      let (c, pcm, cursor) ← AdhocCodec.decodeLoop b n (q * n) (q * n + 1) c buf 0
      pure (c, pcm.map (· * c.scale), cursor)) (fun r => Cast r.1 n base ∧ r.2.1.length = buf.length ∧ 0 < n ∧ ∃ k, r.2.2 = k * n ∧ k ≤ B ∧ k * n ≤ buf.length ∧
        Left r.1 n base (B - k)) := by
    refine (halts_udiv _ _).bind fun q ⟨hn, hq⟩ => ?_
    have hqn : q ≤ q * n := Nat.le_mul_of_pos_right _ hn
    have := halts_decodeLoop (b := b) hn (q := q) (q * n + 1) (pcm := buf) 0 B H HB (by omega) (by omega)
    rw [Nat.zero_mul] at this
    refine this.bind ?_
    rintro ⟨c', pcm', cur⟩ ⟨k1, k2, k, k3, k4, k5, k6⟩
    refine Halts.ok ⟨k1, by simpa using k2, hn, k, by dsimp only at k3 ⊢; rw [k3, Nat.zero_add], k5, ?_, k6⟩
    have h3 := Nat.mul_le_mul_right n (show k ≤ q by omega)
    have h4 := Nat.div_mul_le_self buf.length n
    rw [hq] at h3
    omega
  refine key.bind ?_
  rintro ⟨c', pcm', m⟩ ⟨k1, k2, hn, k, k3, k4, k5, k6⟩
  refine Halts.ok ⟨k1, k2, k, ?_, k4, k5, ?_, k6⟩
  · dsimp only at k3 ⊢
    split
    · exact k3
    · simp only [Option.getD_none]; omega
  · dsimp only at k3 ⊢
    split
    · next h => exact fun _ => ⟨by rcases Nat.eq_zero_or_pos k with rfl | h'
                                   · simp at k3; omega
                                   · exact h', hn⟩
    · exact fun h => absurd rfl h

end Adhoc
