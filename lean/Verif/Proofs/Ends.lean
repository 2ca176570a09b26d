import Verif.Proofs.Halts
import Mathlib.Data.Nat.GCD.Basic
import Mathlib.Data.Int.ModEq
import Mathlib.Data.Finset.Card

/-! Every loop ends: seeking, encoding, WAV files and conversions. -/

namespace Adhoc
open Spec

/-! ## seeking -/

theorem halts_chkU_nat (b : Build) (x : Nat) : Halts (chkU b 64 (x : Int)) (fun y => y = x % 2 ^ 64) := by
  unfold chkU
  split
  · next h =>
    refine Halts.ok ?_
    rw [Int.toNat_natCast, Nat.mod_eq_of_lt (by exact_mod_cast h.2)]
  · cases b
    · exact Halts.error (by simp)
    · refine Halts.ok ?_
      have : ((x : Int) % 2 ^ 64) = ((x % 2 ^ 64 : Nat) : Int) := by push_cast; rfl
      rw [this, Int.toNat_natCast]

theorem halts_get (h : FrameHeaders) (i : Nat) : Halts (h.get i) (fun o => ∀ hdr, o = some hdr → i < headersHeld h) := by
  unfold FrameHeaders.get
  split
  · next hl =>
    refine (halts_idx _ _).bind fun size h1 => (halts_idx _ _).bind fun cur h2 => (halts_idx _ _).bind fun hist h3 => Halts.ok fun _ _ => ?_
    obtain ⟨h1, -⟩ := List.getElem?_eq_some_iff.1 h1
    obtain ⟨h2, -⟩ := List.getElem?_eq_some_iff.1 h2
    obtain ⟨h3, -⟩ := List.getElem?_eq_some_iff.1 h3
    unfold headersHeld
    omega
  · exact Halts.ok fun _ h => absurd h (by simp)

/-- a multiple of `n`, wrapped to 64 bits -/
def Wrapped (n x : Nat) : Prop := ∃ z, x = z * n % 2 ^ 64

theorem halts_findBlock {b : Build} {h : FrameHeaders} {n target blockLen : Nat} : ∀ (fuel skipped block : Nat) (_ : Wrapped n skipped) (_ : blockLen < block + fuel)
    (_ : block ≤ blockLen), Halts (AdhocCodec.findBlock b h n target blockLen fuel skipped block) (fun r => Wrapped n r.1)
  | 0, _, _, _, hf, hl => absurd hf (by omega)
  | fuel + 1, skipped, block, hw, hf, hl => by
    unfold AdhocCodec.findBlock
    split
    · refine (halts_get _ _).bind fun o _ => (halts_expect _).bind fun hdr _ => (halts_chkU_nat _ _).bind fun hs h1 =>
        (halts_chkU_nat _ _).bind fun sum h2 => ?_
      split
      · exact Halts.ok hw
      · refine halts_findBlock fuel sum (block + 1) ?_ (by omega) (by omega)
        obtain ⟨z, hz⟩ := hw
        refine ⟨z + hdr.size, ?_⟩
        rw [h2, h1, hz, ← Nat.add_mod, Nat.add_mul]
    · exact Halts.ok hw

theorem halts_dropOne (c : AdhocCodec) (n : Nat) : Halts (c.dropOne n) (fun _ => True) := by
  unfold AdhocCodec.dropOne
  exact Halts.foldlM (fun c off _ => (halts_idx _ _).bind fun _ _ => (halts_setIdx _ _ _).bind fun _ _ => Halts.ok trivial) _ _ trivial

/-- adding `n` again and again to a wrapped multiple of `n` reaches every wrapped multiple, before the values below it are used up -/
theorem wrapped_reach {n x target : Nat} (hx : Wrapped n x) (ht : Wrapped n target) : ∃ i ≤ target, target ≤ (x + i * n) % 2 ^ 64 := by
  by_contra hcon
  push Not at hcon
  have hmaps : ∀ i ∈ Finset.range (target + 1), (x + i * n) % 2 ^ 64 ∈ Finset.range target := by
    intro i hi
    rw [Finset.mem_range] at hi ⊢
    exact hcon i (by omega)
  obtain ⟨i, hi, j, hj, hne, he⟩ := Finset.exists_ne_map_eq_of_card_lt_of_maps_to (by simp) hmaps
  rw [Finset.mem_range] at hi hj
  -- a period
  obtain ⟨p, hp, hpt, hper⟩ : ∃ p, 0 < p ∧ p ≤ target ∧ p * n % 2 ^ 64 = 0 := by
    have aux : ∀ i j, i < j → j < target + 1 → (x + i * n) % 2 ^ 64 = (x + j * n) % 2 ^ 64 → ∃ p, 0 < p ∧ p ≤ target ∧ p * n % 2 ^ 64 = 0 := by
      intro i j hij hj h
      refine ⟨j - i, by omega, by omega, ?_⟩
      have h1 : x + j * n = x + i * n + (j - i) * n := by
        have : j * n = i * n + (j - i) * n := by rw [← Nat.add_mul]; congr 1; omega
        omega
      rw [h1] at h
      generalize (j - i) * n = y at h ⊢
      generalize x + i * n = w at h
      omega
    rcases Nat.lt_or_gt_of_ne hne with h | h
    · exact aux i j h hj he
    · exact aux j i h hi he.symm
  -- the target is hit
  obtain ⟨z, hz⟩ := hx
  obtain ⟨a, ha⟩ := ht
  have hit : ∃ i, (x + i * n) % 2 ^ 64 = target := by
    refine ⟨a + (2 ^ 64 - 1) * z, ?_⟩
    rw [hz, ha, Nat.mod_add_mod]
    have : z * n + (a + (2 ^ 64 - 1) * z) * n = a * n + 2 ^ 64 * (z * n) := by
      have : (2 ^ 64 : Nat) = (2 ^ 64 - 1) + 1 := by norm_num
      generalize (2 ^ 64 - 1 : Nat) = m at this
      rw [this]; ring
    rw [this, Nat.add_mul_mod_self_left]
  obtain ⟨i, hi'⟩ := hit
  have hmod : ∀ q r, (x + (q * p + r) * n) % 2 ^ 64 = (x + r * n) % 2 ^ 64 := by
    intro q r
    have : x + (q * p + r) * n = x + r * n + q * (p * n) := by ring
    rw [this, Nat.add_mod, Nat.mul_mod q, hper]
    simp
  have h1 := hmod (i / p) (i % p)
  rw [Nat.div_add_mod'] at h1
  have h2 := hcon (i % p) (by have := Nat.mod_lt i hp; omega)
  omega

theorem halts_prune {b : Build} {n target : Nat} : ∀ (fuel x : Nat) (c : AdhocCodec) (_ : x < 2 ^ 64) (_ : ∃ i < fuel, target ≤ (x + i * n) % 2 ^ 64),
    Halts (AdhocCodec.prune b n target fuel x c) (fun _ => True)
  | 0, _, _, _, ⟨_, h, _⟩ => absurd h (by omega)
  | fuel + 1, x, c, hx, ⟨i, hi, hit⟩ => by
    unfold AdhocCodec.prune
    split
    · next hlt =>
      refine (halts_dropOne _ _).bind fun c' _ => (halts_chkU_nat _ _).bind fun y hy => ?_
      refine halts_prune fuel y c' (by rw [hy]; exact Nat.mod_lt _ (by norm_num)) ?_
      match i with
      | 0 =>
        rw [Nat.zero_mul, Nat.add_zero, Nat.mod_eq_of_lt hx] at hit
        omega
      | i + 1 =>
        refine ⟨i, by omega, ?_⟩
        rw [hy, Nat.mod_add_mod, show x + n + i * n = x + (i + 1) * n by ring]
        exact hit
    · exact Halts.ok trivial

theorem Wrapped.lt {n x : Nat} (h : Wrapped n x) : x < 2 ^ 64 := by
  obtain ⟨z, rfl⟩ := h
  exact Nat.mod_lt _ (by norm_num)

theorem next_ends (h : FrameHeaders) : h.next ≠ .error .fuel := by
  unfold FrameHeaders.next
  dsimp only
  split
  · exact BitStream.bind_ne_fuel (BitStream.idx_ne_fuel _ _) fun _ _ => BitStream.bind_ne_fuel (BitStream.idx_ne_fuel _ _) fun _ _ =>
      BitStream.bind_ne_fuel (BitStream.idx_ne_fuel _ _) fun _ _ => by simp
  · simp

theorem decodeFrame_ends (b : Build) (fc : FrameCodec) (st : AudioStream) (hd : FrameHeaders) : Halts (fc.decodeFrame b st hd) (fun _ => True) := by
  unfold FrameCodec.decodeFrame
  refine (Halts.any (next_ends hd)).bind ?_
  rintro ⟨hd', o⟩ -
  dsimp only
  split
  · exact Halts.ok trivial
  · split
    · refine (halts_readRaw _).bind fun _ _ => (halts_readRaw _).bind fun _ _ => (halts_readRaw _).bind fun _ _ => ?_
      exact (halts_decodeSamples _ _ _ _).bind fun r hr => Halts.ok trivial
    · exact (halts_decodeSamples _ _ _ _).bind fun r hr => Halts.ok trivial
    · exact Halts.error (by simp)

/-- seeking ends, whatever state the codec is in -/
theorem halts_seek (b : Build) (c : AdhocCodec) (dt : SeekFrom) : Halts (c.seek b dt) (fun _ => True) := by
  unfold AdhocCodec.seek
  refine (halts_expect _).bind fun info _ => ?_
  dsimp only
  split
  · split
    · exact Halts.ok trivial
    · unfold AdhocCodec.seekTo
      dsimp only
      refine (halts_chkU_nat _ _).bind fun target ht => (halts_udiv _ _).bind fun bl _ => ?_
      refine (halts_findBlock _ 0 0 ⟨0, by simp⟩ (by omega) (by omega)).bind fun r hr => ?_
      refine (halts_get _ _).bind fun o _ => (halts_expect _).bind fun hdr _ => ?_
      refine (Halts.foldlM (P := fun _ => True) (fun c off _ => ?_) _ _ trivial).bind fun c' _ => ?_
      · unfold AdhocCodec.seekChannel
        exact (halts_get _ _).bind fun _ _ => (halts_expect _).bind fun _ _ => (halts_idx _ _).bind fun _ _ => (decodeFrame_ends _ _ _ _).bind fun _ _ =>
          (halts_setIdx _ _ _).bind fun _ _ => Halts.ok trivial
      · obtain ⟨i, hi, h⟩ := wrapped_reach hr ⟨_, ht⟩
        exact halts_prune _ _ _ hr.lt ⟨i, by omega, h⟩
  · exact Halts.error (by simp)

/-! ## decoding, whatever state the codec is in -/

theorem decodeChannel_ends (b : Build) (c : AdhocCodec) (ch : Nat) : Halts (c.decodeChannel b ch) (fun _ => True) := by
  unfold AdhocCodec.decodeChannel
  exact (halts_idx _ _).bind fun _ _ => (decodeFrame_ends _ _ _ _).bind fun _ _ => (halts_setIdx _ _ _).bind fun _ _ => Halts.ok trivial

theorem bufferAudio_ends (b : Build) (n : Nat) : ∀ (left : Nat) (c : AdhocCodec), Halts (AdhocCodec.bufferAudio b n left c) (fun _ => True)
  | 0, _ => Halts.ok trivial
  | left + 1, c => by
    unfold AdhocCodec.bufferAudio
    split
    · exact (Halts.foldlM (P := fun _ => True) (fun c ch _ => decodeChannel_ends b c ch) _ _ trivial).bind fun c' _ => bufferAudio_ends b n left c'
    · exact Halts.ok trivial

theorem popBlock_ends {legal : Nat} : ∀ (m ch : Nat) (c : AdhocCodec) (pcm : List F32) (cursor : Nat),
    Halts (AdhocCodec.popBlock legal m ch c pcm cursor) (fun r => cursor ≤ r.2.2 ∧ (0 < m → cursor < legal → cursor < r.2.2))
  | 0, _, _, _, _ => Halts.ok ⟨le_rfl, fun h => absurd h (by omega)⟩
  | m + 1, ch, c, pcm, cursor => by
    unfold AdhocCodec.popBlock
    split
    · refine (halts_idx _ _).bind fun fc _ => ?_
      dsimp only
      refine (halts_setIdx _ _ _).bind fun _ _ => (halts_setIdx _ _ _).bind fun _ _ => (popBlock_ends m (ch + 1) _ _ (cursor + 1)).mono fun r hr => ?_
      exact ⟨by omega, fun _ _ => by omega⟩
    · exact Halts.ok ⟨le_rfl, fun _ h => absurd h (by assumption)⟩

theorem decodeLoop_ends {b : Build} {n legal : Nat} (hn : 0 < n) : ∀ (fuel : Nat) (c : AdhocCodec) (pcm : List F32) (cursor : Nat) (_ : legal < cursor + fuel)
    (_ : 0 < fuel), Halts (AdhocCodec.decodeLoop b n legal fuel c pcm cursor) (fun _ => True)
  | 0, _, _, _, _, h => absurd h (by omega)
  | fuel + 1, c, pcm, cursor, hf, _ => by
    unfold AdhocCodec.decodeLoop
    split
    · next hlt =>
      refine (bufferAudio_ends b n _ c).bind fun r _ => ?_
      dsimp only
      split
      · exact Halts.ok trivial
      · refine (popBlock_ends n 0 _ _ _).bind ?_
        rintro ⟨c2, p2, k2⟩ hr
        dsimp only at hr ⊢
        have := hr.2 hn hlt
        exact decodeLoop_ends hn fuel _ _ _ (by omega) (by omega)
    · exact Halts.ok trivial

/-- decoding ends, whatever state the codec is in -/
theorem decode_ends (b : Build) (c : AdhocCodec) (buf : List F32) : Halts (c.decode b buf) (fun _ => True) := by
  unfold AdhocCodec.decode AdhocCodec.decodeRaw
  refine Halts.bind (P := fun _ => True) ?_ fun r _ => Halts.ok trivial
  refine (halts_expect _).bind fun info _ => ?_
  dsimp only
  refine (halts_udiv _ _).bind fun q ⟨hn, _⟩ => (decodeLoop_ends hn _ _ _ _ (by omega) (by omega)).bind fun _ _ => Halts.ok trivial

/-! ## encoding -/

theorem addCosts_ends {b : Build} {e : Nat} : ∀ (k : Nat) (t : List Nat), Halts (FrameCodec.addCosts b e k t) (fun _ => True)
  | 0, _ => Halts.ok trivial
  | k + 1, t => by
    unfold FrameCodec.addCosts
    exact (halts_idx _ _).bind fun _ _ => (halts_chkU _ _ _).bind fun _ _ => (halts_chkU _ _ _).bind fun _ _ => (halts_chkU _ _ _).bind fun _ _ =>
      (halts_chkU _ _ _).bind fun _ _ => (halts_setIdx _ _ _).bind fun _ _ => addCosts_ends k _

theorem costTable_ends {b : Build} : ∀ (xs : List F32) (h : CircularStack Int) (t : List Nat), Halts (FrameCodec.costTable b h xs t) (fun _ => True)
  | [], _, _ => Halts.ok trivial
  | x :: xs, h, t => by
    unfold FrameCodec.costTable
    exact (addCosts_ends _ _).bind fun _ _ => costTable_ends xs _ _

theorem computeOptimal_ends (b : Build) (h : CircularStack Int) (xs : List F32) : Halts (FrameCodec.computeOptimalDivisorExponent b h xs) (fun _ => True) :=
  (costTable_ends xs h _).bind fun _ _ => Halts.ok trivial

theorem encodeSamples_ends {b : Build} {k : Nat} : ∀ (xs : List F32) (s : BitStream) (h : CircularStack Int),
    Halts (FrameCodec.encodeSamples b k s h xs) (fun _ => True)
  | [], _, _ => Halts.ok trivial
  | x :: xs, s, h => by
    unfold FrameCodec.encodeSamples
    exact (halts_clampI _ _ _).bind fun _ _ => (Halts.any (BitStream.writeCompressed_ne_fuel _ _ _ _)).bind fun _ _ => encodeSamples_ends xs _ _

theorem push_ends (h : FrameHeaders) (hdr : FrameHeader) : Halts (h.push hdr) (fun _ => True) := by
  unfold FrameHeaders.push
  dsimp only
  split
  · refine Halts.bind (P := fun _ => True) ?_ fun _ _ => Halts.bind (P := fun _ => True) ?_ fun _ _ => Halts.ok trivial
    · unfold NibbleList.push
      exact (halts_idx _ _).bind fun _ _ => (halts_setIdx _ _ _).bind fun _ _ => Halts.ok trivial
    · unfold BitVecU64.push
      exact (halts_idx _ _).bind fun _ _ => (halts_setIdx _ _ _).bind fun _ _ => Halts.ok trivial
  · exact (halts_setIdx _ _ _).bind fun _ _ => (halts_setIdx _ _ _).bind fun _ _ => (halts_setIdx _ _ _).bind fun _ _ => Halts.ok trivial

theorem encodeFrame_ends (b : Build) (fc : FrameCodec) (st : AudioStream) (hd : FrameHeaders) (pcm : List F32) :
    Halts (fc.encodeFrame b st hd pcm) (fun _ => True) := by
  have hw : ∀ (s : BitStream) (v : BitVec 16), Halts (s.writeU16 v) (fun _ => True) := fun s v => Halts.any (BitStream.writeBits_ne_fuel _ _ _)
  unfold FrameCodec.encodeFrame
  split
  · exact (halts_idx _ _).bind fun _ _ => (hw _ _).bind fun _ _ => (halts_idx _ _).bind fun _ _ => (hw _ _).bind fun _ _ => (halts_idx _ _).bind fun _ _ =>
      (hw _ _).bind fun _ _ => (computeOptimal_ends _ _ _).bind fun _ _ => (push_ends _ _).bind fun _ _ => (encodeSamples_ends _ _ _).bind fun _ _ => Halts.ok trivial
  · exact (computeOptimal_ends _ _ _).bind fun _ _ => (push_ends _ _).bind fun _ _ => (encodeSamples_ends _ _ _).bind fun _ _ => Halts.ok trivial
  · exact Halts.error (by simp)

theorem triangle_ends (b : Build) (s : PseudoRandom) : Halts (s.triangle b) (fun _ => True) := by
  have hr : ∀ s : PseudoRandom, Halts (s.rand b) (fun _ => True) := fun s => by
    unfold PseudoRandom.rand
    exact (halts_chkU _ _ _).bind fun _ _ => (halts_chkU _ _ _).bind fun _ _ => Halts.ok trivial
  unfold PseudoRandom.triangle
  exact (hr _).bind fun _ _ => (hr _).bind fun _ _ => Halts.ok trivial

theorem dither_ends {b : Build} {inv : F32} : ∀ (xs : List F32) (s : PseudoRandom), Halts (AdhocCodec.dither b inv s xs) (fun _ => True)
  | [], _ => Halts.ok trivial
  | x :: xs, s => by
    unfold AdhocCodec.dither
    exact (triangle_ends b s).bind fun _ _ => (dither_ends xs _).bind fun _ _ => Halts.ok trivial

/-- encoding ends, whatever state the codec is in -/
theorem encode_ends (b : Build) (c : AdhocCodec) (pcm : List F32) : Halts (c.encode b pcm) (fun _ => True) := by
  unfold AdhocCodec.encode AdhocCodec.encodeRaw
  refine Halts.bind (P := fun _ => True) ?_ fun _ _ => Halts.ok trivial
  refine (halts_expect _).bind fun info _ => ?_
  dsimp only
  refine (halts_udiv _ _).bind fun q _ => Halts.foldlM (P := fun _ => True) (fun c ch _ => ?_) _ _ trivial
  unfold AdhocCodec.encodeChannel AdhocCodec.deinterleave
  exact (Halts.mapM (fun k => BitStream.idx_ne_fuel _ _) _).bind fun _ _ => (dither_ends _ _).bind fun _ _ => (halts_idx _ _).bind fun _ _ =>
    (encodeFrame_ends _ _ _ _ _).bind fun _ _ => (halts_setIdx _ _ _).bind fun _ _ => Halts.ok trivial

/-! ## WAV -/

theorem halts_wavLoop {pcm : List Byte} {len valid : Nat} : ∀ (fuel cursor : Nat) (out : List F32) (k : Nat) (_ : valid < k + fuel) (_ : 0 < fuel),
    Halts (WavCodec.decodeLoop pcm len valid fuel cursor out k) (fun r => k ≤ r.2.2 ∧ r.1 - cursor = r.2.2 - k ∧ cursor ≤ r.1 ∧ (r.2.2 = k ∨ r.1 ≤ len))
  | 0, _, _, _, _, h => absurd h (by omega)
  | fuel + 1, cursor, out, k, hf, _ => by
    unfold WavCodec.decodeLoop
    split
    · next h =>
      refine Halts.bind (P := fun _ => True) ?_ fun s _ => (halts_setIdx _ _ _).bind fun _ _ => (halts_wavLoop fuel (cursor + 1) _ (k + 1) (by omega) (by omega)).mono fun r hr => ?_
      · unfold WavCodec.sampleAt
        split
        · exact Halts.ok trivial
        · exact Halts.error (by simp)
      · omega
    · exact Halts.ok ⟨le_rfl, by dsimp only; omega, le_rfl, .inl rfl⟩

theorem halts_wavDecode (w : WavCodec) (buf : List F32) : Halts (w.decode buf) (fun r => r.1.pcm = w.pcm ∧ r.1.info = w.info ∧
    (r.2.2 ≠ none → w.shortCursor < r.1.shortCursor ∧ r.1.shortCursor ≤ w.numSamples)) := by
  unfold WavCodec.decode
  dsimp only
  refine (halts_udiv _ _).bind fun q ⟨hn, _⟩ => (halts_wavLoop _ _ _ _ (by omega) (by omega)).bind fun r hr => Halts.ok ⟨rfl, rfl, ?_⟩
  dsimp only
  split
  · next h0 =>
    intro _
    obtain ⟨a, o, k⟩ := r
    obtain ⟨-, h1, h2, h3⟩ := hr
    dsimp only at h0 h1 h2 h3 ⊢
    omega
  · intro h; exact absurd rfl h

theorem wavEncode_ends (w : WavCodec) (xs : List F32) : Halts (w.encode xs) (fun _ => True) := by
  unfold WavCodec.encode
  refine (halts_udiv _ _).bind fun q _ => (Halts.foldlM (P := fun _ => True) (fun w x _ => ?_) _ _ trivial).bind fun _ _ => Halts.ok trivial
  unfold WavCodec.writeSample
  dsimp only
  split
  · exact (halts_setIdx _ _ _).bind fun _ _ => (halts_setIdx _ _ _).bind fun _ _ => Halts.ok trivial
  · exact Halts.ok trivial

theorem wavSeek_ends (b : Build) (w : WavCodec) (dt : SeekFrom) : Halts (w.seek b dt) (fun _ => True) := by
  have hc : ∀ x, Halts (chkI b 64 x) (fun _ => True) := fun x => Halts.any (BitStream.chkI_ne_fuel b 64 x)
  unfold WavCodec.seek
  dsimp only
  split
  · exact (halts_udiv _ _).bind fun _ _ => (hc _).bind fun _ _ => (hc _).bind fun _ _ => (halts_clampI _ _ _).bind fun _ _ => Halts.ok trivial
  · exact (hc _).bind fun _ _ => (halts_clampI _ _ _).bind fun _ _ => Halts.ok trivial
  · exact (hc _).bind fun _ _ => (hc _).bind fun _ _ => (halts_clampI _ _ _).bind fun _ _ => Halts.ok trivial

theorem wavSave_ends (b : Build) (w : WavCodec) (dst : Writer) : Halts (w.saveTo b dst) (fun _ => True) := by
  have hc : ∀ n x, Halts (chkI b n x) (fun _ => True) := fun n x => Halts.any (BitStream.chkI_ne_fuel b n x)
  unfold WavCodec.saveTo
  refine Halts.bind (P := fun _ => True) ?_ fun h _ => ?_
  · unfold WavCodec.header
    exact (halts_chkU _ _ _).bind fun _ _ => (hc _ _).bind fun _ _ => (hc _ _).bind fun _ _ => (hc _ _).bind fun _ _ => Halts.ok trivial
  · split <;> exact Halts.ok trivial

theorem widen_ends : ∀ (k : Nat) (pcm : List Byte), Halts (WavCodec.widen k pcm) (fun _ => True)
  | 0, _ => Halts.ok trivial
  | k + 1, pcm => by
    unfold WavCodec.widen
    exact (halts_idx _ _).bind fun _ _ => (halts_setIdx _ _ _).bind fun _ _ => (halts_setIdx _ _ _).bind fun _ _ => widen_ends k _

theorem halts_wavLoad (bytes : List Byte) : Halts (WavCodec.load bytes) (fun r => ∀ w, r = .ok w → w.shortCursor = 0) := by
  unfold WavCodec.load WavCodec.loadAt
  dsimp only
  split
  · exact Halts.ok fun _ h => absurd h (by simp)
  · split
    · exact Halts.ok fun _ h => absurd h (by simp)
    · refine (halts_idx _ _).bind fun _ _ => (halts_idx _ _).bind fun _ _ => (halts_idx _ _).bind fun _ _ => (halts_idx _ _).bind fun _ _ => ?_
      split
      · exact Halts.ok fun _ h => absurd h (by simp)
      · split
        · exact Halts.ok fun _ h => absurd h (by simp)
        · split
          · refine (widen_ends _ _).bind fun pcm _ => Halts.ok fun w h => ?_
            rw [← Except.ok.inj h]
          · refine Halts.ok fun w h => ?_
            rw [← Except.ok.inj h]

theorem load_ends (b : Build) (bytes : List Byte) : Halts (AdhocCodec.load b bytes) (fun _ => True) := by
  unfold AdhocCodec.load
  split
  · exact Halts.ok trivial
  · refine Halts.bind (P := fun _ => True) ?_ fun s _ => ?_
    · unfold AdhocCodec.shl1
      split
      · exact Halts.ok trivial
      · cases b
        · exact Halts.error (by simp)
        · exact Halts.ok trivial
    · dsimp only
      split <;> exact Halts.ok trivial

/-! ## conversions -/

theorem compressLoop_ends {b : Build} : ∀ (fuel : Nat) (w : WavCodec) (c : AdhocCodec) (buf : List F32) (_ : w.shortCursor ≤ w.numSamples)
    (_ : w.numSamples < w.shortCursor + fuel), Halts (Cli.compressLoop b fuel w c buf) (fun _ => True)
  | 0, _, _, _, h1, h2 => absurd h2 (by omega)
  | fuel + 1, w, c, buf, h1, h2 => by
    unfold Cli.compressLoop
    refine (halts_wavDecode w buf).bind ?_
    rintro ⟨w', buf', o⟩ ⟨k1, k2, k3⟩
    dsimp only at k1 k2 k3 ⊢
    have hn : w'.numSamples = w.numSamples := by unfold WavCodec.numSamples; rw [k1]
    cases o with
    | none => exact Halts.ok trivial
    | some n =>
      have := k3 (by simp)
      exact (encode_ends _ _ _).bind fun _ _ => compressLoop_ends fuel w' _ _ (by omega) (by omega)

/-- compressing ends, for every input -/
theorem wavToAdhoc_ends (b : Build) (input : List Byte) (level : Nat) (dst : Option Writer) :
    Halts (Cli.convertWavToAdhoc b input level dst) (fun _ => True) := by
  unfold Cli.convertWavToAdhoc
  refine (halts_wavLoad input).bind fun r hr => ?_
  cases r with
  | error e => exact Halts.ok trivial
  | ok w =>
    have h0 := hr w rfl
    refine (compressLoop_ends _ _ _ _ (by omega) (by omega)).bind fun c _ => ?_
    cases dst <;> exact Halts.ok trivial

theorem decompressLoop_ends {b : Build} {n : Nat} {base : FrameHeaders} : ∀ (fuel B : Nat) (c : AdhocCodec) (w : WavCodec) (buf : List F32) (_ : Cast c n base)
    (_ : Left c n base B) (_ : B < fuel), Halts (Cli.decompressLoop b fuel c w buf) (fun _ => True)
  | 0, _, _, _, _, _, _, h => absurd h (by omega)
  | fuel + 1, B, c, w, buf, H, HB, hf => by
    unfold Cli.decompressLoop
    refine (halts_decode H HB buf).bind ?_
    rintro ⟨c', buf', o⟩ ⟨k1, k2, k, k3, k4, k5, k6, k7⟩
    dsimp only at k1 k2 k3 k6 k7 ⊢
    cases o with
    | none => exact Halts.ok trivial
    | some m =>
      have := k6 (by simp)
      exact (wavEncode_ends _ _).bind fun w' _ => decompressLoop_ends fuel (B - k) c' w'.1 buf' k1 k7 (by omega)

end Adhoc
