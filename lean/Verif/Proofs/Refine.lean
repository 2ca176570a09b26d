import Verif.Proofs.Basic
import Verif.Model.Adhoc

/-! A debug build computes what a release build computes, or panics because of an overflow. -/

namespace Adhoc

/-- `x` is `y`, unless it panics because of an overflow -/
def Ref {α : Type} (x y : R α) : Prop := x = y ∨ x = .error .overflow

theorem Ref.rfl {α : Type} {x : R α} : Ref x x := .inl (Eq.refl _)

/-- whenever `x` succeeds `y` gives the same -/
theorem Ref.ok {α : Type} {x y : R α} (h : Ref x y) {a : α} (e : x = .ok a) : y = .ok a := by
  rcases h with rfl | h
  · exact e
  · rw [h] at e; cases e

theorem Ref.bind {α β : Type} {x y : R α} {f g : α → R β} (h : Ref x y) (hf : ∀ a, Ref (f a) (g a)) : Ref (x >>= f) (y >>= g) := by
  rcases h with rfl | rfl
  · cases x with
    | ok a => rw [bind_ok, bind_ok]; exact hf a
    | error e => exact Ref.rfl
  · exact .inr (Eq.refl _)

theorem Ref.ite {α : Type} {p : Prop} [Decidable p] {x y x' y' : R α} (h : Ref x y) (h' : Ref x' y') :
    Ref (if p then x else x') (if p then y else y') := by
  split <;> assumption

theorem Ref.foldlM {α β : Type} {f g : β → α → R β} (h : ∀ b a, Ref (f b a) (g b a)) : ∀ (l : List α) (b : β), Ref (l.foldlM f b) (l.foldlM g b)
  | [], b => Ref.rfl
  | a :: l, b => by
    rw [List.foldlM_cons, List.foldlM_cons]
    exact (h b a).bind fun b' => Ref.foldlM h l b'

theorem ref_chkU (n : Nat) (x : Int) : Ref (chkU .debug n x) (chkU .release n x) := by
  unfold chkU
  split
  · exact Ref.rfl
  · exact .inr (Eq.refl _)

theorem ref_chkI (n : Nat) (x : Int) : Ref (chkI .debug n x) (chkI .release n x) := by
  unfold chkI
  split
  · exact Ref.rfl
  · exact .inr (Eq.refl _)

theorem ref_i16op (x : Int) : Ref (BitStream.i16op .debug x) (BitStream.i16op .release x) := by
  unfold BitStream.i16op
  exact (ref_chkI 16 x).bind fun _ => Ref.rfl

theorem ref_writeCompressed (s : BitStream) (k : Nat) (v : BitVec 16) : Ref (s.writeCompressed .debug k v) (s.writeCompressed .release k v) := by
  unfold BitStream.writeCompressed
  exact (ref_i16op _).bind fun _ => (ref_i16op _).bind fun _ => Ref.rfl

theorem ref_readOnes : ∀ (fuel : Nat) (s : BitStream) (q : BitVec 16), Ref (BitStream.readOnes .debug fuel s q) (BitStream.readOnes .release fuel s q)
  | 0, _, _ => Ref.rfl
  | fuel + 1, s, q => by
    unfold BitStream.readOnes
    exact Ref.rfl.bind fun x => Ref.ite ((ref_i16op _).bind fun _ => ref_readOnes fuel _ _) Ref.rfl

theorem ref_readCompressed (s : BitStream) (k : Nat) : Ref (s.readCompressed .debug k) (s.readCompressed .release k) := by
  unfold BitStream.readCompressed
  exact Ref.rfl.bind fun _ => (ref_readOnes _ _ _).bind fun _ => (ref_i16op _).bind fun _ => Ref.rfl.bind fun _ =>
    (ref_i16op _).bind fun _ => (ref_i16op _).bind fun _ => (ref_i16op _).bind fun _ => (ref_i16op _).bind fun _ =>
    (ref_i16op _).bind fun _ => Ref.rfl

theorem ref_addCosts (e : Nat) : ∀ (n : Nat) (t : List Nat), Ref (FrameCodec.addCosts .debug e n t) (FrameCodec.addCosts .release e n t)
  | 0, _ => Ref.rfl
  | n + 1, t => by
    unfold FrameCodec.addCosts
    exact Ref.rfl.bind fun _ => (ref_chkU _ _).bind fun _ => (ref_chkU _ _).bind fun _ => (ref_chkU _ _).bind fun _ =>
      (ref_chkU _ _).bind fun _ => Ref.rfl.bind fun _ => ref_addCosts e n _

theorem ref_costTable : ∀ (ys : List F32) (h : CircularStack Int) (t : List Nat),
    Ref (FrameCodec.costTable .debug h ys t) (FrameCodec.costTable .release h ys t)
  | [], _, _ => Ref.rfl
  | y :: ys, h, t => by
    unfold FrameCodec.costTable
    exact (ref_addCosts _ _ _).bind fun _ => ref_costTable ys _ _

theorem ref_computeOptimal (h : CircularStack Int) (ys : List F32) :
    Ref (FrameCodec.computeOptimalDivisorExponent .debug h ys) (FrameCodec.computeOptimalDivisorExponent .release h ys) := by
  unfold FrameCodec.computeOptimalDivisorExponent
  exact (ref_costTable _ _ _).bind fun _ => Ref.rfl

theorem ref_encodeSamples (k : Nat) : ∀ (ys : List F32) (s : BitStream) (h : CircularStack Int),
    Ref (FrameCodec.encodeSamples .debug k s h ys) (FrameCodec.encodeSamples .release k s h ys)
  | [], _, _ => Ref.rfl
  | y :: ys, s, h => by
    unfold FrameCodec.encodeSamples
    exact Ref.rfl.bind fun _ => (ref_writeCompressed _ _ _).bind fun _ => ref_encodeSamples k ys _ _

theorem ref_encodeFrame (c : FrameCodec) (st : AudioStream) (hd : FrameHeaders) (pcm : List F32) :
    Ref (c.encodeFrame .debug st hd pcm) (c.encodeFrame .release st hd pcm) := by
  unfold FrameCodec.encodeFrame
  cases c.state with
  | init =>
    exact Ref.rfl.bind fun _ => Ref.rfl.bind fun _ => Ref.rfl.bind fun _ => Ref.rfl.bind fun _ => Ref.rfl.bind fun _ =>
      Ref.rfl.bind fun _ => (ref_computeOptimal _ _).bind fun _ => Ref.rfl.bind fun _ => (ref_encodeSamples _ _ _ _).bind fun _ => Ref.rfl
  | encoding =>
    exact (ref_computeOptimal _ _).bind fun _ => Ref.rfl.bind fun _ => (ref_encodeSamples _ _ _ _).bind fun _ => Ref.rfl
  | decoding => exact Ref.rfl

theorem ref_decodeSamples (k : Nat) : ∀ (n : Nat) (s : BitStream) (h : CircularStack Int) (buf : List F32),
    Ref (FrameCodec.decodeSamples .debug k n s h buf) (FrameCodec.decodeSamples .release k n s h buf)
  | 0, _, _, _ => Ref.rfl
  | n + 1, s, h, buf => by
    unfold FrameCodec.decodeSamples
    exact (ref_readCompressed _ _).bind fun _ => Ref.rfl.bind fun _ => ref_decodeSamples k n _ _ _

theorem ref_decodeFrame (c : FrameCodec) (st : AudioStream) (hd : FrameHeaders) :
    Ref (c.decodeFrame .debug st hd) (c.decodeFrame .release st hd) := by
  unfold FrameCodec.decodeFrame
  refine Ref.rfl.bind fun x => ?_
  obtain ⟨hd', hdr?⟩ := x
  cases hdr? with
  | none => exact Ref.rfl
  | some hdr =>
    cases c.state with
    | init =>
      exact Ref.rfl.bind fun _ => Ref.rfl.bind fun _ => Ref.rfl.bind fun _ => (ref_decodeSamples _ _ _ _ _).bind fun _ => Ref.rfl
    | encoding => exact Ref.rfl
    | decoding => exact (ref_decodeSamples _ _ _ _ _).bind fun _ => Ref.rfl

theorem ref_triangle (s : PseudoRandom) : Ref (s.triangle .debug) (s.triangle .release) := by
  have hr : ∀ s : PseudoRandom, Ref (s.rand .debug) (s.rand .release) := by
    intro s
    unfold PseudoRandom.rand
    exact (ref_chkU _ _).bind fun _ => (ref_chkU _ _).bind fun _ => Ref.rfl
  unfold PseudoRandom.triangle
  exact (hr _).bind fun _ => (hr _).bind fun _ => Ref.rfl

theorem ref_dither (inv : F32) : ∀ (xs : List F32) (s : PseudoRandom), Ref (AdhocCodec.dither .debug inv s xs) (AdhocCodec.dither .release inv s xs)
  | [], _ => Ref.rfl
  | x :: xs, s => by
    unfold AdhocCodec.dither
    exact (ref_triangle _).bind fun _ => (ref_dither inv xs _).bind fun _ => Ref.rfl

theorem ref_encode (c : AdhocCodec) (pcm : List F32) : Ref (c.encode .debug pcm) (c.encode .release pcm) := by
  unfold AdhocCodec.encode AdhocCodec.encodeRaw
  refine Ref.bind (Ref.rfl.bind fun _ => Ref.rfl.bind fun _ => Ref.foldlM (fun c ch => ?_) _ _) fun _ => Ref.rfl
  unfold AdhocCodec.encodeChannel
  exact Ref.rfl.bind fun _ => (ref_dither _ _ _).bind fun _ => Ref.rfl.bind fun _ => (ref_encodeFrame _ _ _ _).bind fun _ => Ref.rfl

theorem ref_decodeChannel (c : AdhocCodec) (ch : Nat) : Ref (c.decodeChannel .debug ch) (c.decodeChannel .release ch) := by
  unfold AdhocCodec.decodeChannel
  exact Ref.rfl.bind fun _ => (ref_decodeFrame _ _ _).bind fun _ => Ref.rfl

theorem ref_bufferAudio (n : Nat) : ∀ (left : Nat) (c : AdhocCodec),
    Ref (AdhocCodec.bufferAudio .debug n left c) (AdhocCodec.bufferAudio .release n left c)
  | 0, _ => Ref.rfl
  | left + 1, c => by
    unfold AdhocCodec.bufferAudio
    refine Ref.ite (Ref.bind ?_ fun _ => ref_bufferAudio n left _) Ref.rfl
    unfold AdhocCodec.decodeBlock
    exact Ref.foldlM (fun c ch => ref_decodeChannel c ch) _ _

theorem ref_decodeLoop (n legal : Nat) : ∀ (fuel : Nat) (c : AdhocCodec) (pcm : List F32) (cursor : Nat),
    Ref (AdhocCodec.decodeLoop .debug n legal fuel c pcm cursor) (AdhocCodec.decodeLoop .release n legal fuel c pcm cursor)
  | 0, _, _, _ => Ref.rfl
  | fuel + 1, c, pcm, cursor => by
    unfold AdhocCodec.decodeLoop
    refine Ref.ite ((ref_bufferAudio _ _ _).bind fun x => Ref.ite Ref.rfl ?_) Ref.rfl
    exact Ref.rfl.bind fun _ => ref_decodeLoop n legal fuel _ _ _

theorem ref_decode (c : AdhocCodec) (buf : List F32) : Ref (c.decode .debug buf) (c.decode .release buf) := by
  unfold AdhocCodec.decode AdhocCodec.decodeRaw
  exact Ref.bind (Ref.rfl.bind fun _ => Ref.rfl.bind fun _ => (ref_decodeLoop _ _ _ _ _ _).bind fun _ => Ref.rfl) fun _ => Ref.rfl

theorem ref_findBlock (h : FrameHeaders) (n t l : Nat) : ∀ (fuel a k : Nat),
    Ref (AdhocCodec.findBlock .debug h n t l fuel a k) (AdhocCodec.findBlock .release h n t l fuel a k)
  | 0, _, _ => Ref.rfl
  | fuel + 1, a, k => by
    unfold AdhocCodec.findBlock
    exact Ref.ite (Ref.rfl.bind fun _ => Ref.rfl.bind fun _ => (ref_chkU _ _).bind fun _ => (ref_chkU _ _).bind fun _ =>
      Ref.ite Ref.rfl (ref_findBlock h n t l fuel _ _)) Ref.rfl

theorem ref_prune (n t : Nat) : ∀ (fuel a : Nat) (c : AdhocCodec), Ref (AdhocCodec.prune .debug n t fuel a c) (AdhocCodec.prune .release n t fuel a c)
  | 0, _, _ => Ref.rfl
  | fuel + 1, a, c => by
    unfold AdhocCodec.prune
    exact Ref.ite (Ref.rfl.bind fun _ => (ref_chkU _ _).bind fun _ => ref_prune n t fuel _ _) Ref.rfl

theorem ref_seekTo (info : StreamInfo) (c : AdhocCodec) (t : Nat) : Ref (c.seekTo .debug info t) (c.seekTo .release info t) := by
  unfold AdhocCodec.seekTo
  generalize AdhocCodec.seekOffset info t = off
  refine (ref_chkU _ _).bind fun _ => Ref.rfl.bind fun _ => (ref_findBlock _ _ _ _ _ _ _).bind fun _ => Ref.rfl.bind fun _ =>
    Ref.rfl.bind fun _ => Ref.bind (Ref.foldlM (fun c off => ?_) _ _) fun _ => ref_prune _ _ _ _ _
  unfold AdhocCodec.seekChannel
  exact Ref.rfl.bind fun _ => Ref.rfl.bind fun _ => Ref.rfl.bind fun _ => (ref_decodeFrame _ _ _).bind fun _ => Ref.rfl

theorem ref_seek (c : AdhocCodec) (dt : SeekFrom) : Ref (c.seek .debug dt) (c.seek .release dt) := by
  unfold AdhocCodec.seek
  refine Ref.rfl.bind fun info => ?_
  cases dt with
  | start t => exact Ref.ite Ref.rfl (ref_seekTo _ _ _)
  | current t => exact Ref.rfl
  | «end» t => exact Ref.rfl

theorem ref_shl1 (n : Nat) : Ref (AdhocCodec.shl1 .debug n) (AdhocCodec.shl1 .release n) := by
  unfold AdhocCodec.shl1
  split
  · exact Ref.rfl
  · exact .inr (Eq.refl _)

theorem ref_load (bytes : List Byte) : Ref (AdhocCodec.load .debug bytes) (AdhocCodec.load .release bytes) := by
  unfold AdhocCodec.load
  cases AdhocCodec.decSlim bytes with
  | none => exact Ref.rfl
  | some x => exact (ref_shl1 _).bind fun _ => Ref.rfl

theorem Ref.build {α : Type} {f : Build → R α} (h : Ref (f .debug) (f .release)) {b : Build} {a : α} (hb : f b = .ok a) : f .release = .ok a := by
  cases b
  · exact h.ok hb
  · exact hb

end Adhoc
