import Verif.Proofs.Bincode
import Verif.Proofs.Alike
import Mathlib.Tactic.IntervalCases

/-! Saved codecs. -/

namespace Adhoc
open Spec Bincode

theorem Bincode.Good.then {α β : Type} {d : Dec α} {k : α × List Byte → Option (β × List Byte)} {a : α} {c : β} {bs bs' : List Byte}
    (h : Good d a bs) (h' : Good (fun s => k (a, s)) c bs') : Good (fun s => d s >>= k) c (bs ++ bs') :=
  h.bind (f := fun a s => k (a, s)) h'

theorem Bincode.Good.last {α β : Type} {d : Dec α} {k : α × List Byte → Option (β × List Byte)} {a : α} {c : β} {bs : List Byte}
    (h : Good d a bs) (h' : Good (fun s => k (a, s)) c []) : Good (fun s => d s >>= k) c bs := by
  simpa using h.bind (f := fun a s => k (a, s)) h'

/-- the counters and vector lengths of the model are in the range of the Rust types they stand for -/
structure Counted (c : AdhocCodec) : Prop where
  rate : ∀ i, c.stream.info = some i → i.sampleRate < 2 ^ 32 ∧ i.channels < 2 ^ 32
  nibbles : c.frameHeaderList.divisorExpList.data.length < 2 ^ 64
  count : c.frameHeaderList.divisorExpList.nibbleCount < 2 ^ 32
  bits : c.frameHeaderList.isInitFrameList.binary.length < 2 ^ 64
  bitsCursor : c.frameHeaderList.isInitFrameList.bitCursor < 2 ^ 128
  sizes : c.frameHeaderList.frameSizeList.length < 2 ^ 64
  cursors : c.frameHeaderList.bitCursorList.length < 2 ^ 64
  hist : c.frameHeaderList.stackHistoryList.length < 2 ^ 64
  header : c.frameHeaderList.headerCursor < 2 ^ 32
  binary : c.stream.stream.binary.length < 2 ^ 64
  cursor : c.stream.stream.bitCursor < 2 ^ 128
  capacity : c.stream.stream.capacity < 2 ^ 128

/-- the bytes of a saved codec -/
def savedBytes (c : AdhocCodec) : List Byte := c.encPieces.flatten

theorem good_slim {c : AdhocCodec} (H : Counted c) (HT : TypedHeaders c.frameHeaderList) (hl : c.compressionLevel < 2 ^ 32) :
    Good AdhocCodec.decSlim { compressionLevel := c.compressionLevel, frameHeaderList := c.frameHeaderList, stream := c.stream } (savedBytes c) := by
  unfold savedBytes AdhocCodec.encPieces
  simp only [List.flatten_append, flatten_encU, flatten_encVec, List.append_assoc]
  unfold AdhocCodec.decSlim
  refine Good.then (good_U (w := 4) (by simpa using hl)) ?_
  dsimp only
  rw [← List.append_assoc (leBytes 8 _)]
  refine Good.then (good_Vec (d := fun bs => (decU 1 bs).map fun (n, bs) => (BitVec.ofNat 8 n, bs)) (e := fun b : Byte => leBytes 1 b.toNat) H.nibbles
    (fun v _ => good_bits (n := 8) rfl v)) ?_
  dsimp only
  refine Good.then (good_U (w := 4) (by simpa using H.count)) ?_
  dsimp only
  rw [← List.append_assoc (leBytes 8 _)]
  refine Good.then (good_Vec (d := fun bs => (decU 8 bs).map fun (n, bs) => (BitVec.ofNat 64 n, bs)) (e := fun b : BitVec 64 => leBytes 8 b.toNat) H.bits
    (fun v _ => good_bits (n := 64) rfl v)) ?_
  dsimp only
  refine Good.then (good_U (w := 16) (by simpa using H.bitsCursor)) ?_
  dsimp only
  rw [← List.append_assoc (leBytes 8 _)]
  refine Good.then (good_Vec (d := decU 2) (e := fun n : Nat => leBytes 2 n) H.sizes (fun v hv => good_U (w := 2) (by simpa using HT.sizes v hv))) ?_
  dsimp only
  rw [← List.append_assoc (leBytes 8 _)]
  refine Good.then (good_Vec (d := decU 8) (e := fun n : Nat => leBytes 8 n) H.cursors (fun v hv => good_U (w := 8) (by simpa using HT.cursors v hv))) ?_
  dsimp only
  rw [← List.append_assoc (leBytes 8 _)]
  refine Good.then (good_Vec (e := fun t : Int × Int × Int => (encI16 t.1).flatten ++ ((encI16 t.2.1).flatten ++ (encI16 t.2.2).flatten)) H.hist ?_) ?_
  · intro t ht
    obtain ⟨h1, h2, h3⟩ := HT.hist t ht
    simp only [encI16, flatten_encU]
    refine Good.then (good_I16 h1) ?_
    dsimp only
    refine Good.then (good_I16 h2) ?_
    dsimp only
    refine Good.last (good_I16 h3) ?_
    exact good_pure t
  dsimp only
  refine Good.then (good_U (w := 4) (by simpa using H.header)) ?_
  dsimp only
  refine Good.then (a := c.stream.info) ?_ ?_
  · cases hi : c.stream.info with
    | none => exact good_none
    | some i =>
      obtain ⟨h1, h2⟩ := H.rate i hi
      simp only [encOpt, List.flatten_cons, List.flatten_append, flatten_encU, List.singleton_append]
      refine good_some ?_
      refine Good.then (good_U (w := 4) (by simpa using h1)) ?_
      dsimp only
      refine Good.last (good_U (w := 4) (by simpa using h2)) ?_
      exact good_pure i
  dsimp only
  rw [← List.append_assoc (leBytes 8 _)]
  refine Good.then (good_Vec (d := fun bs => (decU 16 bs).map fun (n, bs) => (BitVec.ofNat 128 n, bs)) (e := fun b : BitVec 128 => leBytes 16 b.toNat) H.binary
    (fun v _ => good_bits (n := 128) rfl v)) ?_
  dsimp only
  refine Good.then (good_U (w := 16) (by simpa using H.cursor)) ?_
  dsimp only
  refine Good.last (good_U (w := 16) (by simpa using H.capacity)) ?_
  exact good_pure ({ compressionLevel := c.compressionLevel, frameHeaderList := c.frameHeaderList, stream := c.stream } : AdhocCodec.Slim)

/-- what loading makes of the saved bytes -/
def reloaded (c : AdhocCodec) (n : Nat) : AdhocCodec :=
  { c.init with channelStateList := List.replicate n FrameCodec.new, seq := .new 314 }

theorem shl1_small {b : Build} {l : Nat} (h : l ≤ 10) : AdhocCodec.shl1 b l = .ok (2 ^ l) := by
  have e : asI 32 ((2 : Int) ^ l) = 2 ^ l := by interval_cases l <;> decide +kernel
  unfold AdhocCodec.shl1
  rw [if_pos (by omega), e]
  rfl

theorem load_saved {b : Build} {c : AdhocCodec} {info : StreamInfo} {level : Nat} (H : Counted c) (V : Valued c info level) (rest : List Byte) :
    AdhocCodec.load b (savedBytes c ++ rest) = .ok (some (reloaded c info.channels)) := by
  have hl : c.compressionLevel ≤ 10 := by rw [V.lev]; omega
  unfold AdhocCodec.load
  rw [(good_slim H V.headers (by omega)).read]
  dsimp only
  rw [shl1_small hl, bind_ok, V.hinfo]
  dsimp only
  rw [pure_eq_ok]
  congr 2
  have h1 : (2 : Int) ^ c.compressionLevel = 2 ^ min level 10 := by rw [V.lev]
  unfold reloaded AdhocCodec.init
  rw [h1, ← V.scale]
  have h2 := V.inv
  rw [← V.scale] at h2
  rw [← h2]
  simp [FrameCodec.init, FrameCodec.new]

theorem load_torn {b : Build} {c : AdhocCodec} {info : StreamInfo} {level : Nat} (H : Counted c) (V : Valued c info level) {p q : List Byte}
    (e : savedBytes c = p ++ q) (hq : q ≠ []) : AdhocCodec.load b p = .ok none := by
  have hl : c.compressionLevel ≤ 10 := by rw [V.lev]; omega
  unfold AdhocCodec.load
  rw [(good_slim H V.headers (by omega)).torn p q e hq]
  rfl

theorem alike_reloaded {c : AdhocCodec} {info : StreamInfo} {level : Nat} (V : Valued c info level) : Alike c.init (reloaded c info.channels) where
  headers := rfl
  stream := rfl
  level := rfl
  scale := rfl
  chans := by
    show List.Forall₂ ChanAlike (c.channelStateList.map FrameCodec.init) (List.replicate info.channels FrameCodec.new)
    rw [← V.chans]
    have hs := V.sound
    generalize c.channelStateList = l at hs
    induction l with
    | nil => exact .nil
    | cons fc l ih =>
      rw [List.map_cons, List.length_cons, List.replicate_succ]
      refine .cons ⟨rfl, rfl, fun _ => ⟨(hs fc (by simp)).ring, last_new⟩, fun h => absurd rfl h⟩ (ih fun x hx => hs x (by simp [hx]))

end Adhoc
