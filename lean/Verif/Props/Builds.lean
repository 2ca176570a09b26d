import Verif.Props.Encoding
import Verif.Props.Capacity
import Verif.Props.Cache32
import Verif.Props.Ring32
import Verif.Props.Cli
import Verif.Model.Examples
import Verif.Model.Tools
import Verif.Model.Signal

/-!
# C154: a debug build only adds panics because of overflows

Whatever is called, a debug build returns what a release build returns and panics where it panics and for the same reason, unless it panics because of an
overflow. C63 has the case that the debug build does not panic.
-/

namespace Adhoc
open Spec

theorem Ref.map {α β : Type} {x y : R α} (f : α → β) (h : Ref x y) : Ref (f <$> x) (f <$> y) := by
  rcases h with rfl | rfl
  · exact Ref.rfl
  · exact .inr (Eq.refl _)

theorem Ref.mapM {α β : Type} {f g : α → R β} (h : ∀ a, Ref (f a) (g a)) : ∀ l : List α, Ref (l.mapM f) (l.mapM g)
  | [] => Ref.rfl
  | a :: l => by
    rw [List.mapM_cons, List.mapM_cons]
    exact (h a).bind fun _ => (Ref.mapM h l).bind fun _ => Ref.rfl

/-- C154 for a codec: any sequence of calls, loads of corrupt files among them, on any codec. -/
theorem C154_sessions (xs : List Call) (c : AdhocCodec) :
    Call.runAll .debug c xs = Call.runAll .release c xs ∨ Call.runAll .debug c xs = .error .overflow := by
  have key : ∀ (xs : List Call) (c : AdhocCodec), Ref (Call.runAll .debug c xs) (Call.runAll .release c xs) := by
    intro xs
    induction xs with
    | nil => intro c; exact Ref.rfl
    | cons x xs ih => intro c; exact (ref_run c x).bind fun r => (ih r.1).bind fun _ => Ref.rfl
  exact key xs c

-- a recording at full scale overflows in a debug build only; two blocks are too few for a first call in both, for the same reason
example : (match Call.runAll .debug (fresh { sampleRate := 8000, channels := 1 } 0) [.encode [F32.ofInt 1, F32.ofInt (-1), F32.ofInt 1, F32.ofInt (-1)]],
      Call.runAll .release (fresh { sampleRate := 8000, channels := 1 } 0) [.encode [F32.ofInt 1, F32.ofInt (-1), F32.ofInt 1, F32.ofInt (-1)]] with
    | .error .overflow, .ok _ => true
    | _, _ => false) = true ∧
    (match Call.runAll .debug (fresh { sampleRate := 8000, channels := 1 } 0) [.encode [F32.ofInt 1, F32.ofInt (-1)]],
      Call.runAll .release (fresh { sampleRate := 8000, channels := 1 } 0) [.encode [F32.ofInt 1, F32.ofInt (-1)]] with
    | .error p, .error p' => p == p' && p != .overflow
    | _, _ => false) = true := by decide +kernel

theorem ref_compressLoop : ∀ (fuel : Nat) (w : WavCodec) (c : AdhocCodec) (buf : List F32),
    Ref (Cli.compressLoop .debug fuel w c buf) (Cli.compressLoop .release fuel w c buf)
  | 0, _, _, _ => Ref.rfl
  | fuel + 1, w, c, buf => by
    unfold Cli.compressLoop
    refine Ref.rfl.bind fun x => ?_
    obtain ⟨w', buf', n?⟩ := x
    cases n? with
    | none => exact Ref.rfl
    | some n => exact (ref_encode _ _).bind fun _ => ref_compressLoop fuel _ _ _

theorem ref_decompressLoop : ∀ (fuel : Nat) (c : AdhocCodec) (w : WavCodec) (buf : List F32),
    Ref (Cli.decompressLoop .debug fuel c w buf) (Cli.decompressLoop .release fuel c w buf)
  | 0, _, _, _ => Ref.rfl
  | fuel + 1, c, w, buf => by
    unfold Cli.decompressLoop
    refine (ref_decode _ _).bind fun x => ?_
    obtain ⟨c', buf', n?⟩ := x
    cases n? with
    | none => exact Ref.rfl
    | some n => exact Ref.rfl.bind fun _ => ref_decompressLoop fuel _ _ _

theorem ref_saveTo (w : WavCodec) (dst : Writer) : Ref (w.saveTo .debug dst) (w.saveTo .release dst) := by
  unfold WavCodec.saveTo WavCodec.header
  exact Ref.bind ((ref_chkU _ _).bind fun _ => (ref_chkI _ _).bind fun _ => (ref_chkI _ _).bind fun _ => (ref_chkI _ _).bind fun _ => Ref.rfl) fun _ => Ref.rfl

/-- C154 for the WAV codec, of which only `save_to` and `seek` do arithmetic that can overflow. -/
theorem C154_wav (w : WavCodec) (dst : Writer) (t : SeekFrom) :
    (w.saveTo .debug dst = w.saveTo .release dst ∨ w.saveTo .debug dst = .error .overflow) ∧
    (w.seek .debug t = w.seek .release t ∨ w.seek .debug t = .error .overflow) := by
  refine ⟨ref_saveTo w dst, ?_⟩
  show Ref _ _
  unfold WavCodec.seek
  cases t with
  | current t => exact Ref.rfl.bind fun _ => (ref_chkI _ _).bind fun _ => (ref_chkI _ _).bind fun _ => Ref.rfl
  | start t => exact (ref_chkI _ _).bind fun _ => Ref.rfl
  | «end» t => exact (ref_chkI _ _).bind fun _ => (ref_chkI _ _).bind fun _ => Ref.rfl

-- in a codec for 2 000 000 000 Hz and two channels the bytes per second overflow; with 8000 Hz they do not
example : (match (WavCodec.new { sampleRate := 2000000000, channels := 2 }).saveTo .debug .perfect, (WavCodec.new { sampleRate := 2000000000, channels := 2 }).saveTo .release .perfect with
    | .error .overflow, .ok r => r.2
    | _, _ => false) = true ∧
    (match (WavCodec.new { sampleRate := 8000, channels := 2 }).saveTo .debug .perfect, (WavCodec.new { sampleRate := 8000, channels := 2 }).saveTo .release .perfect with
    | .ok r, .ok r' => r.1.out == r'.1.out && r.2
    | _, _ => false) = true := by decide +kernel

/-- C154 for the tool and the example programs, whatever the input and the output file. -/
theorem C154_tool (input : List Byte) (level fuel : Nat) (dst : Option Writer) :
    (Cli.convertWavToAdhoc .debug input level dst = Cli.convertWavToAdhoc .release input level dst ∨
      Cli.convertWavToAdhoc .debug input level dst = .error .overflow) ∧
    (Cli.convertAdhocToWav .debug fuel input dst = Cli.convertAdhocToWav .release fuel input dst ∨
      Cli.convertAdhocToWav .debug fuel input dst = .error .overflow) ∧
    (Examples.compress .debug (some input) dst = Examples.compress .release (some input) dst ∨
      Examples.compress .debug (some input) dst = .error .overflow) ∧
    (Examples.decompress .debug fuel (some input) dst = Examples.decompress .release fuel (some input) dst ∨
      Examples.decompress .debug fuel (some input) dst = .error .overflow) := by
  refine ⟨?_, ?_, ?_, ?_⟩ <;> show Ref _ _
  · unfold Cli.convertWavToAdhoc
    refine Ref.rfl.bind fun x => ?_
    cases x with
    | error _ => exact Ref.rfl
    | ok w => exact (ref_compressLoop _ _ _ _).bind fun _ => Ref.rfl
  · unfold Cli.convertAdhocToWav
    refine (ref_load _).bind fun x => ?_
    cases x with
    | none => exact Ref.rfl
    | some c =>
      refine Ref.rfl.bind fun _ => (ref_decompressLoop _ _ _ _).bind fun w => ?_
      cases dst with
      | none => exact Ref.rfl
      | some dst => exact (ref_saveTo w dst).bind fun _ => Ref.rfl
  · unfold Examples.compress
    exact Ref.rfl.bind fun _ => Ref.rfl.bind fun _ => Ref.rfl.bind fun _ => (ref_compressLoop _ _ _ _).bind fun _ => Ref.rfl
  · unfold Examples.decompress
    exact Ref.rfl.bind fun _ => (ref_load _).bind fun _ => Ref.rfl.bind fun _ => Ref.rfl.bind fun _ => (ref_decompressLoop _ _ _ _).bind fun w =>
      Ref.rfl.bind fun _ => (ref_saveTo w _).bind fun _ => Ref.rfl

/-- `shortWav` with samples that alternate between the ends of the range -/
def loudWav : List Byte := shortWav.take 248 ++ [32767, -32767, 32767, -32767, 32767].flatMap le16

-- at level 0, the loud file is compressed in a release build only, and the other one in both
example : (match Cli.convertWavToAdhoc .debug loudWav 0 (some .perfect), Cli.convertWavToAdhoc .release loudWav 0 (some .perfect) with
    | .error .overflow, .ok (some w, some ()) => decide (117 < w.out.length)
    | _, _ => false) = true ∧
    (match Cli.convertWavToAdhoc .debug shortWav 0 (some .perfect), Cli.convertWavToAdhoc .release shortWav 0 (some .perfect) with
    | .ok (some w, some ()), .ok (some w', some ()) => decide (117 < w.out.length) && w.out == w'.out
    | _, _ => false) = true := by decide +kernel

theorem ref_streamCall (s : BitStream) (x : StreamCall) : Ref (x.run .debug s) (x.run .release s) := by
  cases x with
  | writeCompressed k v => exact ref_writeCompressed s k v
  | writeCapped d v =>
    show Ref (s.writeCompressedCapped .debug d v) (s.writeCompressedCapped .release d v)
    unfold BitStream.writeCompressedCapped
    exact (ref_i16op _).bind fun _ => Ref.rfl.bind fun _ => Ref.ite (ref_writeCompressed _ _ _) Ref.rfl
  | readCompressed k => exact (ref_readCompressed s k).map _
  | readCapped d =>
    show Ref ((·.1) <$> s.readCompressedCapped .debug d) ((·.1) <$> s.readCompressedCapped .release d)
    refine Ref.map _ ?_
    unfold BitStream.readCompressedCapped
    exact Ref.rfl.bind fun _ => Ref.ite Ref.rfl (ref_readCompressed _ _)
  | _ => exact Ref.rfl

/-- C154 for a bit stream: any sequence of calls on any stream. -/
theorem C154_stream : ∀ (xs : List StreamCall) (s : BitStream),
    streamStates .debug s xs = streamStates .release s xs ∨ streamStates .debug s xs = .error .overflow := by
  have key : ∀ (xs : List StreamCall) (s : BitStream), Ref (streamStates .debug s xs) (streamStates .release s xs) := by
    intro xs
    induction xs with
    | nil => exact fun _ => Ref.rfl
    | cons x xs ih => exact fun s => (ref_streamCall s x).bind fun s' => (ih s').bind fun _ => Ref.rfl
  exact key

-- the exponent 15 overflows in a debug build only; other writes are the same in both
example : (match streamStates .debug .new [.writeCompressed 15 7#16], streamStates .release .new [.writeCompressed 15 7#16] with
    | .error .overflow, .ok _ => true
    | _, _ => false) = true ∧
    (match streamStates .debug .new [.writeBit 1#8, .writeCompressed 3 77#16], streamStates .release .new [.writeBit 1#8, .writeCompressed 3 77#16] with
    | .ok l, .ok l' => decide (l.map (·.binary) = l'.map (·.binary)) && decide (l.length = 2)
    | _, _ => false) = true := by decide +kernel

theorem ref_insertAt32 {α : Type} (l : LinkedList α) (node : Nat) (d : Dir) (x : α) : Ref (l.insertAt32 .debug node d x) (l.insertAt32 .release node d x) := by
  unfold LinkedList.insertAt32
  refine Ref.ite (Ref.rfl.bind fun _ => Ref.rfl.bind fun _ => (ref_chkU _ _).bind fun _ => Ref.rfl) (Ref.ite Ref.rfl ?_)
  exact Ref.rfl.bind fun _ => Ref.rfl.bind fun _ => Ref.rfl.bind fun _ => Ref.rfl.bind fun _ => Ref.rfl.bind fun _ => Ref.rfl.bind fun _ =>
    (ref_chkU _ _).bind fun _ => Ref.rfl

theorem ref_raiseKey32 {κ ν : Type} [DecidableEq κ] (p : Nat) (l : LinkedList (κ × ν)) (v : Option ν) :
    Ref (LruCache.raiseKey32 .debug p l v) (LruCache.raiseKey32 .release p l v) := by
  unfold LruCache.raiseKey32
  exact Ref.rfl.bind fun _ => Ref.rfl.bind fun _ => (ref_insertAt32 _ _ _ _).bind fun _ => Ref.rfl

theorem ref_cacheRun32 {κ ν : Type} [DecidableEq κ] (c : LruCache κ ν) (o : CacheOp κ ν) : Ref (cacheRun32 .debug c o) (cacheRun32 .release c o) := by
  cases o with
  | put k v =>
    refine Ref.bind ?_ fun _ => Ref.rfl
    unfold LruCache.put32
    cases c.table k with
    | some p => exact (ref_raiseKey32 _ _ _).bind fun _ => Ref.rfl
    | none =>
      dsimp only
      split
      · exact Ref.rfl.bind fun _ => Ref.rfl.bind fun _ => Ref.rfl.bind fun _ => (ref_insertAt32 _ _ _ _).bind fun _ => Ref.rfl
      · exact (ref_insertAt32 _ _ _ _).bind fun _ => Ref.rfl
  | get k =>
    show Ref (c.get32 .debug k) (c.get32 .release k)
    unfold LruCache.get32
    cases c.table k with
    | some p => exact (ref_raiseKey32 _ _ _).bind fun _ => Ref.rfl
    | none => exact Ref.rfl
  | getMut k f =>
    show Ref (c.getMut32 .debug k f) (c.getMut32 .release k f)
    unfold LruCache.getMut32
    cases c.table k with
    | some p => exact (ref_raiseKey32 _ _ _).bind fun _ => Ref.rfl
    | none => exact Ref.rfl
  | lookup k => exact Ref.rfl
  | remove k => exact Ref.rfl

theorem ref_ringRun32 {α : Type} (q : FixedRingBuffer α) (o : RingOp α) : Ref (ringRun32 .debug q o) (ringRun32 .release q o) := by
  have hb : ∀ x n, Ref (FixedRingBuffer.stepBack32 .debug x n) (FixedRingBuffer.stepBack32 .release x n) := fun x n => by
    unfold FixedRingBuffer.stepBack32
    exact (ref_chkU _ _).bind fun _ => (ref_chkU _ _).bind fun _ => (ref_chkU _ _).bind fun _ => Ref.rfl
  have ho : ∀ x n, Ref (FixedRingBuffer.stepOn32 .debug x n) (FixedRingBuffer.stepOn32 .release x n) := fun x n => by
    unfold FixedRingBuffer.stepOn32
    exact (ref_chkU _ _).bind fun _ => (ref_chkU _ _).bind fun _ => Ref.rfl
  cases o with
  | pushFront x =>
    unfold ringRun32
    refine Ref.bind ?_ fun _ => Ref.rfl
    unfold FixedRingBuffer.pushFront32
    exact Ref.ite ((hb _ _).bind fun _ => Ref.rfl.bind fun _ => (ref_chkU _ _).bind fun _ => Ref.rfl) Ref.rfl
  | pushRear x =>
    unfold ringRun32
    refine Ref.bind ?_ fun _ => Ref.rfl
    unfold FixedRingBuffer.pushRear32
    exact Ref.ite (Ref.rfl.bind fun _ => (ho _ _).bind fun _ => (ref_chkU _ _).bind fun _ => Ref.rfl) Ref.rfl
  | popFront =>
    unfold ringRun32 FixedRingBuffer.popFront32
    exact Ref.ite ((ho _ _).bind fun _ => (ref_chkU _ _).bind fun _ => Ref.rfl) Ref.rfl
  | popRear =>
    unfold ringRun32 FixedRingBuffer.popRear32
    exact Ref.ite ((hb _ _).bind fun _ => (ref_chkU _ _).bind fun _ => Ref.rfl) Ref.rfl
  | clear => exact Ref.rfl

/-- C154 for the containers: any sequence of calls on any cache and on any ring buffer, and any insertion into any list. -/
theorem C154_containers {α κ ν : Type} [DecidableEq κ] (os : List (CacheOp κ ν)) (c : LruCache κ ν) (rs : List (RingOp α)) (q : FixedRingBuffer α)
    (l : LinkedList α) (node : Nat) (d : Dir) (x : α) :
    (cacheRuns32 .debug c os = cacheRuns32 .release c os ∨ cacheRuns32 .debug c os = .error .overflow) ∧
    (ringAll32 .debug q rs = ringAll32 .release q rs ∨ ringAll32 .debug q rs = .error .overflow) ∧
    (q.iter32 .debug = q.iter32 .release ∨ q.iter32 .debug = .error .overflow) ∧
    (l.insertAt32 .debug node d x = l.insertAt32 .release node d x ∨ l.insertAt32 .debug node d x = .error .overflow) := by
  refine ⟨?_, ?_, ?_, ref_insertAt32 l node d x⟩
  · have key : ∀ (os : List (CacheOp κ ν)) (c : LruCache κ ν), Ref (cacheRuns32 .debug c os) (cacheRuns32 .release c os) := by
      intro os
      induction os with
      | nil => exact fun _ => Ref.rfl
      | cons o os ih => exact fun c => (ref_cacheRun32 c o).bind fun r => (ih r.1).bind fun _ => Ref.rfl
    exact key os c
  · have key : ∀ (rs : List (RingOp α)) (q : FixedRingBuffer α), Ref (ringAll32 .debug q rs) (ringAll32 .release q rs) := by
      intro rs
      induction rs with
      | nil => exact fun _ => Ref.rfl
      | cons o os ih => exact fun c => (ref_ringRun32 c o).bind fun r => (ih r.1).bind fun _ => Ref.rfl
    exact key rs q
  · show Ref _ _
    unfold FixedRingBuffer.iter32
    exact Ref.mapM (fun _ => (ref_chkU _ _).bind fun _ => Ref.rfl) _

-- a ring buffer without slots cannot be iterated over if it has a length, and its steps overflow in a debug build only
example : ((FixedRingBuffer.mk (α := Nat) [] 0 0 1 0).iter32 .debug = .error .divZero ∧ (FixedRingBuffer.mk (α := Nat) [] 0 0 1 0).iter32 .release = .error .divZero) ∧
    (FixedRingBuffer.stepOn32 .debug 0 0 = .error .overflow ∧ FixedRingBuffer.stepOn32 .release 0 0 = .ok 1) := by decide +kernel

/-- C154 for resampling and for the histogram of the noise. -/
theorem C154_signal (input output values : List F32) (n : Nat) :
    (Signal.scaleSignal .debug input n output = Signal.scaleSignal .release input n output ∨ Signal.scaleSignal .debug input n output = .error .overflow) ∧
    (NoiseDistribution.stars .debug values = NoiseDistribution.stars .release values ∨ NoiseDistribution.stars .debug values = .error .overflow) := by
  constructor <;> show Ref _ _
  · unfold Signal.scaleSignal
    refine (ref_chkU _ _).bind fun _ => (ref_chkU _ _).bind fun _ => Ref.bind (Ref.foldlM (fun o k => Ref.bind ?_ fun _ => Ref.rfl) _ _) fun _ => Ref.rfl
    unfold Signal.scaleAt
    exact (ref_chkU _ _).bind fun _ => Ref.rfl
  · unfold NoiseDistribution.stars NoiseDistribution.frequencies
    refine Ref.bind (Ref.foldlM (fun o v => Ref.rfl.bind fun _ => (ref_chkU _ _).bind fun _ => Ref.rfl) _ _) fun _ => ?_
    exact Ref.mapM (fun _ => Ref.rfl.bind fun _ => (ref_chkU _ _).bind fun _ => Ref.rfl) _

-- nothing can be resampled to nothing in a release build only
example : Signal.scaleSignal .debug [] 0 [] = .error .overflow ∧ Signal.scaleSignal .release [] 0 [] = .ok [] ∧
    Signal.scaleSignal .debug [F32.ofInt 1, F32.ofInt 2] 2 [] = .error .index ∧ Signal.scaleSignal .release [F32.ofInt 1, F32.ofInt 2] 2 [] = .error .index := by
  decide +kernel

end Adhoc
