import Verif.Proofs.Values
import Verif.Props.Bits
import Verif.Props.RoundTrip

/-! # C74: what `BitStream::capacity` counts -/

namespace Adhoc
open Spec

/-- the calls of the public methods of a bit stream that can move its cursor or change its bits -/
inductive StreamCall
  | writeBit (v : BitVec 8)
  | writeBits (v : BitVec 128) (n : Nat)
  | writeU16 (v : BitVec 16)
  | writeCompressed (k : Nat) (v : BitVec 16)
  | writeCapped (divisor : Nat) (v : BitVec 16)
  | readBit
  | readBits (n : Nat)
  | peekBits (n : Nat)
  | readCompressed (k : Nat)
  | readCapped (divisor : Nat)
  | seekStart
  | zero

/-- perform a call -/
def StreamCall.run (b : Build) (s : BitStream) : StreamCall → R BitStream
  | .writeBit v => s.writeBit v
  | .writeBits v n => s.writeBits v n
  | .writeU16 v => s.writeU16 v
  | .writeCompressed k v => s.writeCompressed b k v
  | .writeCapped d v => s.writeCompressedCapped b d v
  | .readBit => (·.1) <$> s.readBit
  | .readBits n => (·.1) <$> s.readBits n
  | .peekBits n => (·.1) <$> s.peekBits n
  | .readCompressed k => (·.1) <$> s.readCompressed b k
  | .readCapped d => (·.1) <$> s.readCompressedCapped b d
  | .seekStart => pure s.seekStart
  | .zero => pure s.zero

/-- it writes -/
def StreamCall.writes : StreamCall → Bool
  | .writeBit _ | .writeBits _ _ | .writeU16 _ | .writeCompressed _ _ | .writeCapped _ _ => true
  | _ => false

/-- the states after each of a sequence of calls -/
def streamStates (b : Build) : BitStream → List StreamCall → R (List BitStream)
  | _, [] => pure []
  | s, c :: cs => do
    let s ← c.run b s
    let rest ← streamStates b s cs
    pure (s :: rest)

/-! the cursor moves forward and takes the capacity with it -/

/-- what a call other than `seek_start` does to cursor and capacity -/
def Moved (s s' : BitStream) : Prop := s.bitCursor ≤ s'.bitCursor ∧ s'.capacity = max s.capacity s'.bitCursor

/-- the capacity is not behind the cursor -/
def Ahead (s : BitStream) : Prop := s.bitCursor ≤ s.capacity

theorem Moved.ahead {s s' : BitStream} (h : Moved s s') : Ahead s' := by
  unfold Ahead; have := h.2; omega

theorem Moved.trans {s t u : BitStream} (h : Moved s t) (h' : Moved t u) : Moved s u := by
  obtain ⟨h1, h2⟩ := h
  obtain ⟨h3, h4⟩ := h'
  exact ⟨by omega, by omega⟩

theorem moved_same {s s' : BitStream} (H : Ahead s) (h1 : s'.bitCursor = s.bitCursor) (h2 : s'.capacity = s.capacity) : Moved s s' := by
  unfold Ahead at H
  exact ⟨by omega, by omega⟩

theorem moved_offset {s t : BitStream} (h1 : t.bitCursor = s.bitCursor) (h2 : t.capacity = s.capacity) (n : Nat) : Moved s (t.offsetBitCursor n) := by
  unfold BitStream.offsetBitCursor
  refine ⟨by dsimp only; omega, ?_⟩
  dsimp only
  rw [h1, h2, Nat.max_comm]

theorem allocate_cursor (s : BitStream) (i : Nat) : (s.allocateIfNeeded i).bitCursor = s.bitCursor ∧ (s.allocateIfNeeded i).capacity = s.capacity := by
  unfold BitStream.allocateIfNeeded
  split <;> exact ⟨rfl, rfl⟩

theorem moved_writeBit (s : BitStream) (v : BitVec 8) : Ens (s.writeBit v) (Moved s) := by
  unfold BitStream.writeBit
  refine (Ens.any _).bind fun c _ => (Ens.any _).bind fun bin _ => Ens.ok ?_
  exact moved_offset (allocate_cursor s _).1 (allocate_cursor s _).2 1

theorem moved_writeBits (s : BitStream) (v : BitVec 128) (n : Nat) : Ens (s.writeBits v n) (Moved s) := by
  unfold BitStream.writeBits
  have h1 := allocate_cursor s s.chunkIndex
  have h2 := allocate_cursor (s.allocateIfNeeded s.chunkIndex) (s.chunkIndex + 1)
  refine (Ens.any _).bind fun c _ => (Ens.any _).bind fun bin _ => ?_
  dsimp only
  split
  · refine (Ens.any _).bind fun d _ => (Ens.any _).bind fun bin' _ => Ens.ok ?_
    exact moved_offset (h2.1.trans h1.1) (h2.2.trans h1.2) n
  · exact Ens.ok (moved_offset (h2.1.trans h1.1) (h2.2.trans h1.2) n)

theorem moved_writeUnary : ∀ (fuel : Nat) (s : BitStream) (_ : Ahead s) (q : Int), Ens (BitStream.writeUnary fuel s q) (Moved s)
  | 0, _, _, _ => Ens.error
  | fuel + 1, s, H, q => by
    unfold BitStream.writeUnary
    split
    · split
      · exact (moved_writeBits s _ _).bind fun t ht => fun u hu => ht.trans (moved_writeUnary fuel t ht.ahead _ u hu)
      · exact moved_writeBits s _ _
    · exact Ens.ok (moved_same H rfl rfl)

theorem moved_writeCompressed {b : Build} (s : BitStream) (k : Nat) (v : BitVec 16) : Ens (s.writeCompressed b k v) (Moved s) := by
  unfold BitStream.writeCompressed
  refine (Ens.any _).bind fun a _ => (Ens.any _).bind fun m _ => ?_
  refine (moved_writeBit s _).bind fun t ht => ?_
  refine (moved_writeUnary _ t ht.ahead _).bind fun u hu => ?_
  refine (moved_writeBit u _).bind fun w hw => ?_
  exact fun x hx => ((ht.trans hu).trans hw).trans (moved_writeBits w _ _ x hx)

theorem moved_writeCapped {b : Build} (s : BitStream) (d : Nat) (v : BitVec 16) : Ens (s.writeCompressedCapped b d v) (Moved s) := by
  unfold BitStream.writeCompressedCapped
  refine (Ens.any _).bind fun a _ => ?_
  refine (moved_writeBit s _).bind fun t ht => ?_
  split
  · exact fun x hx => ht.trans (moved_writeCompressed t _ _ x hx)
  · exact (Ens.any _).bind fun c _ => fun x hx => ht.trans (moved_writeBits t _ _ x hx)

theorem moved_readBit {s : BitStream} (H : Ahead s) : Ens s.readBit (fun r => Moved s r.1) := by
  unfold BitStream.readBit
  dsimp only
  split
  · exact Ens.ok (moved_same H rfl rfl)
  · exact (Ens.any _).bind fun c _ => Ens.ok (moved_offset rfl rfl 1)

theorem same_peekBits (s : BitStream) (n : Nat) : Ens (s.peekBits n) (fun r => r.1.bitCursor = s.bitCursor ∧ r.1.capacity = s.capacity) := by
  have h1 := allocate_cursor s s.chunkIndex
  have h2 := allocate_cursor (s.allocateIfNeeded s.chunkIndex) (s.chunkIndex + 1)
  unfold BitStream.peekBits
  dsimp only
  split
  · exact Ens.ok ⟨h2.1.trans h1.1, h2.2.trans h1.2⟩
  · refine (Ens.any _).bind fun c _ => ?_
    split
    · exact (Ens.any _).bind fun d _ => Ens.ok ⟨h2.1.trans h1.1, h2.2.trans h1.2⟩
    · exact Ens.ok ⟨h2.1.trans h1.1, h2.2.trans h1.2⟩

theorem moved_readBits (s : BitStream) (n : Nat) : Ens (s.readBits n) (fun r => Moved s r.1) := by
  unfold BitStream.readBits
  exact (same_peekBits s n).bind fun r hr => Ens.ok (moved_offset hr.1 hr.2 n)

theorem moved_readOnes {b : Build} : ∀ (fuel : Nat) (s : BitStream) (_ : Ahead s) (q : BitVec 16),
    Ens (BitStream.readOnes b fuel s q) (fun r => Moved s r.1)
  | 0, _, _, _ => Ens.error
  | fuel + 1, s, H, q => by
    unfold BitStream.readOnes
    refine (same_peekBits s 128).bind fun r hr => ?_
    dsimp only
    split
    · refine (Ens.any _).bind fun q' _ => ?_
      have hm := moved_offset hr.1 hr.2 128
      exact fun x hx => hm.trans (moved_readOnes fuel _ hm.ahead _ x hx)
    · exact Ens.ok (moved_same H hr.1 hr.2)

theorem moved_readCompressed {b : Build} {s : BitStream} (H : Ahead s) (k : Nat) : Ens (s.readCompressed b k) (fun r => Moved s r.1) := by
  unfold BitStream.readCompressed
  refine (moved_readBit H).bind fun r hr => ?_
  refine (moved_readOnes _ _ hr.ahead _).bind fun t ht => ?_
  refine (Ens.any _).bind fun q _ => ?_
  refine (moved_readBits _ _).bind fun u hu => ?_
  refine (Ens.any _).bind fun _ _ => (Ens.any _).bind fun _ _ => (Ens.any _).bind fun _ _ => (Ens.any _).bind fun _ _ => (Ens.any _).bind fun _ _ => Ens.ok ?_
  exact ((hr.trans ht).trans (moved_offset rfl rfl _)).trans hu

theorem moved_readCapped {b : Build} {s : BitStream} (H : Ahead s) (d : Nat) : Ens (s.readCompressedCapped b d) (fun r => Moved s r.1) := by
  unfold BitStream.readCompressedCapped
  refine (moved_readBit H).bind fun r hr => ?_
  dsimp only
  split
  · exact (moved_readBits _ _).bind fun u hu => Ens.ok (hr.trans hu)
  · exact fun x hx => hr.trans (moved_readCompressed hr.ahead _ x hx)

theorem Ens.fst {α β : Type} {x : R (α × β)} {P : α → Prop} (h : Ens x fun r => P r.1) : Ens ((·.1) <$> x) P := by
  intro a ha
  rcases x with p | r
  · cases ha
  · cases ha
    exact h r rfl

/-- one call: the capacity becomes the larger of what it was and the new cursor, and only `seek_start` moves the cursor back -/
theorem streamCall_moved {b : Build} {s : BitStream} (H : Ahead s) (c : StreamCall) :
    Ens (c.run b s) fun s' => s'.capacity = max s.capacity s'.bitCursor ∧ (s.bitCursor ≤ s'.bitCursor ∨ c = .seekStart) ∧ Ahead s' := by
  have go : ∀ {x : R BitStream}, Ens x (Moved s) → Ens x fun s' => s'.capacity = max s.capacity s'.bitCursor ∧ (s.bitCursor ≤ s'.bitCursor ∨ c = .seekStart) ∧ Ahead s' :=
    fun h a ha => ⟨(h a ha).2, .inl (h a ha).1, (h a ha).ahead⟩
  cases c with
  | writeBit v => exact go (moved_writeBit s v)
  | writeBits v n => exact go (moved_writeBits s v n)
  | writeU16 v => exact go (moved_writeBits s _ _)
  | writeCompressed k v => exact go (moved_writeCompressed s k v)
  | writeCapped d v => exact go (moved_writeCapped s d v)
  | readBit => exact go (moved_readBit H).fst
  | readBits n => exact go (moved_readBits s n).fst
  | peekBits n => exact go (Ens.fst fun r hr => moved_same H (same_peekBits s n r hr).1 (same_peekBits s n r hr).2)
  | readCompressed k => exact go (moved_readCompressed H k).fst
  | readCapped d => exact go (moved_readCapped H d).fst
  | seekStart => exact Ens.ok ⟨by show s.capacity = max s.capacity 0; omega, .inr rfl, Nat.zero_le _⟩
  | zero => exact Ens.ok (by
      have : Moved s s.zero := moved_same H rfl rfl
      exact ⟨this.2, .inl this.1, this.ahead⟩)

/-- **C74** as documented: the capacity is the largest number of bits ever written, that is, the furthest end of a write -/
def C74_statement : Prop := ∀ (b : Build) (calls : List StreamCall) (states : List BitStream), streamStates b .new calls = .ok states →
  ∀ last ∈ states.getLast?, last.capacity = ((calls.zip states).filterMap fun p => if p.1.writes then some p.2.bitCursor else none).foldl max 0

/-- C74 is false: reading moves the cursor and takes the capacity with it. Here one bit was written. -/
theorem C74_false : ¬ C74_statement := by
  intro h
  have := h .debug [.writeBit 1#8, .readBit] _ (show streamStates .debug .new [.writeBit 1#8, .readBit] = .ok
    [{ binary := [1#128], bitCursor := 1, capacity := 1 }, { binary := [1#128], bitCursor := 2, capacity := 2 }] by decide +kernel) _ rfl
  revert this
  decide

theorem foldl_max_le (l : List Nat) : ∀ m, m ≤ l.foldl max m := by
  induction l with
  | nil => intro m; exact le_rfl
  | cons a l ih => intro m; exact (le_max_left m a).trans (ih _)

theorem states_capacity {b : Build} : ∀ (calls : List StreamCall) {s : BitStream} (_ : Ahead s) {states : List BitStream}
    (_ : streamStates b s calls = .ok states) (last : BitStream) (_ : last ∈ states.getLast?),
    last.capacity = (states.map (·.bitCursor)).foldl max s.capacity
  | [], s, _, states, h, last, hl => by
    cases h
    cases hl
  | c :: cs, s, H, states, h, last, hl => by
    unfold streamStates at h
    obtain ⟨t, ht, h⟩ := bind_eq_ok.1 h
    obtain ⟨rest, hrest, h⟩ := bind_eq_ok.1 h
    cases h
    obtain ⟨h1, -, h3⟩ := streamCall_moved H c t ht
    rw [List.map_cons, List.foldl_cons, ← h1]
    cases rest with
    | nil =>
      cases hl
      rfl
    | cons u us =>
      rw [List.getLast?_cons_cons] at hl
      exact states_capacity cs h3 hrest last hl

/-- C74, what holds. After any sequence of calls on a new stream the capacity is the furthest position the cursor had after any of them. -/
theorem C74_cursor_partial (b : Build) (calls : List StreamCall) (states : List BitStream) (h : streamStates b .new calls = .ok states) :
    ∀ last ∈ states.getLast?, last.capacity = (states.map (·.len)).foldl max 0 :=
  fun last hl => states_capacity calls (s := .new) (Nat.le_refl 0) h last hl

/-- the hypothesis holds for a sequence with a rewind, after which the capacity is not the length -/
example : ((streamStates .debug .new [.writeU16 77#16, .seekStart, .readBits 7]).map fun l => l.map fun s => (s.len, s.capacity)) =
    .ok [(16, 16), (0, 16), (7, 16)] := by decide +kernel

/-! ## recordings -/

theorem moved_encodeSamples {b : Build} {k : Nat} : ∀ (ys : List F32) {s : BitStream} (_ : Ahead s) {h : CircularStack Int},
    Ens (FrameCodec.encodeSamples b k s h ys) (fun r => Moved s r.1)
  | [], _, H, _ => Ens.ok (moved_same H rfl rfl)
  | y :: ys, s, H, h => by
    unfold FrameCodec.encodeSamples
    dsimp only
    exact (Ens.any _).bind fun _ _ => (moved_writeCompressed s _ _).bind fun t ht => fun x hx => ht.trans (moved_encodeSamples ys ht.ahead x hx)

theorem moved_encodeFrame {b : Build} {fc : FrameCodec} {st : AudioStream} (H : Ahead st.stream) {hd : FrameHeaders} {pcm : List F32} :
    Ens (fc.encodeFrame b st hd pcm) (fun r => Moved st.stream r.2.1.stream) := by
  unfold FrameCodec.encodeFrame
  split
  · refine (Ens.any _).bind fun p0 _ => (moved_writeBits _ _ _).bind fun s0 h0 => (Ens.any _).bind fun p1 _ => (moved_writeBits _ _ _).bind fun s1 h1 =>
      (Ens.any _).bind fun p2 _ => (moved_writeBits _ _ _).bind fun s2 h2 => (Ens.any _).bind fun e _ => (Ens.any _).bind fun _ _ => ?_
    have h := (h0.trans h1).trans h2
    exact (moved_encodeSamples _ h.ahead).bind fun r hr => Ens.ok (h.trans hr)
  · refine (Ens.any _).bind fun e _ => (Ens.any _).bind fun hd' hhd => ?_
    exact (moved_encodeSamples _ H).bind fun r hr => Ens.ok hr
  · exact Ens.error

theorem moved_encode {b : Build} {c : AdhocCodec} (H : Ahead c.stream.stream) (pcm : List F32) :
    Ens (c.encode b pcm) (fun r => Moved c.stream.stream r.1.stream.stream) := by
  unfold AdhocCodec.encode
  refine Ens.bind (P := fun c' => Moved c.stream.stream c'.stream.stream) ?_ fun c' h => Ens.ok h
  unfold AdhocCodec.encodeRaw
  refine (Ens.any _).bind fun i _ => (Ens.any _).bind fun q _ => ?_
  refine Ens.foldlM ?_ _ _ (moved_same H rfl rfl)
  intro c' ch H'
  unfold AdhocCodec.encodeChannel
  refine (Ens.any _).bind fun xs _ => (Ens.any _).bind fun ys _ => (Ens.any _).bind fun fc hfc => ?_
  refine (moved_encodeFrame H'.ahead).bind fun r hr => (Ens.any _).bind fun l _ => Ens.ok (H'.trans hr)

/-- The codec's own writing: after recording on a new codec, capacity and length agree, both the number of bits written; rewinding keeps the
capacity. -/
theorem C74_recording_partial (b : Build) (info : StreamInfo) (level : Nat) (calls : List (List F32)) (c : AdhocCodec)
    (h : encodeAll b (fresh info level) calls = .ok c) :
    c.stream.stream.capacity = c.stream.stream.len ∧ c.init.stream.stream.capacity = c.stream.stream.len ∧ c.init.stream.stream.len = 0 := by
  have key : Moved (fresh info level).stream.stream c.stream.stream := by
    refine Ens.foldlM (P := fun c : AdhocCodec => Moved (fresh info level).stream.stream c.stream.stream) ?_ calls (fresh info level) ⟨le_rfl, rfl⟩ c h
    intro c' pcm H'
    exact (moved_encode H'.ahead pcm).bind fun r hr => Ens.ok (H'.trans hr)
  have h0 : (fresh info level).stream.stream.capacity = 0 := rfl
  have h1 := key.2
  rw [h0, Nat.zero_max] at h1
  exact ⟨h1, h1, rfl⟩

/-- the hypothesis holds for a recording in two channels -/
example : ∃ c, encodeAll .debug (fresh { sampleRate := 44100, channels := 2 } 0) demo = .ok c := by
  obtain ⟨c, h, -⟩ := C01_round_trip .debug .debug { sampleRate := 44100, channels := 2 } (by simp) demo demo_proper demo_inSync
  exact ⟨c, h⟩

end Adhoc
