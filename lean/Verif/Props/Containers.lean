import Verif.Proofs.Ring
import Verif.Proofs.Headers

/-! # C46–C51: the packed containers -/

namespace Adhoc

/-! ## C46, C47: NibbleList -/

/-- a call on a nibble list -/
inductive NibOp
  | push (v : Byte)
  | set (i : Nat) (v : Byte)

/-- the call on the nibble list -/
def NibOp.run (l : NibbleList) : NibOp → R NibbleList
  | .push v => l.push v
  | .set i v => pure (l.set i v)

/-- a sequence of calls -/
def NibOp.runAll : NibbleList → List NibOp → R NibbleList
  | l, [] => pure l
  | l, o :: os => do
    let l ← o.run l
    runAll l os

/-- the same call on a plain list -/
def NibOp.spec (xs : List Nat) : NibOp → List Nat
  | .push v => xs ++ [v.toNat]
  | .set i v => xs.set i v.toNat

/-- values are 4-bit and `set` stays inside the list -/
def NibOp.Ok (xs : List Nat) : NibOp → Prop
  | .push v => v.toNat < 16
  | .set i v => i < xs.length ∧ v.toNat < 16

/-- every call of the sequence is allowed when it is made -/
def NibOp.AllOk : List Nat → List NibOp → Prop
  | _, [] => True
  | xs, o :: os => o.Ok xs ∧ AllOk (o.spec xs) os

theorem nibOps : ∀ (os : List NibOp) {l : NibbleList} {xs : List Nat}, IsNibbles l xs → NibOp.AllOk xs os →
    ∃ l', NibOp.runAll l os = .ok l' ∧ IsNibbles l' (os.foldl NibOp.spec xs)
  | [], l, xs, h, _ => ⟨l, rfl, h⟩
  | .push v :: os, l, xs, h, hok => by
    obtain ⟨l1, e1, h1⟩ := isNibbles_push h (v := v) hok.1
    obtain ⟨l2, e2, h2⟩ := nibOps os h1 hok.2
    exact ⟨l2, by simp [NibOp.runAll, NibOp.run, e1, e2], h2⟩
  | .set i v :: os, l, xs, h, hok => by
    obtain ⟨l2, e2, h2⟩ := nibOps os (isNibbles_set h hok.1.1 hok.1.2) hok.2
    exact ⟨l2, by simp [NibOp.runAll, NibOp.run, e2], h2⟩

/-- C46. Pushes and in-range sets of 4-bit values on a new nibble list never panic and read back like a plain list; two values
are stored per byte. -/
theorem C46_nibble_list (os : List NibOp) (hok : NibOp.AllOk [] os) :
    ∃ l, NibOp.runAll .new os = .ok l ∧ l.len = (os.foldl NibOp.spec []).length ∧
      l.iter.map BitVec.toNat = os.foldl NibOp.spec [] ∧
      (∀ i, i < l.len → some (l.get i).toNat = (os.foldl NibOp.spec [])[i]?) ∧
      l.data.length = (l.len + 1) / 2 := by
  obtain ⟨l, e, h⟩ := nibOps os isNibbles_new hok
  have hlen : l.len = (os.foldl NibOp.spec []).length := h.count
  refine ⟨l, e, hlen, ?_, ?_, ?_⟩
  · unfold NibbleList.iter
    rw [hlen]
    apply List.ext_getElem
    · simp
    · intro i h1 h2
      simp only [List.map_map, List.getElem_map, List.getElem_range, Function.comp]
      exact h.get h2
  · intro i hi
    rw [hlen] at hi
    rw [h.get hi, List.getElem?_eq_getElem hi]
  · rw [hlen]; exact h.bytes

example : NibOp.AllOk [] [.push 3#8, .push 15#8, .set 0 7#8, .push 1#8] ∧
    [NibOp.push 3#8, .push 15#8, .set 0 7#8, .push 1#8].foldl NibOp.spec [] = [7, 15, 1] := by
  simp [NibOp.AllOk, NibOp.Ok, NibOp.spec]

/-- C46, the range condition on `set` is needed: a `set` just past an odd-length list corrupts the next push. -/
theorem C46_set_past_end_corrupts :
    ∃ l, NibOp.runAll .new [.push 1#8, .set 1 5#8, .push 2#8] = .ok l ∧ l.get 1 = 7#8 := by
  refine ⟨_, rfl, ?_⟩
  decide

/-- C47 is false: after `clear` a pushed value is merged with the stale one. -/
theorem C47_false :
    ¬ ∀ (l : NibbleList) (xs : List Nat), IsNibbles l xs → ∀ v : Byte, v.toNat < 16 →
      ∃ l', l.clear.push v = .ok l' ∧ l'.get 0 = v := by
  intro h
  obtain ⟨l, e, hl⟩ := isNibbles_push isNibbles_new (v := 1#8) (by decide)
  obtain ⟨l', e', hv⟩ := h l _ hl 2#8 (by decide)
  have : l = ⟨[1#8], 1⟩ := by
    have : NibbleList.new.push 1#8 = .ok ⟨[1#8], 1⟩ := rfl
    rw [this] at e; injection e with e; exact e.symm
  subst this
  have : (NibbleList.clear ⟨[1#8], 1⟩).push 2#8 = .ok ⟨[3#8], 1⟩ := rfl
  rw [this] at e'; injection e' with e'
  subst e'
  revert hv; decide

/-- C47, exact behaviour: the first value pushed after `clear` is merged (bitwise or) with the value that was there. -/
theorem C47_push_after_clear_partial {l : NibbleList} {xs : List Nat} (h : IsNibbles l xs) (hx : xs ≠ []) {v : Byte}
    (hv : v.toNat < 16) : ∃ l', l.clear.push v = .ok l' ∧ l'.len = 1 ∧ l'.get 0 = l.get 0 ||| v := by
  have hpos : 0 < xs.length := List.length_pos_iff.2 hx
  have hb := h.bytes
  have hlt : 0 < l.data.length := by omega
  refine ⟨⟨l.data.set 0 (l.data[0] ||| v <<< (4 * 0)), 1⟩, ?_, rfl, ?_⟩
  · unfold NibbleList.push NibbleList.clear
    dsimp only
    rw [show (0 : Nat) / 2 = 0 from rfl, if_neg (by omega), idx_of_lt hlt, bind_ok, setIdx_of_lt hlt]
    rfl
  · apply BitVec.eq_of_getLsbD_eq
    intro k hk
    rw [BitVec.getLsbD_or, NibbleList.get_bit, NibbleList.get_bit]
    by_cases h4 : k < 4
    · simp only [h4, decide_true, Bool.true_and, Nat.mul_zero, Nat.zero_add]
      rw [bitW_set hlt, if_pos (by omega)]
      have := bitW_word hlt (k := k) hk
      rw [Nat.mul_zero, Nat.zero_add] at this
      rw [this]
      simp [Nat.mod_eq_of_lt hk]
    · rw [byte_small_bit hv (by omega)]; simp [h4]

example : IsNibbles ⟨[0x21#8], 2⟩ [1, 2] := by
  obtain ⟨l, e, h⟩ := isNibbles_push isNibbles_new (v := 1#8) (by decide)
  obtain ⟨l', e', h'⟩ := isNibbles_push h (v := 2#8) (by decide)
  have h1 : NibbleList.new.push 1#8 = .ok ⟨[1#8], 1⟩ := rfl
  rw [h1] at e; injection e with e; subst e
  have h2 : NibbleList.push ⟨[1#8], 1⟩ 2#8 = .ok ⟨[0x21#8], 2⟩ := rfl
  rw [h2] at e'; injection e' with e'; subst e'
  exact h'

/-! ## C48: BitVec -/

/-- a call on a bit vector -/
inductive BitOp
  | push (bit : BitVec 64)
  | set (i : Nat) (bit : BitVec 64)
  | clear

/-- the call on the bit vector -/
def BitOp.run (v : BitVecU64) : BitOp → R BitVecU64
  | .push b => v.push b
  | .set i b => pure (v.set i b)
  | .clear => pure v.clear

/-- a sequence of calls -/
def BitOp.runAll : BitVecU64 → List BitOp → R BitVecU64
  | v, [] => pure v
  | v, o :: os => do
    let v ← o.run v
    runAll v os

/-- the same call on a plain list of bits (only the lowest bit of the argument counts; sets outside the list do nothing),
together with the greatest length so far -/
def BitOp.spec (st : List Bool × Nat) : BitOp → List Bool × Nat
  | .push b => (st.1 ++ [b.toNat % 2 == 1], max st.2 (st.1.length + 1))
  | .set i b => (st.1.set i (b.toNat % 2 == 1), st.2)
  | .clear => ([], st.2)

theorem lowBit (b : BitVec 64) : b.getLsbD 0 = (b.toNat % 2 == 1) := by
  rw [← BitVec.testBit_toNat, Nat.testBit_zero]
  rcases Nat.mod_two_eq_zero_or_one b.toNat with h | h <;> simp [h]

theorem bitOps : ∀ (os : List BitOp) {v : BitVecU64} {st : List Bool × Nat}, IsBits v st.1 st.2 →
    ∃ v', BitOp.runAll v os = .ok v' ∧ IsBits v' (os.foldl BitOp.spec st).1 (os.foldl BitOp.spec st).2
  | [], v, st, h => ⟨v, rfl, h⟩
  | .push b :: os, v, st, h => by
    obtain ⟨v1, e1, h1⟩ := isBits_push h b
    rw [lowBit] at h1
    obtain ⟨v2, e2, h2⟩ := bitOps os (st := BitOp.spec st (.push b)) h1
    exact ⟨v2, by simp [BitOp.runAll, BitOp.run, e1, e2], h2⟩
  | .set i b :: os, v, st, h => by
    have h1 := isBits_set h i b
    rw [lowBit] at h1
    obtain ⟨v2, e2, h2⟩ := bitOps os (st := BitOp.spec st (.set i b)) h1
    exact ⟨v2, by simp [BitOp.runAll, BitOp.run, e2], h2⟩
  | .clear :: os, v, st, h => by
    obtain ⟨v2, e2, h2⟩ := bitOps os (st := BitOp.spec st .clear) (isBits_clear h)
    exact ⟨v2, by simp [BitOp.runAll, BitOp.run, e2], h2⟩

/-- C48. Any sequence of push, set and clear calls on a new bit vector never panics and reads back like a list of bits; the capacity is
the greatest length reached, rounded up to a multiple of 64, which is what `compute_bits_required` gives for that length. -/
theorem C48_bitvec (os : List BitOp) :
    ∃ v, BitOp.runAll .new os = .ok v ∧ v.len = (os.foldl BitOp.spec ([], 0)).1.length ∧
      v.iter.map (fun x => x == 1#64) = (os.foldl BitOp.spec ([], 0)).1 ∧
      (∀ i, i < v.len → v.get i = if (os.foldl BitOp.spec ([], 0)).1.getD i false then 1#64 else 0#64) ∧
      v.capacity = ((os.foldl BitOp.spec ([], 0)).2 + 63) / 64 * 64 ∧ BitVecU64.computeBitsRequired (os.foldl BitOp.spec ([], 0)).2 = v.capacity := by
  obtain ⟨v, e, h⟩ := bitOps os (st := ([], 0)) isBits_new
  have hlen : v.len = (os.foldl BitOp.spec ([], 0)).1.length := h.cursor
  have hcap : v.capacity = ((os.foldl BitOp.spec ([], 0)).2 + 63) / 64 * 64 := by
    unfold BitVecU64.capacity
    rw [h.words]
  refine ⟨v, e, hlen, ?_, ?_, hcap, ?_⟩
  · unfold BitVecU64.iter
    rw [hlen]
    apply List.ext_getElem
    · simp
    · intro i h1 h2
      simp only [List.map_map, List.getElem_map, List.getElem_range, Function.comp]
      rw [h.get h2]
      cases (os.foldl BitOp.spec ([], 0)).1[i] <;> rfl
  · intro i hi
    rw [hlen] at hi
    rw [h.get hi, List.getD_eq_getElem?_getD, List.getElem?_eq_getElem hi]
    rfl
  · rw [hcap]
    unfold BitVecU64.computeBitsRequired
    congr 1
    omega

example : ([BitOp.push 1#64, .push 2#64, .set 1 3#64, .push 0#64].foldl BitOp.spec ([], 0)) = ([true, true, false], 3) ∧
    ([BitOp.push 1#64, .push 2#64, .clear, .push 5#64].foldl BitOp.spec ([], 0)) = ([true], 2) := by
  constructor <;> rfl

/-! ## C49: CircularStack -/

/-- a call on a history -/
inductive StackOp
  | push (v : Int)
  | pop

/-- the call on the circular stack -/
def StackOp.run (s : CircularStack Int) : StackOp → CircularStack Int
  | .push v => s.push v
  | .pop => s.pop.1

/-- the same call on a plain list, most recent first, of which only the four most recent items are kept -/
def StackOp.spec (xs : List Int) : StackOp → List Int
  | .push v => (v :: xs).take 4
  | .pop => xs.tail

theorem stackOps : ∀ (os : List StackOp) {s : CircularStack Int} {xs : List Int}, IsRecent s xs →
    IsRecent (os.foldl StackOp.run s) (os.foldl StackOp.spec xs)
  | [], _, _, h => h
  | .push v :: os, _, _, h => stackOps os (isRecent_push h v)
  | .pop :: os, _, _, h => stackOps os (isRecent_pop h).1

/-- C49. After any sequence of pushes and pops, `prev(k)` is the k-th most recent item still held, and `pop` returns the most recent one. -/
theorem C49_circular_stack (os : List StackOp) :
    (os.foldl StackOp.run (.new 0)).len = (os.foldl StackOp.spec []).length ∧
    (∀ k, 1 ≤ k → k ≤ (os.foldl StackOp.spec []).length →
      some ((os.foldl StackOp.run (.new 0)).prev k) = (os.foldl StackOp.spec [])[k - 1]?) ∧
    (∀ x, (os.foldl StackOp.spec []).head? = some x → (os.foldl StackOp.run (.new 0)).pop.2 = x) := by
  have h := stackOps os (isRecent_new (0 : Int))
  refine ⟨h.len, ?_, (isRecent_pop h).2⟩
  intro k h1 hk
  rw [h.prev h1 hk, List.getElem?_eq_getElem]

/-- C49 for pushes only: `prev(k)` is the k-th last pushed item for `k ≤ min(4, number pushed)`. -/
theorem C49_pushes (vs : List Int) (k : Nat) (h1 : 1 ≤ k) (h4 : k ≤ 4) (hk : k ≤ vs.length) :
    some ((vs.foldl CircularStack.push (.new 0)).prev k) = vs[vs.length - k]? := by
  have key : ∀ (vs : List Int) (s : CircularStack Int) (xs : List Int), IsRecent s xs →
      IsRecent (vs.foldl CircularStack.push s) ((vs.reverse ++ xs).take 4) := by
    intro vs
    induction vs with
    | nil => intro s xs h; simpa [List.take_of_length_le h.le] using h
    | cons v vs ih =>
      intro s xs h
      have := ih _ _ (isRecent_push h v)
      rw [List.foldl_cons]
      convert this using 1
      simp only [List.reverse_cons, List.append_assoc, List.singleton_append]
      rw [List.take_append, List.take_append, List.take_take, min_eq_left (by omega)]
  have h := key vs _ _ (isRecent_new 0)
  simp only [List.append_nil] at h
  rw [h.prev h1 (by simp; omega), List.getElem_take, List.getElem_reverse, List.getElem?_eq_getElem (by omega)]
  congr 2; omega

example : ((([1, 2, 3, 4, 5, 6] : List Int).foldl CircularStack.push (.new 0)).prev 4 = 3) ∧
    ([StackOp.push 1, .push 2, .push 3, .push 4, .push 5, .pop].foldl StackOp.spec [] = [4, 3, 2]) := by
  constructor <;> rfl

/-- C49, the other observer is wrong: `is_empty` answers true exactly when the history is full, so it is never true for a new one. -/
theorem C49_is_empty_inverted (os : List StackOp) :
    (os.foldl StackOp.run (.new 0)).isEmpty = true ↔ (os.foldl StackOp.spec []).length = 4 := by
  have h := stackOps os (isRecent_new (0 : Int))
  have := h.le
  simp only [CircularStack.isEmpty, h.len, decide_eq_true_eq]
  omega

/-! ## C50: FrameHeaders -/

/-- a call on the frame headers -/
inductive LogOp
  | push (h : FrameHeader)
  | next
  | setCursor (i : Nat)
  | reset

/-- the call on the packed headers -/
def LogOp.run (h : FrameHeaders) : LogOp → R (FrameHeaders × Option FrameHeader)
  | .push x => do
    let h ← h.push x
    pure (h, none)
  | .next => h.next
  | .setCursor i => pure (h.setCursor i, none)
  | .reset => pure (h.reset, none)

/-- a sequence of calls, with the values returned by `next` -/
def LogOp.runAll : FrameHeaders → List LogOp → R (FrameHeaders × List (Option FrameHeader))
  | h, [] => pure (h, [])
  | h, o :: os => do
    let (h, r) ← o.run h
    let (h, rs) ← runAll h os
    pure (h, r :: rs)

/-- the same call on a plain list of headers with a cursor -/
def LogOp.spec (st : List FrameHeader × Nat) : LogOp → (List FrameHeader × Nat) × Option FrameHeader
  | .push x => ((if st.2 < st.1.length then st.1.set st.2 x else st.1 ++ [x], st.2 + 1), none)
  | .next => ((st.1, if st.2 < st.1.length then st.2 + 1 else st.2), st.1[st.2]?)
  | .setCursor i => ((st.1, i), none)
  | .reset => ((st.1, 0), none)

/-- the sequence on the plain list -/
def LogOp.specAll : List FrameHeader × Nat → List LogOp → (List FrameHeader × Nat) × List (Option FrameHeader)
  | st, [] => (st, [])
  | st, o :: os => ((specAll (o.spec st).1 os).1, (o.spec st).2 :: (specAll (o.spec st).1 os).2)

/-- pushed headers have a 4-bit exponent and a 64-bit position -/
def LogOp.Ok : LogOp → Prop
  | .push x => x.exponent < 16 ∧ x.bitCursor < 2 ^ 64
  | _ => True

theorem logOps : ∀ (os : List LogOp) {h : FrameHeaders} {st : List FrameHeader × Nat}, IsLog h st.1 st.2 → (∀ o ∈ os, o.Ok) →
    ∃ h', LogOp.runAll h os = .ok (h', (LogOp.specAll st os).2) ∧
      IsLog h' (LogOp.specAll st os).1.1 (LogOp.specAll st os).1.2
  | [], h, st, H, _ => ⟨h, rfl, H⟩
  | o :: os, h, st, H, hok => by
    have step : ∃ h1, o.run h = .ok (h1, (o.spec st).2) ∧ IsLog h1 (o.spec st).1.1 (o.spec st).1.2 := by
      cases o with
      | push x =>
        obtain ⟨h1, e1, H1⟩ := isLog_push H (x := x) (hok (.push x) (by simp))
        exact ⟨h1, by simp [LogOp.run, e1, LogOp.spec], H1⟩
      | next => exact isLog_next H
      | setCursor i => exact ⟨_, rfl, isLog_setCursor H i⟩
      | reset => exact ⟨_, rfl, isLog_reset H⟩
    obtain ⟨h1, e1, H1⟩ := step
    obtain ⟨h2, e2, H2⟩ := logOps os H1 (fun o ho => hok o (by simp [ho]))
    exact ⟨h2, by simp [LogOp.runAll, e1, e2, LogOp.specAll], H2⟩

/-- C50. Under any sequence of push, next, set_cursor and reset calls the frame headers behave like a list of headers with a cursor:
no panic, `next` returns the same headers, and afterwards `get(i)` and `len` agree with the list. -/
theorem C50_frame_headers (os : List LogOp) (hok : ∀ o ∈ os, o.Ok) :
    ∃ h, LogOp.runAll .new os = .ok (h, (LogOp.specAll ([], 0) os).2) ∧
      h.len = (LogOp.specAll ([], 0) os).1.1.length ∧
      (∀ i, h.get i = .ok (LogOp.specAll ([], 0) os).1.1[i]?) := by
  obtain ⟨h, e, H⟩ := logOps os (st := ([], 0)) isLog_new hok
  exact ⟨h, e, H.len, isLog_get H⟩

example : (∀ o ∈ [LogOp.push ⟨3, 100, 0, true, (1, 2, 3)⟩, .push ⟨15, 65535, 77, false, (-1, -2, -3)⟩, .reset,
      .push ⟨1, 5, 9, true, (0, 0, 0)⟩, .next], o.Ok) ∧
    (LogOp.specAll ([], 0) [LogOp.push ⟨3, 100, 0, true, (1, 2, 3)⟩, .push ⟨15, 65535, 77, false, (-1, -2, -3)⟩, .reset,
      .push ⟨1, 5, 9, true, (0, 0, 0)⟩, .next]).2 = [none, none, none, none, some ⟨15, 65535, 77, false, (-1, -2, -3)⟩] := by
  constructor
  · simp [LogOp.Ok]
  · rfl

/-! ## C51: FixedRingBuffer -/

/-- a call on a ring buffer -/
inductive RingOp (α : Type)
  | pushFront (x : α)
  | pushRear (x : α)
  | popFront
  | popRear
  | clear

/-- the call on the ring buffer -/
def RingOp.run {α : Type} (q : FixedRingBuffer α) : RingOp α → R (FixedRingBuffer α × Option α)
  | .pushFront x => do
    let q ← q.pushFront x
    pure (q, none)
  | .pushRear x => do
    let q ← q.pushRear x
    pure (q, none)
  | .popFront => q.popFront
  | .popRear => q.popRear
  | .clear => pure (q.clear, none)

/-- a sequence of calls, with the values returned -/
def RingOp.runAll {α : Type} : FixedRingBuffer α → List (RingOp α) → R (FixedRingBuffer α × List (Option α))
  | q, [] => pure (q, [])
  | q, o :: os => do
    let (q, r) ← o.run q
    let (q, rs) ← runAll q os
    pure (q, r :: rs)

/-- the same call on a plain list bounded by `cap` -/
def RingOp.spec {α : Type} (cap : Nat) (xs : List α) : RingOp α → List α × Option α
  | .pushFront x => (if xs.length < cap then x :: xs else xs, none)
  | .pushRear x => (if xs.length < cap then xs ++ [x] else xs, none)
  | .popFront => (xs.tail, xs.head?)
  | .popRear => (xs.dropLast, xs.getLast?)
  | .clear => ([], none)

/-- the sequence on the plain list -/
def RingOp.specAll {α : Type} (cap : Nat) : List α → List (RingOp α) → List α × List (Option α)
  | xs, [] => (xs, [])
  | xs, o :: os => ((specAll cap (o.spec cap xs).1 os).1, (o.spec cap xs).2 :: (specAll cap (o.spec cap xs).1 os).2)

theorem ringOps {α : Type} : ∀ (os : List (RingOp α)) {q : FixedRingBuffer α} {xs : List α}, q.IsDeque xs →
    ∃ q', RingOp.runAll q os = .ok (q', (RingOp.specAll q.capacity xs os).2) ∧
      q'.IsDeque (RingOp.specAll q.capacity xs os).1 ∧ q'.capacity = q.capacity
  | [], q, xs, H => ⟨q, rfl, H, rfl⟩
  | o :: os, q, xs, H => by
    have step : ∃ q1, o.run q = .ok (q1, (o.spec q.capacity xs).2) ∧ q1.IsDeque (o.spec q.capacity xs).1 ∧ q1.capacity = q.capacity := by
      cases o with
      | pushFront x =>
        obtain ⟨q1, e1, H1, hc⟩ := FixedRingBuffer.isDeque_pushFront H x
        exact ⟨q1, by simp [RingOp.run, e1, RingOp.spec], H1, hc⟩
      | pushRear x =>
        obtain ⟨q1, e1, H1, hc⟩ := FixedRingBuffer.isDeque_pushRear H x
        exact ⟨q1, by simp [RingOp.run, e1, RingOp.spec], H1, hc⟩
      | popFront => exact FixedRingBuffer.isDeque_popFront H
      | popRear => exact FixedRingBuffer.isDeque_popRear H
      | clear => exact ⟨_, rfl, FixedRingBuffer.isDeque_clear H, rfl⟩
    obtain ⟨q1, e1, H1, hc⟩ := step
    obtain ⟨q2, e2, H2, hc2⟩ := ringOps os H1
    rw [hc] at e2 H2
    exact ⟨q2, by simp [RingOp.runAll, e1, e2, RingOp.specAll], H2, by rw [hc2, hc]⟩

/-- C51. On a backing store at least as large as the (accepted) capacity, any sequence of operations behaves like a double-ended queue that
drops pushes when full; the length never exceeds the capacity and `iter` lists the items front to rear. -/
theorem C51_ring_buffer {α : Type} (backing : List α) (cap : Nat) (hcap : cap < 2 ^ 32) (hb : cap ≤ backing.length)
    (hpow : FixedRingBuffer.countOnes 32 cap = 1) (os : List (RingOp α)) :
    ∃ q0 q, FixedRingBuffer.new backing cap = .ok q0 ∧ RingOp.runAll q0 os = .ok (q, (RingOp.specAll cap [] os).2) ∧
      q.len = (RingOp.specAll cap [] os).1.length ∧ q.len ≤ cap ∧ q.iter = .ok (RingOp.specAll cap [] os).1 ∧
      (q.isFull = true ↔ (RingOp.specAll cap [] os).1.length = cap) ∧ (q.isEmpty = true ↔ (RingOp.specAll cap [] os).1 = []) := by
  obtain ⟨q0, e0, H0, hc0⟩ := FixedRingBuffer.isDeque_new hcap hb hpow
  obtain ⟨q, e, H, hc⟩ := ringOps os H0
  rw [hc0] at e H hc
  have hle := H.le
  rw [hc] at hle
  refine ⟨q0, q, e0, e, H.len, by rw [H.len]; exact hle, FixedRingBuffer.iter_eq H, ?_, ?_⟩
  · simp [FixedRingBuffer.isFull, H.len, hc]; omega
  · simp [FixedRingBuffer.isEmpty, H.len]

/-- C51: exactly the powers of two are accepted as capacities. -/
theorem C51_capacities {α : Type} (backing : List α) (cap : Nat) (hcap : cap < 2 ^ 32) :
    (∃ q, FixedRingBuffer.new backing cap = .ok q) ↔ ∃ k, cap = 2 ^ k := by
  constructor
  · rintro ⟨q, hq⟩
    unfold FixedRingBuffer.new at hq
    split at hq
    · simp at hq
    · next h => exact FixedRingBuffer.pow_of_countOnes hcap (by simpa using h)
  · rintro ⟨k, rfl⟩
    have hk : k < 32 := by
      by_contra h
      have := Nat.pow_le_pow_right (n := 2) (by norm_num) (Nat.le_of_not_lt h)
      omega
    have : ∀ k : Fin 32, FixedRingBuffer.countOnes 32 (2 ^ k.val) = 1 := by decide
    have := this ⟨k, hk⟩
    exact ⟨_, by unfold FixedRingBuffer.new; rw [if_neg (by simpa using this)]; rfl⟩

example : FixedRingBuffer.countOnes 32 4 = 1 ∧
    RingOp.specAll 4 [] [RingOp.pushRear 1, .pushFront 0, .pushRear 2, .pushFront 9, .pushRear 7, .popFront, .popRear] =
      (([0, 1] : List Nat), [none, none, none, none, none, some 9, some 2]) := by
  constructor <;> rfl

end Adhoc
