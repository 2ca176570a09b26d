import Verif.Proofs.Alike
import Verif.Props.Cleared
import Verif.Proofs.Growth

/-! Two codecs with the same file that have read differently far beyond its end: what each of them reads there is zero. -/

namespace Adhoc
open Spec

/-- both panic alike, or both succeed with related results; unless `q` holds, one of them may also panic alone -/
def Sim (q : Prop) {α : Type} (x y : R α) (P : α → α → Prop) : Prop :=
  (∃ e, x = .error e ∧ y = .error e) ∨ (∃ a a', x = .ok a ∧ y = .ok a' ∧ P a a') ∨ (¬ q ∧ ((∃ e, x = .error e) ∨ ∃ e, y = .error e))

namespace Sim

variable {q : Prop}

theorem ok {α : Type} {a a' : α} {P : α → α → Prop} (h : P a a') : Sim q (.ok a) (.ok a') P := .inr (.inl ⟨a, a', rfl, rfl, h⟩)

theorem error {α : Type} {e : Panic} {P : α → α → Prop} : Sim q (.error e : R α) (.error e) P := .inl ⟨e, rfl, rfl⟩

theorem of_same {α : Type} {x y : R α} {P : α → α → Prop} (h : Same x y P) : Sim q x y P := h.imp id .inl

theorem refl {α : Type} (x : R α) : Sim q x x Eq := of_same (Same.refl x)

theorem bind {α β : Type} {x y : R α} {f g : α → R β} {P : α → α → Prop} {Q : β → β → Prop} (hx : Sim q x y P)
    (hf : ∀ a a', P a a' → Sim q (f a) (g a') Q) : Sim q (x >>= f) (y >>= g) Q := by
  rcases hx with ⟨e, rfl, rfl⟩ | ⟨a, a', rfl, rfl, h⟩ | ⟨h, ⟨e, rfl⟩ | ⟨e, rfl⟩⟩
  · exact .inl ⟨e, rfl, rfl⟩
  · exact hf a a' h
  · exact .inr (.inr ⟨h, .inl ⟨e, rfl⟩⟩)
  · exact .inr (.inr ⟨h, .inr ⟨e, rfl⟩⟩)

theorem foldlM {α β : Type} {f g : β → α → R β} {P : β → β → Prop} (hf : ∀ c c' a, P c c' → Sim q (f c a) (g c' a) P) :
    ∀ (l : List α) (c c' : β) (_ : P c c'), Sim q (l.foldlM f c) (l.foldlM g c') P
  | [], _, _, h => ok h
  | a :: l, c, c', h => by
    rw [List.foldlM_cons, List.foldlM_cons]
    exact (hf c c' a h).bind fun d d' h' => foldlM hf l d d' h'

theorem same {α : Type} {x y : R α} {P : α → α → Prop} (hq : q) (h : Sim q x y P) : Same x y P := by
  rcases h with h | h | h
  · exact .inl h
  · exact .inr h
  · exact absurd hq h.1

theorem both {α : Type} {x y : R α} {P : α → α → Prop} (h : Sim q x y P) {a a' : α} (hx : x = .ok a) (hy : y = .ok a') : P a a' := by
  subst hx hy
  rcases h with ⟨e, h, -⟩ | ⟨a, a', h, h', hp⟩ | ⟨-, ⟨e, h⟩ | ⟨e, h⟩⟩
  · cases h
  · cases h; cases h'; exact hp
  · cases h
  · cases h

end Sim

/-- the chunk with number `i`, zero if there is none -/
def BitStream.chunkAt (s : BitStream) (i : Nat) : BitVec 128 := s.binary[i]?.getD 0#128

/-- the same chunks, all zero from the `L`th on, and the same cursor or both cursors behind the `L`th chunk; if `q` holds, neither is beyond
its memory -/
structure Near (q : Prop) (L : Nat) (s t : BitStream) : Prop where
  inS : q → InBuf s
  inT : q → InBuf t
  chunk : ∀ i, s.chunkAt i = t.chunkAt i
  zero : ∀ i, L ≤ i → s.chunkAt i = 0#128
  lenS : L ≤ s.binary.length
  lenT : L ≤ t.binary.length
  cursor : s.bitCursor = t.bitCursor ∨ 128 * L ≤ s.bitCursor ∧ 128 * L ≤ t.bitCursor

theorem chunkAt_of_lt {s : BitStream} {i : Nat} (h : i < s.binary.length) : s.chunkAt i = s.binary[i] := by
  unfold BitStream.chunkAt
  rw [List.getElem?_eq_getElem h]
  rfl

theorem chunkAt_of_ge {s : BitStream} {i : Nat} (h : s.binary.length ≤ i) : s.chunkAt i = 0#128 := by
  unfold BitStream.chunkAt
  rw [List.getElem?_eq_none h]
  rfl

/-- what a peek of `n` bits at a cursor sees -/
def seen (s : BitStream) (n : Nat) : BitVec 128 :=
  (s.chunkAt s.chunkIndex >>> s.chunkBitIndex ||| (if 128 - s.chunkBitIndex < n then s.chunkAt (s.chunkIndex + 1) <<< (128 - s.chunkBitIndex) else 0#128))
    &&& (if n < 128 then (1#128 <<< n) - 1#128 else BitVec.allOnes 128)

/-- only memory has been added -/
structure Padded (s s' : BitStream) : Prop where
  chunk : ∀ i, s'.chunkAt i = s.chunkAt i
  len : s.binary.length ≤ s'.binary.length
  cursor : s'.bitCursor = s.bitCursor

theorem padded_alloc (s : BitStream) (i : Nat) : Padded s (s.allocateIfNeeded i) :=
  ⟨fun j => alloc_getD s i j, by rw [BitStream.allocate_length]; split <;> omega, by simp⟩

theorem Padded.trans {s t u : BitStream} (h : Padded s t) (h' : Padded t u) : Padded s u :=
  ⟨fun i => (h'.chunk i).trans (h.chunk i), h.len.trans h'.len, h'.cursor.trans h.cursor⟩

theorem peek_seen (s : BitStream) (n : Nat) : ((∃ s', s.peekBits n = .ok (s', seen s n) ∧ Padded s s' ∧ (InBuf s → s.bitCursor / 128 + 2 ≤ s'.binary.length)) ∨
    (¬ InBuf s ∧ ∃ e, s.peekBits n = .error e)) := by
  have hp := (padded_alloc s s.chunkIndex).trans (padded_alloc _ (s.chunkIndex + 1))
  have hl : InBuf s → s.chunkIndex + 2 ≤ ((s.allocateIfNeeded s.chunkIndex).allocateIfNeeded (s.chunkIndex + 1)).binary.length := by
    unfold InBuf BitStream.chunkIndex
    simp only [BitStream.allocate_length]
    split_ifs <;> omega
  unfold BitStream.peekBits seen
  dsimp only
  generalize (s.allocateIfNeeded s.chunkIndex).allocateIfNeeded (s.chunkIndex + 1) = s' at *
  by_cases h : s.chunkIndex ≥ s'.binary.length
  · refine .inl ⟨s', ?_, hp, hl⟩
    rw [if_pos h, ← hp.chunk, ← hp.chunk, chunkAt_of_ge h, chunkAt_of_ge (by omega)]
    simp only [BitVec.zero_ushiftRight, BitVec.zero_shiftLeft, ite_self, BitVec.or_self, BitVec.zero_and]
    rfl
  · have h1 : s.chunkIndex < s'.binary.length := by omega
    rw [if_neg h, idx_of_lt h1, bind_ok, ← hp.chunk, ← hp.chunk, chunkAt_of_lt h1]
    split
    · by_cases h2 : s.chunkIndex + 1 < s'.binary.length
      · refine .inl ⟨s', ?_, hp, hl⟩
        rw [idx_of_lt h2, bind_ok, pure_bind, chunkAt_of_lt h2]
        rfl
      · refine .inr ⟨fun hb => by have := hl hb; omega, .index, ?_⟩
        rw [idx_of_ge (by omega)]
        rfl
    · refine .inl ⟨s', ?_, hp, hl⟩
      rw [pure_bind, BitVec.or_zero]
      rfl

namespace Near

variable {q : Prop} {L : Nat}

theorem zero' {s t : BitStream} (H : Near q L s t) (i : Nat) (h : L ≤ i) : t.chunkAt i = 0#128 := by rw [← H.chunk, H.zero i h]

theorem offset {s t : BitStream} (H : Near q L s t) (n : Nat) (hs : q → (s.bitCursor + n) / 128 ≤ s.binary.length) (ht : q → (t.bitCursor + n) / 128 ≤ t.binary.length) :
    Near q L (s.offsetBitCursor n) (t.offsetBitCursor n) where
  inS := hs
  inT := ht
  chunk := H.chunk
  zero := H.zero
  lenS := H.lenS
  lenT := H.lenT
  cursor := by
    have := H.cursor
    show s.bitCursor + n = t.bitCursor + n ∨ 128 * L ≤ s.bitCursor + n ∧ 128 * L ≤ t.bitCursor + n
    omega

theorem seen_zero {s : BitStream} (hz : ∀ i, L ≤ i → s.chunkAt i = 0#128) (h : 128 * L ≤ s.bitCursor) (n : Nat) : seen s n = 0#128 := by
  have h1 : L ≤ s.chunkIndex := by unfold BitStream.chunkIndex; omega
  unfold seen
  rw [hz _ h1, hz _ (by omega)]
  simp only [BitVec.zero_ushiftRight, BitVec.zero_shiftLeft, ite_self, BitVec.or_self, BitVec.zero_and]

theorem seen_eq {s t : BitStream} (H : Near q L s t) (n : Nat) : seen s n = seen t n := by
  rcases H.cursor with h | ⟨h1, h2⟩
  · unfold seen BitStream.chunkIndex BitStream.chunkBitIndex
    rw [h, H.chunk, H.chunk]
  · rw [seen_zero H.zero h1, seen_zero H.zero' h2]

end Near

variable {q : Prop} {L : Nat}

/-- two reads that agree -/
def Close {α : Type} (q : Prop) (L : Nat) (r r' : BitStream × α) : Prop := Near q L r.1 r'.1 ∧ r.2 = r'.2

/-- if `q` holds there are two chunks from the cursor on -/
def Ahead2 (q : Prop) (s : BitStream) : Prop := q → s.bitCursor / 128 + 2 ≤ s.binary.length

theorem near_peek {s t : BitStream} (H : Near q L s t) (n : Nat) :
    Sim q (s.peekBits n) (t.peekBits n) (fun r r' => Close q L r r' ∧ r.2 = seen s n ∧ r.1.bitCursor = s.bitCursor ∧ r'.1.bitCursor = t.bitCursor ∧ Ahead2 q r.1 ∧ Ahead2 q r'.1) := by
  rcases peek_seen s n with ⟨s', e, hs, as⟩ | ⟨h, e⟩
  · rcases peek_seen t n with ⟨t', e', ht, at'⟩ | ⟨h, e⟩
    · rw [e, e']
      have l1 := hs.len
      have l2 := ht.len
      refine Sim.ok ⟨⟨⟨fun hq => ?_, fun hq => ?_, fun i => by rw [hs.chunk, ht.chunk, H.chunk], fun i h => by rw [hs.chunk, H.zero i h], H.lenS.trans l1, H.lenT.trans l2, ?_⟩, H.seen_eq n⟩,
        rfl, hs.cursor, ht.cursor, fun hq => ?_, fun hq => ?_⟩
      · have := H.inS hq
        unfold InBuf at *
        dsimp only
        rw [hs.cursor]; omega
      · have := H.inT hq
        unfold InBuf at *
        dsimp only
        rw [ht.cursor]; omega
      · dsimp only
        rw [hs.cursor, ht.cursor]; exact H.cursor
      · dsimp only
        rw [hs.cursor]; exact as (H.inS hq)
      · dsimp only
        rw [ht.cursor]; exact at' (H.inT hq)
    · exact .inr (.inr ⟨fun hq => h (H.inT hq), .inr e⟩)
  · exact .inr (.inr ⟨fun hq => h (H.inS hq), .inl e⟩)

theorem near_readBits {s t : BitStream} (H : Near q L s t) {n : Nat} (hn : n ≤ 128) : Sim q (s.readBits n) (t.readBits n) (Close q L) := by
  unfold BitStream.readBits
  refine (near_peek H n).bind ?_
  rintro ⟨s', v⟩ ⟨t', v'⟩ ⟨⟨h1, h2⟩, -, -, -, a1, a2⟩
  dsimp only at h1 h2 a1 a2 ⊢
  exact Sim.ok ⟨h1.offset n (fun hq => by have := a1 hq; omega) (fun hq => by have := a2 hq; omega), h2⟩

theorem readBit_in {s : BitStream} (h : s.chunkIndex < s.binary.length) :
    s.readBit = .ok (s.offsetBitCursor 1, (s.chunkAt s.chunkIndex >>> s.chunkBitIndex) &&& 1#128) := by
  unfold BitStream.readBit
  dsimp only
  have e1 : (s.offsetBitCursor 1).binary = s.binary := rfl
  rw [if_neg (by omega), e1, idx_of_lt h, bind_ok, chunkAt_of_lt h]
  rfl

theorem readBit_out {s : BitStream} (h : ¬ s.chunkIndex < s.binary.length) : s.readBit = .ok (s, 0#128) := by
  unfold BitStream.readBit
  dsimp only
  rw [if_pos (by omega)]
  rfl

theorem near_readBit {s t : BitStream} (H : Near q L s t) : Sim q s.readBit t.readBit (Close q L) := by
  have hi : ∀ {u : BitStream}, u.chunkIndex = u.bitCursor / 128 := rfl
  have hb : ∀ {u : BitStream}, u.chunkBitIndex = u.bitCursor % 128 := rfl
  have hS := H.lenS
  have hT := H.lenT
  have back : ∀ {u : BitStream}, L ≤ u.binary.length → ¬ u.chunkIndex < u.binary.length → 128 * L ≤ u.bitCursor := by
    intro u h1 h2; rw [hi] at h2; omega
  have nil : ∀ {u : BitStream}, (∀ i, L ≤ i → u.chunkAt i = 0#128) → 128 * L ≤ u.bitCursor →
      (u.chunkAt u.chunkIndex >>> u.chunkBitIndex) &&& 1#128 = 0#128 := by
    intro u h1 h2
    rw [h1 _ (by rw [hi]; omega), BitVec.zero_ushiftRight, BitVec.zero_and]
  have stay : ∀ {u : BitStream}, u.chunkIndex < u.binary.length → InBuf (u.offsetBitCursor 1) := by
    intro u h
    show (u.bitCursor + 1) / 128 ≤ u.binary.length
    rw [hi] at h; omega
  have both : 128 * L ≤ s.bitCursor ↔ 128 * L ≤ t.bitCursor := by
    have := H.cursor
    omega
  by_cases h1 : s.chunkIndex < s.binary.length
  · by_cases h2 : t.chunkIndex < t.binary.length
    · rw [readBit_in h1, readBit_in h2]
      refine Sim.ok ⟨H.offset 1 (fun _ => stay h1) (fun _ => stay h2), ?_⟩
      dsimp only
      rcases H.cursor with h | ⟨h3, h4⟩
      · rw [hi, hb, h, H.chunk]
        rfl
      · rw [nil H.zero h3, nil H.zero' h4]
    · have h4 := back hT h2
      have h3 := both.2 h4
      rw [readBit_in h1, readBit_out h2]
      exact Sim.ok ⟨⟨fun _ => stay h1, H.inT, H.chunk, H.zero, H.lenS, H.lenT, .inr ⟨Nat.le_trans h3 (Nat.le_add_right _ _), h4⟩⟩, nil H.zero h3⟩
  · have h3 := back hS h1
    have h4 := both.1 h3
    by_cases h2 : t.chunkIndex < t.binary.length
    · rw [readBit_out h1, readBit_in h2]
      exact Sim.ok ⟨⟨H.inS, fun _ => stay h2, H.chunk, H.zero, H.lenS, H.lenT, .inr ⟨h3, Nat.le_trans h4 (Nat.le_add_right _ _)⟩⟩, (nil H.zero' h4).symm⟩
    · rw [readBit_out h1, readBit_out h2]
      exact Sim.ok ⟨H, rfl⟩

theorem near_readOnes {b : Build} : ∀ (f f' : Nat) {s t : BitStream} (_ : Near q L s t) (z : BitVec 16)
    (_ : 0 < f) (_ : 0 < f') (_ : 128 * L ≤ s.bitCursor + 128 * (f - 1)) (_ : 128 * L ≤ t.bitCursor + 128 * (f' - 1)),
    Sim q (BitStream.readOnes b f s z) (BitStream.readOnes b f' t z) (fun r r' => Close q L r r' ∧ Ahead2 q r.1 ∧ Ahead2 q r'.1)
  | 0, _, _, _, _, _, h, _, _, _ => absurd h (lt_irrefl 0)
  | _ + 1, 0, _, _, _, _, _, h, _, _ => absurd h (lt_irrefl 0)
  | f + 1, f' + 1, s, t, H, z, _, _, hs, ht => by
    unfold BitStream.readOnes
    refine (near_peek H 128).bind ?_
    rintro ⟨s', v⟩ ⟨t', v'⟩ ⟨⟨H', h2⟩, hv', hc, hc', a1, a2⟩
    dsimp only at H' h2 hv' hc hc' a1 a2 ⊢
    subst h2
    split
    · rename_i hv
      have hin : ¬ 128 * L ≤ s.bitCursor := by
        intro h
        rw [hv', Near.seen_zero H.zero h] at hv
        exact absurd hv (by decide)
      have hct : s.bitCursor = t.bitCursor := by
        have := H.cursor
        omega
      refine (Sim.refl _).bind ?_
      rintro z' _ rfl
      have e1 : (s'.offsetBitCursor 128).bitCursor = s'.bitCursor + 128 := rfl
      have e2 : (t'.offsetBitCursor 128).bitCursor = t'.bitCursor + 128 := rfl
      exact near_readOnes f f' (H'.offset 128 (fun hq => by have := a1 hq; omega) (fun hq => by have := a2 hq; omega)) z' (by omega) (by omega) (by omega) (by omega)
    · exact Sim.ok ⟨⟨H', rfl⟩, a1, a2⟩

theorem near_readCompressed {b : Build} {s t : BitStream} (H : Near q L s t) {k : Nat} (hk : k ≤ 15) :
    Sim q (s.readCompressed b k) (t.readCompressed b k) (Close q L) := by
  unfold BitStream.readCompressed
  refine (near_readBit H).bind ?_
  rintro ⟨s1, v⟩ ⟨t1, v'⟩ ⟨h1, h2⟩
  dsimp only at h1 h2 ⊢
  subst h2
  have l1 := h1.lenS
  have l2 := h1.lenT
  refine (near_readOnes _ _ h1 0#16 (by omega) (by omega) (by omega) (by omega)).bind ?_
  rintro ⟨s2, w⟩ ⟨t2, w'⟩ ⟨⟨h3, h4⟩, a1, a2⟩
  dsimp only at h3 h4 a1 a2 ⊢
  subst h4
  refine (Sim.refl _).bind ?_
  rintro z _ rfl
  have hz := firstZero_le 128 w.1
  refine (near_readBits (h3.offset _ (fun hq => by have := a1 hq; omega) (fun hq => by have := a2 hq; omega)) (by omega)).bind ?_
  rintro ⟨s3, r⟩ ⟨t3, r'⟩ ⟨h5, h6⟩
  dsimp only at h5 h6 ⊢
  subst h6
  refine (Sim.refl _).bind ?_
  rintro x1 _ rfl
  refine (Sim.refl _).bind ?_
  rintro x2 _ rfl
  refine (Sim.refl _).bind ?_
  rintro x3 _ rfl
  refine (Sim.refl _).bind ?_
  rintro x4 _ rfl
  refine (Sim.refl _).bind ?_
  rintro x5 _ rfl
  exact Sim.ok ⟨h5, rfl⟩

/-! ## sample histories -/

/-- the same last three samples -/
structure Trio (h h' : CircularStack Int) : Prop where
  cursor : h.cursor < 4 ∧ h'.cursor < 4
  len : 3 ≤ h.len ∧ 3 ≤ h'.len
  one : h.prev 1 = h'.prev 1
  two : h.prev 2 = h'.prev 2
  three : h.prev 3 = h'.prev 3

theorem and_three (n : Nat) : n &&& 3 = n % 4 := Nat.and_two_pow_sub_one_eq_mod n 2

theorem push_cursor (h : CircularStack Int) (x : Int) : (h.push x).cursor < 4 := by
  show (h.cursor + 1) &&& 3 < 4
  rw [and_three]
  omega

theorem prev_push_one (h : CircularStack Int) (x : Int) : (h.push x).prev 1 = x := by
  unfold CircularStack.prev CircularStack.push
  dsimp only
  rw [if_pos]
  have : min 1 (min (h.len + 1) 4) = 1 := by omega
  rw [this]
  apply Fin.ext
  simp only [and_three, Fin.ofNat, Fin.val_mk]
  omega

theorem prev_push_succ (h : CircularStack Int) (x : Int) (hc : h.cursor < 4) {k : Nat} (h1 : 1 ≤ k) (h2 : k ≤ 2) (hl : k ≤ h.len) :
    (h.push x).prev (k + 1) = h.prev k := by
  unfold CircularStack.prev CircularStack.push
  dsimp only
  have e1 : min (k + 1) (min (h.len + 1) 4) = k + 1 := by omega
  have e2 : min k h.len = k := by omega
  rw [e1, e2, if_neg]
  · congr 1
    apply Fin.ext
    simp only [and_three, Fin.ofNat, Fin.val_mk]
    omega
  · intro e
    have := congrArg Fin.val e
    simp only [and_three, Fin.ofNat, Fin.val_mk] at this
    omega

theorem Trio.push {h h' : CircularStack Int} (H : Trio h h') (x : Int) : Trio (h.push x) (h'.push x) where
  cursor := ⟨push_cursor h x, push_cursor h' x⟩
  len := by
    have := H.len
    show 3 ≤ min (h.len + 1) 4 ∧ 3 ≤ min (h'.len + 1) 4
    omega
  one := by rw [prev_push_one, prev_push_one]
  two := by rw [prev_push_succ h x H.cursor.1 le_rfl (by omega) (by have := H.len; omega), prev_push_succ h' x H.cursor.2 le_rfl (by omega) (by have := H.len; omega), H.one]
  three := by rw [prev_push_succ h x H.cursor.1 (by omega) le_rfl (by have := H.len; omega), prev_push_succ h' x H.cursor.2 (by omega) le_rfl (by have := H.len; omega), H.two]

theorem trio_three (h h' : CircularStack Int) (x y z : Int) : Trio (((h.push x).push y).push z) (((h'.push x).push y).push z) := by
  have hl : ∀ (g : CircularStack Int) (v : Int), (g.push v).len = min (g.len + 1) 4 := fun _ _ => rfl
  have p2 : ∀ g : CircularStack Int, (((g.push x).push y).push z).prev 2 = y := by
    intro g
    rw [prev_push_succ _ z (push_cursor _ _) le_rfl (by omega) (by rw [hl]; omega), prev_push_one]
  have p3 : ∀ g : CircularStack Int, (((g.push x).push y).push z).prev 3 = x := by
    intro g
    rw [prev_push_succ _ z (push_cursor _ _) (by omega) le_rfl (by rw [hl, hl]; omega), prev_push_succ _ y (push_cursor _ _) le_rfl (by omega) (by rw [hl]; omega),
      prev_push_one]
  refine ⟨⟨push_cursor _ _, push_cursor _ _⟩, ?_, by rw [prev_push_one, prev_push_one], by rw [p2, p2], by rw [p3, p3]⟩
  simp only [hl]
  omega

/-! ## frames -/

/-- alike in everything decoding looks at -/
structure ChanNear (c c' : FrameCodec) : Prop where
  state : c.state = c'.state
  buffered : c.buffered = c'.buffered
  after : c.state ≠ .init → Trio c.history c'.history

theorem near_decodeSamples {b : Build} {k : Nat} (hk : k ≤ 15) : ∀ (n : Nat) {s t : BitStream} (_ : Near q L s t) {h h' : CircularStack Int} (buf : List F32) (_ : Trio h h'),
    Sim q (FrameCodec.decodeSamples b k n s h buf) (FrameCodec.decodeSamples b k n t h' buf)
      (fun r r' => Near q L r.1 r'.1 ∧ Trio r.2.1 r'.2.1 ∧ r.2.2 = r'.2.2)
  | 0, s, t, H, h, h', buf, T => Sim.ok ⟨H, T, rfl⟩
  | n + 1, s, t, H, h, h', buf, T => by
    have hp : FrameCodec.predictFrom h = FrameCodec.predictFrom h' := by
      unfold FrameCodec.predictFrom
      rw [T.one, T.two, T.three]
    unfold FrameCodec.decodeSamples
    rw [hp]
    refine (near_readCompressed H hk).bind ?_
    rintro ⟨s1, v⟩ ⟨t1, v'⟩ ⟨h1, h2⟩
    dsimp only at h1 h2 ⊢
    subst h2
    refine (Sim.refl _).bind ?_
    rintro a _ rfl
    exact near_decodeSamples hk n h1 _ (T.push _)

theorem near_readRaw {s t : BitStream} (H : Near q L s t) : Sim q (FrameCodec.readRaw s) (FrameCodec.readRaw t) (Close q L) := by
  unfold FrameCodec.readRaw
  refine (near_readBits H (n := 16) (by omega)).bind ?_
  rintro ⟨s1, v⟩ ⟨t1, v'⟩ ⟨h1, h2⟩
  dsimp only at h1 h2 ⊢
  subst h2
  exact Sim.ok ⟨h1, rfl⟩

theorem near_decodeFrame {b : Build} {c c' : FrameCodec} (H : ChanNear c c') {st st' : AudioStream} (S : Near q L st.stream st'.stream)
    (hd : FrameHeaders) :
    Sim q (c.decodeFrame b st hd) (c'.decodeFrame b st' hd)
      (fun r r' => ChanNear r.1 r'.1 ∧ Near q L r.2.1.stream r'.2.1.stream ∧ r.2.1.info = st.info ∧ r'.2.1.info = st'.info ∧ r.2.2.1 = r'.2.2.1) := by
  unfold FrameCodec.decodeFrame
  rcases hn : hd.next with p | ⟨hd', hdr?⟩
  · exact Sim.error
  rw [bind_ok, bind_ok]
  have hk' := (toll_next hn).2
  cases hdr? with
  | none => exact Sim.ok ⟨H, S, rfl, rfl, rfl⟩
  | some hdr =>
    dsimp only
    have hk := hk' hdr rfl
    have hs := H.state
    have hbuf := H.buffered
    cases hc : c.state with
    | init =>
      rw [← hs, hc]
      dsimp only
      refine (near_readRaw S).bind ?_
      rintro ⟨s0, x0⟩ ⟨t0, y0⟩ ⟨h0, e⟩
      dsimp only at h0 e ⊢
      subst e
      refine (near_readRaw h0).bind ?_
      rintro ⟨s1, x1⟩ ⟨t1, y1⟩ ⟨h1, e⟩
      dsimp only at h1 e ⊢
      subst e
      refine (near_readRaw h1).bind ?_
      rintro ⟨s2, x2⟩ ⟨t2, y2⟩ ⟨h2, e⟩
      dsimp only at h2 e ⊢
      subst e
      have T := trio_three c.history c'.history x0 x1 x2
      rw [T.one, T.two, T.three, hbuf]
      refine (near_decodeSamples hk _ h2 _ T).bind ?_
      rintro ⟨s3, h3, b3⟩ ⟨t3, h3', b3'⟩ ⟨g1, g2, g3⟩
      dsimp only at g1 g2 g3 ⊢
      exact Sim.ok ⟨⟨rfl, g3, fun _ => g2⟩, g1, rfl, rfl, rfl⟩
    | decoding =>
      rw [← hs, hc]
      have T := H.after (by rw [hc]; decide)
      dsimp only
      rw [hbuf]
      refine (near_decodeSamples hk _ S _ T).bind ?_
      rintro ⟨s3, h3, b3⟩ ⟨t3, h3', b3'⟩ ⟨g1, g2, g3⟩
      dsimp only at g1 g2 g3 ⊢
      exact Sim.ok ⟨⟨rfl, g3, fun _ => g2⟩, g1, rfl, rfl, rfl⟩
    | encoding =>
      rw [← hs, hc]
      exact Sim.error

/-! ## codecs -/

/-- two codecs that decode alike -/
structure Kin (q : Prop) (L : Nat) (c c' : AdhocCodec) : Prop where
  headers : c.frameHeaderList = c'.frameHeaderList
  info : c.stream.info = c'.stream.info
  stream : Near q L c.stream.stream c'.stream.stream
  scale : c.scale = c'.scale
  chans : List.Forall₂ ChanNear c.channelStateList c'.channelStateList

theorem Kin.withChans {c c' : AdhocCodec} (H : Kin q L c c') {l l' : List FrameCodec} (h : List.Forall₂ ChanNear l l') :
    Kin q L { c with channelStateList := l } { c' with channelStateList := l' } := ⟨H.headers, H.info, H.stream, H.scale, h⟩

theorem kin_decodeChannel {b : Build} {c c' : AdhocCodec} (H : Kin q L c c') (ch : Nat) : Sim q (c.decodeChannel b ch) (c'.decodeChannel b ch) (Kin q L) := by
  unfold AdhocCodec.decodeChannel
  refine (Sim.of_same (same_idx H.chans ch)).bind fun fc fc' hf => ?_
  rw [H.headers]
  refine (near_decodeFrame hf H.stream _).bind ?_
  rintro ⟨f, st, hd, n⟩ ⟨f', st', hd', n'⟩ ⟨g1, g2, g3, g4, g5⟩
  dsimp only at g1 g2 g3 g4 g5 ⊢
  refine (Sim.of_same (same_setIdx H.chans ch g1)).bind fun l l' hl => ?_
  exact Sim.ok ⟨g5, by rw [g3, g4, H.info], g2, H.scale, hl⟩

theorem Kin.empty {c c' : AdhocCodec} (H : Kin q L c c') : c.isBuffersEmpty = c'.isBuffersEmpty := by
  unfold AdhocCodec.isBuffersEmpty
  have h := H.chans
  generalize c.channelStateList = l at h
  generalize c'.channelStateList = l' at h
  induction h with
  | nil => rfl
  | cons h _ ih => rw [List.all_cons, List.all_cons, ih, h.buffered]

theorem kin_bufferAudio {b : Build} {n : Nat} : ∀ (left : Nat) {c c' : AdhocCodec} (_ : Kin q L c c'),
    Sim q (AdhocCodec.bufferAudio b n left c) (AdhocCodec.bufferAudio b n left c') (fun r r' => Kin q L r.1 r'.1 ∧ r.2 = r'.2)
  | 0, _, _, H => Sim.ok ⟨H, rfl⟩
  | left + 1, c, c', H => by
    unfold AdhocCodec.bufferAudio
    rw [H.empty]
    split
    · unfold AdhocCodec.decodeBlock
      exact (Sim.foldlM (P := Kin q L) (fun c c' ch h => kin_decodeChannel h ch) _ _ _ H).bind fun d d' h => kin_bufferAudio left h
    · exact Sim.ok ⟨H, rfl⟩

theorem kin_popBlock {legal : Nat} : ∀ (n ch : Nat) {c c' : AdhocCodec} (_ : Kin q L c c') (pcm : List F32) (cursor : Nat),
    Sim q (AdhocCodec.popBlock legal n ch c pcm cursor) (AdhocCodec.popBlock legal n ch c' pcm cursor) (fun r r' => Kin q L r.1 r'.1 ∧ r.2 = r'.2)
  | 0, _, _, _, H, _, _ => Sim.ok ⟨H, rfl⟩
  | n + 1, ch, c, c', H, pcm, cursor => by
    unfold AdhocCodec.popBlock
    split
    · refine (Sim.of_same (same_idx H.chans ch)).bind fun fc fc' hf => ?_
      have hh : ChanNear { fc with buffered := fc.buffered.tail } { fc' with buffered := fc'.buffered.tail } :=
        ⟨hf.state, by simp [hf.buffered], hf.after⟩
      refine (Sim.of_same (same_setIdx H.chans ch hh)).bind fun l l' hl => ?_
      rw [hf.buffered]
      refine (Sim.refl _).bind ?_
      rintro r _ rfl
      exact kin_popBlock n (ch + 1) (H.withChans hl) _ _
    · exact Sim.ok ⟨H, rfl⟩

theorem kin_decodeLoop {b : Build} {n legal : Nat} : ∀ (fuel : Nat) {c c' : AdhocCodec} (_ : Kin q L c c') (pcm : List F32) (cursor : Nat),
    Sim q (AdhocCodec.decodeLoop b n legal fuel c pcm cursor) (AdhocCodec.decodeLoop b n legal fuel c' pcm cursor)
      (fun r r' => Kin q L r.1 r'.1 ∧ r.2 = r'.2)
  | 0, _, _, _, _, _ => Sim.error
  | fuel + 1, c, c', H, pcm, cursor => by
    unfold AdhocCodec.decodeLoop
    split
    · refine (kin_bufferAudio _ H).bind ?_
      rintro ⟨d, k⟩ ⟨d', k'⟩ ⟨h1, h2⟩
      dsimp only at h1 h2 ⊢
      subst h2
      split
      · exact Sim.ok ⟨h1, rfl⟩
      · refine (kin_popBlock _ _ h1 _ _).bind ?_
        rintro ⟨e, p⟩ ⟨e', p'⟩ ⟨h3, h4⟩
        dsimp only at h3 h4 ⊢
        subst h4
        exact kin_decodeLoop fuel h3 _ _
    · exact Sim.ok ⟨H, rfl⟩

theorem kin_decode {b : Build} {c c' : AdhocCodec} (H : Kin q L c c') (buf : List F32) :
    Sim q (c.decode b buf) (c'.decode b buf) (fun r r' => Kin q L r.1 r'.1 ∧ r.2 = r'.2) := by
  unfold AdhocCodec.decode
  refine Sim.bind (P := fun r r' => Kin q L r.1 r'.1 ∧ r.2 = r'.2) ?_ ?_
  · unfold AdhocCodec.decodeRaw
    rw [H.info]
    refine (Sim.refl _).bind ?_
    rintro i _ rfl
    refine (Sim.refl _).bind ?_
    rintro q _ rfl
    refine (kin_decodeLoop _ H _ _).bind ?_
    rintro ⟨d, k⟩ ⟨d', k'⟩ ⟨h1, h2⟩
    dsimp only at h1 h2 ⊢
    subst h2
    refine Sim.ok ⟨h1, ?_⟩
    dsimp only
    rw [h1.scale]
  · rintro ⟨d, k⟩ ⟨d', k'⟩ ⟨h1, h2⟩
    dsimp only at h1 h2 ⊢
    subst h2
    exact Sim.ok ⟨h1, rfl⟩

/-! ## seeking -/

theorem kin_seekChannel {b : Build} {c c' : AdhocCodec} (H : Kin q L c c') (k off : Nat) :
    Sim q (c.seekChannel b k off) (c'.seekChannel b k off) (Kin q L) := by
  unfold AdhocCodec.seekChannel
  rw [H.headers]
  refine (Sim.refl _).bind ?_
  rintro hdr? _ rfl
  refine (Sim.refl _).bind ?_
  rintro hdr _ rfl
  refine (Sim.of_same (same_idx H.chans off)).bind fun fc fc' hf => ?_
  dsimp only
  have hc : ChanNear { state := if hdr.isInit then .init else .decoding, history := ((fc.history.push hdr.history.1).push hdr.history.2.1).push hdr.history.2.2, buffered := [] }
      { state := if hdr.isInit then .init else .decoding, history := ((fc'.history.push hdr.history.1).push hdr.history.2.1).push hdr.history.2.2, buffered := [] } :=
    ⟨rfl, rfl, fun _ => trio_three _ _ _ _ _⟩
  refine (near_decodeFrame hc H.stream _).bind ?_
  rintro ⟨f, st, hd, n⟩ ⟨f', st', hd', n'⟩ ⟨g1, g2, g3, g4, g5⟩
  dsimp only at g1 g2 g3 g4 g5 ⊢
  refine (Sim.of_same (same_setIdx H.chans off g1)).bind fun l l' hl => ?_
  exact Sim.ok ⟨g5, by rw [g3, g4, H.info], g2, H.scale, hl⟩

theorem kin_dropOne {c c' : AdhocCodec} (H : Kin q L c c') (n : Nat) : Sim q (c.dropOne n) (c'.dropOne n) (Kin q L) := by
  unfold AdhocCodec.dropOne
  refine Sim.foldlM (P := Kin q L) (fun c c' off H => ?_) _ _ _ H
  refine (Sim.of_same (same_idx H.chans off)).bind fun fc fc' hf => ?_
  have hh : ChanNear { fc with buffered := fc.buffered.tail } { fc' with buffered := fc'.buffered.tail } :=
    ⟨hf.state, by simp [hf.buffered], hf.after⟩
  refine (Sim.of_same (same_setIdx H.chans off hh)).bind fun l l' hl => ?_
  exact Sim.ok (H.withChans hl)

theorem kin_prune {b : Build} {n target : Nat} : ∀ (fuel skipped : Nat) {c c' : AdhocCodec} (_ : Kin q L c c'),
    Sim q (AdhocCodec.prune b n target fuel skipped c) (AdhocCodec.prune b n target fuel skipped c') (Kin q L)
  | 0, _, _, _, _ => Sim.error
  | fuel + 1, skipped, c, c', H => by
    unfold AdhocCodec.prune
    split
    · refine (kin_dropOne H n).bind fun d d' h => ?_
      refine (Sim.refl _).bind ?_
      rintro k _ rfl
      exact kin_prune fuel k h
    · exact Sim.ok H

/-- the same file, of `L` chunks, whatever has been read of it -/
structure SameFile (L : Nat) (c c' : AdhocCodec) : Prop where
  headers : c.frameHeaderList.reset = c'.frameHeaderList.reset
  info : c.stream.info = c'.stream.info
  scale : c.scale = c'.scale
  chans : c.channelStateList.length = c'.channelStateList.length
  chunk : ∀ i, c.stream.stream.chunkAt i = c'.stream.stream.chunkAt i
  zero : ∀ i, L ≤ i → c.stream.stream.chunkAt i = 0#128
  lenS : L ≤ c.stream.stream.binary.length
  lenT : L ≤ c'.stream.stream.binary.length

theorem Kin.file {c c' : AdhocCodec} (H : Kin q L c c') : SameFile L c c' :=
  ⟨by rw [H.headers], H.info, H.scale, H.chans.length_eq, H.stream.chunk, H.stream.zero, H.stream.lenS, H.stream.lenT⟩

theorem chanNear_init : ∀ (l l' : List FrameCodec), l.length = l'.length → List.Forall₂ ChanNear (l.map FrameCodec.init) (l'.map FrameCodec.init)
  | [], [], _ => .nil
  | a :: l, a' :: l', h => .cons ⟨rfl, rfl, fun h => absurd rfl h⟩ (chanNear_init l l' (by simpa using h))
  | [], _ :: _, h => by simp at h
  | _ :: _, [], h => by simp at h

theorem SameFile.near {c c' : AdhocCodec} (H : SameFile L c c') (k : Nat) (hk : q → k / 128 ≤ L) :
    Near q L (c.stream.stream.setBitCursor k) (c'.stream.stream.setBitCursor k) :=
  ⟨fun hq => (hk hq).trans H.lenS, fun hq => (hk hq).trans H.lenT, H.chunk, H.zero, H.lenS, H.lenT, .inl rfl⟩

theorem SameFile.init {c c' : AdhocCodec} (H : SameFile L c c') : Kin q L c.init c'.init where
  headers := H.headers
  info := H.info
  stream := H.near 0 fun _ => by omega
  scale := H.scale
  chans := chanNear_init _ _ H.chans

/-- the position in a header is one of the list -/
theorem get_cursor {h : FrameHeaders} {i : Nat} {hdr : FrameHeader} (e : h.get i = .ok (some hdr)) : hdr.bitCursor ∈ h.bitCursorList := by
  unfold FrameHeaders.get at e
  split at e
  · obtain ⟨size, -, e⟩ := bind_eq_ok.1 e
    obtain ⟨cursor, h1, e⟩ := bind_eq_ok.1 e
    obtain ⟨history, -, e⟩ := bind_eq_ok.1 e
    rw [← Option.some.inj (Except.ok.inj e)]
    rw [idx_eq_ok] at h1
    exact List.mem_of_getElem? h1
  · cases Except.ok.inj e

/-- a seek takes two codecs of one file to the same place -/
theorem kin_seek {b : Build} {c c' : AdhocCodec} (H : SameFile L c c') (dt : SeekFrom)
    (hq : q → dt ≠ .start 0 → ∀ k ∈ c.frameHeaderList.bitCursorList, k / 128 ≤ L) :
    Sim q (c.seek b dt) (c'.seek b dt) (Kin q L) := by
  unfold AdhocCodec.seek
  rw [H.info]
  refine (Sim.refl _).bind ?_
  rintro info _ rfl
  dsimp only
  cases dt with
  | start ms =>
    dsimp only
    split
    · exact Sim.ok H.init
    · rename_i hms
      unfold AdhocCodec.seekTo
      dsimp only
      have hh : c'.init.frameHeaderList = c.init.frameHeaderList := H.headers.symm
      rw [hh]
      refine (Sim.refl _).bind ?_
      rintro target _ rfl
      refine (Sim.refl _).bind ?_
      rintro blockLen _ rfl
      refine (Sim.refl _).bind ?_
      rintro ⟨skipped, block⟩ _ rfl
      dsimp only
      rcases he : c.init.frameHeaderList.get (block * info.channels) with p | hdr?
      · exact Sim.error
      rw [bind_ok, bind_ok]
      cases hdr? with
      | none => exact Sim.error
      | some hdr =>
      have hex : expect (some hdr) = .ok hdr := rfl
      rw [hex, bind_ok, bind_ok]
      have hk : q → hdr.bitCursor / 128 ≤ L :=
        fun h => hq h (fun e => hms (SeekFrom.start.inj e)) _ (get_cursor he)
      have K : Kin q L
          { c.init with stream := { c.init.stream with stream := c.init.stream.stream.setBitCursor hdr.bitCursor }, frameHeaderList := c.init.frameHeaderList.setCursor (block * info.channels) }
          { c'.init with stream := { c'.init.stream with stream := c'.init.stream.stream.setBitCursor hdr.bitCursor }, frameHeaderList := c.init.frameHeaderList.setCursor (block * info.channels) } :=
        ⟨rfl, H.info, H.near _ hk, H.scale, chanNear_init _ _ H.chans⟩
      refine (Sim.foldlM (P := Kin q L) (fun c c' off h => kin_seekChannel h _ off) _ _ _ K).bind fun d d' h => ?_
      exact kin_prune _ _ h
  | current _ => exact Sim.error
  | «end» _ => exact Sim.error

end Adhoc
