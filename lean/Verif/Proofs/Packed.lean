import Verif.Model.Packed
import Verif.Proofs.Basic
import Mathlib.Tactic.Ring

/-! Lemmas on the packed containers. -/

namespace Adhoc

/-- bit `p` of a list of `w`-bit words -/
def bitW {w : Nat} (l : List (BitVec w)) (p : Nat) : Bool := (l[p / w]?.getD 0).getLsbD (p % w)

theorem bitW_append_zero {w : Nat} (l : List (BitVec w)) (p : Nat) : bitW (l ++ [0#w]) p = bitW l p := by
  unfold bitW
  rcases lt_trichotomy (p / w) l.length with h | h | h
  · rw [List.getElem?_append_left h]
  · rw [List.getElem?_append_right (by omega)]; simp [h]
  · rw [List.getElem?_eq_none (by simp; omega), List.getElem?_eq_none (by omega)]

theorem bitW_grow {w : Nat} (l : List (BitVec w)) (c p : Nat) :
    bitW (if c ≥ l.length then l ++ [0#w] else l) p = bitW l p := by
  split
  · exact bitW_append_zero l p
  · rfl

theorem bitW_set {w : Nat} {l : List (BitVec w)} {c : Nat} (hc : c < l.length) (x : BitVec w) (p : Nat) :
    bitW (l.set c x) p = if p / w = c then x.getLsbD (p % w) else bitW l p := by
  unfold bitW
  rw [List.getElem?_set]
  split
  · next h => subst h; simp [hc]
  · next h => rw [if_neg (fun e => h e.symm)]

theorem bitW_word {w : Nat} {l : List (BitVec w)} {c : Nat} (hc : c < l.length) {k : Nat} (hk : k < w) :
    bitW l (w * c + k) = l[c].getLsbD k := by
  unfold bitW
  rw [Nat.mul_add_div (by omega), Nat.div_eq_of_lt hk, Nat.mul_add_mod, Nat.mod_eq_of_lt hk, Nat.add_zero,
    List.getElem?_eq_getElem hc]
  rfl

theorem bitW_beyond {w : Nat} (hw : 0 < w) {l : List (BitVec w)} {p : Nat} (h : w * l.length ≤ p) : bitW l p = false := by
  unfold bitW
  rw [List.getElem?_eq_none ((Nat.le_div_iff_mul_le hw).2 (by rw [Nat.mul_comm]; exact h))]
  simp

theorem grow_length {α} (l : List α) (a : α) (c : Nat) (h : c ≤ l.length) :
    (if c ≥ l.length then l ++ [a] else l).length = max l.length (c + 1) := by
  split
  · simp; omega
  · omega

/-! ## NibbleList -/

/-- `l` is a nibble list holding `xs` -/
structure IsNibbles (l : NibbleList) (xs : List Nat) : Prop where
  count : l.nibbleCount = xs.length
  bytes : l.data.length = (xs.length + 1) / 2
  bit : ∀ i (h : i < xs.length), ∀ k < 4, bitW l.data (4 * i + k) = xs[i].testBit k
  small : ∀ x ∈ xs, x < 16
  spare : ∀ p, 4 * xs.length ≤ p → bitW l.data p = false

theorem isNibbles_new : IsNibbles .new [] where
  count := rfl
  bytes := rfl
  bit := by simp
  small := by simp
  spare := by intro p _; simp [NibbleList.new, bitW]

theorem NibbleList.get_bit (l : NibbleList) (i k : Nat) :
    (l.get i).getLsbD k = (decide (k < 4) && bitW l.data (4 * i + k)) := by
  have hmask : (0x0f#8).getLsbD k = decide (k < 4) := by
    rw [show (0x0f#8) = BitVec.ofNat 8 (2 ^ 4 - 1) from rfl, BitVec.getLsbD_ofNat, Nat.testBit_two_pow_sub_one]
    by_cases h : k < 4
    · simp [h, show k < 8 by omega]
    · simp [h]
  by_cases hk : k < 4
  · unfold NibbleList.get bitW
    rw [show (4 * i + k) / 8 = i / 2 by omega, show (4 * i + k) % 8 = 4 * (i % 2) + k by omega]
    cases h : l.data[i / 2]? with
    | none => simp
    | some c =>
      simp only [Option.getD_some]
      rw [BitVec.getLsbD_and, hmask, BitVec.getLsbD_ushiftRight]
      simp [hk]
  · unfold NibbleList.get
    cases h : l.data[i / 2]? with
    | none => simp [hk]
    | some c =>
      simp only []
      rw [BitVec.getLsbD_and, hmask]
      simp [hk]

theorem IsNibbles.get {l : NibbleList} {xs : List Nat} (h : IsNibbles l xs) {i : Nat} (hi : i < xs.length) :
    (l.get i).toNat = xs[i] := by
  have hs : xs[i] < 16 := h.small _ (List.getElem_mem hi)
  have : l.get i = BitVec.ofNat 8 xs[i] := by
    apply BitVec.eq_of_getLsbD_eq
    intro k hk
    rw [NibbleList.get_bit, BitVec.getLsbD_ofNat]
    by_cases h4 : k < 4
    · rw [h.bit i hi k h4]; simp [h4, hk]
    · have : xs[i].testBit k = false := Nat.testBit_lt_two_pow (lt_of_lt_of_le hs (by
        calc 16 = 2 ^ 4 := rfl
          _ ≤ 2 ^ k := Nat.pow_le_pow_right (by norm_num) (by omega)))
      simp [h4, this]
  rw [this, BitVec.toNat_ofNat]; omega

theorem byte_small_bit {v : Byte} (hv : v.toNat < 16) {k : Nat} (hk : 4 ≤ k) : v.getLsbD k = false := by
  rw [← BitVec.testBit_toNat]
  exact Nat.testBit_lt_two_pow (lt_of_lt_of_le hv (by
    calc 16 = 2 ^ 4 := rfl
      _ ≤ 2 ^ k := Nat.pow_le_pow_right (by norm_num) hk))

theorem isNibbles_push {l : NibbleList} {xs : List Nat} (h : IsNibbles l xs) {v : Byte} (hv : v.toNat < 16) :
    ∃ l', l.push v = .ok l' ∧ IsNibbles l' (xs ++ [v.toNat]) := by
  have hc := h.count
  have hb := h.bytes
  obtain ⟨d, hd⟩ : ∃ d, d = (if xs.length / 2 ≥ l.data.length then l.data ++ [0#8] else l.data) := ⟨_, rfl⟩
  have hdl : d.length = (xs.length + 2) / 2 := by rw [hd, grow_length _ _ _ (by omega)]; omega
  have hlt : xs.length / 2 < d.length := by omega
  have hdb : ∀ p, bitW d p = bitW l.data p := fun p => by rw [hd, bitW_grow]
  refine ⟨{ data := d.set (xs.length / 2) (d[xs.length / 2] ||| v <<< (4 * (xs.length % 2))), nibbleCount := xs.length + 1 }, ?_, ?_⟩
  · unfold NibbleList.push
    dsimp only
    rw [hc, ← hd, idx_of_lt hlt, bind_ok, setIdx_of_lt hlt]
    rfl
  · have key : ∀ p, bitW (d.set (xs.length / 2) (d[xs.length / 2] ||| v <<< (4 * (xs.length % 2)))) p =
        (bitW l.data p || (decide (4 * xs.length ≤ p ∧ p < 4 * xs.length + 4) && v.getLsbD (p - 4 * xs.length))) := by
      intro p
      rw [bitW_set hlt]
      split
      · next hp =>
        have e : p = 8 * (xs.length / 2) + p % 8 := by omega
        rw [BitVec.getLsbD_or, BitVec.getLsbD_shiftLeft, ← bitW_word hlt (by omega), ← e, hdb]
        congr 1
        by_cases h4 : 4 * xs.length ≤ p
        · rw [show p % 8 - 4 * (xs.length % 2) = p - 4 * xs.length by omega]
          by_cases h5 : p < 4 * xs.length + 4
          · simp [h4, h5, show p % 8 < 8 by omega, show 4 * (xs.length % 2) ≤ p % 8 by omega]
          · rw [byte_small_bit hv (by omega)]; simp
        · simp [h4, show p % 8 < 4 * (xs.length % 2) by omega]
      · next hp =>
        rw [hdb]
        have : ¬ (4 * xs.length ≤ p ∧ p < 4 * xs.length + 4) := by omega
        simp [this]
    constructor
    · simp
    · simp [hdl]; omega
    · intro i hi k hk
      show bitW (d.set _ _) _ = _
      rw [key]
      simp at hi
      by_cases hlt' : i < xs.length
      · rw [h.bit i hlt' k hk, List.getElem_append_left hlt']
        simp [show ¬ (4 * xs.length ≤ 4 * i + k) by omega]
      · have : i = xs.length := by omega
        subst this
        rw [h.spare _ (by omega), List.getElem_append_right (by omega)]
        simp [hk, ← BitVec.testBit_toNat]
    · intro x hx
      simp at hx
      rcases hx with hx | rfl
      · exact h.small x hx
      · exact hv
    · intro p hp
      show bitW (d.set _ _) _ = _
      simp at hp
      rw [key, h.spare p (by omega)]
      simp; omega

theorem isNibbles_set {l : NibbleList} {xs : List Nat} (h : IsNibbles l xs) {i : Nat} (hi : i < xs.length) {v : Byte}
    (hv : v.toNat < 16) : IsNibbles (l.set i v) (xs.set i v.toNat) := by
  have hb := h.bytes
  have hlt : i / 2 < l.data.length := by omega
  have hset : l.set i v = NibbleList.mk (l.data.set (i / 2)
      ((l.data[i / 2] &&& (BitVec.ofNat 8 (0x0f * (i % 2)) ||| BitVec.ofNat 8 (0xf0 * (1 - i % 2)))) ||| (v <<< (4 * (i % 2)))))
      l.nibbleCount := by
    unfold NibbleList.set
    rw [List.getElem?_eq_getElem hlt]
  have key : ∀ p, bitW (l.set i v).data p = if 4 * i ≤ p ∧ p < 4 * i + 4 then v.getLsbD (p - 4 * i) else bitW l.data p := by
    intro p
    rw [hset]
    show bitW (l.data.set _ _) p = _
    rw [bitW_set hlt]
    by_cases hp : p / 8 = i / 2
    · rw [if_pos hp]
      have e : p = 8 * (i / 2) + p % 8 := by omega
      have h8 : p % 8 < 8 := by omega
      rw [BitVec.getLsbD_or, BitVec.getLsbD_and, BitVec.getLsbD_or, BitVec.getLsbD_shiftLeft, ← bitW_word hlt h8, ← e]
      rcases Nat.mod_two_eq_zero_or_one i with hi2 | hi2
      · rw [hi2]
        have e1 : (BitVec.ofNat 8 (0x0f * 0)).getLsbD (p % 8) = false := by simp
        have e2 : (BitVec.ofNat 8 (0xf0 * (1 - 0))).getLsbD (p % 8) = decide (4 ≤ p % 8) := by
          rcases (by omega : p % 8 = 0 ∨ p % 8 = 1 ∨ p % 8 = 2 ∨ p % 8 = 3 ∨ p % 8 = 4 ∨ p % 8 = 5 ∨ p % 8 = 6 ∨ p % 8 = 7) with
            h | h | h | h | h | h | h | h <;> rw [h] <;> rfl
        rw [e1, e2]
        by_cases h4 : p % 8 < 4
        · rw [if_pos (by omega), show p - 4 * i = p % 8 - 4 * 0 by omega]
          simp [show ¬ 4 ≤ p % 8 by omega, h8]
        · rw [if_neg (by omega), byte_small_bit hv (by omega)]
          simp [show 4 ≤ p % 8 by omega]
      · rw [hi2]
        have e1 : (BitVec.ofNat 8 (0x0f * 1)).getLsbD (p % 8) = decide (p % 8 < 4) := by
          rcases (by omega : p % 8 = 0 ∨ p % 8 = 1 ∨ p % 8 = 2 ∨ p % 8 = 3 ∨ p % 8 = 4 ∨ p % 8 = 5 ∨ p % 8 = 6 ∨ p % 8 = 7) with
            h | h | h | h | h | h | h | h <;> rw [h] <;> rfl
        have e2 : (BitVec.ofNat 8 (0xf0 * (1 - 1))).getLsbD (p % 8) = false := by simp
        rw [e1, e2]
        by_cases h4 : p % 8 < 4
        · rw [if_neg (by omega)]
          simp [h4]
        · rw [if_pos (by omega), show p - 4 * i = p % 8 - 4 * 1 by omega]
          simp [h4, h8]
    · rw [if_neg hp, if_neg (by omega)]
  have hlen : (l.set i v).data.length = l.data.length := by rw [hset]; simp
  constructor
  · rw [hset]; simp [h.count]
  · rw [hlen, hb]; simp
  · intro j hj k hk
    rw [key]
    simp at hj
    rw [List.getElem_set]
    by_cases hij : i = j
    · subst hij
      rw [if_pos (by omega), if_pos rfl, BitVec.testBit_toNat]; congr 1; omega
    · rw [if_neg (by omega), if_neg hij, h.bit j hj k hk]
  · intro x hx
    rcases List.mem_or_eq_of_mem_set hx with hx | rfl
    · exact h.small x hx
    · exact hv
  · intro p hp
    simp at hp
    rw [key, if_neg (by omega), h.spare p hp]

/-! ## BitVec -/

/-- `v` is a bit vector holding `bs`, whose storage was last extended at length `m` -/
structure IsBits (v : BitVecU64) (bs : List Bool) (m : Nat) : Prop where
  cursor : v.bitCursor = bs.length
  peak : bs.length ≤ m
  words : v.binary.length = (m + 63) / 64
  bit : ∀ i (h : i < bs.length), bitW v.binary i = bs[i]

theorem isBits_new : IsBits .new [] 0 where
  cursor := rfl
  peak := by simp
  words := rfl
  bit := by simp

theorem BitVecU64.get_eq (v : BitVecU64) (i : Nat) : v.get i = if bitW v.binary i then 1#64 else 0#64 := by
  unfold BitVecU64.get bitW
  cases h : v.binary[i / 64]? with
  | none => simp
  | some c =>
    simp only [Option.getD_some]
    apply BitVec.eq_of_getLsbD_eq
    intro k hk
    rw [BitVec.getLsbD_and, BitVec.getLsbD_ushiftRight]
    rcases Nat.eq_zero_or_pos k with rfl | hpos
    · rw [Nat.add_zero]
      split
      · next hb => rw [hb]; rfl
      · next hb => rw [Bool.not_eq_true] at hb; rw [hb]; rfl
    · have h1 : (1#64).getLsbD k = false := by rw [BitVec.getLsbD_one]; simp; omega
      rw [h1]
      split <;> simp [h1]

theorem IsBits.get {v : BitVecU64} {bs : List Bool} {m : Nat} (h : IsBits v bs m) {i : Nat} (hi : i < bs.length) :
    v.get i = if bs[i] then 1#64 else 0#64 := by
  rw [BitVecU64.get_eq, h.bit i hi]

/-- the bit written by `push` and `set` -/
theorem putBit_bit (c bit : BitVec 64) (b : Nat) (hb : b < 64) {k : Nat} (hk : k < 64) :
    ((c &&& ~~~(1#64 <<< b)) ||| ((bit &&& 1#64) <<< b)).getLsbD k = if k = b then bit.getLsbD 0 else c.getLsbD k := by
  rw [BitVec.getLsbD_or, BitVec.getLsbD_and, BitVec.getLsbD_not, BitVec.getLsbD_shiftLeft, BitVec.getLsbD_shiftLeft,
    BitVec.getLsbD_and, BitVec.getLsbD_one]
  by_cases h : k = b
  · subst h; simp [hk]
  · rw [if_neg h]
    by_cases h2 : k < b
    · simp [h2, hk]
    · have : ¬ (k - b = 0) := by omega
      simp [h2, hk, this]

theorem isBits_push {v : BitVecU64} {bs : List Bool} {m : Nat} (h : IsBits v bs m) (bit : BitVec 64) :
    ∃ v', v.push bit = .ok v' ∧ IsBits v' (bs ++ [bit.getLsbD 0]) (max m (bs.length + 1)) := by
  have hc := h.cursor
  have hw := h.words
  have hp := h.peak
  obtain ⟨d, hd⟩ : ∃ d, d = (if bs.length / 64 ≥ v.binary.length then v.binary ++ [0#64] else v.binary) := ⟨_, rfl⟩
  have hdl : d.length = max v.binary.length (bs.length / 64 + 1) := by rw [hd, grow_length _ _ _ (by omega)]
  have hlt : bs.length / 64 < d.length := by omega
  have hdb : ∀ p, bitW d p = bitW v.binary p := fun p => by rw [hd, bitW_grow]
  refine ⟨{ binary := d.set (bs.length / 64) ((d[bs.length / 64] &&& ~~~(1#64 <<< (bs.length % 64))) |||
      ((bit &&& 1#64) <<< (bs.length % 64))), bitCursor := bs.length + 1 }, ?_, ?_⟩
  · unfold BitVecU64.push
    dsimp only
    rw [hc, ← hd, idx_of_lt hlt, bind_ok, setIdx_of_lt hlt]
    rfl
  · constructor
    · simp
    · simp
    · simp [hdl]; omega
    · intro i hi
      show bitW (d.set _ _) _ = _
      simp at hi
      rw [bitW_set hlt]
      by_cases hlt' : i < bs.length
      · rw [List.getElem_append_left hlt', ← h.bit i hlt']
        split
        · next hp =>
          rw [putBit_bit _ _ _ (by omega) (by omega), if_neg (by omega), ← bitW_word hlt (by omega), ← hdb]
          congr 1; omega
        · exact hdb i
      · have : i = bs.length := by omega
        subst this
        rw [if_pos rfl, putBit_bit _ _ _ (by omega) (by omega), if_pos rfl, List.getElem_append_right (by omega)]
        simp

theorem push_clean {v v' : BitVecU64} {bit : BitVec 64} (hc : ∀ p, v.bitCursor ≤ p → bitW v.binary p = false) (e : v.push bit = .ok v') :
    ∀ p, v'.bitCursor ≤ p → bitW v'.binary p = false := by
  unfold BitVecU64.push at e
  dsimp only at e
  obtain ⟨d, hd⟩ : ∃ d, d = (if v.bitCursor / 64 ≥ v.binary.length then v.binary ++ [0#64] else v.binary) := ⟨_, rfl⟩
  rw [← hd] at e
  have hdb : ∀ p, bitW d p = bitW v.binary p := fun p => by rw [hd, bitW_grow]
  by_cases hlt : v.bitCursor / 64 < d.length
  · rw [idx_of_lt hlt, bind_ok, setIdx_of_lt hlt, bind_ok] at e
    have e := Except.ok.inj e
    rw [← e]
    dsimp only
    intro p hp
    rw [bitW_set hlt]
    split
    · next h =>
      rw [putBit_bit _ _ _ (by omega) (by omega), if_neg (by omega), ← bitW_word hlt (by omega), hdb]
      exact hc _ (by omega)
    · rw [hdb]; exact hc p (by omega)
  · unfold idx at e
    rw [List.getElem?_eq_none (by omega)] at e
    cases e

theorem isBits_set {v : BitVecU64} {bs : List Bool} {m : Nat} (h : IsBits v bs m) (i : Nat) (bit : BitVec 64) :
    IsBits (v.set i bit) (bs.set i (bit.getLsbD 0)) m := by
  have hc := h.cursor
  have hw := h.words
  have hp := h.peak
  unfold BitVecU64.set
  by_cases hlt : i / 64 < v.binary.length
  · rw [List.getElem?_eq_getElem hlt]
    dsimp only
    constructor
    · simp [hc]
    · simpa using hp
    · simp [hw]
    · intro j hj
      show bitW (v.binary.set _ _) _ = _
      simp at hj
      rw [bitW_set hlt, List.getElem_set]
      by_cases hij : i = j
      · subst hij
        rw [if_pos rfl, putBit_bit _ _ _ (by omega) (by omega), if_pos rfl, if_pos rfl]
      · rw [if_neg hij, ← h.bit j hj]
        split
        · next hp =>
          rw [putBit_bit _ _ _ (by omega) (by omega), if_neg (by omega), ← bitW_word hlt (by omega)]
          congr 1; omega
        · rfl
  · rw [List.getElem?_eq_none (by omega), List.set_eq_of_length_le (by omega)]
    exact h

theorem isBits_clear {v : BitVecU64} {bs : List Bool} {m : Nat} (h : IsBits v bs m) : IsBits v.clear [] m where
  cursor := rfl
  peak := by simp
  words := h.words
  bit := by simp

/-! ## CircularStack -/

/-- `s` is a history holding `xs`, most recent first -/
structure IsRecent {α : Type} (s : CircularStack α) (xs : List α) : Prop where
  cursor : s.cursor < 4
  len : s.len = xs.length
  le : xs.length ≤ 4
  get : ∀ k (h : k < xs.length), s.data (Fin.ofNat 4 (s.cursor + 3 - k)) = xs[k]

theorem and3 (n : Nat) : n &&& 3 = n % 4 := Nat.and_two_pow_sub_one_eq_mod n 2

theorem isRecent_new {α : Type} (d : α) : IsRecent (.new d) [] where
  cursor := by simp [CircularStack.new]
  len := by simp [CircularStack.new]
  le := by simp
  get := by simp

theorem isRecent_push {α : Type} {s : CircularStack α} {xs : List α} (h : IsRecent s xs) (x : α) :
    IsRecent (s.push x) ((x :: xs).take 4) where
  cursor := by simp [CircularStack.push, and3]; omega
  len := by simp [CircularStack.push, h.len]; omega
  le := by simp
  get := by
    intro k hk
    have hc := h.cursor
    have hk4 : k < 4 := by simp at hk; omega
    rw [List.getElem_take]
    simp only [CircularStack.push, and3]
    by_cases h0 : k = 0
    · subst h0
      rw [if_pos]
      · rfl
      · apply Fin.ext; simp; omega
    · obtain ⟨j, rfl⟩ : ∃ j, k = j + 1 := ⟨k - 1, by omega⟩
      have hj : j < xs.length := by simp at hk; omega
      rw [if_neg, List.getElem_cons_succ, ← h.get j hj]
      · congr 1; apply Fin.ext; simp; omega
      · intro e; have := congrArg Fin.val e; simp at this; omega

theorem isRecent_pop {α : Type} {s : CircularStack α} {xs : List α} (h : IsRecent s xs) :
    IsRecent s.pop.1 xs.tail ∧ ∀ x, xs.head? = some x → s.pop.2 = x := by
  have hc := h.cursor
  have hl := h.len
  refine ⟨⟨?_, ?_, ?_, ?_⟩, ?_⟩
  · simp [CircularStack.pop, and3]; omega
  · simp [CircularStack.pop, hl]
  · have := h.le; simp; omega
  · intro k hk
    simp at hk
    simp only [CircularStack.pop, and3, List.getElem_tail]
    rw [← h.get (k + 1) (by omega)]
    have := h.le
    congr 1; apply Fin.ext; simp; omega
  · intro x hx
    cases xs with
    | nil => simp at hx
    | cons y ys =>
      simp at hx; subst hx
      have := h.get 0 (by simp)
      simp only [List.getElem_cons_zero] at this
      rw [← this]
      simp only [CircularStack.pop, and3]
      congr 1; apply Fin.ext; simp

theorem IsRecent.prev {α : Type} {s : CircularStack α} {xs : List α} (h : IsRecent s xs) {k : Nat} (h1 : 1 ≤ k)
    (hk : k ≤ xs.length) : s.prev k = xs[k - 1] := by
  have hl := h.len
  have hc := h.cursor
  have h4 := h.le
  rw [← h.get (k - 1) (by omega)]
  unfold CircularStack.prev
  dsimp only
  rw [and3]
  congr 1
  apply Fin.ext
  simp
  omega

end Adhoc
