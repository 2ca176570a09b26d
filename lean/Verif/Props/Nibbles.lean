import Verif.Props.Containers
import Mathlib.Data.List.GetD

/-! C47: what every history of a nibble list, with `clear` in it, leaves behind. -/

namespace Adhoc

/-- a call that changes a nibble list -/
inductive NibCall where
  | push (v : Byte)
  | set (i : Nat) (v : Byte)
  | clear

namespace NibCall

/-- run one call -/
def run (l : NibbleList) : NibCall → R NibbleList
  | push v => l.push v
  | set i v => .ok (l.set i v)
  | clear => .ok l.clear

/-- run calls in order -/
def runAll (l : NibbleList) : List NibCall → R NibbleList
  | [] => .ok l
  | c :: cs => do
    let l ← c.run l
    runAll l cs

/-- the value of the call is a nibble -/
def Small : NibCall → Prop
  | push v => v.toNat < 16
  | set _ v => v.toNat < 16
  | clear => True

end NibCall

namespace Spec

/-- What a nibble list is: a memory of nibbles that starts as zeros and is never erased, a length, and the greatest length so far. -/
structure NibMem where
  cell : Nat → Nat
  len : Nat
  most : Nat

/-- `push` merges its value into the cell behind the last one; `set` replaces a cell, also behind the end, as long as the cell is in a byte that was
ever used; `clear` forgets only the length. -/
def NibMem.step (m : NibMem) : NibCall → NibMem
  | .push v => ⟨Function.update m.cell m.len (m.cell m.len ||| v.toNat), m.len + 1, max m.most (m.len + 1)⟩
  | .set i v => if i < m.most + m.most % 2 then ⟨Function.update m.cell i v.toNat, m.len, m.most⟩ else m
  | .clear => ⟨m.cell, 0, m.most⟩

/-- the memory of a new list -/
def NibMem.new : NibMem := ⟨fun _ => 0, 0, 0⟩

end Spec

open Spec

/-- `l` is a nibble list with memory `m` -/
structure HasMem (l : NibbleList) (m : NibMem) : Prop where
  len : l.nibbleCount = m.len
  most : m.len ≤ m.most
  bytes : l.data.length = (m.most + 1) / 2
  small : ∀ i, m.cell i < 16
  bit : ∀ i, ∀ k < 4, bitW l.data (4 * i + k) = (m.cell i).testBit k

theorem hasMem_new : HasMem .new .new where
  len := rfl
  most := le_refl _
  bytes := rfl
  small := by intro i; show 0 < 16; omega
  bit := by intro i k hk; simp [NibbleList.new, bitW, NibMem.new]

theorem HasMem.get {l : NibbleList} {m : NibMem} (h : HasMem l m) (i : Nat) : (l.get i).toNat = m.cell i := by
  have hs := h.small i
  have : l.get i = BitVec.ofNat 8 (m.cell i) := by
    apply BitVec.eq_of_getLsbD_eq
    intro k hk
    rw [NibbleList.get_bit, BitVec.getLsbD_ofNat]
    by_cases h4 : k < 4
    · rw [h.bit i k h4]; simp [h4, hk]
    · have : (m.cell i).testBit k = false := Nat.testBit_lt_two_pow (lt_of_lt_of_le hs (by
        calc 16 = 2 ^ 4 := rfl
          _ ≤ 2 ^ k := Nat.pow_le_pow_right (by norm_num) (by omega)))
      simp [h4, this]
  rw [this, BitVec.toNat_ofNat]; omega

theorem or_lt_16 {a b : Nat} (ha : a < 16) (hb : b < 16) : a ||| b < 16 := Nat.or_lt_two_pow (n := 4) ha hb

theorem hasMem_push {l : NibbleList} {m : NibMem} (h : HasMem l m) {v : Byte} (hv : v.toNat < 16) :
    ∃ l', l.push v = .ok l' ∧ HasMem l' (m.step (.push v)) := by
  have hc := h.len
  have hb := h.bytes
  have hm := h.most
  generalize hn : m.len = n at *
  obtain ⟨d, hd⟩ : ∃ d, d = (if n / 2 ≥ l.data.length then l.data ++ [0#8] else l.data) := ⟨_, rfl⟩
  have hdl : d.length = (max m.most (n + 1) + 1) / 2 := by rw [hd, grow_length _ _ _ (by omega)]; omega
  have hlt : n / 2 < d.length := by omega
  have hdb : ∀ p, bitW d p = bitW l.data p := fun p => by rw [hd, bitW_grow]
  refine ⟨{ data := d.set (n / 2) (d[n / 2] ||| v <<< (4 * (n % 2))), nibbleCount := n + 1 }, ?_, ?_⟩
  · unfold NibbleList.push
    dsimp only
    rw [hc, ← hd, idx_of_lt hlt, bind_ok, setIdx_of_lt hlt]
    rfl
  · have key : ∀ p, bitW (d.set (n / 2) (d[n / 2] ||| v <<< (4 * (n % 2)))) p =
        (bitW l.data p || (decide (4 * n ≤ p ∧ p < 4 * n + 4) && v.getLsbD (p - 4 * n))) := by
      intro p
      rw [bitW_set hlt]
      split
      · next hp =>
        have e : p = 8 * (n / 2) + p % 8 := by omega
        rw [BitVec.getLsbD_or, BitVec.getLsbD_shiftLeft, ← bitW_word hlt (by omega), ← e, hdb]
        congr 1
        by_cases h4 : 4 * n ≤ p
        · rw [show p % 8 - 4 * (n % 2) = p - 4 * n by omega]
          by_cases h5 : p < 4 * n + 4
          · simp [h4, h5, show p % 8 < 8 by omega, show 4 * (n % 2) ≤ p % 8 by omega]
          · rw [byte_small_bit hv (by omega)]; simp
        · simp [h4, show p % 8 < 4 * (n % 2) by omega]
      · next hp =>
        rw [hdb]
        have : ¬ (4 * n ≤ p ∧ p < 4 * n + 4) := by omega
        simp [this]
    constructor
    · show n + 1 = m.len + 1; rw [hn]
    · show m.len + 1 ≤ max m.most (m.len + 1); omega
    · show (d.set _ _).length = (max m.most (m.len + 1) + 1) / 2
      rw [List.length_set, hdl, hn]
    · intro i
      show Function.update m.cell m.len (m.cell m.len ||| v.toNat) i < 16
      rw [Function.update_apply]
      split
      · exact or_lt_16 (h.small _) hv
      · exact h.small i
    · intro i k hk
      show bitW (d.set _ _) _ = (Function.update m.cell m.len (m.cell m.len ||| v.toNat) i).testBit k
      rw [key, h.bit i k hk, Function.update_apply, hn]
      by_cases hi : i = n
      · subst hi
        rw [if_pos rfl, Nat.testBit_or, BitVec.testBit_toNat]
        simp [hk]
      · rw [if_neg hi]
        have : ¬ (4 * n ≤ 4 * i + k ∧ 4 * i + k < 4 * n + 4) := by omega
        simp [this]

theorem nibble_set_bits {l : NibbleList} {i : Nat} (hlt : i / 2 < l.data.length) {v : Byte} (hv : v.toNat < 16) :
    (l.set i v).data.length = l.data.length ∧ (l.set i v).nibbleCount = l.nibbleCount ∧
    ∀ p, bitW (l.set i v).data p = if 4 * i ≤ p ∧ p < 4 * i + 4 then v.getLsbD (p - 4 * i) else bitW l.data p := by
  have hset : l.set i v = NibbleList.mk (l.data.set (i / 2)
      ((l.data[i / 2] &&& (BitVec.ofNat 8 (0x0f * (i % 2)) ||| BitVec.ofNat 8 (0xf0 * (1 - i % 2)))) ||| (v <<< (4 * (i % 2)))))
      l.nibbleCount := by
    unfold NibbleList.set
    rw [List.getElem?_eq_getElem hlt]
  refine ⟨by rw [hset]; simp, by rw [hset], fun p => ?_⟩
  rw [hset]
  show bitW (l.data.set _ _) p = _
  rw [bitW_set hlt]
  by_cases hp : p / 8 = i / 2
  · rw [if_pos hp]
    have e : p = 8 * (i / 2) + p % 8 := by omega
    have h8 : p % 8 < 8 := by omega
    rw [BitVec.getLsbD_or, BitVec.getLsbD_and, BitVec.getLsbD_or, BitVec.getLsbD_shiftLeft, ← bitW_word hlt h8, ← e]
    have cases8 : p % 8 = 0 ∨ p % 8 = 1 ∨ p % 8 = 2 ∨ p % 8 = 3 ∨ p % 8 = 4 ∨ p % 8 = 5 ∨ p % 8 = 6 ∨ p % 8 = 7 := by omega
    rcases Nat.mod_two_eq_zero_or_one i with hi2 | hi2
    · rw [hi2]
      have e1 : (BitVec.ofNat 8 (0x0f * 0)).getLsbD (p % 8) = false := by simp
      have e2 : (BitVec.ofNat 8 (0xf0 * (1 - 0))).getLsbD (p % 8) = decide (4 ≤ p % 8) := by
        rcases cases8 with h | h | h | h | h | h | h | h <;> rw [h] <;> rfl
      rw [e1, e2]
      by_cases h4 : p % 8 < 4
      · rw [if_pos (by omega), show p - 4 * i = p % 8 - 4 * 0 by omega]
        simp [show ¬ 4 ≤ p % 8 by omega, h8]
      · rw [if_neg (by omega), byte_small_bit hv (by omega)]
        simp [show 4 ≤ p % 8 by omega]
    · rw [hi2]
      have e1 : (BitVec.ofNat 8 (0x0f * 1)).getLsbD (p % 8) = decide (p % 8 < 4) := by
        rcases cases8 with h | h | h | h | h | h | h | h <;> rw [h] <;> rfl
      have e2 : (BitVec.ofNat 8 (0xf0 * (1 - 1))).getLsbD (p % 8) = false := by simp
      rw [e1, e2]
      by_cases h4 : p % 8 < 4
      · rw [if_neg (by omega)]
        simp [h4]
      · rw [if_pos (by omega), show p - 4 * i = p % 8 - 4 * 1 by omega]
        simp [h4, h8]
  · rw [if_neg hp, if_neg (by omega)]

theorem hasMem_set {l : NibbleList} {m : NibMem} (h : HasMem l m) (i : Nat) {v : Byte} (hv : v.toNat < 16) :
    HasMem (l.set i v) (m.step (.set i v)) := by
  have hb := h.bytes
  unfold NibMem.step
  dsimp only
  split
  · next hi =>
    have hlt : i / 2 < l.data.length := by omega
    obtain ⟨h1, h2, h3⟩ := nibble_set_bits hlt hv
    refine ⟨h2.trans h.len, h.most, h1.trans hb, fun j => ?_, fun j k hk => ?_⟩
    · show Function.update m.cell i v.toNat j < 16
      rw [Function.update_apply]
      split
      · exact hv
      · exact h.small j
    · show _ = (Function.update m.cell i v.toNat j).testBit k
      rw [h3, Function.update_apply]
      by_cases hij : j = i
      · subst hij
        rw [if_pos (by omega), if_pos rfl, BitVec.testBit_toNat]; congr 1; omega
      · rw [if_neg (by omega), if_neg hij, h.bit j k hk]
  · next hi =>
    have : l.set i v = l := by
      unfold NibbleList.set
      rw [List.getElem?_eq_none (by omega)]
    rw [this]; exact h

theorem hasMem_run : ∀ (cs : List NibCall) {l : NibbleList} {m : NibMem}, HasMem l m → (∀ c ∈ cs, c.Small) →
    ∃ l', NibCall.runAll l cs = .ok l' ∧ HasMem l' (cs.foldl NibMem.step m)
  | [], l, m, h, _ => ⟨l, rfl, h⟩
  | c :: cs, l, m, h, hs => by
    have : ∃ l', c.run l = .ok l' ∧ HasMem l' (m.step c) := by
      have hc := hs c (by simp)
      cases c with
      | push v => exact hasMem_push h hc
      | set i v => exact ⟨_, rfl, hasMem_set h i hc⟩
      | clear => exact ⟨_, rfl, rfl, Nat.zero_le _, h.bytes, h.small, h.bit⟩
    obtain ⟨l', e, h'⟩ := this
    obtain ⟨l'', e', h''⟩ := hasMem_run cs h' fun c hc => hs c (by simp [hc])
    exact ⟨l'', by unfold NibCall.runAll; rw [e]; exact e', h''⟩

/-- **C47**, exact behaviour of every history of nibbles: nothing panics, and the list is a memory that is never erased. -/
theorem C47_history_partial (cs : List NibCall) (hs : ∀ c ∈ cs, c.Small) :
    ∃ l, NibCall.runAll .new cs = .ok l ∧ l.len = (cs.foldl NibMem.step .new).len ∧ (∀ i, (l.get i).toNat = (cs.foldl NibMem.step .new).cell i) ∧
      l.iter.map BitVec.toNat = (List.range (cs.foldl NibMem.step .new).len).map (cs.foldl NibMem.step .new).cell := by
  obtain ⟨l, e, h⟩ := hasMem_run cs hasMem_new hs
  refine ⟨l, e, h.len, h.get, ?_⟩
  unfold NibbleList.iter NibbleList.len
  rw [h.len, List.map_map]
  exact List.map_congr_left fun i _ => h.get i

example : ∃ l, NibCall.runAll .new [.push 5#8, .push 2#8, .push 9#8, .clear, .push 8#8, .push 4#8] = .ok l ∧ l.iter = [13#8, 6#8] := ⟨_, rfl, by decide⟩

theorem mem_pushes : ∀ (ys : List Byte) (m : NibMem), ((ys.map NibCall.push).foldl NibMem.step m).len = m.len + ys.length ∧
    ∀ i, ((ys.map NibCall.push).foldl NibMem.step m).cell i = if i < m.len then m.cell i else m.cell i ||| (ys[i - m.len]?.getD 0#8).toNat
  | [], m => ⟨rfl, fun i => by simp⟩
  | y :: ys, m => by
    obtain ⟨h1, h2⟩ := mem_pushes ys (m.step (.push y))
    have hl : (m.step (.push y)).len = m.len + 1 := rfl
    have hcell : ∀ i, (m.step (.push y)).cell i = if i = m.len then m.cell m.len ||| y.toNat else m.cell i := fun i => Function.update_apply _ _ _ _
    rw [List.map_cons, List.foldl_cons]
    refine ⟨by rw [h1, hl, List.length_cons]; omega, fun i => ?_⟩
    rw [h2, hl, hcell]
    rcases lt_trichotomy i m.len with h | h | h
    · rw [if_pos (by omega), if_neg (by omega), if_pos h]
    · subst h
      rw [if_pos (by omega), if_pos rfl, if_neg (by omega), Nat.sub_self]
      rfl
    · rw [if_neg (by omega), if_neg (by omega), if_neg (by omega), show i - m.len = (i - (m.len + 1)) + 1 by omega]
      rfl

/-- **C47**, any number of pushes after `clear`: they leave as many values as were pushed, each merged (bitwise or) with the value that was at its
place before; so the list is what was pushed exactly if no bit of the old values shows, as it does when there were none. -/
theorem C47_pushes_after_clear_partial {l : NibbleList} {xs : List Nat} (h : IsNibbles l xs) (ys : List Byte) (hy : ∀ y ∈ ys, y.toNat < 16) :
    ∃ l', NibCall.runAll l (.clear :: ys.map .push) = .ok l' ∧ l'.len = ys.length ∧
      l'.iter.map BitVec.toNat = ys.mapIdx (fun i y => xs.getD i 0 ||| y.toNat) ∧
      (l'.iter = ys ↔ ∀ i < ys.length, xs.getD i 0 ||| (ys.getD i 0#8).toNat = (ys.getD i 0#8).toNat) := by
  have h0 : HasMem l ⟨fun i => xs.getD i 0, xs.length, xs.length⟩ := by
    refine ⟨h.count, le_refl _, h.bytes, fun i => ?_, fun i k hk => ?_⟩
    · show xs.getD i 0 < 16
      by_cases hi : i < xs.length
      · rw [List.getD_eq_getElem _ _ hi]; exact h.small _ (List.getElem_mem hi)
      · rw [List.getD_eq_default _ _ (by omega)]; omega
    · show _ = (xs.getD i 0).testBit k
      by_cases hi : i < xs.length
      · rw [List.getD_eq_getElem _ _ hi]; exact h.bit i hi k hk
      · rw [List.getD_eq_default _ _ (by omega), h.spare _ (by omega)]; simp
  obtain ⟨l', e, h'⟩ := hasMem_run (.clear :: ys.map .push) h0 (by
    intro c hc
    rcases List.mem_cons.1 hc with rfl | hc
    · trivial
    · obtain ⟨y, hy', rfl⟩ := List.mem_map.1 hc
      exact hy y hy')
  rw [List.foldl_cons] at h'
  obtain ⟨h1, h2⟩ := mem_pushes ys (NibMem.step ⟨fun i => xs.getD i 0, xs.length, xs.length⟩ .clear)
  have hlen : l'.nibbleCount = ys.length := by rw [h'.len, h1]; exact Nat.zero_add _
  have hget : ∀ i < ys.length, (l'.get i).toNat = xs.getD i 0 ||| (ys.getD i 0#8).toNat := by
    intro i hi
    rw [h'.get, h2]
    show (if i < 0 then _ else xs.getD i 0 ||| (ys[i - 0]?.getD 0#8).toNat) = _
    rw [if_neg (by omega), Nat.sub_zero, List.getD_eq_getElem?_getD (l := ys)]
  refine ⟨l', e, hlen, ?_, ?_⟩
  · unfold NibbleList.iter NibbleList.len
    rw [hlen]
    apply List.ext_getElem
    · simp
    · intro i h3 h4
      have hi : i < ys.length := by simpa using h3
      simp only [List.map_map, List.getElem_map, List.getElem_range, Function.comp, List.getElem_mapIdx]
      rw [hget i hi, List.getD_eq_getElem ys _ hi]
  · constructor
    · intro hit i hi
      rw [← hget i hi]
      congr 1
      have : l'.iter[i]? = ys[i]? := by rw [hit]
      unfold NibbleList.iter NibbleList.len at this
      rw [hlen, List.getElem?_map, List.getElem?_range hi, List.getElem?_eq_getElem hi] at this
      rw [List.getD_eq_getElem ys _ hi]
      exact Option.some.inj this
    · intro hall
      unfold NibbleList.iter NibbleList.len
      rw [hlen]
      apply List.ext_getElem
      · simp
      · intro i h3 h4
        rw [List.getElem_map, List.getElem_range]
        apply BitVec.eq_of_toNat_eq
        rw [hget i h4, hall i h4, List.getD_eq_getElem ys _ h4]

example : IsNibbles .new [] ∧ ∀ y ∈ [3#8, 15#8], y.toNat < 16 := ⟨isNibbles_new, by decide⟩

end Adhoc
