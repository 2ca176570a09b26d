import Verif.Proofs.Packed
import Verif.Model.Frame

/-! The frame headers as a log with a cursor. -/

namespace Adhoc

/-- a header that fits its packed representation: 4-bit exponent, 64-bit position -/
def FrameHeader.Fits (h : FrameHeader) : Prop := h.exponent < 16 ∧ h.bitCursor < 2 ^ 64

/-- the six parallel vectors hold `log` -/
structure IsLog (h : FrameHeaders) (log : List FrameHeader) (c : Nat) : Prop where
  exps : IsNibbles h.divisorExpList (log.map (·.exponent))
  inits : IsBits h.isInitFrameList (log.map (·.isInit)) log.length
  sizes : h.frameSizeList = log.map (·.size)
  cursors : h.bitCursorList = log.map (·.bitCursor)
  hist : h.stackHistoryList = log.map (·.history)
  cursor : h.headerCursor = c
  fits : ∀ x ∈ log, x.Fits

theorem isLog_new : IsLog .new [] 0 :=
  ⟨isNibbles_new, isBits_new, rfl, rfl, rfl, rfl, by simp⟩

theorem IsLog.len {h : FrameHeaders} {log : List FrameHeader} {c : Nat} (H : IsLog h log c) : h.len = log.length := by
  show h.divisorExpList.nibbleCount = _
  rw [H.exps.count]; simp

theorem isLog_setCursor {h : FrameHeaders} {log : List FrameHeader} {c : Nat} (H : IsLog h log c) (i : Nat) :
    IsLog (h.setCursor i) log i := ⟨H.exps, H.inits, H.sizes, H.cursors, H.hist, rfl, H.fits⟩

theorem isLog_reset {h : FrameHeaders} {log : List FrameHeader} {c : Nat} (H : IsLog h log c) :
    IsLog h.reset log 0 := ⟨H.exps, H.inits, H.sizes, H.cursors, H.hist, rfl, H.fits⟩

theorem initBit (b : Bool) : (if b then 1#64 else 0#64 : BitVec 64).getLsbD 0 = b := by cases b <;> rfl

theorem isLog_push {h : FrameHeaders} {log : List FrameHeader} {c : Nat} (H : IsLog h log c) {x : FrameHeader} (hx : x.Fits) :
    ∃ h', h.push x = .ok h' ∧ IsLog h' (if c < log.length then log.set c x else log ++ [x]) (c + 1) := by
  have hlen := H.len
  have he : (BitVec.ofNat 8 x.exponent).toNat = x.exponent := by
    rw [BitVec.toNat_ofNat]; have := hx.1; omega
  have hb : x.bitCursor % 2 ^ 64 = x.bitCursor := Nat.mod_eq_of_lt hx.2
  have hl : h.divisorExpList.len = log.length := hlen
  unfold FrameHeaders.push
  dsimp only
  rw [H.cursor, hl, hb]
  by_cases hc : c < log.length
  · rw [if_neg (by omega), if_pos hc]
    rw [setIdx_of_lt (by rw [H.sizes]; simpa using hc), setIdx_of_lt (by rw [H.cursors]; simpa using hc),
      setIdx_of_lt (by rw [H.hist]; simpa using hc)]
    refine ⟨_, rfl, ?_, ?_, ?_, ?_, ?_, rfl, ?_⟩
    · have := isNibbles_set H.exps (i := c) (by simpa using hc) (v := BitVec.ofNat 8 x.exponent) (by rw [he]; exact hx.1)
      rw [he] at this
      simpa [List.map_set] using this
    · have := isBits_set H.inits c (if x.isInit then 1#64 else 0#64)
      rw [initBit] at this
      simpa [List.map_set] using this
    · simp [H.sizes, List.map_set]
    · simp [H.cursors, List.map_set]
    · simp [H.hist, List.map_set]
    · intro y hy
      rcases List.mem_or_eq_of_mem_set hy with hy | rfl
      · exact H.fits y hy
      · exact hx
  · rw [if_pos (by omega), if_neg hc]
    obtain ⟨d, e1, h1⟩ := isNibbles_push H.exps (v := BitVec.ofNat 8 x.exponent) (by rw [he]; exact hx.1)
    obtain ⟨i, e2, h2⟩ := isBits_push H.inits (if x.isInit then 1#64 else 0#64)
    rw [e1, bind_ok, e2, bind_ok]
    refine ⟨_, rfl, ?_, ?_, ?_, ?_, ?_, rfl, ?_⟩
    · rw [he] at h1; simpa using h1
    · rw [initBit] at h2; simpa using h2
    · simp [H.sizes]
    · simp [H.cursors]
    · simp [H.hist]
    · intro y hy
      simp at hy
      rcases hy with hy | rfl
      · exact H.fits y hy
      · exact hx

/-- no flags behind the last header -/
def Unflagged (h : FrameHeaders) : Prop := ∀ p, h.isInitFrameList.bitCursor ≤ p → bitW h.isInitFrameList.binary p = false

theorem unflagged_push {h h' : FrameHeaders} {log : List FrameHeader} (H : IsLog h log log.length) (hu : Unflagged h) {x : FrameHeader}
    (e : h.push x = .ok h') : Unflagged h' := by
  have hl : h.divisorExpList.len = log.length := H.len
  unfold FrameHeaders.push at e
  dsimp only at e
  rw [H.cursor, hl, if_pos le_rfl] at e
  obtain ⟨d, -, e⟩ := bind_eq_ok.1 e
  obtain ⟨i, ei, e⟩ := bind_eq_ok.1 e
  rw [← Except.ok.inj e]
  exact push_clean hu ei

theorem isLog_get {h : FrameHeaders} {log : List FrameHeader} {c : Nat} (H : IsLog h log c) (i : Nat) :
    h.get i = .ok log[i]? := by
  unfold FrameHeaders.get
  rw [H.len]
  split
  · next hi =>
    rw [H.sizes, H.cursors, H.hist, idx_of_lt (by simpa using hi), idx_of_lt (by simpa using hi), idx_of_lt (by simpa using hi)]
    have h1 := H.exps.get (i := i) (by simpa using hi)
    have h2 := H.inits.get (i := i) (by simpa using hi)
    rw [List.getElem?_eq_getElem hi]
    simp only [bind_ok, h1, h2, List.getElem_map, pure_eq_ok]
    congr 2
    cases e : log[i] with
    | mk a b c d f => cases d <;> simp
  · next hi => rw [List.getElem?_eq_none (by omega)]; rfl

theorem isLog_next {h : FrameHeaders} {log : List FrameHeader} {c : Nat} (H : IsLog h log c) :
    ∃ h', h.next = .ok (h', log[c]?) ∧ IsLog h' log (if c < log.length then c + 1 else c) := by
  have hl : h.divisorExpList.len = log.length := H.len
  unfold FrameHeaders.next
  dsimp only
  rw [H.cursor, hl]
  by_cases hi : c < log.length
  · rw [if_pos hi, if_pos hi]
    rw [H.sizes, H.cursors, H.hist, idx_of_lt (by simpa using hi), idx_of_lt (by simpa using hi), idx_of_lt (by simpa using hi)]
    have h1 := H.exps.get (i := c) (by simpa using hi)
    have h2 := H.inits.get (i := c) (by simpa using hi)
    rw [List.getElem?_eq_getElem hi]
    simp only [bind_ok, h1, h2, List.getElem_map, pure_eq_ok]
    refine ⟨{ h with headerCursor := c + 1 }, ?_, H.exps, H.inits, H.sizes, H.cursors, H.hist, rfl, H.fits⟩
    congr 3
    · exact H.sizes.symm
    · exact H.cursors.symm
    · exact H.hist.symm
    cases e : log[c] with
    | mk a b c d f => cases d <;> simp
  · rw [if_neg hi, if_neg hi, List.getElem?_eq_none (by omega)]
    exact ⟨h, rfl, H⟩

end Adhoc
