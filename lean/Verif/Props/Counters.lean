import Verif.Model.Counters
import Verif.Props.Containers
import Verif.Proofs.Headers

/-! # C142: the frame index counts in 32 bits -/

namespace Adhoc

/-- successive pushes with counters of 32 bits -/
def Spec.pushAll32 (b : Build) (h : FrameHeaders) (xs : List FrameHeader) : R FrameHeaders := xs.foldlM (fun h x => h.push32 b x) h

open Spec

/-- C142: the index holds every header that was pushed, however many -/
def C142_statement : Prop := ∀ (b : Build) (xs : List FrameHeader) (_ : ∀ x ∈ xs, x.Fits), ∃ h, pushAll32 b .new xs = .ok h ∧ ∀ i, h.get i = .ok xs[i]?

/-- the headers with both counters at `n` -/
def FrameHeaders.counted (h : FrameHeaders) (n : Nat) : FrameHeaders := { h with divisorExpList := { h.divisorExpList with nibbleCount := n }, headerCursor := n }

theorem nibble_push32 {l l' : NibbleList} {v : Byte} (h : l.push v = .ok l') (b : Build) :
    l.push32 b v = (do let n ← chkU b 32 ((l.nibbleCount + 1 : Nat) : Int); pure { l' with nibbleCount := n }) := by
  unfold NibbleList.push at h
  unfold NibbleList.push32
  obtain ⟨c, h1, h⟩ := bind_eq_ok.1 h
  obtain ⟨d, h2, h⟩ := bind_eq_ok.1 h
  obtain rfl := Except.ok.inj h
  dsimp only
  rw [h1, bind_ok, h2, bind_ok]

theorem push32_append {h : FrameHeaders} {log : List FrameHeader} (H : IsLog h log log.length) {x : FrameHeader} (hx : x.Fits) (b : Build) :
    ∃ h', h.push x = .ok h' ∧ IsLog h' (log ++ [x]) (log.length + 1) ∧
      h.push32 b x = (do let n ← chkU b 32 ((log.length + 1 : Nat) : Int); pure (h'.counted n)) := by
  obtain ⟨h', e, H'⟩ := isLog_push H hx
  rw [if_neg (by omega)] at H'
  refine ⟨h', e, H', ?_⟩
  have hl : h.divisorExpList.len = log.length := H.len
  have hl' : h.divisorExpList.nibbleCount = log.length := H.len
  unfold FrameHeaders.push at e
  unfold FrameHeaders.push32
  dsimp only at e ⊢
  rw [H.cursor, hl, if_pos le_rfl] at e ⊢
  obtain ⟨d, h1, e⟩ := bind_eq_ok.1 e
  obtain ⟨i, h2, e⟩ := bind_eq_ok.1 e
  obtain rfl := Except.ok.inj e
  rw [nibble_push32 h1, hl']
  generalize chkU b 32 ((log.length + 1 : Nat) : Int) = r
  cases r with
  | error _ => rfl
  | ok n =>
    simp only [bind_ok]
    rw [h2]
    rfl

theorem chkU_small (b : Build) {n : Nat} (h : n < 2 ^ 32) : chkU b 32 (n : Int) = .ok n := by
  unfold chkU
  rw [if_pos ⟨Int.natCast_nonneg _, by exact_mod_cast h⟩]
  rfl

theorem chkU_wrap {n : Nat} (h : n = 2 ^ 32) : chkU .debug 32 (n : Int) = .error .overflow ∧ chkU .release 32 (n : Int) = .ok 0 := by
  have : ¬ (0 ≤ (n : Int) ∧ (n : Int) < (2 : Int) ^ 32) := by
    rintro ⟨-, h2⟩
    rw [h] at h2
    exact absurd h2 (by norm_num)
  have h0 : ((n : Int) % (2 : Int) ^ 32).toNat = 0 := by rw [h]; norm_num
  unfold chkU
  rw [if_neg this]
  generalize (n : Int) % (2 : Int) ^ 32 = m at *
  constructor
  · rfl
  · dsimp only
    rw [if_neg this, h0]

theorem counted_self {h : FrameHeaders} {log : List FrameHeader} {n : Nat} (H : IsLog h log n) (hn : n = log.length) : h.counted n = h := by
  have h1 : h.divisorExpList.nibbleCount = log.length := H.len
  have h2 := H.cursor
  obtain ⟨⟨d, k⟩, i, s, c, y, u⟩ := h
  dsimp only at h1 h2
  subst h1 h2 hn
  rfl

theorem pushAll32_below (b : Build) : ∀ (xs : List FrameHeader), (∀ x ∈ xs, x.Fits) → xs.length < 2 ^ 32 →
    ∃ h, pushAll32 b .new xs = .ok h ∧ IsLog h xs xs.length ∧ xs.foldlM (fun h x => FrameHeaders.push h x) FrameHeaders.new = .ok h := by
  intro xs
  induction xs using List.reverseRecOn with
  | nil => exact fun _ _ => ⟨_, rfl, isLog_new, rfl⟩
  | append_singleton xs x ih =>
    intro hf hl
    rw [List.length_append, List.length_singleton] at hl
    obtain ⟨h, e, H, p⟩ := ih (fun y hy => hf y (List.mem_append_left _ hy)) (by omega)
    obtain ⟨h', q, H', e'⟩ := push32_append H (hf x (by simp)) b
    refine ⟨h', ?_, by rw [List.length_append, List.length_singleton]; exact H', ?_⟩
    · unfold pushAll32 at e ⊢
      rw [List.foldlM_append, e, bind_ok, List.foldlM_cons, e', chkU_small b hl, bind_ok, counted_self H' (by simp)]
      rfl
    · rw [List.foldlM_append, p, bind_ok, List.foldlM_cons, q]
      rfl

/-- **C142**, true below 2^32 frames: the index holds every header, in both builds, as it does with counters that have no bound. -/
theorem C142_below_partial (b : Build) (xs : List FrameHeader) (hf : ∀ x ∈ xs, x.Fits) (hl : xs.length < 2 ^ 32) :
    ∃ h, pushAll32 b .new xs = .ok h ∧ h.len = xs.length ∧ (∀ i, h.get i = .ok xs[i]?) ∧ xs.foldlM (fun h x => FrameHeaders.push h x) FrameHeaders.new = .ok h := by
  obtain ⟨h, e, H, p⟩ := pushAll32_below b xs hf hl
  exact ⟨h, e, H.len, isLog_get H, p⟩

theorem nibble_push32_same (b : Build) (l : NibbleList) (v : Byte) (hl : l.len + 1 < 2 ^ 32) : l.push32 b v = l.push v := by
  unfold NibbleList.push32 NibbleList.push
  rw [chkU_small b (show l.nibbleCount + 1 < 2 ^ 32 from hl)]
  rfl

/-- **C142**, for every index, also a damaged one and one that is wound back and written over: with fewer than 2^32 - 1 frames a push does what it does with counters that have
no bound, panics included. -/
theorem C142_push_partial (b : Build) (h : FrameHeaders) (x : FrameHeader) (hl : h.len + 1 < 2 ^ 32) (hc : h.headerCursor + 1 < 2 ^ 32) : h.push32 b x = h.push x := by
  unfold FrameHeaders.push32 FrameHeaders.push
  dsimp only
  rw [nibble_push32_same b _ _ hl, chkU_small b hc]
  rfl

/-- **C142**: reading the index never overflows its cursor. -/
theorem C142_next_partial (b : Build) (h : FrameHeaders) (hl : h.len < 2 ^ 32) : h.next32 b = h.next := by
  unfold FrameHeaders.next32 FrameHeaders.next
  dsimp only
  split
  · next hc =>
    have : h.headerCursor + 1 < 2 ^ 32 := lt_of_le_of_lt hc hl
    rw [chkU_small b this]
    rfl
  · rfl

theorem full_log {xs : List FrameHeader} (hf : ∀ x ∈ xs, x.Fits) (hl : xs.length = 2 ^ 32) :
    pushAll32 .debug .new xs = .error .overflow ∧ ∃ h, IsLog h xs xs.length ∧ pushAll32 .release .new xs = .ok (h.counted 0) := by
  rcases List.eq_nil_or_concat xs with rfl | ⟨ys, x, rfl⟩
  · simp at hl
  · rw [List.concat_eq_append] at *
    rw [List.length_append, List.length_singleton] at hl
    have hf' : ∀ y ∈ ys, y.Fits := fun y hy => hf y (List.mem_append_left _ hy)
    have hlt : ys.length < 2 ^ 32 := by omega
    obtain ⟨k1, k2⟩ := chkU_wrap hl
    constructor
    · obtain ⟨h0, e0, H0, -⟩ := pushAll32_below .debug ys hf' hlt
      obtain ⟨h', p, H', e'⟩ := push32_append H0 (hf x (by simp)) .debug
      unfold pushAll32 at e0 ⊢
      rw [List.foldlM_append, e0, bind_ok, List.foldlM_cons, e', k1]
      rfl
    · obtain ⟨h0, e0, H0, -⟩ := pushAll32_below .release ys hf' hlt
      obtain ⟨h', p, H', e'⟩ := push32_append H0 (hf x (by simp)) .release
      refine ⟨h', by rw [List.length_append, List.length_singleton]; exact H', ?_⟩
      unfold pushAll32 at e0 ⊢
      rw [List.foldlM_append, e0, bind_ok, List.foldlM_cons, e', k2]
      rfl

/-- **C142** at 2^32 frames: a debug build panics, and in a release build the index is empty, with everything still in memory. -/
theorem C142_full_partial (xs : List FrameHeader) (hf : ∀ x ∈ xs, x.Fits) (hl : xs.length = 2 ^ 32) :
    pushAll32 .debug .new xs = .error .overflow ∧ ∃ h, pushAll32 .release .new xs = .ok h ∧ (∀ i, h.get i = .ok none) ∧ (∀ b, h.next32 b = .ok (h, none)) ∧
      h.frameSizeList = xs.map (·.size) := by
  obtain ⟨h1, h, H, e⟩ := full_log hf hl
  refine ⟨h1, _, e, fun i => ?_, fun b => ?_, H.sizes⟩
  · unfold FrameHeaders.get
    rw [if_neg (by show ¬ i < 0; omega)]
    rfl
  · unfold FrameHeaders.next32
    dsimp only
    rw [if_neg (by show ¬ 0 < 0; omega)]
    rfl

/-- **C142** behind 2^32 frames, in a release build: the next header that is pushed is not in the index. What is read in its place is the very first header, with the two
exponents merged. -/
theorem C142_behind_partial (xs : List FrameHeader) (hf : ∀ x ∈ xs, x.Fits) (hl : xs.length = 2 ^ 32) (x : FrameHeader) (hx : x.Fits) :
    ∃ h first, pushAll32 .release .new (xs ++ [x]) = .ok h ∧ xs[0]? = some first ∧ h.len = 1 ∧
      h.get 0 = .ok (some { first with exponent := first.exponent ||| x.exponent }) := by
  obtain ⟨-, h, H, e⟩ := full_log hf hl
  have hpos : 0 < xs.length := by rw [hl]; norm_num
  have hve : (BitVec.ofNat 8 x.exponent).toNat = x.exponent := by rw [BitVec.toNat_ofNat]; have := hx.1; omega
  obtain ⟨d, e1, hd1, hd2⟩ := C47_push_after_clear_partial H.exps (by intro h0; rw [List.map_eq_nil_iff] at h0; subst h0; simp at hpos) (v := BitVec.ofNat 8 x.exponent) (by rw [hve]; exact hx.1)
  obtain ⟨i, e2, h2⟩ := isBits_push H.inits (if x.isInit then 1#64 else 0#64)
  have hp : (h.counted 0).push32 .release x = .ok { divisorExpList := d, isInitFrameList := i, frameSizeList := h.frameSizeList ++ [x.size], bitCursorList := h.bitCursorList ++ [x.bitCursor % 2 ^ 64], stackHistoryList := h.stackHistoryList ++ [x.history], headerCursor := 1 } := by
    unfold FrameHeaders.push32
    have hc : (h.counted 0).divisorExpList = h.divisorExpList.clear := rfl
    have hz : (h.counted 0).headerCursor = 0 := rfl
    have hz' : h.divisorExpList.clear.len = 0 := rfl
    have hi : (h.counted 0).isInitFrameList = h.isInitFrameList := rfl
    have hd' : ({ d with nibbleCount := 1 } : NibbleList) = d := by
      obtain ⟨dd, k⟩ := d
      have : k = 1 := hd1
      subst this
      rfl
    dsimp only
    rw [hc, hz, hi, hz', if_pos le_rfl, nibble_push32 e1]
    rw [show h.divisorExpList.clear.nibbleCount + 1 = 1 from rfl, chkU_small .release (show (1 : Nat) < 2 ^ 32 by norm_num), bind_ok, pure_bind, e2, bind_ok]
    rw [bind_ok, hd']
    rfl
  obtain ⟨g, hg⟩ : ∃ g, g = ({ divisorExpList := d, isInitFrameList := i, frameSizeList := h.frameSizeList ++ [x.size], bitCursorList := h.bitCursorList ++ [x.bitCursor % 2 ^ 64], stackHistoryList := h.stackHistoryList ++ [x.history], headerCursor := 1 } : FrameHeaders) := ⟨_, rfl⟩
  rw [← hg] at hp
  refine ⟨g, xs[0], ?_, List.getElem?_eq_getElem hpos, by rw [hg]; exact hd1, ?_⟩
  · unfold pushAll32 at e ⊢
    rw [List.foldlM_append, e, bind_ok, List.foldlM_cons, hp]
    rfl
  · have hlen : g.len = d.len := by rw [hg]; rfl
    unfold FrameHeaders.get
    rw [if_pos (show 0 < g.len by rw [hlen, hd1]; omega), hg]
    dsimp only
    have hf0 := H.exps.get (i := 0) (by simpa using hpos)
    have hb0 := h2.get (i := 0) (by simp)
    rw [H.sizes, H.cursors, H.hist]
    rw [idx_eq_ok.2 (show (xs.map (·.size) ++ [x.size])[0]? = some xs[0].size by rw [List.getElem?_append_left (by simpa using hpos)]; simp [List.getElem?_eq_getElem hpos])]
    rw [idx_eq_ok.2 (show (xs.map (·.bitCursor) ++ [x.bitCursor % 2 ^ 64])[0]? = some xs[0].bitCursor by rw [List.getElem?_append_left (by simpa using hpos)]; simp [List.getElem?_eq_getElem hpos])]
    rw [idx_eq_ok.2 (show (xs.map (·.history) ++ [x.history])[0]? = some xs[0].history by rw [List.getElem?_append_left (by simpa using hpos)]; simp [List.getElem?_eq_getElem hpos])]
    simp only [bind_ok, pure_eq_ok]
    rw [hd2, BitVec.toNat_or, hf0, hve, hb0, List.getElem_append_left (by simpa using hpos)]
    simp only [List.getElem_map]
    cases xs[0].isInit <;> simp

/-- C142 as stated fails: the index of 2^32 headers. -/
theorem C142_false : ¬ C142_statement := by
  intro hall
  have hx : ∀ x ∈ List.replicate (2 ^ 32) ({ exponent := 0, size := 0, bitCursor := 0, isInit := true, history := (0, 0, 0) } : FrameHeader), x.Fits := by
    intro x hx
    rw [List.eq_of_mem_replicate hx]
    exact ⟨by norm_num, by norm_num⟩
  obtain ⟨h, e, -⟩ := hall .debug _ hx
  rw [(C142_full_partial _ hx List.length_replicate).1] at e
  cases e

/-- three headers -/
example : (match pushAll32 .debug .new [⟨3, 7, 0, true, (1, 2, 3)⟩, ⟨5, 9, 100, false, (4, 5, 6)⟩, ⟨15, 1, 200, true, (0, 0, 0)⟩] with
    | .ok h => decide (h.len = 3 ∧ h.get 1 = .ok (some ⟨5, 9, 100, false, (4, 5, 6)⟩) ∧ h.reset.next32 .debug = h.reset.next)
    | .error _ => false) = true := by decide +kernel

/-- two headers, wound back and the first written over -/
example : (match pushAll32 .debug .new [⟨3, 7, 0, true, (1, 2, 3)⟩, ⟨5, 8, 48, false, (4, 5, 6)⟩] with
    | .ok h => (match h.reset.push32 .debug ⟨9, 6, 2 ^ 40, false, (7, 8, 9)⟩ with
      | .ok h' => decide (h'.get 0 = .ok (some ⟨9, 6, 2 ^ 40, false, (7, 8, 9)⟩) ∧ h'.get 1 = .ok (some ⟨5, 8, 48, false, (4, 5, 6)⟩) ∧ h'.headerCursor = 1)
      | .error _ => false)
    | .error _ => false) = true := by decide +kernel

/-- the hypotheses of the theorems about 2^32 headers can be met -/
example : ∃ xs : List FrameHeader, (∀ x ∈ xs, x.Fits) ∧ xs.length = 2 ^ 32 ∧ xs[0]? = some ⟨3, 7, 0, true, (1, 2, 3)⟩ := by
  refine ⟨List.replicate (2 ^ 32) ⟨3, 7, 0, true, (1, 2, 3)⟩, fun x hx => ?_, List.length_replicate, ?_⟩
  · rw [List.eq_of_mem_replicate hx]; exact ⟨by norm_num, by norm_num⟩
  · rw [List.getElem?_replicate, if_pos (by norm_num)]

end Adhoc
