import Verif.Proofs.F32
import Verif.Proofs.Basic
import Verif.Model.Signal

/-! # Bit patterns of floats, convolution and resampling -/

namespace Adhoc
open F32

/-! ## every float has a bit pattern -/

theorem fromBits_zero : fromBits 0#32 = ofInt 0 := by decide +kernel

theorem fromBits_parts {s e m : Nat} (hs : s ≤ 1) (he : e < 256) (hm : m < 2 ^ 23) :
    fromBits (BitVec.ofNat 32 (s * 2 ^ 31 + e * 2 ^ 23 + m)) =
      if e = 255 then (if m = 0 then inf (decide (s = 1)) else nan)
      else ofRat (if s = 1 then -(if e = 0 then (m : ℚ) * 2 ^ (-149 : ℤ) else ((2 ^ 23 + m : Nat) : ℚ) * 2 ^ ((e : ℤ) - 150))
        else (if e = 0 then (m : ℚ) * 2 ^ (-149 : ℤ) else ((2 ^ 23 + m : Nat) : ℚ) * 2 ^ ((e : ℤ) - 150))) := by
  have h0 : (BitVec.ofNat 32 (s * 2 ^ 31 + e * 2 ^ 23 + m)).toNat = s * 2 ^ 31 + e * 2 ^ 23 + m := by
    rw [BitVec.toNat_ofNat]
    norm_num at hm ⊢
    omega
  have h1 : (s * 2 ^ 31 + e * 2 ^ 23 + m) / 2 ^ 31 = s := by norm_num at hm ⊢; omega
  have h2 : (s * 2 ^ 31 + e * 2 ^ 23 + m) / 2 ^ 23 % 2 ^ 8 = e := by norm_num at hm ⊢; omega
  have h3 : (s * 2 ^ 31 + e * 2 ^ 23 + m) % 2 ^ 23 = m := by norm_num at hm ⊢; omega
  unfold fromBits
  dsimp only
  rw [h0, h1, h2, h3]

theorem rep_parts {q : ℚ} (h : Rep q) : ∃ e m : Nat, e < 255 ∧ m < 2 ^ 23 ∧
    |q| = if e = 0 then (m : ℚ) * 2 ^ (-149 : ℤ) else ((2 ^ 23 + m : Nat) : ℚ) * 2 ^ ((e : ℤ) - 150) := by
  by_cases hq : q = 0
  · subst hq
    exact ⟨0, 0, by norm_num, by norm_num, by simp⟩
  obtain ⟨hlo, hhi⟩ := ilog2_spec hq
  have hr := roundQ_grid h.grid
  rw [roundQ_of_ne hq] at hr
  obtain ⟨n, hn⟩ : ∃ n : ℤ, n = rne (q / (2 : ℚ) ^ ulpExp q) := ⟨_, rfl⟩
  rw [← hn] at hr
  have hpos := ulp_pos q
  have habs : |q| = (n.natAbs : ℚ) * (2 : ℚ) ^ ulpExp q := by
    conv_lhs => rw [← hr, abs_mul, abs_of_pos hpos]
    rw [Nat.cast_natAbs, Int.cast_abs]
  have hlt : n.natAbs < 2 ^ 24 := by
    have h1 : (n.natAbs : ℚ) * (2 : ℚ) ^ ulpExp q < (2 : ℚ) ^ (24 : ℤ) * (2 : ℚ) ^ ulpExp q := by
      rw [← habs, ← zpow_add₀ (by norm_num)]
      refine lt_of_lt_of_le hhi (zpow_le_zpow_right₀ (by norm_num) ?_)
      unfold ulpExp; omega
    have h2 := lt_of_mul_lt_mul_right h1 hpos.le
    have h3 : (n.natAbs : ℚ) < ((2 ^ 24 : Nat) : ℚ) := by push_cast; exact_mod_cast h2
    exact_mod_cast h3
  by_cases hs : n.natAbs < 2 ^ 23
  · refine ⟨0, n.natAbs, by norm_num, hs, ?_⟩
    rw [if_pos rfl, habs]
    have : ulpExp q = -149 := by
      by_contra hc
      have hu : ulpExp q = ilog2 q - 23 := by unfold ulpExp at *; omega
      rw [habs, hu] at hlo
      have h1 : (n.natAbs : ℚ) < 2 ^ (23 : ℤ) := by
        have : (n.natAbs : ℚ) < ((2 ^ 23 : Nat) : ℚ) := by exact_mod_cast hs
        push_cast at this; exact_mod_cast this
      have h2 : (n.natAbs : ℚ) * (2 : ℚ) ^ (ilog2 q - 23) < 2 ^ (23 : ℤ) * (2 : ℚ) ^ (ilog2 q - 23) :=
        mul_lt_mul_of_pos_right h1 (by positivity)
      rw [← zpow_add₀ (by norm_num), show 23 + (ilog2 q - 23) = ilog2 q by ring] at h2
      linarith
    rw [this]
  · have hge : -149 ≤ ulpExp q := by unfold ulpExp; omega
    have hle : ulpExp q ≤ 104 := by
      have h1 : (2 : ℚ) ^ (23 : ℤ) * (2 : ℚ) ^ ulpExp q < 2 ^ (128 : ℤ) := by
        have h2 : |q| < 2 ^ (128 : ℤ) := by exact_mod_cast h.lt
        refine lt_of_le_of_lt ?_ h2
        rw [habs]
        refine mul_le_mul_of_nonneg_right ?_ hpos.le
        have : ((2 ^ 23 : Nat) : ℚ) ≤ (n.natAbs : ℚ) := by exact_mod_cast Nat.le_of_not_lt hs
        push_cast at this; exact_mod_cast this
      rw [← zpow_add₀ (by norm_num)] at h1
      have := (zpow_lt_zpow_iff_right₀ (by norm_num : (1 : ℚ) < 2)).1 h1
      omega
    refine ⟨(ulpExp q + 150).toNat, n.natAbs - 2 ^ 23, by omega, by norm_num at *; omega, ?_⟩
    rw [if_neg (by omega), habs, show 2 ^ 23 + (n.natAbs - 2 ^ 23) = n.natAbs by omega,
      show (((ulpExp q + 150).toNat : Nat) : ℤ) - 150 = ulpExp q by omega]

/-- every float of the model is the value of a bit pattern -/
theorem fromBits_surjective : Function.Surjective fromBits := by
  intro x
  cases x with
  | nan => exact ⟨_, by rw [fromBits_parts (s := 0) (e := 255) (m := 1) (by norm_num) (by norm_num) (by norm_num)]; simp⟩
  | inf s =>
    cases s
    · exact ⟨_, by rw [fromBits_parts (s := 0) (e := 255) (m := 0) (by norm_num) (by norm_num) (by norm_num)]; simp⟩
    · exact ⟨_, by rw [fromBits_parts (s := 1) (e := 255) (m := 0) (by norm_num) (by norm_num) (by norm_num)]; simp⟩
  | fin q h =>
    obtain ⟨e, m, he, hm, hv⟩ := rep_parts h
    rcases le_or_gt 0 q with h0 | h0
    · refine ⟨_, (fromBits_parts (s := 0) (e := e) (m := m) (by norm_num) (by omega) hm).trans ?_⟩
      rw [if_neg (by omega), if_neg (by norm_num), ← hv, abs_of_nonneg h0, ofRat_rep h]
    · refine ⟨_, (fromBits_parts (s := 1) (e := e) (m := m) (by norm_num) (by omega) hm).trans ?_⟩
      rw [if_neg (by omega), if_pos rfl, ← hv, abs_of_neg h0, neg_neg, ofRat_rep h]

/-! ## convolution -/

theorem maskedBits_eq (oob : Bool) (v : BitVec 32) : Signal.maskedBits (Signal.oobMask oob) v = if oob then 0#32 else v := by
  cases oob
  · have : Signal.oobMask false = 0#32 := by decide
    rw [this, Signal.maskedBits, show ~~~0#32 = BitVec.allOnes 32 by decide, BitVec.allOnes_and]; simp
  · have : Signal.oobMask true = BitVec.allOnes 32 := by decide
    rw [this, Signal.maskedBits]; simp

theorem convInner_eq {toBits : F32 → BitVec 32} (ht : ∀ x, fromBits (toBits x) = x) (samples kernel : List F32) {i : Nat} (hi : i < samples.length) :
    ∀ (js : List Nat) (sum : F32), Signal.convInnerBranchless toBits samples kernel i js sum = Signal.convInner samples kernel i js sum
  | [], _ => rfl
  | j :: js, sum => by
    unfold Signal.convInnerBranchless Signal.convInner
    have hix : (j : Int) + ((i : Int) - ((kernel.length >>> 1 : Nat) : Int)) = (j : Int) + i - ((kernel.length / 2 : Nat) : Int) := by
      rw [Nat.shiftRight_eq_div_pow]; norm_num; ring
    simp only [hix]
    generalize (j : Int) + i - ((kernel.length / 2 : Nat) : Int) = ix
    rw [clampI, if_neg (by omega), bind_ok]
    by_cases ho : ix < 0 ∨ ix ≥ samples.length
    · have hc : ((if ix < 0 then 0 else if (samples.length : Int) - 1 < ix then (samples.length : Int) - 1 else ix).toNat) < samples.length := by
        split_ifs <;> omega
      rw [idx_of_lt hc, bind_ok, if_pos ho]
      simp only [ho, decide_true, maskedBits_eq, if_true, fromBits_zero, pure_eq_ok, bind_ok]
      simp only [convInner_eq ht samples kernel hi js]
    · have hc : ((if ix < 0 then 0 else if (samples.length : Int) - 1 < ix then (samples.length : Int) - 1 else ix)) = ix := by
        rw [if_neg (by omega), if_neg (by omega)]
      have hlt : ix.toNat < samples.length := by omega
      rw [hc, idx_of_lt hlt, bind_ok, if_neg ho, bind_ok]
      simp only [ho, decide_false, maskedBits_eq, Bool.false_eq_true, if_false, ht]
      simp only [convInner_eq ht samples kernel hi js]

theorem foldlM_congr {α β : Type} {f g : β → α → R β} : ∀ (l : List α) (b : β), (∀ a ∈ l, ∀ b, f b a = g b a) → l.foldlM f b = l.foldlM g b
  | [], _, _ => rfl
  | a :: l, b, h => by
    rw [List.foldlM_cons, List.foldlM_cons, h a (by simp)]
    congr 1
    funext c
    exact foldlM_congr l c fun a' ha' => h a' (by simp [ha'])

/-! ## resampling -/

theorem is_floor {x : F32} {n : ℤ} (hn : |n| ≤ 2 ^ 24) (h : Is x n) : Is (Signal.floor x) n := by
  obtain ⟨hr, rfl⟩ := h
  have : ((n : ℚ)).floor = n := by
    have : ((n : ℚ)).floor = ⌊(n : ℚ)⌋ := rfl
    rw [this]; simp
  show Is (ofRat (((n : ℚ).floor : ℤ) : ℚ)) _
  rw [this]
  exact is_int hn

theorem is_fract {x : F32} {n : ℤ} (hn : |n| ≤ 2 ^ 24) (h : Is x n) : Is (Signal.fract x) 0 := by
  unfold Signal.fract
  have ht : Is (Signal.trunc x) n := by
    obtain ⟨hr, rfl⟩ := h
    show Is (ofRat ((truncQ (n : ℚ) : ℤ) : ℚ)) _
    rw [truncQ_int]
    exact is_int hn
  have := h.sub ht rep_one (by simp)
  rwa [sub_self, roundQ_zero] at this

theorem scaleAt_same {b : Build} {input : List F32} {f : F32} (hf : Is f 1) (h2 : 2 ≤ input.length) (hl : input.length ≤ 2 ^ 24)
    (hfin : ∀ x ∈ input, ∃ q, Is x q) {k : Nat} (hk : k < input.length) : Signal.scaleAt b input f k = .ok input[k] := by
  have hlast : chkU b 64 ((input.length : Int) - 1) = .ok (input.length - 1) := by
    have e : (input.length : Int) - 1 = ((input.length - 1 : Nat) : Int) := by omega
    rw [e]
    exact chkU_nat (by norm_num at hl ⊢; omega)
  have hkn : |((k : ℕ) : ℤ)| ≤ 2 ^ 24 := by rw [abs_of_nonneg (by omega)]; norm_num at hl ⊢; omega
  have hkf : Is (ofInt (k : ℤ) * f) ((k : ℕ) : ℤ) := by
    have := (is_int hkn).mul hf (rep_int (n := 2 ^ 24) (by norm_num)) (by rw [mul_one]; exact_mod_cast hkn)
    rwa [mul_one, roundQ_grid (grid_int hkn)] at this
  have hfl := is_floor hkn hkf
  have hsat : ((Signal.floor (ofInt (k : ℤ) * f)).toIntSat 0 (2 ^ 64 - 1)).toNat = k := by
    obtain ⟨hr, e⟩ := hfl
    rw [e, toIntSat, truncQ_int]
    norm_num at hl ⊢
    omega
  have ht := is_fract hkn hkf
  unfold Signal.scaleAt
  rw [hlast, bind_ok]
  dsimp only
  rw [hsat, Nat.min_eq_left (by omega)]
  have hk1 : min (k + 1) (input.length - 1) < input.length := by omega
  rw [idx_of_lt hk, bind_ok, idx_of_lt hk1, bind_ok]
  obtain ⟨p, hp⟩ := hfin _ (List.getElem_mem hk)
  obtain ⟨q, hq⟩ := hfin _ (List.getElem_mem hk1)
  have h1 : ofInt 1 - Signal.fract (ofInt (k : ℤ) * f) = ofInt 1 := by
    have i1 : Is (ofInt 1) 1 := by simpa using is_int (n := 1) (by norm_num)
    have := i1.sub ht rep_one (by norm_num)
    rw [sub_zero, roundQ_grid rep_one.grid] at this
    exact this.eq i1
  have h0 : input[min (k + 1) (input.length - 1)] * Signal.fract (ofInt (k : ℤ) * f) = ofInt 0 := by
    have := hq.mul ht rep_one (by norm_num)
    rw [mul_zero, roundQ_zero] at this
    exact this.eq (by simpa using is_int (n := 0) (by norm_num))
  rw [h1, h0, mul_one', add_zero']
  rfl

end Adhoc
