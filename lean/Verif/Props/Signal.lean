import Verif.Proofs.Signal

/-! # C55 (branchless convolution) and C60 (resampling to the same length) -/

namespace Adhoc
open F32

/-- there is a function that `f32::from_bits` undoes -/
theorem toBits_exists : ∃ toBits : F32 → BitVec 32, ∀ x, fromBits (toBits x) = x := fromBits_surjective.hasRightInverse

/-- **C55**: for all samples, kernels and result slices, of any lengths, `convolve_1d_branchless` does what `convolve_1d` does: it writes
the same values, or panics for the same reason (a result slice that is too short). -/
theorem C55_branchless (toBits : F32 → BitVec 32) (ht : ∀ x, fromBits (toBits x) = x) (samples kernel result : List F32) :
    Signal.convolve1dBranchless toBits samples kernel result = Signal.convolve1d samples kernel result := by
  unfold Signal.convolve1dBranchless Signal.convolve1d
  refine foldlM_congr _ _ fun i hi r => ?_
  rw [convInner_eq ht samples kernel (List.mem_range.1 hi)]

/-- two samples and a kernel of three: the ends count as zero -/
example : Signal.convolve1d [ofInt 1, ofInt 2] [ofInt 3, ofInt 5, ofInt 7] [ofInt 0, ofInt 0, ofInt 9] = .ok [ofInt 19, ofInt 13, ofInt 9] := by decide +kernel

example : Signal.convolve1d [ofInt 1, ofInt 2] [ofInt 3] [ofInt 0] = .error .index := by decide +kernel

theorem fill_prefix {f : Nat → R F32} (input : List F32) (hf : ∀ k (h : k < input.length), f k = .ok input[k]) (output : List F32)
    (ho : input.length ≤ output.length) : ∀ n ≤ input.length, (List.range n).foldlM (fun o k => do
      let y ← f k
      setIdx o k y) output = .ok (input.take n ++ output.drop n)
  | 0, _ => by simp
  | n + 1, h => by
    rw [List.range_succ, List.foldlM_append, fill_prefix input hf output ho n (by omega), bind_ok, List.foldlM_cons,
      hf n (by omega), bind_ok]
    have hl : (input.take n).length = n := by rw [List.length_take]; omega
    have hlt : n < (input.take n ++ output.drop n).length := by rw [List.length_append, hl, List.length_drop]; omega
    rw [setIdx_of_lt hlt, bind_ok, List.foldlM_nil, List.set_append_right _ _ (by rw [hl]), hl, Nat.sub_self]
    obtain ⟨a, t, ha⟩ : ∃ a t, output.drop n = a :: t := by
      cases hd : output.drop n with
      | nil => rw [List.drop_eq_nil_iff] at hd; omega
      | cons a t => exact ⟨a, t, rfl⟩
    have ht : output.drop (n + 1) = t := by rw [← List.drop_drop, ha]; rfl
    rw [ha, ht, List.set_cons_zero, List.take_succ_eq_append_getElem (by omega), List.append_assoc]
    rfl

/-- **C60**: resampling a finite signal of 2 to 2^24 samples to its own length copies it to the start of the output and leaves the rest of
the output alone, in both builds. -/
theorem C60_same_length (b : Build) (input output : List F32) (h2 : 2 ≤ input.length) (hl : input.length ≤ 2 ^ 24)
    (ho : input.length ≤ output.length) (hfin : ∀ x ∈ input, x.isFinite = true) :
    Signal.scaleSignal b input input.length output = .ok (input ++ output.drop input.length) := by
  have hfin' : ∀ x ∈ input, ∃ q, Is x q := by
    intro x hx
    have := hfin x hx
    cases x with
    | fin q h => exact ⟨q, h, rfl⟩
    | _ => simp [isFinite] at this
  have hlast : chkU b 64 ((input.length : Int) - 1) = .ok (input.length - 1) := by
    have e : (input.length : Int) - 1 = ((input.length - 1 : Nat) : Int) := by omega
    rw [e]
    exact chkU_nat (by norm_num at hl ⊢; omega)
  have hn : |((input.length - 1 : Nat) : ℤ)| ≤ 2 ^ 24 := by rw [abs_of_nonneg (by omega)]; norm_num at hl ⊢; omega
  have hn0 : (((input.length - 1 : Nat) : ℤ) : ℚ) ≠ 0 := by
    have : ((input.length - 1 : Nat) : ℤ) ≠ 0 := by omega
    exact_mod_cast this
  have hf : Is (ofInt ((input.length - 1 : Nat) : ℤ) / ofInt ((input.length - 1 : Nat) : ℤ)) 1 := by
    have := (is_int hn).div (is_int hn) hn0 rep_one (by rw [div_self hn0]; norm_num)
    rwa [div_self hn0, roundQ_grid rep_one.grid] at this
  unfold Signal.scaleSignal
  rw [hlast, bind_ok, bind_ok]
  dsimp only
  rw [fill_prefix input (fun k hk => scaleAt_same hf h2 hl hfin' hk) output ho input.length le_rfl, bind_ok,
    if_pos (by rw [List.length_append, List.length_take, List.length_drop]; omega), List.take_of_length_le le_rfl]
  rfl

/-- three samples, and one more place in the output -/
example : Signal.scaleSignal .debug [F32.ofRat (1 / 4), ofInt (-2), ofInt 3] 3 [ofInt 0, ofInt 0, ofInt 0, ofInt 9] =
    .ok [F32.ofRat (1 / 4), ofInt (-2), ofInt 3, ofInt 9] := by decide +kernel

/-- finiteness is needed: an infinite neighbour turns a sample into NaN -/
example : Signal.scaleSignal .debug [ofInt 1, .inf false] 2 [ofInt 0, ofInt 0] = .ok [.nan, .nan] := by decide +kernel

end Adhoc
