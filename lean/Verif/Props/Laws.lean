import Verif.Props.Range

/-! # C120: the laws of convolution -/

namespace Adhoc
open F32

namespace Spec

/-- sample `z` of a signal that is zero before its start and behind its end -/
def sampleF (samples : List F32) (z : ℤ) : F32 := if z < 0 then ofInt 0 else samples.getD z.toNat (ofInt 0)

/-- the signal `1` at place `p`, otherwise zero -/
def pulse (p n : Nat) : List F32 := (List.range n).map fun i => if i = p then ofInt 1 else ofInt 0

end Spec
open Spec

/-- the sum for output sample `i`, in the order of the code -/
def tapSum (samples kernel : List F32) (i : Nat) : F32 :=
  (List.range kernel.length).foldl (fun (acc : F32) (j : Nat) => acc + sampleF samples ((j : ℤ) + i - (kernel.length / 2 : Nat)) * kernel.getD j (ofInt 0)) (ofInt 0)

theorem convInner_fold (samples kernel : List F32) (i : Nat) : ∀ (js : List Nat) (_ : ∀ j ∈ js, j < kernel.length) (sum : F32),
    Signal.convInner samples kernel i js sum =
      .ok (js.foldl (fun (acc : F32) (j : Nat) => acc + sampleF samples ((j : ℤ) + i - (kernel.length / 2 : Nat)) * kernel.getD j (ofInt 0)) sum)
  | [], _, sum => rfl
  | j :: js, h, sum => by
    unfold Signal.convInner
    dsimp only
    have hj := h j (by simp)
    have hk : idx kernel j = .ok (kernel.getD j (ofInt 0)) := by rw [idx_of_lt hj, List.getD_eq_getElem _ _ hj]
    rw [List.foldl_cons, ← convInner_fold samples kernel i js (fun j hj => h j (by simp [hj]))]
    by_cases hz : (j : ℤ) + i - ((kernel.length / 2 : Nat) : ℤ) < 0 ∨ (j : ℤ) + i - ((kernel.length / 2 : Nat) : ℤ) ≥ samples.length
    · have e : sampleF samples ((j : ℤ) + i - (kernel.length / 2 : Nat)) = ofInt 0 := by
        unfold sampleF
        split
        · rfl
        · next hn => rw [List.getD_eq_default]; omega
      rw [if_pos hz, pure_bind, hk, bind_ok, e]
    · push Not at hz
      have hlt : ((j : ℤ) + i - ((kernel.length / 2 : Nat) : ℤ)).toNat < samples.length := by omega
      have e : sampleF samples ((j : ℤ) + i - (kernel.length / 2 : Nat)) = samples[((j : ℤ) + i - ((kernel.length / 2 : Nat) : ℤ)).toNat] := by
        unfold sampleF
        rw [if_neg (by omega), List.getD_eq_getElem _ _ hlt]
      rw [if_neg (by omega), idx_of_lt hlt, bind_ok, hk, bind_ok, e]

/-- all of `convolve_1d`: one sum per sample, and the rest of the result stays -/
theorem convolve_eq (samples kernel result : List F32) (hr : samples.length ≤ result.length) :
    Signal.convolve1d samples kernel result = .ok ((List.range samples.length).map (tapSum samples kernel) ++ result.drop samples.length) := by
  unfold Signal.convolve1d
  obtain ⟨ys, e, hl, hv⟩ := fill_slice (f := fun i => Signal.convInner samples kernel i (List.range kernel.length) (ofInt 0))
    (P := fun i y => y = tapSum samples kernel i) result samples.length hr (fun i _ =>
      ⟨_, convInner_fold samples kernel i _ (fun j hj => List.mem_range.1 hj) _, rfl⟩)
  rw [e]
  congr 2
  refine List.ext_getElem (by simp [hl]) fun i h1 h2 => ?_
  rw [hv i h1, List.getElem_map, List.getElem_range]

theorem add_comm_f (x y : F32) : x + y = y + x := by
  rcases x with _ | s | ⟨a, ha⟩ <;> rcases y with _ | t | ⟨c, hc⟩
  any_goals rfl
  · cases s <;> cases t <;> rfl
  · rw [fin_add, fin_add, add_comm]

theorem zero_add_f (x : F32) : ofInt 0 + x = x := by rw [add_comm_f, add_zero']

/-- a sum with one term -/
theorem fold_single {g : Nat → F32} {p : Nat} : ∀ (js : List Nat) (_ : js.Nodup) (_ : ∀ j ∈ js, j ≠ p → g j = ofInt 0) (acc : F32) (_ : p ∈ js → acc = ofInt 0),
    js.foldl (fun acc j => acc + g j) acc = if p ∈ js then g p else acc
  | [], _, _, acc, _ => by simp
  | j :: js, hn, hg, acc, ha => by
    obtain ⟨h1, h2⟩ := List.nodup_cons.1 hn
    rw [List.foldl_cons]
    by_cases hj : j = p
    · subst hj
      rw [fold_single js h2 (fun i hi => hg i (by simp [hi])) _ (fun h => absurd h h1), if_neg h1, if_pos (by simp), ha (by simp), zero_add_f]
    · rw [hg j (by simp) hj, add_zero', fold_single js h2 (fun i hi => hg i (by simp [hi])) _ (fun h => ha (by simp [h]))]
      have : (p ∈ j :: js) ↔ p ∈ js := by
        rw [List.mem_cons]
        constructor
        · rintro (h | h)
          · exact absurd h.symm hj
          · exact h
        · exact .inr
      simp only [this]

theorem finite_mul_zero {x : F32} (h : x.isFinite = true) : x * ofInt 0 = ofInt 0 := by
  cases x with
  | fin q hq =>
    have e : ofInt 0 = fin 0 (by simpa using rep_int (n := 0) (by norm_num)) := by decide +kernel
    rw [e, fin_mul, mul_zero, ← e]
    rfl
  | _ => simp [isFinite] at h

theorem sampleF_finite {samples : List F32} (h : ∀ x ∈ samples, x.isFinite = true) (z : ℤ) : (sampleF samples z).isFinite = true := by
  have h0 : (ofInt 0).isFinite = true := by decide +kernel
  unfold sampleF
  split
  · exact h0
  · by_cases hl : z.toNat < samples.length
    · rw [List.getD_eq_getElem _ _ hl]; exact h _ (List.getElem_mem _)
    · rw [List.getD_eq_default _ _ (by omega)]; exact h0

theorem pulse_getD (p n i : Nat) (d : F32) : (pulse p n).getD i d = if i < n then (if i = p then ofInt 1 else ofInt 0) else d := by
  unfold pulse
  by_cases h : i < n
  · rw [List.getD_eq_getElem _ _ (by simpa using h), List.getElem_map, List.getElem_range, if_pos h]
  · rw [List.getD_eq_default _ _ (by simpa using h), if_neg h]

/-- **C120** A kernel with a single 1 moves the signal and changes nothing else: with the 1 in the middle (item `n / 2` of `n`) it is a copy,
with the 1 elsewhere it is shifted by the distance, with zeros moving in. Exactly, for all finite samples, all kernel lengths and all places. -/
theorem C120_shift (samples result : List F32) (p n : Nat) (hp : p < n) (hr : samples.length ≤ result.length) (hf : ∀ x ∈ samples, x.isFinite = true) :
    Signal.convolve1d samples (pulse p n) result =
      .ok ((List.range samples.length).map (fun i : Nat => sampleF samples ((i : ℤ) + p - (n / 2 : Nat))) ++ result.drop samples.length) := by
  rw [convolve_eq _ _ _ hr]
  congr 2
  refine List.map_congr_left fun i _ => ?_
  unfold tapSum
  have hl : (pulse p n).length = n := by simp [pulse]
  rw [hl, fold_single (p := p) (List.range n) List.nodup_range (fun j hj hne => ?_) _ (fun _ => rfl), if_pos (by simpa using hp), pulse_getD, if_pos hp, if_pos rfl, mul_one']
  · congr 1; omega
  · rw [pulse_getD, if_pos (List.mem_range.1 hj), if_neg hne]
    exact finite_mul_zero (sampleF_finite hf _)

/-- the kernel with the 1 in the middle copies the signal -/
theorem C120_identity (samples result : List F32) (n : Nat) (hn : 0 < n) (hr : samples.length ≤ result.length) (hf : ∀ x ∈ samples, x.isFinite = true) :
    Signal.convolve1d samples (pulse (n / 2) n) result = .ok (samples ++ result.drop samples.length) := by
  rw [C120_shift samples result (n / 2) n (by omega) hr hf]
  congr 2
  refine List.ext_getElem (by simp) fun i h1 h2 => ?_
  rw [List.getElem_map, List.getElem_range]
  unfold sampleF
  rw [if_neg (by omega), show ((i : ℤ) + (n / 2 : Nat) - (n / 2 : Nat)).toNat = i by omega, List.getD_eq_getElem _ _ h2]

/-- A pulse at place `p` gives the kernel back to front, its middle at `p`. Exactly, for all finite kernels. -/
theorem C120_response (kernel result : List F32) (p n : Nat) (hp : p < n) (hr : n ≤ result.length) (hf : ∀ x ∈ kernel, x.isFinite = true) :
    Signal.convolve1d (pulse p n) kernel result =
      .ok ((List.range n).map (fun i : Nat => sampleF kernel ((p : ℤ) + (kernel.length / 2 : Nat) - i)) ++ result.drop n) := by
  have hl : (pulse p n).length = n := by simp [pulse]
  rw [convolve_eq _ _ _ (by rwa [hl]), hl]
  congr 2
  refine List.map_congr_left fun i _ => ?_
  have hs : ∀ z : ℤ, sampleF (pulse p n) z = if z = p then ofInt 1 else ofInt 0 := by
    intro z
    unfold sampleF
    by_cases hz : z < 0
    · rw [if_pos hz, if_neg (by omega)]
    · rw [if_neg hz, pulse_getD]
      split
      · next h =>
        by_cases he : z.toNat = p
        · rw [if_pos he, if_pos (by omega)]
        · rw [if_neg he, if_neg (by omega)]
      · next h => rw [if_neg (by omega)]
  have hzero : ∀ x ∈ kernel, ofInt 0 * x = ofInt 0 := fun x hx => by rw [mul_comm_f]; exact finite_mul_zero (hf x hx)
  have hone : ∀ x : F32, ofInt 1 * x = x := fun x => by rw [mul_comm_f, mul_one']
  unfold tapSum
  have hc : ∀ j < kernel.length, ((j : ℤ) + i - (kernel.length / 2 : Nat) ≠ p) → sampleF (pulse p n) ((j : ℤ) + i - (kernel.length / 2 : Nat)) * kernel.getD j (ofInt 0) = ofInt 0 := by
    intro j hj hne
    rw [hs, if_neg hne, List.getD_eq_getElem _ _ hj]
    exact hzero _ (List.getElem_mem _)
  rw [fold_single (p := ((p : ℤ) + (kernel.length / 2 : Nat) - i).toNat) (List.range kernel.length) List.nodup_range]
  · by_cases h0 : (p : ℤ) + (kernel.length / 2 : Nat) - i < 0
    · unfold sampleF
      rw [if_pos h0]
      split
      · next h =>
        refine hc _ (List.mem_range.1 h) (by omega)
      · rfl
    · split
      · next h =>
        rw [hs, if_pos (by omega), hone]
        unfold sampleF
        rw [if_neg h0]
      · next h =>
        unfold sampleF
        rw [if_neg h0, List.getD_eq_default]
        simpa using h
  · intro j hj hne
    refine hc j (List.mem_range.1 hj) ?_
    intro he
    apply hne
    omega
  · intro _; rfl

/-- silence stays silence under every finite kernel -/
theorem C120_silence (kernel result : List F32) (n : Nat) (hr : n ≤ result.length) (hf : ∀ x ∈ kernel, x.isFinite = true) :
    Signal.convolve1d (List.replicate n (ofInt 0)) kernel result = .ok (List.replicate n (ofInt 0) ++ result.drop n) := by
  rw [convolve_eq _ _ _ (by simpa using hr), List.length_replicate]
  congr 2
  refine List.ext_getElem (by simp) fun i h1 h2 => ?_
  rw [List.getElem_map, List.getElem_range, List.getElem_replicate]
  have hs : ∀ z : ℤ, sampleF (List.replicate n (ofInt 0)) z = ofInt 0 := by
    intro z
    unfold sampleF
    split
    · rfl
    · rw [List.getD_eq_getElem?_getD, List.getElem?_replicate]
      split <;> rfl
  unfold tapSum
  rw [fold_single (p := kernel.length) (List.range kernel.length) List.nodup_range, if_neg (by simp)]
  · intro j hj _
    rw [hs, mul_comm_f, List.getD_eq_getElem _ _ (List.mem_range.1 hj)]
    exact finite_mul_zero (hf _ (List.getElem_mem _))
  · intro _; rfl

/-- an output sample depends only on the input samples under the kernel: from `n / 2` before it to `n - 1 - n / 2` behind it. All samples, also
infinite ones and NaN. -/
theorem C120_local (s t kernel result : List F32) (hr : s.length ≤ result.length) (hl : t.length = s.length) (i : Nat) (hi : i < s.length)
    (h : ∀ z : Nat, i ≤ z + kernel.length / 2 → z + kernel.length / 2 < i + kernel.length → s[z]? = t[z]?) :
    ∃ rs rt, Signal.convolve1d s kernel result = .ok rs ∧ Signal.convolve1d t kernel result = .ok rt ∧ rs[i]? = rt[i]? := by
  refine ⟨_, _, convolve_eq s kernel result hr, convolve_eq t kernel result (by omega), ?_⟩
  rw [List.getElem?_append_left (by simpa using hi), List.getElem?_append_left (by simpa [hl] using hi), List.getElem?_map, List.getElem?_map,
    List.getElem?_range hi, List.getElem?_range (by omega)]
  simp only [Option.map_some]
  congr 1
  unfold tapSum
  refine List.foldl_ext _ _ _ fun acc j hj => ?_
  congr 2
  unfold sampleF
  split
  · rfl
  · rw [List.getD_eq_getElem?_getD, List.getD_eq_getElem?_getD, h _ (by omega) (by have := List.mem_range.1 hj; omega)]

/-- reversing the polarity of the signal or of the kernel reverses the polarity of the result. All samples, also infinite ones and NaN. -/
theorem C120_polarity (samples kernel result : List F32) (hr : samples.length ≤ result.length) :
    ∃ ys rest, Signal.convolve1d samples kernel result = .ok (ys ++ rest) ∧ ys.length = samples.length ∧
      Signal.convolve1d (samples.map neg) kernel result = .ok (ys.map neg ++ rest) ∧
      Signal.convolve1d samples (kernel.map neg) result = .ok (ys.map neg ++ rest) := by
  have n0 : neg (ofInt 0) = ofInt 0 := by decide +kernel
  have hfold : ∀ (js : List Nat) (g g' : Nat → F32) (acc : F32), (∀ j ∈ js, g' j = neg (g j)) →
      js.foldl (fun acc j => acc + g' j) (neg acc) = neg (js.foldl (fun acc j => acc + g j) acc) := by
    intro js g g'
    induction js with
    | nil => intro acc _; rfl
    | cons j js ih =>
      intro acc h
      rw [List.foldl_cons, List.foldl_cons, h j (by simp), ← neg_add_f, ih _ (fun i hi => h i (by simp [hi]))]
  have hget : ∀ (l : List F32) (i : Nat), (l.map neg).getD i (ofInt 0) = neg (l.getD i (ofInt 0)) := by
    intro l i
    rw [List.getD_eq_getElem?_getD, List.getD_eq_getElem?_getD, List.getElem?_map]
    cases l[i]? with
    | none => exact n0.symm
    | some x => rfl
  have hsam : ∀ z, sampleF (samples.map neg) z = neg (sampleF samples z) := by
    intro z
    unfold sampleF
    split
    · exact n0.symm
    · exact hget _ _
  refine ⟨_, _, convolve_eq samples kernel result hr, by simp, ?_, ?_⟩
  · rw [convolve_eq _ _ _ (by simpa using hr), List.length_map, List.map_map]
    congr 2
    refine List.map_congr_left fun i _ => ?_
    show _ = neg (tapSum samples kernel i)
    unfold tapSum
    conv_lhs => rw [← n0]
    refine hfold _ _ _ _ fun j _ => ?_
    rw [n0, hsam, neg_mul_f]
  · rw [convolve_eq _ _ _ hr, List.map_map]
    congr 2
    refine List.map_congr_left fun i _ => ?_
    show _ = neg (tapSum samples kernel i)
    unfold tapSum
    rw [List.length_map]
    conv_lhs => rw [← n0]
    refine hfold _ _ _ _ fun j _ => ?_
    rw [n0, hget, mul_neg_f]

/-- finiteness is needed: an infinite sample under a zero of the kernel makes NaN -/
example : Signal.convolve1d [.inf false, ofInt 1] (pulse 1 3) [ofInt 0, ofInt 0] = .ok [.inf false, .nan] := by decide +kernel

example : Signal.convolve1d [ofInt 5, ofInt 1, ofRat (1 / 2)] (pulse 1 3) [ofInt 0, ofInt 0, ofInt 0, ofInt 9] = .ok [ofInt 5, ofInt 1, ofRat (1 / 2), ofInt 9] := by
  decide +kernel

example : Signal.convolve1d [ofInt 5, ofInt 1, ofRat (1 / 2)] (pulse 2 3) [ofInt 0, ofInt 0, ofInt 0] = .ok [ofInt 1, ofRat (1 / 2), ofInt 0] := by decide +kernel

example : Signal.convolve1d (pulse 2 5) [ofInt 1, ofInt 2, ofInt 3] (List.replicate 5 (ofInt 0)) = .ok [ofInt 0, ofInt 3, ofInt 2, ofInt 1, ofInt 0] := by decide +kernel

end Adhoc
