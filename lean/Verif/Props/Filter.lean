import Verif.Props.Signal
import Verif.Proofs.Float
import Mathlib.Data.List.GetD

/-! # C67 (convolution) and C68 (resampling) -/

namespace Adhoc
open F32

namespace Spec

/-- item `z` of a signal that is zero outside -/
def padded (s : List ℚ) (z : ℤ) : ℚ := if z < 0 then 0 else s.getD z.toNat 0

/-- the convolution of `s` with the kernel `k`, centred at item `k.length / 2` of the kernel, in exact arithmetic -/
def conv (s k : List ℚ) (i : Nat) : ℚ := ((List.range k.length).map fun j : Nat => padded s ((i : ℤ) + j - (k.length / 2 : Nat)) * k.getD j 0).sum

/-- the signal `s` between its items: linear interpolation at place `p`, constant behind the last item -/
def lerp (s : List ℚ) (p : ℚ) : ℚ :=
  let i := ⌊p⌋.toNat
  s.getD (min i (s.length - 1)) 0 * (1 - Int.fract p) + s.getD (min (i + 1) (s.length - 1)) 0 * Int.fract p

end Spec
open Spec

/-- the floats `l` have the values `q` -/
def Values (l : List F32) (q : List ℚ) : Prop := List.Forall₂ Is l q

theorem Values.length {l : List F32} {q : List ℚ} (h : Values l q) : l.length = q.length := List.Forall₂.length_eq h

theorem Values.get {l : List F32} {q : List ℚ} (h : Values l q) {i : Nat} (hi : i < l.length) : Is l[i] (q.getD i 0) := by
  have := List.Forall₂.get h hi (by rw [← h.length]; exact hi)
  rw [List.getD_eq_getElem _ _ (by rw [← h.length]; exact hi)]
  simpa using this

/-! ## C67 -/

theorem convInner_err {samples kernel : List F32} {s k : List ℚ} (hs : Values samples s) (hk : Values kernel k) (i : Nat) :
    ∀ (js : List Nat), (∀ j ∈ js, j < kernel.length) → ∀ (sum : F32) (v : ℚ), Is sum v →
      |v| + (js.map fun j : Nat => |padded s ((i : ℤ) + j - (k.length / 2 : Nat)) * k.getD j 0|).sum + js.length / 2 ^ 22 ≤ 2 →
      ∃ r w, Signal.convInner samples kernel i js sum = .ok r ∧ Is r w ∧
        |w - (v + (js.map fun j : Nat => padded s ((i : ℤ) + j - (k.length / 2 : Nat)) * k.getD j 0).sum)| ≤ js.length / 2 ^ 22
  | [], _, sum, v, hv, _ => ⟨sum, v, rfl, hv, by simp⟩
  | j :: js, hj, sum, v, hv, hM => by
    obtain ⟨t, ht⟩ : ∃ t, t = padded s ((i : ℤ) + j - (k.length / 2 : Nat)) * k.getD j 0 := ⟨_, rfl⟩
    obtain ⟨S, hS⟩ : ∃ S, S = (js.map fun j : Nat => |padded s ((i : ℤ) + j - (k.length / 2 : Nat)) * k.getD j 0|).sum := ⟨_, rfl⟩
    have hS0 : 0 ≤ S := by
      rw [hS]
      apply List.sum_nonneg
      intro x hx
      obtain ⟨j, -, rfl⟩ := List.mem_map.1 hx
      exact abs_nonneg _
    rw [List.map_cons, List.sum_cons, ← ht, ← hS, List.length_cons, Nat.cast_succ] at hM
    have hL0 : (0 : ℚ) ≤ (js.length : ℚ) / 2 ^ 22 := by positivity
    have hv0 := abs_nonneg v
    have ht0 := abs_nonneg t
    have hjk := hj j (by simp)
    -- the sample
    have hsamp : ∃ x, (if (j : Int) + i - ((kernel.length / 2 : Nat) : Int) < 0 ∨ (j : Int) + i - ((kernel.length / 2 : Nat) : Int) ≥ samples.length
        then pure (ofInt 0) else idx samples ((j : Int) + i - ((kernel.length / 2 : Nat) : Int)).toNat) = .ok x ∧ Is x (padded s ((i : ℤ) + j - (k.length / 2 : Nat))) := by
      rw [← hk.length, show (i : ℤ) + j = (j : ℤ) + i by ring]
      unfold padded
      generalize (j : ℤ) + i - ((kernel.length / 2 : Nat) : ℤ) = z
      by_cases hz : z < 0
      · rw [if_pos (Or.inl hz), if_pos hz]
        exact ⟨_, rfl, by simpa using is_int (n := 0) (by norm_num)⟩
      · rw [if_neg hz]
        by_cases hz2 : z ≥ samples.length
        · rw [if_pos (Or.inr hz2), List.getD_eq_default _ _ (by rw [← hs.length]; omega)]
          exact ⟨_, rfl, by simpa using is_int (n := 0) (by norm_num)⟩
        · have hlt : z.toNat < samples.length := by omega
          rw [if_neg (by tauto), idx_of_lt hlt]
          exact ⟨_, rfl, hs.get hlt⟩
    obtain ⟨x, ex, hx⟩ := hsamp
    have hkj := hk.get hjk
    obtain ⟨p, hp, ep⟩ := hx.near_mul hkj |t| (by rw [ht]) (by linarith)
    rw [← ht] at ep
    have ep' : |p| ≤ |t| + (|t| / 2 ^ 24 + 1 / 2 ^ 150) := by
      have := abs_sub_abs_le_abs_sub p t
      linarith
    have ht2 : |t| ≤ 2 := by linarith
    have small : (1 : ℚ) / 2 ^ 150 ≤ 1 / 2 ^ 30 := by norm_num
    have hvp : |v + p| ≤ 2 := by
      have := abs_add_le v p
      norm_num at hM hL0 ep' small ⊢
      linarith
    obtain ⟨u, hu, eu⟩ := hv.near_add hp 2 hvp le_rfl
    have du : |u - (v + t)| ≤ 1 / 2 ^ 22 := by
      have h1 : u - (v + t) = (u - (v + p)) + (p - t) := by ring
      have := abs_add_le (u - (v + p)) (p - t)
      rw [← h1] at this
      norm_num at ep eu small ⊢
      linarith
    have hu' : |u| ≤ |v| + |t| + 1 / 2 ^ 22 := by
      have h1 := abs_sub_abs_le_abs_sub u (v + t)
      have h2 := abs_add_le v t
      linarith
    obtain ⟨r, w, er, hw, ew⟩ := convInner_err hs hk i js (fun j hj' => hj j (by simp [hj'])) _ u hu (by
      rw [← hS]
      have : ((js.length : ℚ) + 1) / 2 ^ 22 = js.length / 2 ^ 22 + 1 / 2 ^ 22 := by ring
      linarith)
    refine ⟨r, w, ?_, hw, ?_⟩
    · unfold Signal.convInner
      dsimp only
      split
      · rename_i h
        rw [if_pos h] at ex
        rw [ex, bind_ok, idx_of_lt hjk, bind_ok, er]
      · rename_i h
        rw [if_neg h] at ex
        rw [ex, bind_ok, idx_of_lt hjk, bind_ok, er]
    · rw [List.map_cons, List.sum_cons, ← ht, List.length_cons, Nat.cast_succ]
      generalize (js.map fun j : Nat => padded s ((i : ℤ) + j - (k.length / 2 : Nat)) * k.getD j 0).sum = T at ew ⊢
      have h1 : w - (v + (t + T)) = (w - (u + T)) + (u - (v + t)) := by ring
      have := abs_add_le (w - (u + T)) (u - (v + t))
      rw [← h1] at this
      have : ((js.length : ℚ) + 1) / 2 ^ 22 = js.length / 2 ^ 22 + 1 / 2 ^ 22 := by ring
      linarith

/-- filling the first `n` places of a slice with what `f` computes -/
theorem fill_slice {f : Nat → R F32} {P : Nat → F32 → Prop} (output : List F32) : ∀ n ≤ output.length, (∀ k < n, ∃ y, f k = .ok y ∧ P k y) →
    ∃ ys, (List.range n).foldlM (fun o k => do
      let y ← f k
      setIdx o k y) output = .ok (ys ++ output.drop n) ∧ ys.length = n ∧ ∀ k (h : k < ys.length), P k ys[k]
  | 0, _, _ => ⟨[], rfl, rfl, by simp⟩
  | n + 1, ho, hf => by
    obtain ⟨ys, e, hl, hP⟩ := fill_slice output n (by omega) fun k hk => hf k (by omega)
    obtain ⟨y, ey, hy⟩ := hf n (by omega)
    have hlt : n < (ys ++ output.drop n).length := by rw [List.length_append, hl, List.length_drop]; omega
    obtain ⟨a, t, ha⟩ : ∃ a t, output.drop n = a :: t := by
      cases hd : output.drop n with
      | nil => rw [List.drop_eq_nil_iff] at hd; omega
      | cons a t => exact ⟨a, t, rfl⟩
    have ht : output.drop (n + 1) = t := by rw [← List.drop_drop, ha]; rfl
    refine ⟨ys ++ [y], ?_, by simp [hl], ?_⟩
    · rw [List.range_succ, List.foldlM_append, e, bind_ok, List.foldlM_cons, ey, bind_ok, setIdx_of_lt hlt, bind_ok, List.foldlM_nil,
        List.set_append_right _ _ (by rw [hl]), hl, Nat.sub_self, ha, ht, List.set_cons_zero, List.append_assoc]
      rfl
    · intro k hk
      rw [List.length_append, hl] at hk
      by_cases h : k < n
      · rw [List.getElem_append_left (by omega)]
        exact hP k (by omega)
      · obtain rfl : k = n := by simp at hk; omega
        rw [List.getElem_append_right (by omega)]
        simpa [hl] using hy

/-- C67: `convolve_1d` writes one number per sample to the start of the result and leaves the rest of it alone. For samples in [-1, 1] and a
kernel whose absolute values sum up to less than 2, each number is the convolution up to rounding errors of 2^-22 per kernel item. -/
theorem C67_convolution (samples kernel result : List F32) (s k : List ℚ) (hs : Values samples s) (hk : Values kernel k)
    (h1 : ∀ x ∈ s, |x| ≤ 1) (h2 : (k.map fun x => |x|).sum + k.length / 2 ^ 22 ≤ 2) (hr : samples.length ≤ result.length) :
    ∃ ys, Signal.convolve1d samples kernel result = .ok (ys ++ result.drop samples.length) ∧ ys.length = samples.length ∧
      ∀ i (h : i < ys.length), ∃ v, Is ys[i] v ∧ |v - conv s k i| ≤ k.length / 2 ^ 22 := by
  refine fill_slice (f := fun i => Signal.convInner samples kernel i (List.range kernel.length) (ofInt 0))
    (P := fun i y => ∃ v, Is y v ∧ |v - conv s k i| ≤ k.length / 2 ^ 22) result samples.length hr fun i hi => ?_
  have hpad : ∀ z, |padded s z| ≤ 1 := by
    intro z
    unfold padded
    split
    · simp
    · by_cases hz : z.toNat < s.length
      · rw [List.getD_eq_getElem _ _ hz]
        exact h1 _ (List.getElem_mem hz)
      · rw [List.getD_eq_default _ _ (by omega)]
        simp
  have hk' : (List.range k.length).map (fun j => k.getD j 0) = k := by
    apply List.ext_getElem
    · simp
    · intro n h1 h2
      rw [List.getElem_map, List.getElem_range, List.getD_eq_getElem _ _ h2]
  have hsum : ((List.range k.length).map fun j : Nat => |padded s ((i : ℤ) + j - (k.length / 2 : Nat)) * k.getD j 0|).sum ≤ (k.map fun x => |x|).sum := by
    conv_rhs => rw [← hk', List.map_map]
    apply List.sum_le_sum
    intro j _
    rw [abs_mul]
    exact mul_le_of_le_one_left (abs_nonneg _) (hpad _)
  obtain ⟨r, w, er, hw, ew⟩ := convInner_err hs hk i (List.range kernel.length) (fun j hj => List.mem_range.1 hj) (ofInt 0) 0
    (by simpa using is_int (n := 0) (by norm_num)) (by
      rw [hk.length, List.length_range, abs_zero]
      linarith)
  refine ⟨r, er, w, hw, ?_⟩
  rw [zero_add, hk.length, List.length_range] at ew
  exact ew

theorem convInner_ok (samples kernel : List F32) (i : Nat) : ∀ (js : List Nat), (∀ j ∈ js, j < kernel.length) → ∀ sum,
    ∃ r, Signal.convInner samples kernel i js sum = .ok r
  | [], _, sum => ⟨sum, rfl⟩
  | j :: js, hj, sum => by
    have hjk := hj j (by simp)
    unfold Signal.convInner
    dsimp only
    generalize (j : ℤ) + i - ((kernel.length / 2 : Nat) : ℤ) = z
    by_cases hz : z < 0 ∨ z ≥ samples.length
    · rw [if_pos hz, show (pure (ofInt 0) : R F32) = .ok (ofInt 0) from rfl, bind_ok, idx_of_lt hjk, bind_ok]
      exact convInner_ok samples kernel i js (fun j hj' => hj j (by simp [hj'])) _
    · have hlt : z.toNat < samples.length := by omega
      rw [if_neg hz, idx_of_lt hlt, bind_ok, idx_of_lt hjk, bind_ok]
      exact convInner_ok samples kernel i js (fun j hj' => hj j (by simp [hj'])) _

theorem fill_short {f : Nat → R F32} (output : List F32) (hf : ∀ k ≤ output.length, ∃ y, f k = .ok y) : ∀ m, (List.range (output.length + 1 + m)).foldlM (fun o k => do
      let y ← f k
      setIdx o k y) output = .error .index
  | 0 => by
    obtain ⟨ys, e, hl, -⟩ := fill_slice (f := f) (P := fun _ _ => True) output output.length le_rfl fun k hk => by
      obtain ⟨y, h⟩ := hf k (by omega)
      exact ⟨y, h, trivial⟩
    obtain ⟨y, h⟩ := hf output.length le_rfl
    rw [Nat.add_zero, List.range_succ, List.foldlM_append, e, bind_ok, List.foldlM_cons, h, bind_ok]
    rw [List.drop_length, List.append_nil, show setIdx ys output.length y = .error .index by
      unfold setIdx
      rw [if_neg (by omega)]]
    rfl
  | m + 1 => by
    rw [← Nat.add_assoc, List.range_succ, List.foldlM_append, fill_short output hf m]
    rfl

/-- A result slice that is too short makes it panic, whatever the samples. -/
theorem C67_short_result (samples kernel result : List F32) (hr : result.length < samples.length) :
    Signal.convolve1d samples kernel result = .error .index := by
  obtain ⟨m, hm⟩ : ∃ m, samples.length = result.length + 1 + m := ⟨samples.length - (result.length + 1), by omega⟩
  unfold Signal.convolve1d
  rw [hm]
  exact fill_short result (fun k _ => convInner_ok samples kernel k _ (fun j hj => List.mem_range.1 hj) _) m

/-! ## C68 -/

/-- a sample read past the end reads the last item -/
def lastGet (s : List ℚ) (i : Nat) : ℚ := s.getD (min i (s.length - 1)) 0

theorem lastGet_le {s : List ℚ} (h1 : ∀ x ∈ s, |x| ≤ 1) (i : Nat) : |lastGet s i| ≤ 1 := by
  unfold lastGet
  by_cases hz : min i (s.length - 1) < s.length
  · rw [List.getD_eq_getElem _ _ hz]
    exact h1 _ (List.getElem_mem hz)
  · rw [List.getD_eq_default _ _ (by omega)]
    simp

theorem lerp_cell {s : List ℚ} (h1 : ∀ x ∈ s, |x| ≤ 1) {p q : ℚ} (hf : ⌊p⌋ = ⌊q⌋) : |lerp s q - lerp s p| ≤ 2 * |q - p| := by
  have e : lerp s q - lerp s p = (lastGet s (⌊p⌋.toNat + 1) - lastGet s ⌊p⌋.toNat) * (q - p) := by
    unfold lerp
    dsimp only
    rw [← hf]
    show lastGet s ⌊p⌋.toNat * (1 - Int.fract q) + lastGet s (⌊p⌋.toNat + 1) * Int.fract q -
      (lastGet s ⌊p⌋.toNat * (1 - Int.fract p) + lastGet s (⌊p⌋.toNat + 1) * Int.fract p) = _
    unfold Int.fract
    rw [← hf]
    ring
  rw [e, abs_mul]
  have h2 := lastGet_le h1 (⌊p⌋.toNat + 1)
  have h3 := lastGet_le h1 ⌊p⌋.toNat
  refine mul_le_mul_of_nonneg_right ?_ (abs_nonneg _)
  have := abs_sub (lastGet s (⌊p⌋.toNat + 1)) (lastGet s ⌊p⌋.toNat)
  linarith

theorem lerp_next {s : List ℚ} (h1 : ∀ x ∈ s, |x| ≤ 1) {p : ℚ} (hp : 0 ≤ p) : |lerp s ((⌊p⌋ + 1 : ℤ) : ℚ) - lerp s p| ≤ 2 * |((⌊p⌋ + 1 : ℤ) : ℚ) - p| := by
  have h0 := Int.floor_nonneg.2 hp
  have e : lerp s ((⌊p⌋ + 1 : ℤ) : ℚ) - lerp s p = (lastGet s (⌊p⌋.toNat + 1) - lastGet s ⌊p⌋.toNat) * (((⌊p⌋ + 1 : ℤ) : ℚ) - p) := by
    unfold lerp
    dsimp only
    rw [Int.fract_intCast, Int.floor_intCast, show (⌊p⌋ + 1).toNat = ⌊p⌋.toNat + 1 by omega]
    show lastGet s (⌊p⌋.toNat + 1) * (1 - 0) + lastGet s (⌊p⌋.toNat + 1 + 1) * 0 -
      (lastGet s ⌊p⌋.toNat * (1 - Int.fract p) + lastGet s (⌊p⌋.toNat + 1) * Int.fract p) = _
    unfold Int.fract
    push_cast
    ring
  rw [e, abs_mul]
  have h2 := lastGet_le h1 (⌊p⌋.toNat + 1)
  have h3 := lastGet_le h1 ⌊p⌋.toNat
  refine mul_le_mul_of_nonneg_right ?_ (abs_nonneg _)
  have := abs_sub (lastGet s (⌊p⌋.toNat + 1)) (lastGet s ⌊p⌋.toNat)
  linarith

theorem lerp_up {s : List ℚ} (h1 : ∀ x ∈ s, |x| ≤ 1) : ∀ (n : Nat) {p q : ℚ}, 0 ≤ p → p ≤ q → ⌊q⌋ ≤ ⌊p⌋ + n → |lerp s q - lerp s p| ≤ 2 * (q - p)
  | 0, p, q, _, hpq, hn => by
    have := lerp_cell h1 (p := p) (q := q) (le_antisymm (Int.floor_mono hpq) (by simpa using hn))
    rwa [abs_of_nonneg (by linarith : (0 : ℚ) ≤ q - p)] at this
  | n + 1, p, q, hp, hpq, hn => by
    by_cases hf : ⌊q⌋ = ⌊p⌋
    · exact lerp_up h1 0 hp hpq (by omega)
    · have hlt : ⌊p⌋ + 1 ≤ ⌊q⌋ := by have := Int.floor_mono hpq; omega
      have hq : (((⌊p⌋ + 1 : ℤ)) : ℚ) ≤ q := Int.le_floor.1 hlt
      have hp1 : p ≤ (((⌊p⌋ + 1 : ℤ)) : ℚ) := by push_cast; exact (Int.lt_floor_add_one p).le
      have a := lerp_next h1 hp
      rw [abs_of_nonneg (by linarith : (0 : ℚ) ≤ (((⌊p⌋ + 1 : ℤ)) : ℚ) - p)] at a
      have b := lerp_up h1 n (p := (((⌊p⌋ + 1 : ℤ)) : ℚ)) (q := q) (by linarith) hq (by rw [Int.floor_intCast]; push_cast at hn; omega)
      generalize (((⌊p⌋ + 1 : ℤ)) : ℚ) = m at *
      have := abs_add_le (lerp s q - lerp s m) (lerp s m - lerp s p)
      rw [show lerp s q - lerp s m + (lerp s m - lerp s p) = lerp s q - lerp s p by ring] at this
      linarith

/-- linear interpolation of a signal in [-1, 1] moves by at most twice the distance -/
theorem lerp_lipschitz {s : List ℚ} (h1 : ∀ x ∈ s, |x| ≤ 1) {p q : ℚ} (hp : 0 ≤ p) (hq : 0 ≤ q) : |lerp s q - lerp s p| ≤ 2 * |q - p| := by
  rcases le_total p q with h | h
  · rw [abs_of_nonneg (by linarith : (0 : ℚ) ≤ q - p)]
    exact lerp_up h1 (⌊q⌋ - ⌊p⌋).toNat hp h (by have := Int.floor_mono h; omega)
  · rw [abs_sub_comm, abs_sub_comm q p, abs_of_nonneg (by linarith : (0 : ℚ) ≤ p - q)]
    exact lerp_up h1 (⌊p⌋ - ⌊q⌋).toNat hq h (by have := Int.floor_mono h; omega)

/-- the place in the input of output sample `k`, as the code computes it -/
theorem place_near {S D k : Nat} (hS : S ≤ 2 ^ 23) (hD : 1 ≤ D) (hD2 : D ≤ 2 ^ 24) (hk : k ≤ D) :
    ∃ q, Is (ofInt (k : ℤ) * (ofInt (S : ℤ) / ofInt (D : ℤ))) q ∧ 0 ≤ q ∧ q ≤ 2 ^ 24 ∧ |q - (k : ℚ) * S / D| ≤ S / 2 ^ 22 := by
  have hSi : |(S : ℤ)| ≤ 2 ^ 24 := by rw [abs_of_nonneg (by omega)]; norm_num at hS ⊢; omega
  have hDi : |(D : ℤ)| ≤ 2 ^ 24 := by rw [abs_of_nonneg (by omega)]; norm_num at hD2 ⊢; omega
  have hki : |(k : ℤ)| ≤ 2 ^ 24 := by rw [abs_of_nonneg (by omega)]; norm_num at hD2 ⊢; omega
  have S0 : (0 : ℚ) ≤ S := by positivity
  have D1 : (1 : ℚ) ≤ D := by exact_mod_cast hD
  have k0 : (0 : ℚ) ≤ k := by positivity
  have kD : (k : ℚ) ≤ D := by exact_mod_cast hk
  have SB : (S : ℚ) ≤ 2 ^ 23 := by exact_mod_cast hS
  have DB : (D : ℚ) ≤ 2 ^ 24 := by exact_mod_cast hD2
  have r0 : (0 : ℚ) ≤ S / D := by positivity
  have rS : (S : ℚ) / D ≤ S := div_le_self S0 D1
  have hf := (is_int hSi).div (is_int hDi) (by simp only [Int.cast_natCast]; linarith : ((D : ℤ) : ℚ) ≠ 0) (B := ((2 ^ 24 : ℤ) : ℚ)) (rep_int (by norm_num)) (by
    simp only [Int.cast_natCast]
    rw [abs_of_nonneg r0]
    push_cast
    linarith [show (2 : ℚ) ^ 23 ≤ 2 ^ 24 by norm_num])
  simp only [Int.cast_natCast] at hf
  have ef := roundQ_err ((S : ℚ) / D)
  rw [abs_of_nonneg r0] at ef
  have f0 : 0 ≤ roundQ ((S : ℚ) / D) := le_roundQ (by simpa using grid_int (n := 0) (by norm_num)) r0
  generalize hfv : roundQ ((S : ℚ) / D) = f at *
  -- the product
  have kr : (k : ℚ) * (S / D) ≤ S := by
    rw [mul_div_assoc', div_le_iff₀ (by linarith)]
    nlinarith
  have kr0 : 0 ≤ (k : ℚ) * (S / D) := by positivity
  have ekf : |(k : ℚ) * f - k * (S / D)| ≤ k * (S / D) / 2 ^ 24 + 1 / 2 ^ 126 := by
    rw [← mul_sub, abs_mul, abs_of_nonneg k0]
    calc (k : ℚ) * |f - S / D| ≤ k * (S / D / 2 ^ 24 + 1 / 2 ^ 150) := mul_le_mul_of_nonneg_left ef k0
      _ = k * (S / D) / 2 ^ 24 + k * (1 / 2 ^ 150) := by ring
      _ ≤ k * (S / D) / 2 ^ 24 + 2 ^ 24 * (1 / 2 ^ 150) := by
        have : (k : ℚ) * (1 / 2 ^ 150) ≤ 2 ^ 24 * (1 / 2 ^ 150) := mul_le_mul_of_nonneg_right (by linarith) (by positivity)
        linarith
      _ = _ := by norm_num
  have kf0 : 0 ≤ (k : ℚ) * f := mul_nonneg k0 f0
  have hkfB : (k : ℚ) * f ≤ 2 ^ 24 := by
    rw [abs_le] at ekf
    have h1 := ekf.2
    have h2 := kr.trans SB
    norm_num at h1 h2 ⊢
    linarith
  have hq := (is_int hki).mul hf (B := ((2 ^ 24 : ℤ) : ℚ)) (rep_int (by norm_num)) (by
    simp only [Int.cast_natCast]
    rw [abs_of_nonneg kf0]
    push_cast
    exact hkfB)
  simp only [Int.cast_natCast] at hq
  have eq := roundQ_err ((k : ℚ) * f)
  rw [abs_of_nonneg kf0] at eq
  refine ⟨_, hq, le_roundQ (by simpa using grid_int (n := 0) (by norm_num)) kf0,
    roundQ_le ⟨2 ^ 24, 0, by norm_num, by norm_num, by norm_num⟩ hkfB, ?_⟩
  rw [mul_div_assoc]
  rcases Nat.eq_zero_or_pos S with h | h
  · have : f = 0 := by rw [← hfv, h]; simp [roundQ_zero]
    rw [this, h]
    simp [roundQ_zero]
  · have S1 : (1 : ℚ) ≤ S := by exact_mod_cast h
    generalize roundQ ((k : ℚ) * f) = q at *
    generalize (k : ℚ) * (S / D) = P at *
    generalize (k : ℚ) * f = Q at *
    generalize (S : ℚ) = T at *
    rw [abs_le] at *
    norm_num at *
    constructor <;> linarith [eq.1, eq.2, ekf.1, ekf.2]

theorem scaleAt_near {b : Build} {input : List F32} {s : List ℚ} (hs : Values input s) (h1 : ∀ x ∈ s, |x| ≤ 1) {f : F32} {k : Nat} {q : ℚ}
    (hn : 1 ≤ input.length) (hl : input.length ≤ 2 ^ 24) (hq : Is (ofInt (k : ℤ) * f) q) (q0 : 0 ≤ q) (q1 : q ≤ 2 ^ 24) :
    ∃ y v, Signal.scaleAt b input f k = .ok y ∧ Is y v ∧ |v - lerp s q| ≤ 1 / 2 ^ 21 := by
  have hlast : chkU b 64 ((input.length : Int) - 1) = .ok (input.length - 1) := by
    have e : (input.length : Int) - 1 = ((input.length - 1 : Nat) : Int) := by omega
    rw [e]
    exact chkU_nat (by norm_num at hl ⊢; omega)
  have f0 : 0 ≤ ⌊q⌋ := Int.floor_nonneg.2 q0
  have f1 : ⌊q⌋ ≤ 2 ^ 24 := by
    have : (⌊q⌋ : ℚ) ≤ ((2 ^ 24 : ℤ) : ℚ) := (Int.floor_le q).trans (by push_cast; exact q1)
    exact_mod_cast this
  have fi : |⌊q⌋| ≤ 2 ^ 24 := by rw [abs_of_nonneg f0]; exact f1
  have hfl : Is (Signal.floor (ofInt (k : ℤ) * f)) ⌊q⌋ := by
    obtain ⟨hr, e⟩ := hq
    rw [e]
    exact is_int fi
  have htr : Is (Signal.trunc (ofInt (k : ℤ) * f)) ⌊q⌋ := by
    obtain ⟨hr, e⟩ := hq
    rw [e]
    show Is (ofRat ((truncQ q : ℤ) : ℚ)) _
    rw [show truncQ q = ⌊q⌋ by unfold truncQ; rw [if_neg (by linarith)]; rfl]
    exact is_int fi
  have hsat : ((Signal.floor (ofInt (k : ℤ) * f)).toIntSat 0 (2 ^ 64 - 1)).toNat = ⌊q⌋.toNat := by
    obtain ⟨hr, e⟩ := hfl
    rw [e, toIntSat, truncQ_int]
    norm_num at f1 ⊢
    omega
  -- the fraction
  have p0 : 0 ≤ q - ⌊q⌋ := Int.fract_nonneg q
  have p1 : q - ⌊q⌋ ≤ 1 := (Int.fract_lt_one q).le
  have ht := hq.sub htr rep_one (by rw [abs_of_nonneg p0]; exact p1)
  have et := roundQ_err (q - ⌊q⌋)
  rw [abs_of_nonneg p0] at et
  have g0 : Grid 0 := by simpa using grid_int (n := 0) (by norm_num)
  have g1 : Grid 1 := rep_one.grid
  have t0 : 0 ≤ roundQ (q - ⌊q⌋) := le_roundQ g0 p0
  have t1 : roundQ (q - ⌊q⌋) ≤ 1 := roundQ_le g1 p1
  have hphi : Int.fract q = q - ⌊q⌋ := rfl
  generalize roundQ (q - ⌊q⌋) = t at *
  have i1 : Is (ofInt 1) 1 := by simpa using is_int (n := 1) (by norm_num)
  have hu := i1.sub ht rep_one (by rw [abs_of_nonneg (by linarith)]; linarith)
  have eu := roundQ_err (1 - t)
  rw [abs_of_nonneg (by linarith : (0 : ℚ) ≤ 1 - t)] at eu
  have u0 : 0 ≤ roundQ (1 - t) := le_roundQ g0 (by linarith)
  have u1 : roundQ (1 - t) ≤ 1 := roundQ_le g1 (by linarith)
  generalize roundQ (1 - t) = u at *
  -- the two samples
  have hw0 : min ⌊q⌋.toNat (input.length - 1) < input.length := by omega
  have hw1 : min (min ⌊q⌋.toNat (input.length - 1) + 1) (input.length - 1) < input.length := by omega
  have ha := hs.get hw0
  have hc := hs.get hw1
  have ea : s.getD (min ⌊q⌋.toNat (input.length - 1)) 0 = lastGet s ⌊q⌋.toNat := by unfold lastGet; rw [hs.length]
  have ec : s.getD (min (min ⌊q⌋.toNat (input.length - 1) + 1) (input.length - 1)) 0 = lastGet s (⌊q⌋.toNat + 1) := by
    unfold lastGet
    rw [← hs.length]
    congr 1
    omega
  have el : lerp s q = lastGet s ⌊q⌋.toNat * (1 - (q - ⌊q⌋)) + lastGet s (⌊q⌋.toNat + 1) * (q - ⌊q⌋) := rfl
  rw [ea] at ha
  rw [ec] at hc
  have la := lastGet_le h1 ⌊q⌋.toNat
  have lc := lastGet_le h1 (⌊q⌋.toNat + 1)
  unfold Signal.scaleAt
  rw [hlast, bind_ok]
  dsimp only
  rw [hsat, idx_of_lt hw0, bind_ok, idx_of_lt hw1, bind_ok]
  rw [el]
  generalize lastGet s ⌊q⌋.toNat = a at *
  generalize lastGet s (⌊q⌋.toNat + 1) = c at *
  generalize q - ⌊q⌋ = φ at *
  have mu : |a * u| ≤ u := by rw [abs_mul, abs_of_nonneg u0]; exact mul_le_of_le_one_left u0 la
  have mt : |c * t| ≤ t := by rw [abs_mul, abs_of_nonneg t0]; exact mul_le_of_le_one_left t0 lc
  obtain ⟨x, hx, ex⟩ := ha.near_mul hu u mu (by linarith)
  obtain ⟨z, hz, ez⟩ := hc.near_mul ht t mt (by linarith)
  have small : (1 : ℚ) / 2 ^ 150 ≤ 1 / 2 ^ 40 := by norm_num
  have hM : |x + z| ≤ 2 := by
    rw [abs_le] at *
    norm_num at *
    constructor <;> linarith [ex.1, ex.2, ez.1, ez.2, mu.1, mu.2, mt.1, mt.2, eu.1, eu.2]
  obtain ⟨v, hv, ev⟩ := hx.near_add hz 2 hM le_rfl
  refine ⟨_, v, rfl, hv, ?_⟩
  have d1 : |a * (u - (1 - φ))| ≤ |u - (1 - φ)| := by rw [abs_mul]; exact mul_le_of_le_one_left (abs_nonneg _) la
  have d2 : |c * (t - φ)| ≤ |t - φ| := by rw [abs_mul]; exact mul_le_of_le_one_left (abs_nonneg _) lc
  have d3 : |u - (1 - φ)| ≤ 2 / 2 ^ 24 + 2 / 2 ^ 40 := by
    rw [abs_le] at *
    norm_num at *
    constructor <;> linarith [eu.1, eu.2, et.1, et.2]
  have e : v - (a * (1 - φ) + c * φ) = (v - (x + z)) + ((x - a * u) + (z - c * t)) + (a * (u - (1 - φ)) + c * (t - φ)) := by ring
  rw [e]
  generalize a * (u - (1 - φ)) = A at *
  generalize c * (t - φ) = C at *
  generalize x - a * u = X at *
  generalize z - c * t = Z at *
  generalize v - (x + z) = V at *
  have a1 := abs_add_le (V + (X + Z)) (A + C)
  have a2 := abs_add_le V (X + Z)
  have a3 := abs_add_le X Z
  have a4 := abs_add_le A C
  norm_num at *
  linarith

/-- C68, the full statement: output sample `k` is the input at place `k (n - 1) / (d - 1)`, where `n` is the number of input samples and `d` the
target length, linearly interpolated, up to rounding errors. -/
def C68_statement : Prop :=
  ∀ (b : Build) (input output : List F32) (s : List ℚ) (d : Nat), Values input s → (∀ x ∈ s, |x| ≤ 1) → 1 ≤ input.length → input.length ≤ 2 ^ 23 →
    1 ≤ d → d ≤ 2 ^ 24 → d ≤ output.length →
    ∃ ys, Signal.scaleSignal b input d output = .ok (ys ++ output.drop d) ∧ ys.length = d ∧
      ∀ k (h : k < ys.length), ∃ v, Is ys[k] v ∧ |v - lerp s ((k : ℚ) * (s.length - 1 : Nat) / (d - 1 : Nat))| ≤ s.length / 2 ^ 21

/-- It fails for a target of one sample: the code divides by zero, and the sample is NaN. -/
theorem C68_false : ¬ C68_statement := by
  intro h
  obtain ⟨ys, e, hl, hv⟩ := h .release [ofInt 1, ofInt 1] [ofInt 0] [1, 1] 1
    (.cons (by simpa using is_int (n := 1) (by norm_num)) (.cons (by simpa using is_int (n := 1) (by norm_num)) .nil)) (by simp) (by simp) (by simp) le_rfl (by norm_num) (by simp)
  have e2 : Signal.scaleSignal .release [ofInt 1, ofInt 1] 1 [ofInt 0] = .ok [.nan] := by decide +kernel
  rw [e2, show ([ofInt 0] : List F32).drop 1 = [] from rfl, List.append_nil] at e
  obtain rfl : [.nan] = ys := by injection e
  obtain ⟨v, ⟨_, h⟩, -⟩ := hv 0 (by simp)
  cases h

/-- C68 for two or more target samples: `scale_signal` never panics, writes `d` samples, leaves the rest of the buffer alone, and each sample
is the linear interpolation of the input at its place, within (number of input samples) / 2^21. -/
theorem C68_resample_partial (b : Build) (input output : List F32) (s : List ℚ) (d : Nat) (hs : Values input s) (h1 : ∀ x ∈ s, |x| ≤ 1)
    (hn : 1 ≤ input.length) (hl : input.length ≤ 2 ^ 23) (hd : 2 ≤ d) (hd2 : d ≤ 2 ^ 24) (ho : d ≤ output.length) :
    ∃ ys, Signal.scaleSignal b input d output = .ok (ys ++ output.drop d) ∧ ys.length = d ∧
      ∀ k (h : k < ys.length), ∃ v, Is ys[k] v ∧ |v - lerp s ((k : ℚ) * (s.length - 1 : Nat) / (d - 1 : Nat))| ≤ s.length / 2 ^ 21 := by
  have hlast : ∀ n : Nat, 1 ≤ n → n ≤ 2 ^ 24 → chkU b 64 ((n : Int) - 1) = .ok (n - 1) := by
    intro n h1 h2
    have e : (n : Int) - 1 = ((n - 1 : Nat) : Int) := by omega
    rw [e]
    exact chkU_nat (by norm_num at h2 ⊢; omega)
  obtain ⟨ys, e, hy, hv⟩ := fill_slice (f := fun k => Signal.scaleAt b input (ofInt ((input.length - 1 : Nat) : ℤ) / ofInt ((d - 1 : Nat) : ℤ)) k)
    (P := fun k y => ∃ v, Is y v ∧ |v - lerp s ((k : ℚ) * (s.length - 1 : Nat) / (d - 1 : Nat))| ≤ s.length / 2 ^ 21) output d ho (by
      intro k hk
      obtain ⟨q, hq, q0, q1, eq⟩ := place_near (S := input.length - 1) (D := d - 1) (k := k) (by omega) (by omega) (by omega) (by omega)
      obtain ⟨y, v, ey, hy, ev⟩ := scaleAt_near (b := b) hs h1 hn (by norm_num at hl ⊢; omega) hq q0 q1
      refine ⟨y, ey, v, hy, ?_⟩
      rw [← hs.length]
      have lip := lerp_lipschitz h1 (p := (k : ℚ) * (input.length - 1 : Nat) / (d - 1 : Nat)) (q := q) (by positivity) q0
      have tri := abs_add_le (v - lerp s q) (lerp s q - lerp s ((k : ℚ) * (input.length - 1 : Nat) / (d - 1 : Nat)))
      rw [show ∀ a b c : ℚ, a - b + (b - c) = a - c by intros; ring] at tri
      have hc : ((input.length - 1 : Nat) : ℚ) = input.length - 1 := by push_cast [hn]; ring
      generalize (k : ℚ) * (input.length - 1 : Nat) / (d - 1 : Nat) = P at *
      rw [hc] at eq
      norm_num at eq ev ⊢
      linarith)
  refine ⟨ys, ?_, hy, hv⟩
  unfold Signal.scaleSignal
  rw [hlast _ hn (by norm_num at hl ⊢; omega), bind_ok, hlast _ (by omega) hd2, bind_ok]
  dsimp only
  rw [e, bind_ok, if_pos (by rw [List.length_append, hy]; omega)]
  rfl

/-- five samples from three: the middle between neighbours -/
example : Signal.scaleSignal .debug [ofInt 0, ofInt 1, F32.ofRat (1 / 2)] 5 [ofInt 7, ofInt 7, ofInt 7, ofInt 7, ofInt 7, ofInt 9] =
    .ok [ofInt 0, F32.ofRat (1 / 2), ofInt 1, F32.ofRat (3 / 4), F32.ofRat (1 / 2), ofInt 9] := by decide +kernel

example : (List.range 5).map (fun k : Nat => lerp [0, 1, 1 / 2] ((k : ℚ) * 2 / 4)) = [0, 1 / 2, 1, 3 / 4, 1 / 2] := by decide +kernel

/-- the hypotheses hold there -/
example : Values [ofInt 0, ofInt 1, F32.ofRat (1 / 2)] [0, 1, 1 / 2] :=
  .cons (by simpa using is_int (n := 0) (by norm_num)) (.cons (by simpa using is_int (n := 1) (by norm_num))
    (.cons ⟨by have := rep_inv (L := 1) (by norm_num); norm_num at this ⊢; exact this, by decide +kernel⟩ .nil))

/-- an input without samples makes it panic, in different ways in the two builds -/
example : Signal.scaleSignal .debug [] 2 [ofInt 7, ofInt 7] = .error .overflow ∧ Signal.scaleSignal .release [] 2 [ofInt 7, ofInt 7] = .error .index := by
  decide +kernel

/-- smoothing four samples with a kernel of three; the fifth place of the result stays -/
example : Signal.convolve1d [ofInt 0, ofInt 1, ofInt 0, ofInt (-1)] [F32.ofRat (1 / 4), F32.ofRat (1 / 2), F32.ofRat (1 / 8)]
      [ofInt 7, ofInt 7, ofInt 7, ofInt 7, ofInt 9] =
    .ok [F32.ofRat (1 / 8), F32.ofRat (1 / 2), F32.ofRat (1 / 8), F32.ofRat (-1 / 2), ofInt 9] := by decide +kernel

example : (List.range 4).map (conv [0, 1, 0, -1] [1 / 4, 1 / 2, 1 / 8]) = [1 / 8, 1 / 2, 1 / 8, -1 / 2] := by decide +kernel

example : (([1 / 4, 1 / 2, 1 / 8] : List ℚ).map fun x => |x|).sum + (3 : Nat) / 2 ^ 22 ≤ 2 := by decide +kernel

end Adhoc
