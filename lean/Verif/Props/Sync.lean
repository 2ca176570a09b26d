import Verif.Props.Levels
import Verif.Props.Silence

/-!
# C02 and C04: exactly when the decoder keeps in sync

A decoder that has lost sync for one sample does not return the stored code there: at the first difference to the prediction that does not fit into its limits the sample is wrong.
So the conditions of C01 and C04 cannot be weakened.
-/

namespace Adhoc
open Spec F32

/-- codes scaled up, exactly -/
theorem scaled_exact {L : Nat} (hL : L ≤ 10) {i : ℤ} (h : |i| ≤ 32767) :
    ∃ u, Is (normalizeSample i * up L) (u * 2 ^ L) ∧ |u - (i : ℚ) / 32767| ≤ 1 / 2 ^ 23 := by
  obtain ⟨u, iu, eu⟩ := normalizeSample_err (i := i) (by omega)
  have hP : (0 : ℚ) < 2 ^ L := by positivity
  have hP10 : (2 : ℚ) ^ L ≤ 2 ^ 10 := pow_le_pow_right₀ (by norm_num) hL
  have hi : |(i : ℚ)| ≤ 32767 := by exact_mod_cast h
  have hd : |u - (i : ℚ) / 32767| ≤ 1 / 2 ^ 23 := by
    refine eu.trans ?_
    rw [div_div, div_le_div_iff₀ (by norm_num) (by norm_num)]
    linarith
  have hu : |u| ≤ 2 := by
    have := abs_add_le (u - (i : ℚ) / 32767) ((i : ℚ) / 32767)
    rw [sub_add_cancel, abs_div (i : ℚ), show |(32767 : ℚ)| = 32767 by norm_num] at this
    have : |(i : ℚ)| / 32767 ≤ 1 := by rw [div_le_one (by norm_num)]; exact hi
    norm_num at hd
    linarith
  have hg : Rep (u * 2 ^ L) := by
    obtain ⟨n, e, h1, h2, h3⟩ := iu.rep.grid
    refine (show Grid (u * 2 ^ L) from ⟨n, e + L, h1, by omega, ?_⟩).rep ?_
    · rw [h3, zpow_add₀ (by norm_num), zpow_natCast]; ring
    · rw [abs_mul, abs_of_pos hP]
      calc |u| * 2 ^ L ≤ 2 * 2 ^ 10 := by gcongr
        _ < _ := by norm_num
  refine ⟨u, ?_, hd⟩
  have := iu.mul (is_up hL) (B := |u * 2 ^ L|) (by
    rcases abs_choice (u * 2 ^ L) with e | e <;> rw [e]
    · exact hg
    · exact hg.grid.neg.rep (by rw [abs_neg]; exact hg.lt)) le_rfl
  rwa [roundQ_grid hg.grid] at this

/-- different codes sound different -/
theorem scaled_inj {L : Nat} (hL : L ≤ 10) {i j : ℤ} (hi : |i| ≤ 32767) (hj : |j| ≤ 32767) (h : normalizeSample i * up L = normalizeSample j * up L) : i = j := by
  obtain ⟨u, iu, eu⟩ := scaled_exact hL hi
  obtain ⟨v, iv, ev⟩ := scaled_exact hL hj
  rw [h] at iu
  have huv : u = v := mul_right_cancel₀ (by positivity) (Is.unique iu iv)
  subst huv
  have h1 : |((i - j : ℤ) : ℚ)| < 1 := by
    rw [abs_le] at eu ev
    rw [abs_lt]
    push_cast
    constructor <;> linarith [eu.1, eu.2, ev.1, ev.2]
  have h2 : |i - j| < 1 := by exact_mod_cast h1
  rw [abs_lt] at h2
  omega

/-- the first difference that does not fit makes a wrong code -/
theorem first_slip {Q : List Int} (hr : ∀ q ∈ Q, -32767 ≤ q ∧ q ≤ 32767) (h : ¬ InSync Q) :
    ∃ n, n < Q.length ∧ (decoded Q).getD n 0 ≠ Q.getD n 0 ∧ |(decoded Q).getD n 0| ≤ 32767 := by
  classical
  have hex : ∃ n, 3 ≤ n ∧ n < Q.length ∧ ¬ (-32767 ≤ Q.getD n 0 - guess (Q.take n) ∧ Q.getD n 0 - guess (Q.take n) ≤ 32766) := by
    unfold InSync at h
    push Not at h
    obtain ⟨n, h3, hn, h⟩ := h
    exact ⟨n, h3, hn, fun hh => by have := h hh.1; omega⟩
  obtain ⟨h3, hn, hbad⟩ := Nat.find_spec hex
  have hmin := fun m => Nat.find_min hex (m := m)
  generalize Nat.find hex = n at h3 hn hbad hmin
  have hs : InSync (Q.take n) := by
    intro m hm hml
    have hml : m < n ∧ m < Q.length := by simpa using hml
    rw [List.take_take, Nat.min_eq_left (by omega), List.getD_eq_getElem?_getD, List.getElem?_take_of_lt hml.1, ← List.getD_eq_getElem?_getD]
    by_contra hc
    exact hmin m hml.1 ⟨hm, hml.2, hc⟩
  have hd : decoded (Q.take n) = Q.take n := decoded_of_inSync hs fun q hq => by have := hr q (List.mem_of_mem_take hq); omega
  have hq : Q[n]? = some (Q.getD n 0) := by rw [List.getD_eq_getElem?_getD, List.getElem?_eq_getElem hn]; rfl
  have hqr := hr (Q.getD n 0) (List.mem_of_getElem? hq)
  have ht : Q.take (n + 1) = Q.take n ++ [Q.getD n 0] := by rw [List.take_add_one, hq]; rfl
  have e : (decoded Q).getD n 0 = max (-32768) (min 32767 (max (-32767) (min 32766 (Q.getD n 0 - guess (Q.take n))) + guess (Q.take n))) := by
    have h1 : (decoded Q).getD n 0 = (decoded (Q.take (n + 1))).getD n 0 := by
      rw [decoded_take (.inr (by omega)), List.getD_eq_getElem?_getD, List.getD_eq_getElem?_getD, List.getElem?_take_of_lt (by omega)]
    rw [h1, ht, decoded_append _ (by simp; omega), hd]
    have : (Q.take n).length = n := by simp; omega
    rw [List.getD_eq_getElem?_getD, List.getElem?_append_right (by omega), this, Nat.sub_self]
    simp [residuals, rebuild]
  have hg : -32767 ≤ guess (Q.take n) ∧ guess (Q.take n) ≤ 32767 := truncateSample_range _
  refine ⟨n, hn, ?_, ?_⟩
  · rw [e]; omega
  · rw [e, abs_le]; omega

theorem flatten_same {α : Type} {n : Nat} : ∀ {a b : List (List α)} (_ : ∀ x ∈ a, x.length = n) (_ : ∀ x ∈ b, x.length = n) (_ : a.length = b.length)
    (_ : a.flatten = b.flatten), a = b
  | [], [], _, _, _, _ => rfl
  | x :: a, y :: b, ha, hb, hl, h => by
    rw [List.flatten_cons, List.flatten_cons] at h
    obtain ⟨rfl, h'⟩ := List.append_inj h (by rw [ha x (by simp), hb y (by simp)])
    rw [flatten_same (fun x hx => ha x (by simp [hx])) (fun x hx => hb x (by simp [hx])) (by simpa using hl) h']

/-- C04, the condition. What is decoded at level `L` is the stored codes of the signal with noise, scaled up, exactly if every difference to the prediction fits into its limits. -/
theorem C04_exact (b b' : Build) (info : StreamInfo) (hn : 0 < info.channels) (L : Nat) (hL : L ≤ 10) (calls : List (List F32)) (c : AdhocCodec)
    (hp : Proper info.channels calls) (h : encodeAll b (fresh info L) calls = .ok c) :
    (∀ bufs, ∃ c', decodeAll b' c.init bufs = .ok (c', readBlocks info.channels (rescaled L info.channels calls) (bufs.map (·.map (· * up L))))) ↔
    ∀ ch < info.channels, InSync (stored (down L) info.channels ch 0 calls) := by
  constructor
  swap
  · intro hsync
    obtain ⟨c1, e1, hd⟩ := decode_inSync b b' info hn hL calls hp hsync
    rw [h] at e1
    obtain rfl := Except.ok.inj e1
    exact hd
  · intro P ch hch
    obtain ⟨hup, hdown⟩ := fresh_up info hL
    obtain ⟨Q, hQ, -, hdec⟩ := playback hn h hp.short hp.gap
    obtain ⟨c1, e1⟩ := P [List.replicate ((signal info.channels calls).length * info.channels) (F32.ofInt 0)]
    obtain ⟨c2, e2, -⟩ := hdec b' [List.replicate ((signal info.channels calls).length * info.channels) (F32.ofInt 0)]
    rw [e1] at e2
    have e3 := congrArg Prod.snd (Except.ok.inj e2)
    dsimp only at e3
    rw [hup, readBlocks_map] at e3
    have hl1 : (rescaled L info.channels calls).length = (signal info.channels calls).length := by simp [rescaled]
    have hl2 : (played info.channels (signal info.channels calls).length Q).length = (signal info.channels calls).length := by simp [played]
    simp only [List.map_cons, List.map_nil, readBlocks_cons, List.length_map, List.length_replicate, Nat.mul_div_cancel _ hn, hl1, hl2, Nat.min_self] at e3
    have e4 := congrArg Prod.fst (List.cons.inj e3).1
    dsimp only at e4
    rw [List.take_of_length_le (by omega), List.take_of_length_le (by simp [hl2])] at e4
    rw [List.drop_eq_nil_of_le (by simp), List.append_nil, List.append_nil] at e4
    have e5 := flatten_same (n := info.channels) (by simp [rescaled]) (by simp [played]) (by simp [hl1, hl2]) e4
    by_contra hns
    have hr : ∀ q ∈ stored (down L) info.channels ch 0 calls, -32767 ≤ q ∧ q ≤ 32767 := by
      intro q hq
      obtain ⟨x, -, y, -, rfl⟩ := forall₂_mem_right (stored_dithered hch calls 0) q hq
      exact truncateSample_range y
    obtain ⟨hlen, hst⟩ := hQ ch hch
    rw [hdown] at hst
    obtain ⟨k, hk, hne, hk2⟩ := first_slip hr hns
    rw [← hst, hlen] at hk
    have e6 := congrArg (fun l => (l.getD k []).getD ch (F32.ofInt 0)) e5
    simp [rescaled, played, List.getD_eq_getElem?_getD, hk, hch] at e6
    rw [hst, ← List.getD_eq_getElem?_getD, ← List.getD_eq_getElem?_getD, out_of_range (by rwa [abs_le] at hk2)] at e6
    refine hne (scaled_inj hL ?_ ?_ e6).symm
    · have hq := hr ((stored (down L) info.channels ch 0 calls).getD k 0) (by
        rw [List.getD_eq_getElem?_getD, List.getElem?_eq_getElem (by rw [← hst, hlen]; exact hk)]
        exact List.getElem_mem _)
      rw [abs_le]; exact hq
    · exact hk2

theorem down_zero : down 0 = ofInt 1 := by simp [down, ofInt]

theorem rescaled_zero (n : Nat) (calls : List (List F32)) : rescaled 0 n calls = (signal n calls).map (·.map quantise) := by
  have hup : up 0 = ofInt 1 := by simp [up]
  unfold rescaled
  apply List.ext_getElem
  · simp
  · intro k h1 h2
    have hk : k < (signal n calls).length := by simpa using h1
    have hw := signal_width _ (List.getElem_mem hk)
    simp only [List.getElem_map, List.getElem_range]
    apply List.ext_getElem
    · simp [hw]
    · intro ch g1 g2
      have hch : ch < n := by simpa using g1
      simp only [List.getElem_map, List.getElem_range]
      rw [down_zero, stored_one hch, hup, mul_one']
      unfold quantise Spec.codes
      simp [List.getD_eq_getElem?_getD, hk, hw, hch]

/-- C02, exactly when it holds: a recording at level 0 decodes to the 16-bit quantisation of the signal, with all buffers, exactly if in every channel every difference between a
code and its prediction fits into its limits. -/
theorem C02_exact_partial (b b' : Build) (info : StreamInfo) (hn : 0 < info.channels) (calls : List (List F32)) (c : AdhocCodec)
    (hp : Proper info.channels calls) (h : encodeAll b (fresh info 0) calls = .ok c) :
    (∀ bufs, ∃ c', decodeAll b' c.init bufs = .ok (c', readBlocks info.channels ((signal info.channels calls).map (·.map quantise)) bufs)) ↔
    ∀ ch < info.channels, InSync (Spec.codes ch (signal info.channels calls)) := by
  have := C04_exact b b' info hn 0 (by omega) calls c hp h
  have hb : ∀ bufs : List (List F32), bufs.map (·.map (· * up 0)) = bufs := by
    intro bufs
    have hup : up 0 = ofInt 1 := by simp [up]
    simp [hup, mul_one']
  simp only [hb, rescaled_zero] at this
  rw [this]
  refine forall_congr' fun ch => forall_congr' fun hch => ?_
  rw [down_zero, stored_one hch]

/-- `demo` is in sync; the loudest signal is not, and its fourth sample is the one that is wrong -/
example : (∀ ch < 2, InSync (Spec.codes ch (signal 2 demo))) ∧ ¬ InSync (Spec.codes 0 (signal 1 loud)) ∧
    decoded (Spec.codes 0 (signal 1 loud)) = [32767, -32767, 32767, 0] := by
  refine ⟨demo_inSync, ?_, by rw [loud_codes]; exact loud_decoded⟩
  rw [loud_codes]
  intro h
  exact absurd (h 3 (by omega) (by simp)) (by decide +kernel)

end Adhoc
