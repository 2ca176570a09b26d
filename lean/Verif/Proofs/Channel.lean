import Verif.Spec.Codec
import Mathlib.Data.List.Basic
import Mathlib.Tactic.Common

/-! Lists of codes. -/

namespace Adhoc.Spec

@[simp] theorem length_residuals : ∀ (P qs : List Int), (residuals P qs).length = qs.length
  | _, [] => rfl
  | P, q :: qs => by simp [residuals, length_residuals]

@[simp] theorem length_rebuild : ∀ (P rs : List Int), (rebuild P rs).length = rs.length
  | _, [] => rfl
  | P, r :: rs => by simp [rebuild, length_rebuild]

theorem residuals_append : ∀ (P a b : List Int), residuals P (a ++ b) = residuals P a ++ residuals (P ++ a) b
  | P, [], b => by simp [residuals]
  | P, q :: a, b => by simp [residuals, residuals_append]

theorem rebuild_append : ∀ (P a b : List Int), rebuild P (a ++ b) = rebuild P a ++ rebuild (P ++ rebuild P a) b
  | P, [], b => by simp [rebuild]
  | P, r :: a, b => by simp [rebuild, rebuild_append]

theorem residuals_range : ∀ (P qs : List Int), ∀ r ∈ residuals P qs, -32767 ≤ r ∧ r ≤ 32766
  | _, [], r, h => by simp [residuals] at h
  | P, q :: qs, r, h => by
    simp only [residuals, List.mem_cons] at h
    rcases h with rfl | h
    · omega
    · exact residuals_range _ _ r h

theorem rebuild_range : ∀ (P rs : List Int), ∀ r ∈ rebuild P rs, -32768 ≤ r ∧ r ≤ 32767
  | _, [], r, h => by simp [rebuild] at h
  | P, q :: qs, r, h => by
    simp only [rebuild, List.mem_cons] at h
    rcases h with rfl | h
    · omega
    · exact rebuild_range _ _ r h

@[simp] theorem decoded_nil : decoded [] = [] := by simp [decoded, residuals, rebuild]

@[simp] theorem length_decoded (Q : List Int) : (decoded Q).length = Q.length := by
  simp [decoded]; omega

theorem decoded_append {A : List Int} (B : List Int) (h : 3 ≤ A.length) :
    decoded (A ++ B) = decoded A ++ rebuild (decoded A) (residuals A B) := by
  unfold decoded
  rw [List.take_append_of_le_length h, List.drop_append_of_le_length h, residuals_append, rebuild_append, List.take_append_drop,
    List.append_assoc]

theorem decoded_take {Q : List Int} {n : Nat} (h : n = 0 ∨ 3 ≤ n) : decoded (Q.take n) = (decoded Q).take n := by
  rcases h with rfl | h
  · simp
  · by_cases hn : Q.length ≤ n
    · rw [List.take_of_length_le hn, List.take_of_length_le (by simpa using hn)]
    · have := decoded_append (A := Q.take n) (Q.drop n) (by simp; omega)
      rw [List.take_append_drop] at this
      conv_rhs => rw [this]
      rw [List.take_append_of_le_length (by simp; omega)]
      exact (List.take_of_length_le (by simp)).symm

/-- a channel in sync is decoded faithfully -/
theorem rebuild_residuals : ∀ (qs P : List Int)
    (_ : ∀ n, n < qs.length → -32767 ≤ qs.getD n 0 - guess (P ++ qs.take n) ∧ qs.getD n 0 - guess (P ++ qs.take n) ≤ 32766)
    (_ : ∀ q ∈ qs, -32768 ≤ q ∧ q ≤ 32767), rebuild P (residuals P qs) = qs
  | [], _, _, _ => rfl
  | q :: qs, P, h, hr => by
    have h0 := h 0 (by simp)
    simp at h0
    have hq := hr q (by simp)
    have e : max (-32768) (min 32767 (max (-32767) (min 32766 (q - guess P)) + guess P)) = q := by omega
    simp only [residuals, rebuild, e]
    rw [rebuild_residuals qs (P ++ [q])]
    · intro n hn
      have := h (n + 1) (by simpa using hn)
      simpa using this
    · exact fun x hx => hr x (by simp [hx])

theorem decoded_of_inSync {Q : List Int} (h : InSync Q) (hr : ∀ q ∈ Q, -32768 ≤ q ∧ q ≤ 32767) : decoded Q = Q := by
  unfold decoded
  rw [rebuild_residuals (Q.drop 3) (Q.take 3), List.take_append_drop]
  · intro n hn
    have := h (n + 3) (by omega) (by simp at hn; omega)
    rw [show List.take 3 Q ++ List.take n (List.drop 3 Q) = Q.take (n + 3) by
      rw [Nat.add_comm, List.take_add]]
    rw [show (Q.drop 3).getD n 0 = Q.getD (n + 3) 0 by simp [List.getD_eq_getElem?_getD, List.getElem?_drop, Nat.add_comm]]
    exact this
  · exact fun q hq => hr q (List.mem_of_mem_drop hq)

theorem InSync.take {Q : List Int} (h : InSync Q) (n : Nat) : InSync (Q.take n) := by
  intro k hk hkn
  have hk' : k < Q.length ∧ k < n := by simp at hkn; omega
  have := h k hk hk'.1
  rwa [List.take_take, Nat.min_eq_left (by omega), show (Q.take n).getD k 0 = Q.getD k 0 by
    simp [List.getD_eq_getElem?_getD, hk'.2]]

end Adhoc.Spec
