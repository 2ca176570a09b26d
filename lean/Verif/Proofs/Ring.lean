import Verif.Proofs.Packed

/-! The ring buffer as a bounded deque. -/

namespace Adhoc
namespace FixedRingBuffer

theorem countOnes_zero : ∀ (n x : Nat), countOnes n x = 0 → x % 2 ^ n = 0
  | 0, x, _ => by omega
  | n + 1, x, h => by
    unfold countOnes at h
    have h1 := countOnes_zero n (x / 2) (by omega)
    rw [Nat.pow_succ, Nat.mul_comm, Nat.mod_mul]; omega

theorem countOnes_one : ∀ (n x : Nat), countOnes n x = 1 → ∃ k < n, x % 2 ^ n = 2 ^ k
  | 0, x, h => by simp [countOnes] at h
  | n + 1, x, h => by
    unfold countOnes at h
    have e : x % 2 ^ (n + 1) = x % 2 + 2 * (x / 2 % 2 ^ n) := by rw [Nat.pow_succ, Nat.mul_comm, Nat.mod_mul]
    rcases Nat.mod_two_eq_zero_or_one x with h2 | h2
    · obtain ⟨k, hk, h3⟩ := countOnes_one n (x / 2) (by omega)
      exact ⟨k + 1, by omega, by rw [e, h3, h2, Nat.pow_succ]; omega⟩
    · have h1 := countOnes_zero n (x / 2) (by omega)
      exact ⟨0, by omega, by rw [e, h1, h2]; simp⟩

theorem pow_of_countOnes {c : Nat} (hc : c < 2 ^ 32) (h : countOnes 32 c = 1) : ∃ k, c = 2 ^ k := by
  obtain ⟨k, _, e⟩ := countOnes_one 32 c h
  exact ⟨k, by rw [← e, Nat.mod_eq_of_lt hc]⟩

theorem wrap {a c : Nat} (h : a < 2 * c) : a % c = if a < c then a else a - c := by
  split
  · exact Nat.mod_eq_of_lt ‹_›
  · rw [Nat.mod_eq_sub_mod (by omega), Nat.mod_eq_of_lt (by omega)]

/-- the ring buffer holds `xs`, front first -/
structure IsDeque {α : Type} (q : FixedRingBuffer α) (xs : List α) : Prop where
  pow : ∃ k, q.capacity = 2 ^ k
  room : q.capacity ≤ q.backing.length
  front : q.front < q.capacity
  rear : q.rear = (q.front + xs.length) % q.capacity
  len : q.len = xs.length
  le : xs.length ≤ q.capacity
  get : ∀ i (h : i < xs.length), q.backing[(q.front + i) % q.capacity]? = some xs[i]

variable {α : Type} {q : FixedRingBuffer α} {xs : List α}

theorem IsDeque.mask (h : IsDeque q xs) (n : Nat) : n &&& (q.capacity - 1) = n % q.capacity := by
  obtain ⟨k, hk⟩ := h.pow
  rw [hk]; exact Nat.and_two_pow_sub_one_eq_mod n k

theorem IsDeque.cap_pos (h : IsDeque q xs) : 0 < q.capacity := by have := h.front; omega

theorem isDeque_new {backing : List α} {c : Nat} (hc : c < 2 ^ 32) (hb : c ≤ backing.length)
    (h : countOnes 32 c = 1) : ∃ q, new backing c = .ok q ∧ IsDeque q [] ∧ q.capacity = c := by
  obtain ⟨k, hk⟩ := pow_of_countOnes hc h
  refine ⟨⟨backing, 0, 0, 0, c⟩, by simp [new, h], ⟨⟨k, hk⟩, hb, ?_, ?_, rfl, by simp, by simp⟩, rfl⟩
  · show 0 < c; rw [hk]; exact Nat.two_pow_pos k
  · simp

theorem isDeque_pushRear (h : IsDeque q xs) (x : α) :
    ∃ q', q.pushRear x = .ok q' ∧ IsDeque q' (if xs.length < q.capacity then xs ++ [x] else xs) ∧ q'.capacity = q.capacity := by
  have hl := h.len
  have hle := h.le
  have hf := h.front
  have hr := h.rear
  have hroom := h.room
  unfold pushRear isFull
  by_cases hfull : xs.length < q.capacity
  · have hrl : q.rear < q.capacity := by rw [hr]; exact Nat.mod_lt _ (by omega)
    rw [if_pos (by simp; omega), if_pos hfull, setIdx_of_lt (by omega)]
    refine ⟨_, rfl, ⟨h.pow, by simp; omega, hf, ?_, by simp [hl], by simp; omega, ?_⟩, rfl⟩
    · simp only [h.mask, List.length_append, List.length_singleton]
      rw [hr, Nat.mod_add_mod]; rfl
    · intro i hi
      simp only [List.getElem?_set]
      simp at hi
      by_cases hlt : i < xs.length
      · rw [if_neg, h.get i hlt, List.getElem_append_left hlt]
        rw [hr, wrap (by omega), wrap (by omega)]
        split <;> split <;> omega
      · have : i = xs.length := by omega
        subst this
        rw [if_pos hr, if_pos (by omega), List.getElem_append_right (by omega)]
        simp
  · rw [if_neg (by simp; omega), if_neg hfull]
    exact ⟨q, rfl, h, rfl⟩

theorem isDeque_pushFront (h : IsDeque q xs) (x : α) :
    ∃ q', q.pushFront x = .ok q' ∧ IsDeque q' (if xs.length < q.capacity then x :: xs else xs) ∧ q'.capacity = q.capacity := by
  have hl := h.len
  have hle := h.le
  have hf := h.front
  have hr := h.rear
  have hroom := h.room
  unfold pushFront isFull
  by_cases hfull : xs.length < q.capacity
  · have hm : (q.front + q.capacity - 1) % q.capacity = if q.front = 0 then q.capacity - 1 else q.front - 1 := by
      rw [wrap (by omega)]; split <;> split <;> omega
    have hml : (q.front + q.capacity - 1) % q.capacity < q.capacity := Nat.mod_lt _ (by omega)
    rw [if_pos (by simp; omega), if_pos hfull]
    dsimp only
    rw [h.mask, setIdx_of_lt (by omega)]
    refine ⟨_, rfl, ⟨h.pow, by simp; omega, hml, ?_, by simp [hl], by simp; omega, ?_⟩, rfl⟩
    · simp only [List.length_cons]
      rw [hm, hr]
      split
      · rw [wrap (by omega), wrap (by omega)]; split <;> split <;> omega
      · congr 1; omega
    · intro i hi
      simp only [List.getElem?_set]
      simp at hi
      by_cases h0 : i = 0
      · subst h0
        rw [if_pos (by rw [Nat.add_zero, Nat.mod_mod]), if_pos (by omega)]
        rfl
      · obtain ⟨j, rfl⟩ : ∃ j, i = j + 1 := ⟨i - 1, by omega⟩
        have e : ((q.front + q.capacity - 1) % q.capacity + (j + 1)) % q.capacity = (q.front + j) % q.capacity := by
          rw [hm]; split
          · rw [wrap (by omega), wrap (by omega)]; split <;> split <;> omega
          · congr 1; omega
        rw [if_neg, e, h.get j (by omega), List.getElem_cons_succ]
        rw [e, hm, wrap (by omega)]
        split <;> split <;> omega
  · rw [if_neg (by simp; omega), if_neg hfull]
    exact ⟨q, rfl, h, rfl⟩

theorem isDeque_popFront (h : IsDeque q xs) :
    ∃ q', q.popFront = .ok (q', xs.head?) ∧ IsDeque q' xs.tail ∧ q'.capacity = q.capacity := by
  have hl := h.len
  have hle := h.le
  have hf := h.front
  have hr := h.rear
  unfold popFront isEmpty
  cases xs with
  | nil => rw [if_neg (by simp [hl])]; exact ⟨q, rfl, h, rfl⟩
  | cons y ys =>
    simp only [List.length_cons] at hl hle hr
    have h0 := h.get 0 (by simp)
    rw [Nat.add_zero, Nat.mod_eq_of_lt hf] at h0
    rw [if_pos (by simp [hl])]
    dsimp only
    rw [idx_eq_ok.2 h0]
    refine ⟨_, rfl, ⟨h.pow, h.room, ?_, ?_, by simp [hl], by simp; omega, ?_⟩, rfl⟩
    · simp only [h.mask]; exact Nat.mod_lt _ (by omega)
    · simp only [h.mask, List.tail_cons]
      rw [hr, Nat.mod_add_mod]; congr 1; omega
    · intro i hi
      simp at hi
      have := h.get (i + 1) (by simpa using hi)
      simp only [h.mask, List.tail_cons]
      rw [Nat.mod_add_mod, show q.front + 1 + i = q.front + (i + 1) by omega, this]
      rfl

theorem isDeque_popRear (h : IsDeque q xs) :
    ∃ q', q.popRear = .ok (q', xs.getLast?) ∧ IsDeque q' xs.dropLast ∧ q'.capacity = q.capacity := by
  have hl := h.len
  have hle := h.le
  have hf := h.front
  have hr := h.rear
  unfold popRear isEmpty
  by_cases hx : xs = []
  · subst hx; rw [if_neg (by simp [hl])]; exact ⟨q, rfl, h, rfl⟩
  · have hpos : 0 < xs.length := List.length_pos_iff.2 hx
    have hrl : q.rear < q.capacity := by rw [hr]; exact Nat.mod_lt _ (by omega)
    have e : (q.rear + q.capacity - 1) % q.capacity = (q.front + (xs.length - 1)) % q.capacity := by
      rw [wrap (by omega), wrap (by omega)]
      rw [wrap (by omega)] at hr
      split at hr <;> split <;> split <;> omega
    have h0 := h.get (xs.length - 1) (by omega)
    rw [if_pos (by simp [hl]; omega)]
    dsimp only
    rw [h.mask, e, idx_eq_ok.2 h0]
    refine ⟨{ q with rear := (q.front + (xs.length - 1)) % q.capacity, len := q.len - 1 }, ?_,
      ⟨h.pow, h.room, hf, ?_, by simp [hl], by simp; omega, ?_⟩, rfl⟩
    · rw [List.getLast?_eq_getElem?, List.getElem?_eq_getElem (by omega)]; rfl
    · simp
    · intro i hi
      simp at hi
      rw [List.getElem_dropLast]
      exact h.get i (by omega)

theorem isDeque_clear (h : IsDeque q xs) : IsDeque q.clear [] where
  pow := h.pow
  room := h.room
  front := h.cap_pos
  rear := by simp [clear]
  len := rfl
  le := by simp
  get := by simp

theorem mapM_ok_map {β : Type} {f : β → R α} {g : β → α} : ∀ (l : List β), (∀ x ∈ l, f x = .ok (g x)) → l.mapM f = .ok (l.map g)
  | [], _ => rfl
  | x :: l, h => by
    rw [List.mapM_cons, h x (by simp), bind_ok, mapM_ok_map l (fun y hy => h y (by simp [hy]))]
    rfl

theorem iter_eq (h : IsDeque q xs) : q.iter = .ok xs := by
  unfold iter
  cases xs with
  | nil => rw [h.len]; rfl
  | cons y ys =>
    rw [mapM_ok_map (g := fun i => (y :: ys).getD i y)]
    · congr 1
      apply List.ext_getElem
      · simp [h.len]
      · intro i h1 h2
        simp [List.getElem?_eq_getElem h2]
    · intro i hi
      rw [List.mem_range, h.len] at hi
      rw [idx_eq_ok, h.get i hi]
      simp [List.getElem?_eq_getElem hi]

end FixedRingBuffer
end Adhoc
