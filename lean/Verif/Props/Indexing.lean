import Verif.Props.Containers
import Verif.Model.Indexing

/-! # C124: indexing the ring buffer and the sample history -/

namespace Adhoc

/-- **C124** as stated: whatever calls were made, `q[i]` is the `i`th item from the front -/
def C124_statement : Prop := ∀ (backing : List Nat) (cap : Nat) (_ : cap < 2 ^ 32) (_ : cap ≤ backing.length) (_ : FixedRingBuffer.countOnes 32 cap = 1)
  (os : List (RingOp Nat)) (q0 q : FixedRingBuffer Nat) (outs : List (Option Nat)), FixedRingBuffer.new backing cap = .ok q0 → RingOp.runAll q0 os = .ok (q, outs) →
  ∀ i (h : i < (RingOp.specAll cap [] os).1.length), q.index i = .ok (RingOp.specAll cap [] os).1[i]

/-- C124 is false: after removing the front item `q[0]` is still that item -/
theorem C124_false : ¬ C124_statement := by
  intro h
  have := h [0, 0] 2 (by norm_num) (by decide) (by decide) [.pushRear 7, .pushRear 8, .popFront] _ _ _ rfl rfl 0 (by decide)
  revert this
  decide

/-- C124, the true part. After any calls the `i`th item from the front is at the index `(front + i) mod capacity`; assigning there replaces this item and no other, and
later calls go on as if it had been there from the start. -/
theorem C124_slots_partial {α : Type} (backing : List α) (cap : Nat) (hcap : cap < 2 ^ 32) (hb : cap ≤ backing.length)
    (hpow : FixedRingBuffer.countOnes 32 cap = 1) (os : List (RingOp α)) :
    ∃ q0 q, FixedRingBuffer.new backing cap = .ok q0 ∧ RingOp.runAll q0 os = .ok (q, (RingOp.specAll cap [] os).2) ∧ q.front < cap ∧
      ∀ i (h : i < (RingOp.specAll cap [] os).1.length), q.index ((q.front + i) % cap) = .ok (RingOp.specAll cap [] os).1[i] ∧
        ∀ x, ∃ q', q.indexSet ((q.front + i) % cap) x = .ok q' ∧ q'.iter = .ok ((RingOp.specAll cap [] os).1.set i x) ∧
          ∀ os', ∃ q'', RingOp.runAll q' os' = .ok (q'', (RingOp.specAll cap ((RingOp.specAll cap [] os).1.set i x) os').2) ∧
            q''.iter = .ok (RingOp.specAll cap ((RingOp.specAll cap [] os).1.set i x) os').1 := by
  obtain ⟨q0, e0, H0, hc0⟩ := FixedRingBuffer.isDeque_new hcap hb hpow
  obtain ⟨q, e, H, hc⟩ := ringOps os H0
  rw [hc0] at e H hc
  refine ⟨q0, q, e0, e, hc ▸ H.front, ?_⟩
  generalize (RingOp.specAll cap [] os).1 = xs at *
  intro i hi
  have hg := H.get i hi
  rw [hc] at hg
  obtain ⟨hlt, hv⟩ := List.getElem?_eq_some_iff.1 hg
  constructor
  · unfold FixedRingBuffer.index idx
    rw [hg]
  · intro x
    have hd : ({ q with backing := q.backing.set ((q.front + i) % cap) x } : FixedRingBuffer α).IsDeque (xs.set i x) := by
      refine ⟨H.pow, by simpa using H.room, H.front, by simpa using H.rear, by simpa using H.len, by simpa using H.le, ?_⟩
      intro j hj
      have hj : j < xs.length := by simpa using hj
      dsimp only
      rw [hc, List.getElem?_set, List.getElem_set]
      have hle := H.le
      have hf := H.front
      rw [hc] at hle hf
      by_cases hij : i = j
      · subst hij
        simp [hlt]
      · have : (q.front + i) % cap ≠ (q.front + j) % cap := by
          intro heq
          have h1 : ∀ a, a < cap → (q.front + a) % cap = if q.front + a < cap then q.front + a else q.front + a - cap := by
            intro a ha
            split
            · next h => exact Nat.mod_eq_of_lt h
            · next h => rw [Nat.mod_eq_sub_mod (by omega), Nat.mod_eq_of_lt (by omega)]
          rw [h1 i (by omega), h1 j (by omega)] at heq
          split at heq <;> split at heq <;> omega
        rw [if_neg this, if_neg hij, ← hc]
        exact H.get j hj
    refine ⟨_, ?_, FixedRingBuffer.iter_eq hd, ?_⟩
    · unfold FixedRingBuffer.indexSet setIdx
      rw [if_pos hlt]
      rfl
    · intro os'
      obtain ⟨q'', e'', H'', -⟩ := ringOps os' hd
      dsimp only at e'' H''
      have hcc : ∀ ys, RingOp.specAll q.capacity ys os' = RingOp.specAll cap ys os' := fun ys => by rw [hc]
      rw [hcc] at e'' H''
      exact ⟨q'', e'', FixedRingBuffer.iter_eq H''⟩

/-- C124, when `q[i]` is the `i`th item: as long as items were only added at the rear -/
theorem C124_queue_partial {α : Type} (backing : List α) (cap : Nat) (hcap : cap < 2 ^ 32) (hb : cap ≤ backing.length)
    (hpow : FixedRingBuffer.countOnes 32 cap = 1) (xs : List α) (hxs : xs.length ≤ cap) :
    ∃ q0 q, FixedRingBuffer.new backing cap = .ok q0 ∧ RingOp.runAll q0 (xs.map .pushRear) = .ok (q, xs.map fun _ => none) ∧
      ∀ i (h : i < xs.length), q.index i = .ok xs[i] := by
  obtain ⟨q0, q, e0, e, -, h⟩ := C124_slots_partial backing cap hcap hb hpow (xs.map .pushRear)
  have hspec : ∀ (xs ys : List α), ys.length + xs.length ≤ cap → RingOp.specAll cap ys (xs.map .pushRear) = (ys ++ xs, xs.map fun _ => none) := by
    intro xs
    induction xs with
    | nil => intro ys _; simp [RingOp.specAll]
    | cons x xs ih =>
      intro ys hl
      have hl : ys.length + xs.length + 1 ≤ cap := by simpa [Nat.add_assoc] using hl
      rw [List.map_cons, RingOp.specAll, RingOp.spec, if_pos (by omega), ih _ (by simp; omega)]
      simp
  have hs := hspec xs [] (by simpa using hxs)
  rw [List.nil_append] at hs
  have hfront : ∀ (os : List α) (q q' : FixedRingBuffer α) (r : List (Option α)), RingOp.runAll q (os.map .pushRear) = .ok (q', r) → q'.front = q.front := by
    intro os
    induction os with
    | nil => intro q q' r h; exact (Prod.mk.inj (Except.ok.inj h)).1 ▸ rfl
    | cons x os ih =>
      intro q q' r h
      rw [List.map_cons, RingOp.runAll] at h
      obtain ⟨⟨q1, r1⟩, h1, h⟩ := bind_eq_ok.1 h
      obtain ⟨⟨q2, r2⟩, h2, h⟩ := bind_eq_ok.1 h
      rw [← (Prod.mk.inj (Except.ok.inj h)).1, ih _ _ _ h2]
      obtain ⟨q3, h3, h1⟩ := bind_eq_ok.1 h1
      rw [← (Prod.mk.inj (Except.ok.inj h1)).1]
      unfold FixedRingBuffer.pushRear at h3
      split at h3
      · obtain ⟨l, -, h3⟩ := bind_eq_ok.1 h3
        rw [← Except.ok.inj h3]
      · rw [← Except.ok.inj h3]
  rw [hs] at e h
  refine ⟨q0, q, e0, e, ?_⟩
  have hq : q.front = 0 := by
    rw [hfront _ _ _ _ e]
    unfold FixedRingBuffer.new at e0
    split at e0
    · cases e0
    · rw [← Except.ok.inj e0]
  intro i hi
  have := (h i hi).1
  dsimp only at this
  rwa [hq, Nat.zero_add, Nat.mod_eq_of_lt (by omega)] at this

/-- C124 for the sample history: `s[i]` is not the `i`th last item; the `k`th last one, `prev(k)`, is at the index `(cursor - k) mod 4` -/
theorem C124_history_partial (os : List StackOp) (k : Nat) (h1 : 1 ≤ k) (hk : k ≤ (os.foldl StackOp.spec []).length) :
    (os.foldl StackOp.run (.new 0)).index (((os.foldl StackOp.run (.new 0)).cursor + 4 - k) % 4) = .ok (os.foldl StackOp.spec [])[k - 1] := by
  have h := stackOps os (isRecent_new (0 : Int))
  generalize os.foldl StackOp.run (.new 0) = s at *
  rw [← h.prev h1 hk]
  unfold CircularStack.index CircularStack.prev
  have hlt : (s.cursor + 4 - k) % 4 < 4 := Nat.mod_lt _ (by norm_num)
  rw [dif_pos hlt, h.len, Nat.min_eq_left hk]
  show _ = Except.ok (s.data _)
  congr 2
  apply Fin.ext
  rw [Fin.val_ofNat, show (3 : Nat) = 2 ^ 2 - 1 from rfl, Nat.and_two_pow_sub_one_eq_mod]
  simp

/-- an example with wrap-around: the front is in place 3, the next item in place 0 -/
example : (do
    let q ← FixedRingBuffer.new [0, 0, 0, 0] 4
    let (q, _) ← RingOp.runAll q [.pushRear 1, .pushRear 2, .pushFront 9]
    let a ← q.index 3
    let b ← q.index 0
    pure (q.front, a, b)) = .ok (3, 9, 1) := by decide

end Adhoc
