import Verif.Props.Stale
import Verif.Props.IterMut

/-! # C109: the references handed out by `iter_mut` after any calls -/

namespace Adhoc

section
variable {α : Type}

/-- the iterator only yields slots that exist, since it indexes them itself -/
theorem walk_range {l : LinkedList α} : ∀ (n : Nat) {p : Nat} {ps : List Nat}, l.walk n p = .ok ps → ∀ q ∈ ps, q < l.memory.length
  | 0, p, ps, h => by
    obtain rfl := Except.ok.inj h
    simp
  | n + 1, p, ps, h => by
    unfold LinkedList.walk at h
    by_cases hp : p < l.memory.length
    · rw [node_ok hp, bind_ok] at h
      dsimp only at h
      cases hw : l.walk n (rt l.memory p) with
      | error e => rw [hw] at h; cases h
      | ok qs =>
        rw [hw] at h
        obtain rfl := Except.ok.inj h
        intro q hq
        rcases List.mem_cons.1 hq with rfl | hq
        · exact hp
        · exact walk_range n hw q hq
    · rw [node_out (by omega)] at h
      cases h

/-- writes to slots that exist stay inside the memory; only an empty slot can stop them -/
theorem writeAll_range (f : Nat → α → α) : ∀ (ps : List Nat) (l : LinkedList α) (i : Nat), (∀ q ∈ ps, q < l.memory.length) →
    LinkedList.writeAll f l i ps = .error .expect ∨ ∃ l', LinkedList.writeAll f l i ps = .ok l' ∧ l'.memory.length = l.memory.length
  | [], l, i, _ => .inr ⟨l, rfl, rfl⟩
  | p :: ps, l, i, h => by
    have hp : p < l.memory.length := h p (by simp)
    unfold LinkedList.writeAll
    rw [node_ok hp, bind_ok]
    dsimp only
    cases hd : dt l.memory p with
    | none => exact .inl rfl
    | some v =>
      rw [show expect (some v) = .ok v from rfl, bind_ok]
      obtain ⟨m, e, hl, -⟩ := modify_spec (l := l) hp fun n => { n with data := some (f i v) }
      rw [e, bind_ok]
      rcases writeAll_range f ps { l with memory := m } (i + 1) (by
        intro q hq
        show q < m.length
        rw [hl]
        exact h q (by simp [hq])) with h1 | ⟨l', h1, h2⟩
      · exact .inl h1
      · exact .inr ⟨l', h1, h2.trans hl⟩

/-- C109, the memory: in every list whatsoever, also one made up and deserialised, the iterator stopped after any number of steps has yielded
only slots that exist, so that the unchecked access of `iter_mut` stays inside the memory; an empty slot is a panic. -/
theorem C109_range_partial (l : LinkedList α) (f : Nat → α → α) (n p : Nat) (ps : List Nat) (h : l.walk n p = .ok ps) :
    (∀ q ∈ ps, q < l.memory.length) ∧
      (LinkedList.writeAll f l 0 ps = .error .expect ∨ ∃ l', LinkedList.writeAll f l 0 ps = .ok l' ∧ l'.memory.length = l.memory.length) :=
  ⟨walk_range n h, writeAll_range f ps l 0 (walk_range n h)⟩

/-- C109, twice the same item: after any history with live pointers (where C107 holds), an insertion at a pointer to no live item that does not
panic leaves the list alone if the pointer is `NULL`, and in every other case makes `iter_mut` hand out one item twice. -/
theorem C109_stale_partial (os : List (ListOp α)) (hok : ListOp.AllOk .empty os) (l : LinkedList α) (ptrs : List Nat) (outs : List (Option α))
    (hrun : ListOp.runAll (.new, []) os = .ok ((l, ptrs), outs)) (p : Nat)
    (hp : ∀ id v, (id, v) ∈ (ListOp.specAll .empty os).1.items → ptrs[id]? ≠ some p) (d : Dir) (x : α)
    (hne : (ListOp.specAll .empty os).1.items ≠ []) (hs : (ListOp.specAll .empty os).1.items.length < NULL) (l' : LinkedList α)
    (hi : l.insertAt p d x = .ok l') :
    ∃ ps, l'.walk l'.len l'.front = .ok ps ∧ (ps.Nodup ↔ p = NULL) := by
  obtain ⟨S, fs, hsq, hst, hl, -⟩ := history_state hok hrun hp
  have hne' : S ≠ [] := by
    rintro rfl
    exact hne (List.length_eq_zero_iff.1 hl.symm)
  rw [← hl] at hs
  by_cases hn : p = NULL
  · have : l.insertAt p d x = .ok l := by
      unfold LinkedList.insertAt
      rw [if_neg, if_pos hn]
      · rfl
      · rw [hsq.len]
        exact fun h => hne' (List.length_eq_zero_iff.1 h)
    rw [hi] at this
    obtain rfl := Except.ok.inj this
    have hw := walk_spec hsq (S.map (·.1)) [] rfl l'.front (by intro a t e; rw [hsq.front, e]; rfl)
    rw [List.length_map, ← hsq.len] at hw
    exact ⟨_, hw, by simp only [hn, iff_true]; exact (List.nodup_append.1 hsq.slots.nodup).1⟩
  · have := insertAt_stale hsq hs hne' hst hn d x
    split at this
    · obtain ⟨l2, h1, -, -, h4⟩ := this
      rw [hi] at h1
      obtain rfl := Except.ok.inj h1
      refine ⟨_, h4, ?_⟩
      simp only [hn, iff_false]
      cases S with
      | nil => exact absurd rfl hne'
      | cons a S => simp [List.nodup_append]
    · rw [hi] at this
      cases this

end

/-- C109 is false: after `staleHistory` and an insertion to the right of the removed item 1, all without panic and without unsafe code of the
caller, `iter_mut` hands out the slot 3 twice: two mutable references to one item. -/
theorem C109_false : ∃ l ptrs outs l', ListOp.runAll (.new, []) staleHistory = .ok ((l, ptrs), outs) ∧ l.insertAt 1 .right 50 = .ok l' ∧ ptrs[1]? = some 1 ∧
    (l'.iterMut fun i _ => i).map (·.2) = .ok [3, 3] := by
  refine ⟨_, _, _, _, rfl, rfl, by decide +kernel, by decide +kernel⟩

/-- a list of one item whose links lead out of its memory: the second step panics -/
example : (⟨[⟨some 5, 9, 9⟩], 0, 0, NULL, 2⟩ : LinkedList Nat).walk 1 0 = .ok [0] ∧
    (⟨[⟨some 5, 9, 9⟩], 0, 0, NULL, 2⟩ : LinkedList Nat).walk 2 0 = .error .index := by decide +kernel

end Adhoc
