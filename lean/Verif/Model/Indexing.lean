import Verif.Model.Packed

/-!
# Indexing: queue.rs 106-123, stack.rs 58-70

The `[]` operators of the ring buffer and of the sample history. Both go straight to the backing store.
-/

namespace Adhoc

/-- queue.rs 106-114: `Index::index` -/
def FixedRingBuffer.index {α : Type} (q : FixedRingBuffer α) (i : Nat) : R α := idx q.backing i

/-- queue.rs 116-123: `IndexMut::index_mut`, assigned to -/
def FixedRingBuffer.indexSet {α : Type} (q : FixedRingBuffer α) (i : Nat) (x : α) : R (FixedRingBuffer α) := do
  let backing ← setIdx q.backing i x
  pure { q with backing := backing }

/-- stack.rs 58-63: `Index::index` (the array has four places) -/
def CircularStack.index {α : Type} (s : CircularStack α) (i : Nat) : R α :=
  if h : i < 4 then pure (s.data ⟨i, h⟩) else .error .index

end Adhoc
