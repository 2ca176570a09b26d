import Verif.Props.Lists

/-! # C107: `iter_mut` of the linked list -/

namespace Adhoc

section
variable {α : Type}

/-- overwriting the value of a live item -/
theorem modify_mid {l : LinkedList α} {U V : List (Nat × α)} {p : Nat} {a : α} {fs : List Nat} (h : IsSeq l (U ++ (p, a) :: V) fs) (b : α) :
    ∃ l', l.modify p (fun n => { n with data := some b }) = .ok l' ∧ IsSeq l' (U ++ (p, b) :: V) fs ∧ l'.memory.length = l.memory.length := by
  have hp : p < l.memory.length := h.slots.bound p (by simp)
  obtain ⟨m, e, hl, r, lf, d⟩ := modify_spec (l := l) hp fun n => { n with data := some b }
  simp only at r lf d
  have hr : ∀ x, rt m x = rt l.memory x := fun x => by rw [r]; split <;> simp_all
  have hlf : ∀ x, lt m x = lt l.memory x := fun x => by rw [lf]; split <;> simp_all
  have hfst : (U ++ (p, b) :: V).map (·.1) = (U ++ (p, a) :: V).map (·.1) := by simp
  have hnd := (List.nodup_append.1 h.slots.nodup).1
  rw [List.map_append, List.map_cons, List.perm_middle.nodup_iff, List.nodup_cons] at hnd
  refine ⟨_, e, ⟨?_, ?_, ?_, by rw [hfst]; exact h.front, by rw [hfst]; exact h.rear, by rw [h.len]; simp⟩, hl⟩
  · rw [hfst]
    exact h.slots.congr hl fun x hx => ⟨hr x, hlf x, by rw [d, if_neg (fun e => hx (by simp [e]))]⟩
  · rw [hfst]
    intro ab hab
    simp only [hr, hlf]
    exact h.ring ab hab
  · intro pv hpv
    simp only [d]
    by_cases hc : pv = (p, b)
    · rw [hc, if_pos rfl]
    · have hm : pv ∈ U ++ V := by simp at hpv ⊢; tauto
      rw [if_neg, h.data pv (by simp at hm ⊢; tauto)]
      intro heq
      refine hnd.1 ?_
      rw [← List.map_append]
      exact List.mem_map.2 ⟨pv, hm, heq⟩

/-- the writes through the references -/
theorem writeAll_spec (f : Nat → α → α) : ∀ (V U : List (Nat × α)) {l : LinkedList α} {fs : List Nat}, IsSeq l (U ++ V) fs → ∀ i,
    ∃ l', LinkedList.writeAll f l i (V.map (·.1)) = .ok l' ∧ IsSeq l' (U ++ V.mapIdx fun j pv => (pv.1, f (i + j) pv.2)) fs ∧
      l'.memory.length = l.memory.length
  | [], U, l, fs, h, i => ⟨l, rfl, by simpa using h, rfl⟩
  | (p, a) :: V, U, l, fs, h, i => by
    obtain ⟨l1, e1, h1, hl1⟩ := modify_mid h (f i a)
    obtain ⟨l2, e2, h2, hl2⟩ := writeAll_spec f V (U ++ [(p, f i a)]) (l := l1) (fs := fs) (by simpa using h1) (i + 1)
    refine ⟨l2, ?_, ?_, by omega⟩
    · rw [List.map_cons, LinkedList.writeAll, node_live h (v := a) (by simp), bind_ok]
      simp only [expect, bind_ok]
      rw [e1, bind_ok, e2]
    · simpa [List.mapIdx_cons, Function.comp_def, Nat.add_assoc, Nat.add_comm 1] using h2

/-- a call, or a traversal with `iter_mut` that writes `f i v` to the `i`-th item `v` -/
inductive EditOp (α : Type)
  | call (o : ListOp α)
  | edit (f : Nat → α → α)

namespace EditOp

/-- the call, with the value returned or the slots handed out -/
def run (c : LinkedList α × List Nat) : EditOp α → R ((LinkedList α × List Nat) × (Option α ⊕ List Nat))
  | call o => do
    let (c, out) ← o.run c
    pure (c, .inl out)
  | edit f => do
    let (l, ps) ← c.1.iterMut f
    pure ((l, c.2), .inr ps)

/-- a sequence of calls -/
def runAll : LinkedList α × List Nat → List (EditOp α) → R ((LinkedList α × List Nat) × List (Option α ⊕ List Nat))
  | c, [] => pure (c, [])
  | c, o :: os => do
    let (c, out) ← o.run c
    let (c, outs) ← runAll c os
    pure (c, out :: outs)

/-- the same on a plain sequence: the `i`-th value is replaced -/
def spec (s : ListOp.Seq α) : EditOp α → ListOp.Seq α × Option (Option α)
  | call o => ((o.spec s).1, some (o.spec s).2)
  | edit f => ({ s with items := s.items.mapIdx fun i iv => (iv.1, f i iv.2) }, none)

/-- the sequence of calls on a plain sequence -/
def specAll : ListOp.Seq α → List (EditOp α) → ListOp.Seq α × List (Option (Option α))
  | s, [] => (s, [])
  | s, o :: os => ((specAll (o.spec s).1 os).1, (o.spec s).2 :: (specAll (o.spec s).1 os).2)

/-- every call is allowed when it is made; traversals always are -/
def AllOk : ListOp.Seq α → List (EditOp α) → Prop
  | _, [] => True
  | s, o :: os => (match o with | call o => o.Ok s | edit _ => True) ∧ AllOk (o.spec s).1 os

/-- the value returned is as on the plain sequence, and no slot is handed out twice -/
def Answers : Option α ⊕ List Nat → Option (Option α) → Prop
  | .inl a, some b => a = b
  | .inr ps, none => ps.Nodup
  | _, _ => False

end EditOp

theorem editOp_step {c : LinkedList α × List Nat} {s : ListOp.Seq α} (h : Represents c s) (o : EditOp α)
    (hok : match o with | .call o => o.Ok s | .edit _ => True) :
    ∃ c' out, o.run c = .ok (c', out) ∧ EditOp.Answers out (o.spec s).2 ∧ Represents c' (o.spec s).1 := by
  cases o with
  | call o =>
    obtain ⟨c', e, h'⟩ := listOp_step h o hok
    exact ⟨c', .inl (o.spec s).2, by simp [EditOp.run, e], rfl, h'⟩
  | edit f =>
    obtain ⟨l, ptrs⟩ := c
    obtain ⟨fs, hs⟩ := h.seq
    simp only at hs
    obtain ⟨l', e, hs', hl⟩ := writeAll_spec f _ [] (l := l) hs 0
    have hw : l.walk l.len l.front = .ok ((s.items.map fun iv => (ptrs.getD iv.1 0, iv.2)).map (·.1)) := by
      have := walk_spec hs ((s.items.map fun iv => (ptrs.getD iv.1 0, iv.2)).map (·.1)) [] rfl l.front (by
        intro a t e; rw [hs.front, e]; rfl)
      rwa [List.length_map, ← hs.len] at this
    refine ⟨(l', ptrs), .inr _, ?_, (List.nodup_append.1 hs.slots.nodup).1, ?_⟩
    · simp only [EditOp.run, LinkedList.iterMut]
      rw [hw, bind_ok, e]
      rfl
    · have hfst : (s.items.mapIdx fun i iv => (iv.1, f i iv.2)).map (·.1) = s.items.map (·.1) := by
        apply List.ext_getElem <;> simp
      refine ⟨⟨fs, ?_⟩, h.next, ?_, by show (List.map _ (List.mapIdx _ _)).Nodup; rw [hfst]; exact h.nodup, hl.trans h.peak⟩
      · have : (s.items.mapIdx fun i iv => (iv.1, f i iv.2)).map (fun iv => (ptrs.getD iv.1 0, iv.2)) =
            [] ++ (s.items.map fun iv => (ptrs.getD iv.1 0, iv.2)).mapIdx fun j pv => (pv.1, f (0 + j) pv.2) := by
          apply List.ext_getElem <;> simp
        show IsSeq l' _ fs
        rw [show (EditOp.spec s (.edit f)).1.items = s.items.mapIdx fun i iv => (iv.1, f i iv.2) from rfl, this]
        exact hs'
      · intro iv hiv
        have : iv.1 ∈ s.items.map (·.1) := by rw [← hfst]; exact List.mem_map_of_mem hiv
        obtain ⟨jw, hj, e⟩ := List.mem_map.1 this
        rw [← e]
        exact h.bound jw hj

theorem editOps : ∀ (os : List (EditOp α)) {c : LinkedList α × List Nat} {s : ListOp.Seq α}, Represents c s → EditOp.AllOk s os →
    ∃ c' outs, EditOp.runAll c os = .ok (c', outs) ∧ List.Forall₂ EditOp.Answers outs (EditOp.specAll s os).2 ∧ Represents c' (EditOp.specAll s os).1
  | [], c, s, h, _ => ⟨c, [], rfl, .nil, h⟩
  | o :: os, c, s, h, hok => by
    obtain ⟨c1, out, e1, a1, h1⟩ := editOp_step h o hok.1
    obtain ⟨c2, outs, e2, a2, h2⟩ := editOps os h1 hok.2
    exact ⟨c2, out :: outs, by simp [EditOp.runAll, e1, e2], .cons a1 a2, h2⟩

/-- C107. In any sequence of insertions, removals and traversals with `iter_mut`, nothing panics, no traversal hands out the same item twice,
every call returns what it returns on a plain sequence in which a traversal replaces the `i`-th value `v` by `f i v`, and at the end `len`,
iteration and the stored pointers agree with that sequence. -/
theorem C107_iter_mut (os : List (EditOp α)) (hok : EditOp.AllOk .empty os) :
    ∃ l ptrs outs, EditOp.runAll (.new, []) os = .ok ((l, ptrs), outs) ∧
      List.Forall₂ EditOp.Answers outs (EditOp.specAll .empty os).2 ∧
      l.len = (EditOp.specAll .empty os).1.items.length ∧
      l.iter = .ok ((EditOp.specAll .empty os).1.items.map (·.2)) ∧
      (∀ id v, (id, v) ∈ (EditOp.specAll .empty os).1.items → ∃ p n, ptrs[id]? = some p ∧ l.node p = .ok n ∧ n.data = some v) := by
  obtain ⟨⟨l, ptrs⟩, outs, e, ha, h⟩ := editOps os represents_empty hok
  obtain ⟨fs, hs⟩ := h.seq
  refine ⟨l, ptrs, outs, e, ha, by simpa using hs.len, by simpa [Function.comp_def] using iter_spec hs, ?_⟩
  intro id v hm
  have hid : id < ptrs.length := by rw [show ptrs.length = _ from h.next]; exact h.bound _ hm
  refine ⟨ptrs[id], _, List.getElem?_eq_getElem hid, node_live hs (v := v) ?_, rfl⟩
  refine List.mem_map.2 ⟨(id, v), hm, ?_⟩
  simp [List.getD_eq_getElem?_getD, hid]

end

/-- a list of three items whose slots are out of order, changed through `iter_mut`, then one taken off -/
def editHistory : List (EditOp Nat) :=
  [.call (.pushFront 10), .call (.pushFront 20), .call (.removeAt 0), .call (.pushRear 30), .call (.pushFront 40), .edit (fun i v => v + i), .call .popFront]

example : EditOp.AllOk .empty editHistory ∧ (EditOp.specAll .empty editHistory).1.items = [(1, 21), (2, 32)] := by
  simp [editHistory, EditOp.AllOk, EditOp.spec, EditOp.specAll, ListOp.Ok, ListOp.spec, ListOp.Seq.empty, ListOp.Seq.grow, NULL]

example : (EditOp.runAll (.new, []) editHistory).bind (fun r => r.1.1.iter) = .ok [21, 32] ∧
    (EditOp.runAll (.new, []) editHistory).map (fun r => r.2[5]?) = .ok (some (.inr [2, 1, 0])) := by decide +kernel

end Adhoc
