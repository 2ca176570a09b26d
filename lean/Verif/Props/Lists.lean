import Verif.Proofs.LinkedList

/-! # C52–C54: the linked list and the cache built on it -/

namespace Adhoc

section
variable {α : Type}

/-- a call on a linked list; items are named by the number of insertions before theirs -/
inductive ListOp (α : Type)
  | pushFront (x : α)
  | pushRear (x : α)
  | insertAt (id : Nat) (d : Dir) (x : α)
  | removeAt (id : Nat)
  | popFront
  | popRear

namespace ListOp

/-- The client keeps, for every item it ever inserted, the pointer it read off the list right after the insertion: the front, the
rear, or the neighbour of the node it inserted at. All later calls use these stored pointers. -/
def run (c : LinkedList α × List Nat) : ListOp α → R ((LinkedList α × List Nat) × Option α)
  | pushFront x => do
    let l ← c.1.pushFront x
    pure ((l, c.2 ++ [l.front]), none)
  | pushRear x => do
    let l ← c.1.pushRear x
    pure ((l, c.2 ++ [l.rear]), none)
  | insertAt id d x => do
    let p ← idx c.2 id
    let l ← c.1.insertAt p d x
    let n ← l.node p
    pure ((l, c.2 ++ [n.child d]), none)
  | removeAt id => do
    let p ← idx c.2 id
    let (l, out) ← c.1.removeAt p
    pure ((l, c.2), out)
  | popFront => do
    let (l, out) ← c.1.popFront
    pure ((l, c.2), out)
  | popRear => do
    let (l, out) ← c.1.popRear
    pure ((l, c.2), out)

/-- a sequence of calls with the values returned -/
def runAll : LinkedList α × List Nat → List (ListOp α) → R ((LinkedList α × List Nat) × List (Option α))
  | c, [] => pure (c, [])
  | c, o :: os => do
    let (c, out) ← o.run c
    let (c, outs) ← runAll c os
    pure (c, out :: outs)

/-- the sequence: named values, the next name, the largest number of live items so far -/
structure Seq (α : Type) where
  items : List (Nat × α)
  next : Nat
  peak : Nat

/-- the empty sequence -/
def Seq.empty : Seq α := ⟨[], 0, 0⟩

/-- a new item was added -/
def Seq.grow (s : Seq α) (items : List (Nat × α)) : Seq α := ⟨items, s.next + 1, max s.peak (s.items.length + 1)⟩

/-- the same call on a plain sequence -/
def spec (s : Seq α) : ListOp α → Seq α × Option α
  | pushFront x => (s.grow ((s.next, x) :: s.items), none)
  | pushRear x => (s.grow (s.items ++ [(s.next, x)]), none)
  | insertAt id .right x => (s.grow (s.items.flatMap fun iv => if iv.1 = id then [iv, (s.next, x)] else [iv]), none)
  | insertAt id .left x => (s.grow (s.items.flatMap fun iv => if iv.1 = id then [(s.next, x), iv] else [iv]), none)
  | removeAt id => ({ s with items := s.items.filter fun iv => iv.1 ≠ id }, s.items.lookup id)
  | popFront => ({ s with items := s.items.tail }, s.items.head?.map (·.2))
  | popRear => ({ s with items := s.items.dropLast }, s.items.getLast?.map (·.2))

/-- the sequence of calls on a plain sequence -/
def specAll : Seq α → List (ListOp α) → Seq α × List (Option α)
  | s, [] => (s, [])
  | s, o :: os => ((specAll (o.spec s).1 os).1, (o.spec s).2 :: (specAll (o.spec s).1 os).2)

/-- the named item is live; fewer than 2^32 - 1 items are live before an insertion -/
def Ok (s : Seq α) : ListOp α → Prop
  | insertAt id _ _ => (∃ v, (id, v) ∈ s.items) ∧ s.items.length < NULL
  | removeAt id => ∃ v, (id, v) ∈ s.items
  | pushFront _ => s.items.length < NULL
  | pushRear _ => s.items.length < NULL
  | popFront => True
  | popRear => True

/-- every call is allowed when it is made -/
def AllOk : Seq α → List (ListOp α) → Prop
  | _, [] => True
  | s, o :: os => o.Ok s ∧ AllOk (o.spec s).1 os

end ListOp

/-- the list with the stored pointers represents the sequence -/
structure Represents (c : LinkedList α × List Nat) (s : ListOp.Seq α) : Prop where
  seq : ∃ fs, IsSeq c.1 (s.items.map fun iv => (c.2.getD iv.1 0, iv.2)) fs
  next : c.2.length = s.next
  bound : ∀ iv ∈ s.items, iv.1 < s.next
  nodup : (s.items.map (·.1)).Nodup
  peak : c.1.memory.length = s.peak

theorem represents_empty : Represents (α := α) (.new, []) .empty where
  seq := ⟨[], isSeq_new⟩
  next := rfl
  bound := by simp [ListOp.Seq.empty]
  nodup := by simp [ListOp.Seq.empty]
  peak := rfl

theorem map_grow (ptrs : List Nat) (p : Nat) (items : List (Nat × α)) (h : ∀ iv ∈ items, iv.1 < ptrs.length) :
    (items.map fun iv => ((ptrs ++ [p]).getD iv.1 0, iv.2)) = items.map fun iv => (ptrs.getD iv.1 0, iv.2) := by
  apply List.map_congr_left
  intro iv hiv
  simp only [List.getD_eq_getElem?_getD, List.getElem?_append_left (h iv hiv)]

/-- a named sequence splits at a live name -/
theorem split_at {items : List (Nat × α)} {id : Nat} {v : α} (hn : (items.map (·.1)).Nodup) (hm : (id, v) ∈ items) :
    ∃ U V, items = U ++ (id, v) :: V ∧ (∀ iv ∈ U, iv.1 ≠ id) ∧ (∀ iv ∈ V, iv.1 ≠ id) := by
  obtain ⟨U, V, rfl⟩ := List.append_of_mem hm
  refine ⟨U, V, rfl, ?_, ?_⟩
  · intro iv hiv
    simp only [List.map_append, List.map_cons] at hn
    exact (List.nodup_append.1 hn).2.2 _ (List.mem_map_of_mem hiv) _ (by simp)
  · intro iv hiv e
    simp only [List.map_append, List.map_cons] at hn
    exact (List.nodup_cons.1 (List.nodup_append.1 hn).2.1).1 (e ▸ List.mem_map_of_mem hiv)

theorem flatMap_other {β : Type} (U : List (Nat × α)) (id : Nat) (f g : Nat × α → List β) (h : ∀ iv ∈ U, iv.1 ≠ id) :
    (U.flatMap fun iv => if iv.1 = id then f iv else g iv) = U.flatMap g := by
  induction U with
  | nil => rfl
  | cons a U ih =>
    simp only [List.flatMap_cons]
    rw [if_neg (h a (by simp)), ih fun iv hiv => h iv (by simp [hiv])]

theorem flatMap_single (U : List (Nat × α)) : (U.flatMap fun iv => [iv]) = U := by
  induction U with
  | nil => rfl
  | cons a U ih => simp [List.flatMap_cons, ih]

theorem filter_other (U : List (Nat × α)) (id : Nat) (h : ∀ iv ∈ U, iv.1 ≠ id) : (U.filter fun iv => iv.1 ≠ id) = U :=
  List.filter_eq_self.2 fun iv hiv => by simpa using h iv hiv

theorem lookup_split (U V : List (Nat × α)) (id : Nat) (v : α) (h : ∀ iv ∈ U, iv.1 ≠ id) : (U ++ (id, v) :: V).lookup id = some v := by
  induction U with
  | nil => simp
  | cons a U ih =>
    have ha := h a (by simp)
    obtain ⟨i, w⟩ := a
    have : (id == i) = false := by simpa using fun e => ha e.symm
    rw [List.cons_append, List.lookup_cons, this]
    exact ih fun iv hiv => h iv (by simp [hiv])

/-- growing by one item at a known place -/
theorem represents_grow {l l' : LinkedList α} {ptrs : List Nat} {s : ListOp.Seq α} (h : Represents (l, ptrs) s) {U V : List (Nat × α)}
    {p : Nat} {x : α} {fs : List Nat} (hUV : s.items = U ++ V)
    (h' : IsSeq l' (U.map (fun iv => (ptrs.getD iv.1 0, iv.2)) ++ (p, x) :: V.map (fun iv => (ptrs.getD iv.1 0, iv.2))) fs)
    (hl : l'.memory.length = max l.memory.length (s.items.length + 1)) :
    Represents (l', ptrs ++ [p]) (s.grow (U ++ (s.next, x) :: V)) := by
  have hb : ∀ iv ∈ s.items, iv.1 < ptrs.length := by rw [show ptrs.length = s.next from h.next]; exact h.bound
  have hnl : ptrs.length = s.next := h.next
  refine ⟨⟨fs, ?_⟩, ?_, ?_, ?_, ?_⟩
  · have e : (s.grow (U ++ (s.next, x) :: V)).items.map (fun iv => ((ptrs ++ [p]).getD iv.1 0, iv.2)) =
      (U.map fun iv => (ptrs.getD iv.1 0, iv.2)) ++ (p, x) :: V.map fun iv => (ptrs.getD iv.1 0, iv.2) := by
      simp only [ListOp.Seq.grow, List.map_append, List.map_cons]
      have e1 := map_grow ptrs p U fun iv hiv => hb iv (by rw [hUV]; simp [hiv])
      have e2 := map_grow ptrs p V fun iv hiv => hb iv (by rw [hUV]; simp [hiv])
      rw [e1, e2]
      simp [← hnl, List.getD_eq_getElem?_getD]
    show IsSeq l' _ fs
    rw [e]; exact h'
  · simp [ListOp.Seq.grow, hnl]
  · intro iv hiv
    simp only [ListOp.Seq.grow] at hiv ⊢
    have : iv = (s.next, x) ∨ iv ∈ s.items := by rw [hUV]; simp at hiv ⊢; tauto
    rcases this with rfl | hm
    · simp
    · have := h.bound iv hm; omega
  · have hn := h.nodup
    simp only [ListOp.Seq.grow, List.map_append, List.map_cons]
    rw [List.perm_middle.nodup_iff, List.nodup_cons, ← List.map_append, ← hUV]
    refine ⟨?_, hn⟩
    intro hm
    obtain ⟨iv, hiv, e⟩ := List.mem_map.1 hm
    have := h.bound iv hiv; omega
  · simp only [ListOp.Seq.grow]
    rw [hl, show l.memory.length = s.peak from h.peak]

/-- dropping one item -/
theorem represents_drop {l l' : LinkedList α} {ptrs : List Nat} {s : ListOp.Seq α} (h : Represents (l, ptrs) s) {items : List (Nat × α)}
    (hsub : items.Sublist s.items) {fs : List Nat} (h' : IsSeq l' (items.map (fun iv => (ptrs.getD iv.1 0, iv.2))) fs)
    (hl : l'.memory.length = l.memory.length) : Represents (l', ptrs) { s with items := items } where
  seq := ⟨fs, h'⟩
  next := h.next
  bound iv hiv := h.bound iv (hsub.subset hiv)
  nodup := h.nodup.sublist (hsub.map _)
  peak := by show l'.memory.length = s.peak; rw [hl]; exact h.peak

theorem listOp_step {c : LinkedList α × List Nat} {s : ListOp.Seq α} (h : Represents c s) (o : ListOp α) (hok : o.Ok s) :
    ∃ c', o.run c = .ok (c', (o.spec s).2) ∧ Represents c' (o.spec s).1 := by
  obtain ⟨l, ptrs⟩ := c
  obtain ⟨fs, hs⟩ := h.seq
  simp only at hs
  have hnl : ptrs.length = s.next := h.next
  cases o with
  | pushFront x =>
    obtain ⟨l', p, fs', e, hs', hl⟩ := pushFront_spec hs (by simpa using (show s.items.length < NULL from hok)) x
    have hf : l'.front = p := by rw [hs'.front]; rfl
    refine ⟨(l', ptrs ++ [p]), by simp [ListOp.run, ListOp.spec, e, hf], ?_⟩
    exact represents_grow h (U := []) rfl hs' (by simpa using hl)
  | pushRear x =>
    obtain ⟨l', p, fs', e, hs', hl⟩ := pushRear_spec hs (by simpa using (show s.items.length < NULL from hok)) x
    have hf : l'.rear = p := by rw [hs'.rear]; simp
    refine ⟨(l', ptrs ++ [p]), by simp [ListOp.run, ListOp.spec, e, hf], ?_⟩
    exact represents_grow h (U := s.items) (V := []) (by simp) hs' (by simpa using hl)
  | insertAt id d x =>
    obtain ⟨⟨v, hm⟩, hcap⟩ := hok
    obtain ⟨U, V, hUV, hU, hV⟩ := split_at h.nodup hm
    have hid : id < ptrs.length := by rw [hnl]; exact h.bound _ hm
    have hp : ptrs.getD id 0 = ptrs[id] := by simp [List.getD_eq_getElem?_getD, hid]
    have hcap' : (s.items.map fun iv => (ptrs.getD iv.1 0, iv.2)).length < NULL := by simpa using hcap
    rw [hUV] at hs hcap'
    simp only [List.map_append, List.map_cons] at hs hcap'
    cases d with
    | right =>
      obtain ⟨l', p, fs', e, hs', hl⟩ := insertAt_mid (U := U.map (fun iv => (ptrs.getD iv.1 0, iv.2)) ++ [(ptrs.getD id 0, v)])
        (V := V.map fun iv => (ptrs.getD iv.1 0, iv.2)) (by simpa using hs) (by simpa using hcap') (ptrs.getD id 0) .right x ⟨by simp, by simp⟩
      have hlive := node_live hs' (p := ptrs.getD id 0) (v := v) (by simp)
      have hr : rt l'.memory (ptrs.getD id 0) = p := by
        refine (hs'.ring (ptrs.getD id 0, p) ?_).1
        simp only [List.map_append, List.map_cons, List.append_assoc, List.cons_append, List.nil_append]
        exact cyc_adj ..
      have hspec : (ListOp.spec s (.insertAt id .right x)) = (s.grow (U ++ [(id, v)] ++ (s.next, x) :: V), none) := by
        simp only [ListOp.spec, hUV, List.flatMap_append, List.flatMap_cons, if_true]
        rw [flatMap_other U id _ _ hU, flatMap_other V id _ _ hV, flatMap_single, flatMap_single]
        simp
      rw [hspec]
      refine ⟨(l', ptrs ++ [p]), ?_, represents_grow h (by simpa using hUV) (by simpa using hs') ?_⟩
      · simp only [ListOp.run, idx_of_lt hid, bind_ok]
        rw [← hp, e, bind_ok, hlive, bind_ok]
        simp only [Node.child, hr, pure_eq_ok]
      · rw [hl, hUV]; simp; omega
    | left =>
      obtain ⟨l', p, fs', e, hs', hl⟩ := insertAt_mid (U := U.map (fun iv => (ptrs.getD iv.1 0, iv.2)))
        (V := (ptrs.getD id 0, v) :: V.map fun iv => (ptrs.getD iv.1 0, iv.2)) hs hcap' (ptrs.getD id 0) .left x ⟨by simp, by simp⟩
      have hlive := node_live hs' (p := ptrs.getD id 0) (v := v) (by simp)
      have hr : lt l'.memory (ptrs.getD id 0) = p := by
        refine (hs'.ring (p, ptrs.getD id 0) ?_).2
        simp only [List.map_append, List.map_cons]
        exact cyc_adj ..
      have hspec : (ListOp.spec s (.insertAt id .left x)) = (s.grow (U ++ (s.next, x) :: (id, v) :: V), none) := by
        simp only [ListOp.spec, hUV, List.flatMap_append, List.flatMap_cons, if_true]
        rw [flatMap_other U id _ _ hU, flatMap_other V id _ _ hV, flatMap_single, flatMap_single]
        simp
      rw [hspec]
      refine ⟨(l', ptrs ++ [p]), ?_, represents_grow h (by simpa using hUV) (by simpa using hs') ?_⟩
      · simp only [ListOp.run, idx_of_lt hid, bind_ok]
        rw [← hp, e, bind_ok, hlive, bind_ok]
        simp only [Node.child, hr, pure_eq_ok]
      · rw [hl, hUV]; simp
  | removeAt id =>
    obtain ⟨v, hm⟩ := hok
    obtain ⟨U, V, hUV, hU, hV⟩ := split_at h.nodup hm
    have hid : id < ptrs.length := by rw [hnl]; exact h.bound _ hm
    have hp : ptrs.getD id 0 = ptrs[id] := by simp [List.getD_eq_getElem?_getD, hid]
    rw [hUV] at hs
    simp only [List.map_append, List.map_cons] at hs
    obtain ⟨l', e, hs', hl⟩ := removeAt_mid hs
    have hf : (s.items.filter fun iv => iv.1 ≠ id) = U ++ V := by
      rw [hUV, List.filter_append, List.filter_cons, if_neg (by simp), filter_other U id hU, filter_other V id hV]
    have ho : s.items.lookup id = some v := by rw [hUV]; exact lookup_split U V id v hU
    refine ⟨(l', ptrs), ?_, ?_⟩
    · simp only [ListOp.run, idx_of_lt hid, bind_ok]
      rw [← hp, e, bind_ok]
      simp [ListOp.spec, ho]
    · simp only [ListOp.spec, hf]
      exact represents_drop h (by rw [hUV]; simp) (by simpa using hs') hl
  | popFront =>
    obtain ⟨l', fs', e, hs', hl⟩ := popFront_spec hs
    refine ⟨(l', ptrs), ?_, ?_⟩
    · simp only [ListOp.run, e, bind_ok, ListOp.spec]; simp [Function.comp_def]
    · exact represents_drop h (List.tail_sublist _) (by simpa using hs') hl
  | popRear =>
    obtain ⟨l', fs', e, hs', hl⟩ := popRear_spec hs
    refine ⟨(l', ptrs), ?_, ?_⟩
    · simp only [ListOp.run, e, bind_ok, ListOp.spec]; simp [Function.comp_def]
    · exact represents_drop h (List.dropLast_sublist _) (by simpa using hs') hl

theorem listOps : ∀ (os : List (ListOp α)) {c : LinkedList α × List Nat} {s : ListOp.Seq α}, Represents c s → ListOp.AllOk s os →
    ∃ c', ListOp.runAll c os = .ok (c', (ListOp.specAll s os).2) ∧ Represents c' (ListOp.specAll s os).1
  | [], c, s, h, _ => ⟨c, rfl, h⟩
  | o :: os, c, s, h, hok => by
    obtain ⟨c1, e1, h1⟩ := listOp_step h o hok.1
    obtain ⟨c2, e2, h2⟩ := listOps os h1 hok.2
    exact ⟨c2, by simp [ListOp.runAll, ListOp.specAll, e1, e2], h2⟩

/-- C52. Any sequence of insertions and removals, at the ends or at stored pointers of live items, never panics, returns what the
same calls on a plain sequence return, and afterwards: `len` and iteration agree with the sequence, the pointer stored for a live
item still leads to its value, and the number of memory slots is the largest number of items that were live at once. -/
theorem C52_linked_list (os : List (ListOp α)) (hok : ListOp.AllOk .empty os) :
    ∃ l ptrs, ListOp.runAll (.new, []) os = .ok ((l, ptrs), (ListOp.specAll .empty os).2) ∧
      l.len = (ListOp.specAll .empty os).1.items.length ∧
      l.iter = .ok ((ListOp.specAll .empty os).1.items.map (·.2)) ∧
      (∀ id v, (id, v) ∈ (ListOp.specAll .empty os).1.items → ∃ p n, ptrs[id]? = some p ∧ l.node p = .ok n ∧ n.data = some v) ∧
      l.memory.length = (ListOp.specAll .empty os).1.peak := by
  obtain ⟨⟨l, ptrs⟩, e, h⟩ := listOps os represents_empty hok
  obtain ⟨fs, hs⟩ := h.seq
  refine ⟨l, ptrs, e, by simpa using hs.len, by simpa [Function.comp_def] using iter_spec hs, ?_, h.peak⟩
  intro id v hm
  have hid : id < ptrs.length := by rw [show ptrs.length = _ from h.next]; exact h.bound _ hm
  refine ⟨ptrs[id], _, List.getElem?_eq_getElem hid, node_live hs (v := v) ?_, rfl⟩
  refine List.mem_map.2 ⟨(id, v), hm, ?_⟩
  simp [List.getD_eq_getElem?_getD, hid]

/-- a history with every kind of call: items 0 = 10, 1 = 20, 2 = 30 between them, 0 removed, 3 = 40 reuses its slot -/
def listHistory : List (ListOp Nat) :=
  [.pushFront 10, .pushRear 20, .insertAt 0 .right 30, .removeAt 0, .insertAt 1 .left 40, .popRear, .pushFront 50, .popFront]

example : ListOp.AllOk .empty listHistory ∧ (ListOp.specAll .empty listHistory).1.items = [(2, 30), (3, 40)] ∧
    (ListOp.specAll .empty listHistory).1.peak = 3 ∧
    (ListOp.specAll .empty listHistory).2 = [none, none, none, some 10, none, some 20, none, some 50] := by
  simp [listHistory, ListOp.AllOk, ListOp.Ok, ListOp.spec, ListOp.specAll, ListOp.Seq.empty, ListOp.Seq.grow, NULL]

end

/-! ## C53, C54: LruCache -/

section
variable {κ ν : Type} [DecidableEq κ]

/-- a call on the cache; `getMut` writes `f v` through the reference it obtains -/
inductive CacheOp (κ ν : Type)
  | put (k : κ) (v : ν)
  | get (k : κ)
  | getMut (k : κ) (f : ν → ν)
  | lookup (k : κ)
  | remove (k : κ)

namespace CacheOp

/-- the call on the cache -/
def run (c : LruCache κ ν) : CacheOp κ ν → R (LruCache κ ν × Option ν)
  | put k v => do
    let c ← c.put k v
    pure (c, none)
  | get k => c.get k
  | getMut k f => c.getMut k f
  | lookup k => do
    let v ← c.lookup k
    pure (c, v)
  | remove k => c.remove k

/-- a sequence of calls with the values returned -/
def runAll : LruCache κ ν → List (CacheOp κ ν) → R (LruCache κ ν × List (Option ν))
  | c, [] => pure (c, [])
  | c, o :: os => do
    let (c, out) ← o.run c
    let (c, outs) ← runAll c os
    pure (c, out :: outs)

/-- all entries but the one for `k` -/
def others (m : List (κ × ν)) (k : κ) : List (κ × ν) := m.filter fun e => e.1 ≠ k

/-- the same call on a list of entries, most recently used first -/
def spec (cap : Nat) (m : List (κ × ν)) : CacheOp κ ν → List (κ × ν) × Option ν
  | put k v =>
    if (m.lookup k).isSome then ((k, v) :: others m k, none)
    else if m.length < cap then ((k, v) :: m, none)
    else ((k, v) :: m.dropLast, none)
  | get k =>
    match m.lookup k with
    | some v => ((k, v) :: others m k, some v)
    | none => (m, none)
  | getMut k f =>
    match m.lookup k with
    | some v => ((k, f v) :: others m k, some v)
    | none => (m, none)
  | lookup k => (m, m.lookup k)
  | remove k => (others m k, m.lookup k)

/-- the sequence of calls on the list of entries -/
def specAll (cap : Nat) : List (κ × ν) → List (CacheOp κ ν) → List (κ × ν) × List (Option ν)
  | m, [] => (m, [])
  | m, o :: os => ((specAll cap (o.spec cap m).1 os).1, (o.spec cap m).2 :: (specAll cap (o.spec cap m).1 os).2)

end CacheOp

/-- the cache represents the list of entries -/
structure Caches (c : LruCache κ ν) (m : List (κ × ν)) : Prop where
  seq : ∃ S fs, IsSeq c.list S fs ∧ S.map (·.2) = m ∧ (∀ k p, c.table k = some p ↔ ∃ v, (p, (k, v)) ∈ S)
  nodup : (m.map (·.1)).Nodup
  cap : m.length ≤ c.capacity
  pos : 0 < c.capacity
  small : c.capacity ≤ NULL

theorem lookup_none_of {m : List (κ × ν)} {k : κ} (h : ∀ e ∈ m, e.1 ≠ k) : m.lookup k = none := by
  induction m with
  | nil => rfl
  | cons a m ih =>
    obtain ⟨i, w⟩ := a
    have ha : i ≠ k := h (i, w) (by simp)
    have : (k == i) = false := by simpa using fun e => ha e.symm
    rw [List.lookup_cons, this]
    exact ih fun e he => h e (by simp [he])

theorem lookup_mid {U V : List (κ × ν)} {k : κ} {v : ν} (h : ∀ e ∈ U, e.1 ≠ k) : (U ++ (k, v) :: V).lookup k = some v := by
  induction U with
  | nil => simp
  | cons a U ih =>
    obtain ⟨i, w⟩ := a
    have ha : i ≠ k := h (i, w) (by simp)
    have : (k == i) = false := by simpa using fun e => ha e.symm
    rw [List.cons_append, List.lookup_cons, this]
    exact ih fun e he => h e (by simp [he])

theorem others_mid {U V : List (κ × ν)} {k : κ} {v : ν} (hU : ∀ e ∈ U, e.1 ≠ k) (hV : ∀ e ∈ V, e.1 ≠ k) :
    CacheOp.others (U ++ (k, v) :: V) k = U ++ V := by
  unfold CacheOp.others
  rw [List.filter_append, List.filter_cons, if_neg (by simp), List.filter_eq_self.2 (fun e he => by simpa using hU e he),
    List.filter_eq_self.2 (fun e he => by simpa using hV e he)]

/-- a cached key: its place in the list -/
theorem cached_split {c : LruCache κ ν} {S : List (Nat × (κ × ν))} (hn : ((S.map (·.2)).map (·.1)).Nodup)
    (ht : ∀ k p, c.table k = some p ↔ ∃ v, (p, (k, v)) ∈ S) {k : κ} {p : Nat} (h : c.table k = some p) :
    ∃ U V v, S = U ++ (p, (k, v)) :: V ∧ (∀ e ∈ U.map (·.2), e.1 ≠ k) ∧ (∀ e ∈ V.map (·.2), e.1 ≠ k) := by
  obtain ⟨v, hm⟩ := (ht k p).1 h
  obtain ⟨U, V, rfl⟩ := List.append_of_mem hm
  simp only [List.map_append, List.map_cons] at hn
  refine ⟨U, V, v, rfl, ?_, ?_⟩
  · intro e he
    exact (List.nodup_append.1 hn).2.2 _ (List.mem_map_of_mem he) _ (by simp)
  · intro e he hk
    exact (List.nodup_cons.1 (List.nodup_append.1 hn).2.1).1 (hk ▸ List.mem_map_of_mem he)

theorem raiseKey_spec {l : LinkedList (κ × ν)} {U V : List (Nat × (κ × ν))} {p : Nat} {k : κ} {v : ν} {fs : List Nat}
    (h : IsSeq l (U ++ (p, (k, v)) :: V) fs) (hs : (U ++ V).length < NULL) (val : Option ν) :
    ∃ l' p' fs', LruCache.raiseKey p l val = .ok (l', p') ∧ IsSeq l' ((p', (k, val.getD v)) :: (U ++ V)) fs' ∧ l'.front = p' := by
  obtain ⟨l1, e1, h1, -⟩ := removeAt_mid h
  obtain ⟨l2, p2, fs2, e2, h2, -⟩ := pushFront_spec h1 hs (k, val.getD v)
  have hf : l2.front = p2 := by rw [h2.front]; rfl
  exact ⟨l2, p2, fs2, by simp [LruCache.raiseKey, e1, expect, e2, hf], h2, hf⟩

/-- the table after moving a key to the front -/
theorem table_raise {t : κ → Option Nat} {U V : List (Nat × (κ × ν))} {p p' : Nat} {k : κ} {v w : ν}
    (ht : ∀ k' q, t k' = some q ↔ ∃ v', (q, (k', v')) ∈ U ++ (p, (k, v)) :: V)
    (hU : ∀ e ∈ U.map (·.2), e.1 ≠ k) (hV : ∀ e ∈ V.map (·.2), e.1 ≠ k) :
    ∀ k' q, LruCache.tset t k (some p') k' = some q ↔ ∃ v', (q, (k', v')) ∈ (p', (k, w)) :: (U ++ V) := by
  intro k' q
  unfold LruCache.tset
  by_cases hk : k' = k
  · subst hk
    simp only [if_true, Option.some.injEq, List.mem_cons, Prod.mk.injEq, List.mem_append]
    constructor
    · rintro rfl; exact ⟨w, Or.inl ⟨rfl, trivial, rfl⟩⟩
    · rintro ⟨v', ⟨rfl, _⟩ | hm | hm⟩
      · rfl
      · exact absurd rfl (hU _ (List.mem_map_of_mem hm))
      · exact absurd rfl (hV _ (List.mem_map_of_mem hm))
  · rw [if_neg hk, ht]
    simp [hk]

omit [DecidableEq κ] in
theorem nodup_raise {U V : List (κ × ν)} {k : κ} {v w : ν} (hn : ((U ++ (k, v) :: V).map (·.1)).Nodup) :
    (((k, w) :: (U ++ V)).map (·.1)).Nodup := by
  simp only [List.map_append, List.map_cons] at hn ⊢
  exact (List.perm_middle.nodup_iff).1 hn

/-- overwriting the value of the first item -/
theorem modify_front {l : LinkedList α} {p : Nat} {a : α} {S : List (Nat × α)} {fs : List Nat} (h : IsSeq l ((p, a) :: S) fs) (f : α → α) :
    ∃ l', l.modify p (fun n => { n with data := n.data.map f }) = .ok l' ∧ IsSeq l' ((p, f a) :: S) fs := by
  have hp : p < l.memory.length := h.slots.bound p (by simp)
  obtain ⟨m, e, hl, r, lf, d⟩ := modify_spec (l := l) hp fun n => { n with data := n.data.map f }
  simp only at r lf d
  have hr : ∀ x, rt m x = rt l.memory x := fun x => by rw [r]; split <;> simp_all
  have hlf : ∀ x, lt m x = lt l.memory x := fun x => by rw [lf]; split <;> simp_all
  refine ⟨_, e, ?_, ?_, ?_, h.front, h.rear, h.len⟩
  · exact h.slots.congr hl fun x hx => ⟨hr x, hlf x, by rw [d, if_neg (fun e => hx (by simp [e]))]⟩
  · intro ab hab
    simp only [hr, hlf]
    exact h.ring ab hab
  · intro pv hpv
    simp only [d]
    rcases List.mem_cons.1 hpv with rfl | hpv
    · rw [if_pos rfl, h.data (p, a) (by simp)]; rfl
    · rw [if_neg, h.data pv (by simp [hpv])]
      intro heq
      have := (List.nodup_append.1 h.slots.nodup).1
      simp only [List.map_cons, List.nodup_cons] at this
      exact this.1 (heq ▸ List.mem_map_of_mem hpv)

theorem cacheOp_step {c : LruCache κ ν} {m : List (κ × ν)} (h : Caches c m) (o : CacheOp κ ν) :
    ∃ c', o.run c = .ok (c', (o.spec c.capacity m).2) ∧ Caches c' (o.spec c.capacity m).1 ∧ c'.capacity = c.capacity := by
  obtain ⟨S, fs, hs, rfl, ht⟩ := h.seq
  have hn := h.nodup
  have hcap := h.cap
  have hpos := h.pos
  have hsm := h.small
  simp only [List.length_map] at hcap
  -- a key that is not in the table
  have hnone : ∀ k, c.table k = none → (S.map (·.2)).lookup k = none ∧ ∀ e ∈ S.map (·.2), e.1 ≠ k := by
    intro k hk
    have : ∀ e ∈ S.map (·.2), e.1 ≠ k := by
      intro e he heq
      obtain ⟨⟨p, k', v⟩, hm, rfl⟩ := List.mem_map.1 he
      simp only at heq; subst heq
      rw [(ht k' p).2 ⟨v, hm⟩] at hk
      exact absurd hk (by simp)
    exact ⟨lookup_none_of this, this⟩
  -- a key that is
  have hsome : ∀ k p, c.table k = some p → ∃ U V v, S = U ++ (p, (k, v)) :: V ∧ (∀ e ∈ U.map (·.2), e.1 ≠ k) ∧ (∀ e ∈ V.map (·.2), e.1 ≠ k) ∧
      (S.map (·.2)).lookup k = some v ∧ CacheOp.others (S.map (·.2)) k = (U ++ V).map (·.2) ∧ (U ++ V).length < NULL := by
    intro k p hk
    obtain ⟨U, V, v, rfl, hU, hV⟩ := cached_split hn ht hk
    refine ⟨U, V, v, rfl, hU, hV, ?_, ?_, ?_⟩
    · simp only [List.map_append, List.map_cons]; exact lookup_mid hU
    · simp only [List.map_append, List.map_cons]; exact others_mid hU hV
    · simp at hcap ⊢; omega
  -- moving a key to the front
  have hraise : ∀ (k : κ) (p : Nat) (U V : List (Nat × (κ × ν))) (v w : ν) (l' : LinkedList (κ × ν)) (p' : Nat) (fs' : List Nat),
      S = U ++ (p, (k, v)) :: V → (∀ e ∈ U.map (·.2), e.1 ≠ k) → (∀ e ∈ V.map (·.2), e.1 ≠ k) → IsSeq l' ((p', (k, w)) :: (U ++ V)) fs' →
      Caches { c with list := l', table := LruCache.tset c.table k (some p') } ((k, w) :: (U ++ V).map (·.2)) := by
    intro k p U V v w l' p' fs' hS hU hV hs'
    subst hS
    refine ⟨⟨_, fs', hs', by simp, table_raise ht hU hV⟩, ?_, ?_, hpos, hsm⟩
    · simp only [List.map_append, List.map_cons] at hn ⊢
      have := nodup_raise (U := U.map (·.2)) (V := V.map (·.2)) (k := k) (v := v) (w := w) (by simpa using hn)
      simpa using this
    · simp at hcap ⊢; omega
  cases o with
  | put k v =>
    cases hk : c.table k with
    | some p =>
      obtain ⟨U, V, v0, hS, hU, hV, hlk, hoth, hlt⟩ := hsome k p hk
      obtain ⟨l', p', fs', e, hs', hf⟩ := raiseKey_spec (hS ▸ hs) hlt (some v)
      refine ⟨{ c with list := l', table := LruCache.tset c.table k (some p') }, ?_, ?_, rfl⟩
      · simp [CacheOp.run, LruCache.put, hk, e, CacheOp.spec, hlk]
      · simp only [CacheOp.spec, hlk, Option.isSome_some, if_true, hoth]
        exact hraise k p U V v0 v l' p' fs' hS hU hV hs'
    | none =>
      obtain ⟨hlk, hne⟩ := hnone k hk
      by_cases hroom : S.length < c.capacity
      · obtain ⟨l', p', fs', e, hs', -⟩ := pushFront_spec hs (by omega) (k, v)
        have hf : l'.front = p' := by rw [hs'.front]; rfl
        have hge : ¬ c.list.len ≥ c.capacity := by rw [hs.len]; omega
        refine ⟨{ c with list := l', table := LruCache.tset c.table k (some p') }, ?_, ?_, rfl⟩
        · simp only [CacheOp.run, LruCache.put, hk, LruCache.len, if_neg hge, bind_ok, pure_eq_ok, e, hf, CacheOp.spec, hlk]
          simp [hroom]
        · simp only [CacheOp.spec, hlk, Option.isSome_none, List.length_map, hroom, if_true, Bool.false_eq_true, if_false]
          refine ⟨⟨_, fs', hs', by simp, ?_⟩, ?_, by simp; omega, hpos, hsm⟩
          · intro k' q
            simp only [LruCache.tset]
            by_cases hkk : k' = k
            · subst hkk
              simp only [if_true, Option.some.injEq, List.mem_cons, Prod.mk.injEq]
              constructor
              · rintro rfl; exact ⟨v, Or.inl ⟨rfl, trivial, rfl⟩⟩
              · rintro ⟨v', ⟨rfl, _⟩ | hm⟩
                · rfl
                · exact absurd rfl (hne _ (List.mem_map_of_mem hm))
            · rw [if_neg hkk, ht]; simp [hkk]
          · simp only [List.map_cons, List.nodup_cons]
            refine ⟨?_, hn⟩
            intro hm
            obtain ⟨e, he, heq⟩ := List.mem_map.1 hm
            exact hne e he heq
      · have hge : c.list.len ≥ c.capacity := by rw [hs.len]; omega
        rcases List.eq_nil_or_concat S with rfl | ⟨T, ⟨q, kr, vr⟩, rfl⟩
        · simp at hroom; omega
        rw [List.concat_eq_append] at *
        obtain ⟨l1, fs1, e1, hs1, -⟩ := popRear_spec hs
        simp only [List.dropLast_concat] at hs1
        have hrear : c.list.rear = q := by rw [hs.rear]; simp
        have hnode := node_live hs (p := q) (v := (kr, vr)) (by simp)
        obtain ⟨l', p', fs', e, hs', -⟩ := pushFront_spec hs1 (by simp at hcap; omega) (k, v)
        have hf : l'.front = p' := by rw [hs'.front]; rfl
        simp only [List.map_append, List.map_cons, List.map_nil] at hn hne
        have hnn := List.nodup_append.1 hn
        refine ⟨{ c with list := l', table := LruCache.tset (LruCache.tset c.table kr none) k (some p') }, ?_, ?_, rfl⟩
        · simp only [CacheOp.run, LruCache.put, hk, LruCache.len, if_pos hge, hrear, hnode, bind_ok, expect, e1, pure_eq_ok, e, hf, CacheOp.spec, hlk]
          simp at hroom
          simp [Nat.not_lt.2 hroom]
        · simp only [CacheOp.spec, hlk, Option.isSome_none, List.length_map, hroom, Bool.false_eq_true, if_false]
          simp only [List.map_append, List.map_cons, List.map_nil, List.dropLast_concat]
          refine ⟨⟨_, fs', hs', by simp, ?_⟩, ?_, by simp at hcap ⊢; omega, hpos, hsm⟩
          · intro k' q'
            simp only [LruCache.tset]
            by_cases hkk : k' = k
            · subst hkk
              simp only [if_true, Option.some.injEq, List.mem_cons, Prod.mk.injEq]
              constructor
              · rintro rfl; exact ⟨v, Or.inl ⟨rfl, trivial, rfl⟩⟩
              · rintro ⟨v', ⟨rfl, _⟩ | hm⟩
                · rfl
                · exact absurd rfl (hne (k', v') (List.mem_append_left _ (List.mem_map_of_mem (f := (·.2)) hm)))
            · rw [if_neg hkk]
              by_cases hkr : k' = kr
              · subst hkr
                simp only [if_true, reduceCtorEq, List.mem_cons, Prod.mk.injEq, hkk, false_and, and_false, false_or, false_iff, not_exists]
                intro v' hm
                exact hnn.2.2 k' (List.mem_map.2 ⟨(k', v'), List.mem_map_of_mem (f := (·.2)) hm, rfl⟩) k' (by simp) rfl
              · rw [if_neg hkr, ht]; simp [hkk, hkr]
          · simp only [List.map_cons, List.nodup_cons]
            refine ⟨?_, hnn.1⟩
            intro hm
            obtain ⟨e, he, heq⟩ := List.mem_map.1 hm
            exact hne e (List.mem_append_left _ he) heq
  | get k =>
    cases hk : c.table k with
    | some p =>
      obtain ⟨U, V, v0, hS, hU, hV, hlk, hoth, hlt⟩ := hsome k p hk
      obtain ⟨l', p', fs', e, hs', hf⟩ := raiseKey_spec (hS ▸ hs) hlt none
      have hnode := node_live hs' (p := p') (v := (k, v0)) (by simp)
      refine ⟨{ c with list := l', table := LruCache.tset c.table k (some p') }, ?_, ?_, rfl⟩
      · simp only [CacheOp.run, LruCache.get, hk, e, bind_ok, hf, hnode, CacheOp.spec, hlk]; simp
      · simp only [CacheOp.spec, hlk, hoth]
        exact hraise k p U V v0 v0 l' p' fs' hS hU hV hs'
    | none =>
      obtain ⟨hlk, -⟩ := hnone k hk
      exact ⟨c, by simp [CacheOp.run, LruCache.get, hk, CacheOp.spec, hlk], by simpa only [CacheOp.spec, hlk] using h, rfl⟩
  | getMut k f =>
    cases hk : c.table k with
    | some p =>
      obtain ⟨U, V, v0, hS, hU, hV, hlk, hoth, hlt⟩ := hsome k p hk
      obtain ⟨l', p', fs', e, hs', hf⟩ := raiseKey_spec (hS ▸ hs) hlt none
      have hnode := node_live hs' (p := p') (v := (k, v0)) (by simp)
      obtain ⟨l2, e2, hs2⟩ := modify_front hs' fun kv => (kv.1, f kv.2)
      refine ⟨{ c with list := l2, table := LruCache.tset c.table k (some p') }, ?_, ?_, rfl⟩
      · simp only [CacheOp.run, LruCache.getMut, hk, e, bind_ok, hf, hnode, CacheOp.spec, hlk]
        rw [show (fun x : κ × ν => match x with | (k, v) => (k, f v)) = fun kv => (kv.1, f kv.2) from rfl, e2]
        simp
      · simp only [CacheOp.spec, hlk, hoth]
        exact hraise k p U V v0 (f v0) l2 p' fs' hS hU hV hs2
    | none =>
      obtain ⟨hlk, -⟩ := hnone k hk
      exact ⟨c, by simp [CacheOp.run, LruCache.getMut, hk, CacheOp.spec, hlk], by simpa only [CacheOp.spec, hlk] using h, rfl⟩
  | lookup k =>
    cases hk : c.table k with
    | some p =>
      obtain ⟨U, V, v0, hS, hU, hV, hlk, hoth, hlt⟩ := hsome k p hk
      have hnode := node_live hs (p := p) (v := (k, v0)) (by rw [hS]; simp)
      refine ⟨c, ?_, by simpa only [CacheOp.spec] using h, rfl⟩
      simp only [CacheOp.run, LruCache.lookup, hk, hnode, bind_ok, CacheOp.spec, hlk]; simp
    | none =>
      obtain ⟨hlk, -⟩ := hnone k hk
      exact ⟨c, by simp [CacheOp.run, LruCache.lookup, hk, CacheOp.spec, hlk], by simpa only [CacheOp.spec] using h, rfl⟩
  | remove k =>
    cases hk : c.table k with
    | some p =>
      obtain ⟨U, V, v0, hS, hU, hV, hlk, hoth, hlt⟩ := hsome k p hk
      obtain ⟨l', e, hs', -⟩ := removeAt_mid (hS ▸ hs)
      refine ⟨{ c with list := l', table := LruCache.tset c.table k none }, ?_, ?_, rfl⟩
      · simp only [CacheOp.run, LruCache.remove, hk, e, bind_ok, CacheOp.spec, hlk]; simp
      · simp only [CacheOp.spec, hoth]
        subst hS
        refine ⟨⟨_, _, hs', rfl, ?_⟩, ?_, ?_, hpos, hsm⟩
        · intro k' q
          simp only [LruCache.tset]
          by_cases hkk : k' = k
          · subst hkk
            simp only [if_true, reduceCtorEq, List.mem_append, false_iff, not_exists, not_or]
            exact fun v' => ⟨fun hm => hU _ (List.mem_map_of_mem hm) rfl, fun hm => hV _ (List.mem_map_of_mem hm) rfl⟩
          · rw [if_neg hkk, ht]; simp [hkk]
        · have := nodup_raise (U := U.map (·.2)) (V := V.map (·.2)) (k := k) (v := v0) (w := v0) (by simpa using hn)
          simp only [List.map_cons, List.nodup_cons] at this
          simpa using this.2
        · simp at hcap ⊢; omega
    | none =>
      obtain ⟨hlk, hne⟩ := hnone k hk
      refine ⟨c, by simp [CacheOp.run, LruCache.remove, hk, CacheOp.spec, hlk], ?_, rfl⟩
      have : CacheOp.others (S.map (·.2)) k = S.map (·.2) := List.filter_eq_self.2 fun e he => by simpa using hne e he
      simpa only [CacheOp.spec, this] using h

theorem cacheOps : ∀ (os : List (CacheOp κ ν)) {c : LruCache κ ν} {m : List (κ × ν)}, Caches c m →
    ∃ c', CacheOp.runAll c os = .ok (c', (CacheOp.specAll c.capacity m os).2) ∧ Caches c' (CacheOp.specAll c.capacity m os).1
  | [], c, m, h => ⟨c, rfl, h⟩
  | o :: os, c, m, h => by
    obtain ⟨c1, e1, h1, hc⟩ := cacheOp_step h o
    obtain ⟨c2, e2, h2⟩ := cacheOps os h1
    rw [hc] at e2 h2
    exact ⟨c2, by simp [CacheOp.runAll, CacheOp.specAll, e1, e2], h2⟩

theorem caches_new {cap : Nat} (h1 : 0 < cap) (h2 : cap < 2 ^ 32) : Caches (LruCache.new cap : LruCache κ ν) [] where
  seq := ⟨[], [], isSeq_new, rfl, by simp [LruCache.new]⟩
  nodup := by simp
  cap := by simp
  pos := by simp only [LruCache.new, Nat.mod_eq_of_lt h2]; exact h1
  small := by simp only [LruCache.new, Nat.mod_eq_of_lt h2, NULL]; omega

/-- C53. Any sequence of calls on a cache of capacity 1 to 2^32 - 1 never panics and returns what the recency-ordered list of
entries returns; the size is the number of entries, never above the capacity; no key occurs twice; and a final look-up of any key
returns the value in the list. -/
theorem C53_lru_cache (cap : Nat) (h1 : 0 < cap) (h2 : cap < 2 ^ 32) (os : List (CacheOp κ ν)) :
    ∃ c, CacheOp.runAll (.new cap) os = .ok (c, (CacheOp.specAll cap [] os).2) ∧
      c.len = (CacheOp.specAll cap [] os).1.length ∧ c.len ≤ cap ∧
      ((CacheOp.specAll cap [] os).1.map (·.1)).Nodup ∧
      ∀ k, c.lookup k = .ok ((CacheOp.specAll cap [] os).1.lookup k) := by
  have hc : (LruCache.new cap : LruCache κ ν).capacity = cap := Nat.mod_eq_of_lt h2
  obtain ⟨c, e, h⟩ := cacheOps os (caches_new (κ := κ) (ν := ν) h1 h2)
  obtain ⟨S, fs, hs, hS, ht⟩ := h.seq
  rw [hc] at e h hS
  have hlen : c.len = (CacheOp.specAll cap [] os).1.length := by
    unfold LruCache.len; rw [hs.len, ← hS]; simp
  refine ⟨c, e, hlen, ?_, h.nodup, ?_⟩
  · have hcc : c.capacity = cap := by
      have : ∀ (os : List (CacheOp κ ν)) (c c' : LruCache κ ν) (m outs), Caches c m → CacheOp.runAll c os = .ok (c', outs) → c'.capacity = c.capacity := by
        intro os
        induction os with
        | nil => intro c c' m outs _ he; simp [CacheOp.runAll] at he; rw [he.1]
        | cons o os ih =>
          intro c c' m outs hm he
          obtain ⟨c1, e1, h1, hc1⟩ := cacheOp_step hm o
          obtain ⟨c2, e2, h2⟩ := cacheOps os h1
          have := ih c1 c2 _ _ h1 e2
          simp [CacheOp.runAll, e1, e2] at he
          rw [← he.1, this, hc1]
      rw [this os _ _ _ _ (caches_new h1 h2) e, hc]
    have := h.cap; omega
  · intro k
    obtain ⟨c', e', -, -⟩ := cacheOp_step h (.lookup k)
    simp only [CacheOp.run, CacheOp.spec] at e'
    cases hl : c.lookup k with
    | error x => rw [hl, bind_error] at e'; exact absurd e' (by simp)
    | ok v => rw [hl, bind_ok] at e'; simp at e'; rw [← e'.2]

/-- a history in which 2 is the least recently used key when 3 arrives, although 1 was put first and 2 was looked up last -/
example : CacheOp.specAll 2 [] [.put 1 10, .put 2 20, CacheOp.get 1, .lookup 2, .put 3 30, .getMut 1 (· + 1), .remove 3] =
    ([(1, 11)], [none, none, some 10, some 20, none, some 10, some 30]) := by
  decide

/-- C54 is false: on a cache of capacity 0 every `put` panics. -/
theorem C54_false (k : κ) (v : ν) : (LruCache.new 0 : LruCache κ ν).put k v = .error .index := by
  rfl

/-- the capacity is stored as `u32`, so a multiple of 2^32 is a capacity of 0 -/
theorem C54_capacity_wraps (n : Nat) (k : κ) (v : ν) : (LruCache.new (n * 2 ^ 32) : LruCache κ ν).put k v = .error .index := by
  have : (LruCache.new (n * 2 ^ 32) : LruCache κ ν) = LruCache.new 0 := by simp [LruCache.new]
  rw [this]; rfl

/-- C54, the part that holds: with capacity 0 all other calls are harmless. -/
theorem C54_other_calls_partial (k : κ) (f : ν → ν) :
    (LruCache.new 0 : LruCache κ ν).get k = .ok (.new 0, none) ∧ (LruCache.new 0 : LruCache κ ν).getMut k f = .ok (.new 0, none) ∧
      (LruCache.new 0 : LruCache κ ν).lookup k = .ok none ∧ (LruCache.new 0 : LruCache κ ν).remove k = .ok (.new 0, none) :=
  ⟨rfl, rfl, rfl, rfl⟩

end
end Adhoc
