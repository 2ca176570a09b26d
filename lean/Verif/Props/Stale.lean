import Verif.Props.Lists
import Mathlib.Data.Finset.Card
import Mathlib.Data.Finset.Range

/-! # C106: pointers to removed items -/

namespace Adhoc

section
variable {α : Type}

/-- every slot is live or free -/
theorem Slots.covers {m : List (Node α)} {pool : Nat} {ps fs : List Nat} (h : Slots m pool ps fs) {a : Nat} (ha : a < m.length) (hp : a ∉ ps) :
    a ∈ fs := by
  have h1 : (ps ++ fs).toFinset ⊆ Finset.range m.length := by
    intro x hx
    exact Finset.mem_range.2 (h.bound x (List.mem_toFinset.1 hx))
  have h2 := Finset.eq_of_subset_of_card_le h1 (by
    rw [Finset.card_range, List.toFinset_card_of_nodup h.nodup, List.length_append, h.total])
  have : a ∈ (ps ++ fs).toFinset := by rw [h2]; exact Finset.mem_range.2 ha
  rw [List.mem_toFinset, List.mem_append] at this
  exact this.resolve_left hp

theorem freeChain_mem {m : List (Node α)} : ∀ {fs : List Nat} {q a : Nat}, FreeChain m q fs → a ∈ fs →
    lt m a = NULL ∧ dt m a = none ∧ (rt m a = NULL ∨ rt m a ∈ fs)
  | b :: t, q, a, h, ha => by
    rcases List.mem_cons.1 ha with rfl | ha
    · refine ⟨h.2.1.1, h.2.1.2, ?_⟩
      cases t with
      | nil => exact .inl h.2.2
      | cons c t => exact .inr (by rw [h.2.2.1]; simp)
    · obtain ⟨h1, h2, h3⟩ := freeChain_mem h.2.2 ha
      exact ⟨h1, h2, h3.imp_right fun h => List.mem_cons_of_mem _ h⟩

/-- `modify` out of range -/
theorem modify_out {l : LinkedList α} {p : Nat} (h : l.memory.length ≤ p) (f : Node α → Node α) : l.modify p f = .error .index := by
  unfold LinkedList.modify
  rw [idx_of_ge h]
  rfl

theorem node_out {l : LinkedList α} {p : Nat} (h : l.memory.length ≤ p) : l.node p = .error .index := idx_of_ge h

/-- the slot `allocate` returns, and its empty links -/
theorem allocate_fresh {l l' : LinkedList α} {ps fs : List Nat} {f : Nat} {x : α} (h : Slots l.memory l.pool ps fs) (hs : ps.length < NULL)
    (e : l.allocate x = .ok (l', f)) :
    f = (if l.pool = NULL then l.memory.length else l.pool) ∧ lt l'.memory f = NULL ∧ rt l'.memory f = NULL := by
  unfold LinkedList.allocate at e
  cases fs with
  | nil =>
    have hpool : l.pool = NULL := h.free
    have htot := h.total
    simp only [List.length_nil, Nat.add_zero] at htot
    have : ptrOf ((l.memory ++ [Node.ofItem x]).length - 1) = l.memory.length := by
      have : l.memory.length < NULL := by omega
      unfold ptrOf; unfold NULL at this
      simp; omega
    rw [if_pos hpool] at e ⊢
    simp only [this] at e
    obtain ⟨rfl, rfl⟩ := Prod.mk.inj (Except.ok.inj e)
    simp [lt, rt, Node.ofItem]
  | cons g fs =>
    have hpool : l.pool = g := h.free.1
    have hg : g < l.memory.length := h.bound g (by simp)
    have hgn : g ≠ NULL := by have := h.small; omega
    rw [hpool, if_neg hgn] at e ⊢
    obtain ⟨m1, e1, hl1, r1, l1, d1⟩ := modify_spec (l := { l with pool := rt l.memory g }) hg fun n => { n with data := some x }
    obtain ⟨m2, e2, hl2, r2, l2, d2⟩ := modify_spec (l := { l with pool := rt l.memory g, memory := m1 }) (p := g)
      (by show g < m1.length; rw [hl1]; exact hg) fun n => { n with left := NULL, right := NULL }
    simp only at r1 l1 d1 r2 l2 d2 hl1 hl2
    dsimp only at e
    rw [node_ok hg, bind_ok, e1, bind_ok, e2] at e
    obtain ⟨rfl, rfl⟩ := Prod.mk.inj (Except.ok.inj e)
    simp [l2, r2]

/-- following right pointers along a path -/
theorem walk_path {l : LinkedList α} : ∀ (t : List Nat) (a h : Nat), (∀ ab ∈ path a t h, ab.1 < l.memory.length ∧ rt l.memory ab.1 = ab.2) →
    ∀ k r, l.walk k h = .ok r → l.walk (t.length + 1 + k) a = .ok (a :: t ++ r)
  | [], a, h, H, k, r, hr => by
    obtain ⟨h1, h2⟩ := H (a, h) (by simp [path])
    rw [show ([] : List Nat).length + 1 + k = k + 1 by simp; omega, LinkedList.walk, node_ok h1, bind_ok]
    dsimp only at h2 ⊢
    rw [h2, hr]
    rfl
  | b :: t, a, h, H, k, r, hr => by
    obtain ⟨h1, h2⟩ := H (a, b) (by simp [path])
    rw [show (b :: t).length + 1 + k = (t.length + 1 + k) + 1 by simp; omega, LinkedList.walk, node_ok h1, bind_ok]
    dsimp only at h2 ⊢
    rw [h2, walk_path t b h (fun ab hab => H ab (by simp [path, hab])) k r hr]
    rfl

/-- a slot that holds no live item -/
def StalePtr (S : List (Nat × α)) (p : Nat) : Prop := p ∉ S.map (·.1)

/-- removing at a slot that is not live, when two or more items are -/
theorem removeAt_stale {l : LinkedList α} {S : List (Nat × α)} {fs : List Nat} (h : IsSeq l S fs) {p : Nat} (hp : StalePtr S p) (h2 : 2 ≤ S.length) :
    l.removeAt p = .error .index := by
  unfold LinkedList.removeAt
  have := h.len
  rw [if_neg (by omega), if_neg (by omega)]
  by_cases hlt : p < l.memory.length
  · obtain ⟨e1, -, -⟩ := freeChain_mem h.slots.free (h.slots.covers hlt hp)
    rw [node_ok hlt, bind_ok, bind_ok]
    dsimp only
    rw [e1, modify_out h.slots.small]
    rfl
  · rw [node_out (by omega)]
    rfl

/-- inserting at a slot that is not live -/
theorem insertAt_stale {l : LinkedList α} {S : List (Nat × α)} {fs : List Nat} (h : IsSeq l S fs) (hs : S.length < NULL) (hne : S ≠ []) {p : Nat}
    (hp : StalePtr S p) (hnull : p ≠ NULL) (d : Dir) (x : α) :
    if d = .right ∧ ∃ n, l.memory[p]? = some n ∧ p ≠ l.pool ∧ n.right ≠ NULL then
      ∃ l', l.insertAt p d x = .ok l' ∧ l'.len = S.length + 1 ∧ l'.iter = .ok (S.map (·.2) ++ (S.map (·.2)).head?.toList) ∧
        l'.walk l'.len l'.front = .ok (S.map (·.1) ++ (S.map (·.1)).head?.toList)
    else l.insertAt p d x = .error .index := by
  obtain ⟨l1, f, fs1, e1, s1, f1, r1, n1, d1, hle, hl1, k1⟩ := allocate_spec h.slots (by simpa using hs) x
  obtain ⟨hf, lf, rf⟩ := allocate_fresh h.slots (by simpa using hs) e1
  have hlen := h.len
  have hpos : 0 < S.length := List.length_pos_iff.2 hne
  have hf1 : f < l1.memory.length := s1.bound f (by simp)
  have start : l.insertAt p d x = (do
      let n ← l1.node p
      let adj := n.child d
      let l ← l1.modify p fun n => n.setChild d f
      let l ← l.modify adj fun n => n.setChild d.flip f
      let l ← l.modify f fun n => n.setChild d.flip p
      let l ← l.modify f fun n => n.setChild d adj
      let l := if p = l.front ∧ d = .left then { l with front := f } else l
      let l := if p = l.rear ∧ d = .right then { l with rear := f } else l
      pure { l with len := l.len + 1 }) := by
    unfold LinkedList.insertAt
    rw [if_neg (by omega), if_neg hnull, e1, bind_ok]
  -- an empty neighbour ends the call
  have bad : p < l1.memory.length → (⟨dt l1.memory p, lt l1.memory p, rt l1.memory p⟩ : Node α).child d = NULL → l.insertAt p d x = .error .index := by
    intro h1 h2
    obtain ⟨m, em, hm, -⟩ := modify_spec (l := l1) h1 fun n => n.setChild d f
    rw [start, node_ok h1, bind_ok]
    dsimp only
    rw [h2, em, bind_ok, modify_out (by show m.length ≤ NULL; rw [hm]; exact s1.small)]
    rfl
  by_cases hlt : p < l1.memory.length
  swap
  · rw [if_neg, start, node_out (by omega)]
    · rfl
    · rintro ⟨-, n, hn, -⟩
      have := (List.getElem?_eq_some_iff.1 hn).1
      omega
  by_cases hpf : p = f
  · rw [if_neg, bad hlt]
    · subst hpf
      cases d
      · exact lf
      · exact rf
    · rintro ⟨-, n, hn, hpool, -⟩
      have := (List.getElem?_eq_some_iff.1 hn).1
      rw [hpf, hf] at this hpool
      split at this
      · omega
      · rename_i hc
        rw [if_neg hc] at hpool
        exact hpool rfl
  have hps : p ∉ f :: S.map (·.1) := by
    rintro (_ | ⟨_, hm⟩)
    · exact hpf rfl
    · exact hp hm
  have hpfs := s1.covers hlt hps
  obtain ⟨c1, c2, c3⟩ := freeChain_mem s1.free hpfs
  have hold : p < l.memory.length := by
    have h3 := h.slots.total
    by_contra hc
    rw [List.length_map] at hl1 h3
    have hlen1 : l1.memory.length = l.memory.length + 1 := by omega
    have : fs = [] := List.length_eq_zero_iff.1 (by omega)
    subst this
    have hpool : l.pool = NULL := h.slots.free
    rw [if_pos hpool] at hf
    omega
  obtain ⟨kr, kl, kd⟩ := k1 p hpf hold
  have hget : l.memory[p]? = some l.memory[p] := List.getElem?_eq_getElem hold
  have hright : l.memory[p].right = rt l1.memory p := by rw [getElem_right hold, kr]
  cases d with
  | left =>
    rw [if_neg (by simp)]
    exact bad hlt c1
  | right =>
    by_cases hz : rt l1.memory p = NULL
    · rw [if_neg]
      · exact bad hlt hz
      · rintro ⟨-, n, hn, -, h4⟩
        rw [hget] at hn
        cases hn
        exact h4 (hright.trans hz)
    · rw [if_pos]
      swap
      · refine ⟨rfl, _, hget, ?_, by rw [hright]; exact hz⟩
        intro e
        rw [if_neg (by rw [← e]; exact hnull), ← e] at hf
        exact hpf hf.symm
      have hq := c3.resolve_left hz
      generalize hqe : rt l1.memory p = q at hz hq
      have hql : q < l1.memory.length := s1.bound q (by simp [hq])
      have hn1 := s1.nodup
      have hdis : ∀ a ∈ S.map (·.1), a ∉ fs1 ∧ a ≠ f := by
        intro a ha
        rw [List.cons_append, List.nodup_cons, List.nodup_append] at hn1
        exact ⟨fun hb => hn1.2.2.2 a ha a hb rfl, fun hb => hn1.1 (hb ▸ List.mem_append_left _ ha)⟩
      obtain ⟨m2, e2, hl2, r2, l2, d2⟩ := modify_spec (l := l1) hlt fun n => n.setChild .right f
      obtain ⟨m3, e3, hl3, r3, l3, d3⟩ := modify_spec (l := { l1 with memory := m2 }) (p := q) (by simpa [hl2] using hql) fun n => n.setChild .left f
      simp only at hl2 hl3
      obtain ⟨m4, e4, hl4, r4, l4, d4⟩ := modify_spec (l := { l1 with memory := m3 }) (p := f) (by simpa [hl2, hl3] using hf1) fun n => n.setChild .left p
      simp only at hl4
      obtain ⟨m5, e5, hl5, r5, l5, d5⟩ := modify_spec (l := { l1 with memory := m4 }) (p := f) (by simpa [hl2, hl3, hl4] using hf1) fun n => n.setChild .right q
      simp only [Node.setChild] at r2 l2 d2 r3 l3 d3 r4 l4 d4 r5 l5 d5 hl5
      have hfront : ¬ p = l1.front := by
        rw [f1, h.front]
        intro e
        cases S with
        | nil => exact hne rfl
        | cons a S => exact hp (by simp [e])
      have hrear : ¬ p = l1.rear := by
        rw [r1, h.rear]
        intro e
        rw [getLastD_ne _ (by simpa using hne)] at e
        exact hp (e ▸ List.getLast_mem _)
      have run : l.insertAt p .right x = .ok { l1 with memory := m5, len := l1.len + 1 } := by
        rw [start, node_ok hlt, bind_ok]
        simp only [Node.child, Dir.flip, hqe]
        rw [e2, bind_ok, e3, bind_ok, e4, bind_ok, e5, bind_ok]
        simp only [hfront, hrear, false_and, if_false]
        rfl
      have live : ∀ a ∈ S.map (·.1), rt m5 a = rt l.memory a ∧ dt m5 a = dt l.memory a ∧ a < m5.length := by
        intro a ha
        have hal : a < l.memory.length := h.slots.bound a (List.mem_append_left _ ha)
        obtain ⟨g1, g2⟩ := hdis a ha
        have n1 : a ≠ p := fun e => g1 (e ▸ hpfs)
        have n2 : a ≠ q := fun e => g1 (e ▸ hq)
        obtain ⟨q1, -, q3⟩ := k1 a g2 hal
        refine ⟨?_, ?_, by omega⟩
        · rw [r5, if_neg g2, r4, if_neg g2, r3, if_neg n2, r2, if_neg n1, q1]
        · rw [d5, if_neg g2, d4, if_neg g2, d3, if_neg n2, d2, if_neg n1, q3]
      refine ⟨_, run, by show l1.len + 1 = _; omega, ?_⟩
      cases S with
      | nil => exact absurd rfl hne
      | cons av S =>
        obtain ⟨a, v⟩ := av
        have ha := live a (by simp)
        unfold LinkedList.iter
        have hw : LinkedList.walk (⟨m5, l1.front, l1.rear, l1.pool, l1.len + 1⟩ : LinkedList α) (l1.len + 1) l1.front =
            .ok ((((a, v) :: S) ++ [(a, v)]).map (·.1)) := by
          have hfa : l1.front = a := by rw [f1, h.front]; rfl
          have hk : LinkedList.walk (⟨m5, l1.front, l1.rear, l1.pool, l1.len + 1⟩ : LinkedList α) 1 a = .ok [a] := by
            rw [LinkedList.walk, node_ok (by exact ha.2.2), bind_ok]
            rfl
          have := walk_path (l := (⟨m5, l1.front, l1.rear, l1.pool, l1.len + 1⟩ : LinkedList α)) (S.map (·.1)) a a (by
            intro ab hab
            have hc : ab ∈ cyc (((a, v) :: S).map (·.1)) := hab
            have hm := (cyc_mem hc).1
            exact ⟨(live _ hm).2.2, ((live _ hm).1).trans (h.ring ab hc).1⟩) 1 [a] hk
          rw [List.length_map] at this
          rw [n1, hlen, hfa]
          rw [hfa, n1, hlen] at this
          simpa using this
        refine ⟨?_, by simpa using hw⟩
        show (do
          let ps ← LinkedList.walk (⟨m5, l1.front, l1.rear, l1.pool, l1.len + 1⟩ : LinkedList α) (l1.len + 1) l1.front
          ps.mapM fun p => do
            let n ← LinkedList.node (⟨m5, l1.front, l1.rear, l1.pool, l1.len + 1⟩ : LinkedList α) p
            expect n.data) = _
        rw [hw, bind_ok, mapM_data]
        · simp
        · intro pv hpv
          have hpv : pv ∈ (a, v) :: S := by simp at hpv ⊢; tauto
          have hm := live pv.1 (List.mem_map_of_mem hpv)
          exact ⟨hm.2.2, hm.2.1.trans (h.data pv hpv)⟩

/-- the state after a history -/
theorem history_state {os : List (ListOp α)} (hok : ListOp.AllOk .empty os) {l : LinkedList α} {ptrs : List Nat} {outs : List (Option α)}
    (hrun : ListOp.runAll (.new, []) os = .ok ((l, ptrs), outs)) {p : Nat}
    (hp : ∀ id v, (id, v) ∈ (ListOp.specAll .empty os).1.items → ptrs[id]? ≠ some p) :
    ∃ S fs, IsSeq l S fs ∧ StalePtr S p ∧ S.length = (ListOp.specAll .empty os).1.items.length ∧
      S.map (·.2) = (ListOp.specAll .empty os).1.items.map (·.2) := by
  obtain ⟨⟨l', ptrs'⟩, e, h⟩ := listOps os represents_empty hok
  rw [hrun] at e
  obtain ⟨e1, -⟩ := Prod.mk.inj (Except.ok.inj e)
  obtain ⟨rfl, rfl⟩ := Prod.mk.inj e1
  obtain ⟨fs, hs⟩ := h.seq
  refine ⟨_, fs, hs, ?_, by simp, by simp [Function.comp_def]⟩
  intro hm
  rw [List.map_map] at hm
  obtain ⟨⟨id, v⟩, hi, he⟩ := List.mem_map.1 hm
  have hid : id < ptrs.length := by rw [show ptrs.length = _ from h.next]; exact h.bound _ hi
  refine hp id v hi ?_
  simp only [Function.comp, List.getD_eq_getElem?_getD, List.getElem?_eq_getElem hid, Option.getD_some] at he
  rw [List.getElem?_eq_getElem hid, he]

/-- C106, what `remove_at` does with a pointer `p` that belongs to no live item, after any history: nothing if the list is empty; it removes
the only item if there is one; with two or more items it panics. -/
theorem C106_remove_partial (os : List (ListOp α)) (hok : ListOp.AllOk .empty os) (l : LinkedList α) (ptrs : List Nat) (outs : List (Option α))
    (hrun : ListOp.runAll (.new, []) os = .ok ((l, ptrs), outs)) (p : Nat)
    (hp : ∀ id v, (id, v) ∈ (ListOp.specAll .empty os).1.items → ptrs[id]? ≠ some p) :
    match (ListOp.specAll .empty os).1.items.map (·.2) with
    | [] => l.removeAt p = .ok (l, none)
    | [v] => ∃ l', l.removeAt p = .ok (l', some v) ∧ l'.len = 0 ∧ l'.iter = .ok []
    | _ :: _ :: _ => l.removeAt p = .error .index := by
  obtain ⟨S, fs, hs, hst, -, hv⟩ := history_state hok hrun hp
  rw [← hv]
  match S, hs, hst with
  | [], hs, _ =>
    show l.removeAt p = _
    unfold LinkedList.removeAt
    rw [if_pos (by rw [hs.len]; rfl)]
    rfl
  | [(q, v)], hs, _ =>
    obtain ⟨l', e, hs', -⟩ := removeAt_one hs p
    exact ⟨l', e, by rw [hs'.len]; rfl, iter_spec hs'⟩
  | _ :: _ :: _, hs, hst => exact removeAt_stale hs hst (by simp)

/-- C106, what `insert_at` does with a pointer `p` that belongs to no live item, after any history that leaves items. `NULL` changes nothing and
drops the new item. An insertion to the right of a free slot that is neither the first nor the last of the free list goes through: the new
item is lost, while `len` counts it and iteration yields the first item again at the end. All other calls panic. -/
theorem C106_insert_partial (os : List (ListOp α)) (hok : ListOp.AllOk .empty os) (l : LinkedList α) (ptrs : List Nat) (outs : List (Option α))
    (hrun : ListOp.runAll (.new, []) os = .ok ((l, ptrs), outs)) (p : Nat)
    (hp : ∀ id v, (id, v) ∈ (ListOp.specAll .empty os).1.items → ptrs[id]? ≠ some p) (d : Dir) (x : α)
    (hne : (ListOp.specAll .empty os).1.items ≠ []) (hs : (ListOp.specAll .empty os).1.items.length < NULL) :
    if p = NULL then l.insertAt p d x = .ok l
    else if d = .right ∧ ∃ n, l.memory[p]? = some n ∧ p ≠ l.pool ∧ n.right ≠ NULL then
      ∃ l', l.insertAt p d x = .ok l' ∧ l'.len = (ListOp.specAll .empty os).1.items.length + 1 ∧
        l'.iter = .ok ((ListOp.specAll .empty os).1.items.map (·.2) ++ ((ListOp.specAll .empty os).1.items.map (·.2)).head?.toList)
    else l.insertAt p d x = .error .index := by
  obtain ⟨S, fs, hsq, hst, hl, hv⟩ := history_state hok hrun hp
  have hne' : S ≠ [] := by
    rintro rfl
    exact hne (List.length_eq_zero_iff.1 hl.symm)
  rw [← hl] at hs ⊢
  rw [← hv]
  split
  · rename_i hn
    unfold LinkedList.insertAt
    rw [if_neg, if_pos hn]
    · rfl
    · rw [hsq.len]
      exact fun h => hne' (List.length_eq_zero_iff.1 h)
  · rename_i hn
    have := insertAt_stale hsq hs hne' hst hn d x
    split at this
    · rename_i hc
      rw [if_pos hc]
      obtain ⟨l', h1, h2, h3, -⟩ := this
      exact ⟨l', h1, h2, h3⟩
    · rename_i hc
      rwa [if_neg hc]

end

/-- four items, of which the last one is left; the free list is 2, 1, 0 -/
def staleHistory : List (ListOp Nat) :=
  [.pushRear 10, .pushRear 20, .pushRear 30, .pushRear 40, .removeAt 0, .removeAt 1, .removeAt 2]

/-- C106 is false: after `staleHistory` the items 0, 1, 2 are removed and 3 is left. Removing at the pointer of item 1 removes item 3, and
inserting 50 to the right of it gives a list of length 2 which lists 40 twice. -/
theorem C106_false : ∃ l ptrs outs, ListOp.runAll (.new, []) staleHistory = .ok ((l, ptrs), outs) ∧ l.iter = .ok [40] ∧
    (∃ p, ptrs[1]? = some p ∧ (l.removeAt p).map (·.2) = .ok (some 40) ∧
      ((l.insertAt p .right 50).bind fun l' => l'.iter) = .ok [40, 40]) := by
  refine ⟨_, _, _, rfl, by decide +kernel, 1, by decide +kernel, by decide +kernel, by decide +kernel⟩

/-- the hypotheses hold for this history and the pointers 0, 1, 2 and those never given out; 0, 2 and 7 are refused, and with two items left so
is every removal -/
example : ListOp.AllOk .empty staleHistory ∧ (ListOp.specAll .empty staleHistory).1.items = [(3, 40)] := by
  simp [staleHistory, ListOp.AllOk, ListOp.Ok, ListOp.spec, ListOp.specAll, ListOp.Seq.empty, ListOp.Seq.grow, NULL]

example : (ListOp.runAll (.new, []) staleHistory).bind (fun r => r.1.1.insertAt 0 .right 50) = .error .index ∧
    (ListOp.runAll (.new, []) staleHistory).bind (fun r => r.1.1.insertAt 2 .right 50) = .error .index ∧
    (ListOp.runAll (.new, []) staleHistory).bind (fun r => r.1.1.insertAt 1 .left 50) = .error .index ∧
    (ListOp.runAll (.new, []) staleHistory).bind (fun r => r.1.1.insertAt 7 .right 50) = .error .index ∧
    (ListOp.runAll (.new, []) (staleHistory ++ [.pushRear 60])).bind (fun r => r.1.1.removeAt 1) = .error .index := by decide +kernel

end Adhoc
