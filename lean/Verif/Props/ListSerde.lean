import Verif.Model.ListSerde
import Verif.Proofs.Bincode
import Verif.Proofs.Values
import Verif.Props.Lists

/-! # C62: the linked list through bincode -/

namespace Adhoc
open Bincode

section
variable {α : Type}

/-- the pointers are 32-bit numbers -/
structure Narrow (l : LinkedList α) : Prop where
  mem : ∀ n ∈ l.memory, n.left < 2 ^ 32 ∧ n.right < 2 ^ 32
  front : l.front < 2 ^ 32
  rear : l.rear < 2 ^ 32
  pool : l.pool < 2 ^ 32

theorem null_lt : NULL < 2 ^ 32 := by decide

theorem narrow_new : Narrow (.new : LinkedList α) := ⟨by simp [LinkedList.new], null_lt, null_lt, null_lt⟩

theorem ens_node {l : LinkedList α} (H : Narrow l) (p : Nat) : Ens (l.node p) (fun n => n.left < 2 ^ 32 ∧ n.right < 2 ^ 32) := by
  intro n h
  unfold LinkedList.node idx at h
  split at h
  · rename_i m e
    obtain rfl := Except.ok.inj h
    exact H.mem _ (List.mem_of_getElem? e)
  · cases h

theorem ens_modify {l : LinkedList α} (H : Narrow l) (p : Nat) (f : Node α → Node α)
    (hf : ∀ n : Node α, n.left < 2 ^ 32 ∧ n.right < 2 ^ 32 → (f n).left < 2 ^ 32 ∧ (f n).right < 2 ^ 32) : Ens (l.modify p f) Narrow := by
  unfold LinkedList.modify
  refine Ens.bind (ens_node H p) fun n hn => ?_
  intro l' h
  unfold setIdx at h
  split at h
  · obtain rfl := Except.ok.inj h
    refine ⟨?_, H.front, H.rear, H.pool⟩
    intro m hm
    rcases List.mem_or_eq_of_mem_set hm with hm | rfl
    · exact H.mem m hm
    · exact hf n hn
  · cases h

theorem ens_allocate {l : LinkedList α} (H : Narrow l) (x : α) : Ens (l.allocate x) (fun r => Narrow r.1 ∧ r.2 < 2 ^ 32) := by
  unfold LinkedList.allocate
  split
  · refine Ens.ok ⟨⟨?_, H.front, H.rear, H.pool⟩, Nat.mod_lt _ (by norm_num)⟩
    intro m hm
    rcases List.mem_append.1 hm with hm | hm
    · exact H.mem m hm
    · obtain rfl := List.mem_singleton.1 hm
      exact ⟨null_lt, null_lt⟩
  · refine Ens.bind (ens_node H _) fun n hn => Ens.bind (P := Narrow) ?_ fun l1 h1 => Ens.bind (P := Narrow) ?_ fun l2 h2 => Ens.ok ⟨h2, H.pool⟩
    · exact ens_modify (l := { l with pool := n.right }) ⟨H.mem, H.front, H.rear, hn.2⟩ _ _ fun n hn => hn
    · exact ens_modify h1 _ _ fun n _ => ⟨null_lt, null_lt⟩

theorem ens_free {l : LinkedList α} (H : Narrow l) {p : Nat} (hp : p < 2 ^ 32) : Ens (l.free p) (fun r => Narrow r.1) := by
  unfold LinkedList.free
  refine Ens.bind (ens_modify H _ _ fun n _ => ⟨null_lt, H.pool⟩) fun l1 h1 => ?_
  have h1' : Narrow { l1 with pool := p } := ⟨h1.mem, h1.front, h1.rear, hp⟩
  refine Ens.bind (ens_node h1' _) fun n _ => Ens.bind (ens_modify h1' _ _ fun n hn => hn) fun l2 h2 => Ens.ok h2

theorem setChild_narrow {p : Nat} (hp : p < 2 ^ 32) (d : Dir) (n : Node α) (hn : n.left < 2 ^ 32 ∧ n.right < 2 ^ 32) :
    (n.setChild d p).left < 2 ^ 32 ∧ (n.setChild d p).right < 2 ^ 32 := by
  cases d
  · exact ⟨hp, hn.2⟩
  · exact ⟨hn.1, hp⟩

theorem child_narrow {d : Dir} {n : Node α} (hn : n.left < 2 ^ 32 ∧ n.right < 2 ^ 32) : n.child d < 2 ^ 32 := by
  cases d
  · exact hn.1
  · exact hn.2

theorem ens_insertAt {l : LinkedList α} (H : Narrow l) {node : Nat} (hnode : node < 2 ^ 32) (d : Dir) (x : α) : Ens (l.insertAt node d x) Narrow := by
  unfold LinkedList.insertAt
  split
  · refine Ens.bind (ens_allocate H x) fun r hr => Ens.bind (ens_modify hr.1 _ _ fun n _ => ⟨hr.2, hr.2⟩) fun l1 h1 => Ens.ok ?_
    exact ⟨h1.mem, hr.2, hr.2, h1.pool⟩
  · split
    · exact Ens.ok H
    · refine Ens.bind (ens_allocate H x) fun r hr => Ens.bind (ens_node hr.1 _) fun n hn =>
        Ens.bind (ens_modify hr.1 _ _ (setChild_narrow hr.2 d)) fun l1 h1 =>
        Ens.bind (ens_modify h1 _ _ (setChild_narrow hr.2 d.flip)) fun l2 h2 =>
        Ens.bind (ens_modify h2 _ _ (setChild_narrow hnode d.flip)) fun l3 h3 =>
        Ens.bind (ens_modify h3 _ _ (setChild_narrow (child_narrow hn) d)) fun l4 h4 => Ens.ok ?_
      have key : ∀ (a b : Prop) [Decidable a] [Decidable b] (l5 : LinkedList α), Narrow l5 → Narrow (if a then { l5 with front := r.2 } else l5) := by
        intro a b _ _ l5 h5
        split
        · exact ⟨h5.mem, hr.2, h5.rear, h5.pool⟩
        · exact h5
      have key' : ∀ (a : Prop) [Decidable a] (l5 : LinkedList α), Narrow l5 → Narrow (if a then { l5 with rear := r.2 } else l5) := by
        intro a _ l5 h5
        split
        · exact ⟨h5.mem, h5.front, hr.2, h5.pool⟩
        · exact h5
      have := key' (node = (if node = l4.front ∧ d = .left then { l4 with front := r.2 } else l4).rear ∧ d = .right) _ (key (node = l4.front ∧ d = .left) True l4 h4)
      exact ⟨this.mem, this.front, this.rear, this.pool⟩

theorem ens_removeAt {l : LinkedList α} (H : Narrow l) {node : Nat} (hnode : node < 2 ^ 32) : Ens (l.removeAt node) (fun r => Narrow r.1) := by
  unfold LinkedList.removeAt
  split
  · exact Ens.ok H
  · split
    · dsimp only
      split
      · exact Ens.error
      · exact ens_free (l := { l with front := NULL, rear := NULL, len := 0 }) ⟨H.mem, null_lt, null_lt, H.pool⟩ H.rear
    · refine Ens.bind (ens_node H _) fun n hn => Ens.bind (ens_node H _) fun n' hn' =>
        Ens.bind (ens_modify H _ _ fun m hm => ⟨hm.1, hn'.2⟩) fun l1 h1 =>
        Ens.bind (ens_modify h1 _ _ fun m hm => ⟨hn.1, hm.2⟩) fun l2 h2 =>
        ?_
      have last : ∀ l4 : LinkedList α, Narrow l4 → Ens ({ l4 with len := l4.len - 1 }.free node) (fun r => Narrow r.1) := fun l4 h4 =>
        ens_free (l := { l4 with len := l4.len - 1 }) ⟨h4.mem, h4.front, h4.rear, h4.pool⟩ hnode
      have mid : ∀ l3 : LinkedList α, Narrow l3 → Ens (if node = l3.rear then do
          let n ← l3.node l3.rear
          let l ← pure { l3 with rear := n.left }
          { l with len := l.len - 1 }.free node
        else do
          let l ← pure l3
          { l with len := l.len - 1 }.free node) (fun r => Narrow r.1) := by
        intro l3 h3
        split
        · exact Ens.bind (ens_node h3 _) fun m hm => last { l3 with rear := m.left } ⟨h3.mem, h3.front, hm.1, h3.pool⟩
        · exact last l3 h3
      dsimp only
      split
      · exact Ens.bind (ens_node h2 _) fun m hm => mid { l2 with front := m.right } ⟨h2.mem, hm.2, h2.rear, h2.pool⟩
      · exact mid l2 h2

/-- the list and the pointers the client stored -/
def NarrowAll (c : LinkedList α × List Nat) : Prop := Narrow c.1 ∧ ∀ p ∈ c.2, p < 2 ^ 32

theorem NarrowAll.add {l : LinkedList α} {ps : List Nat} {p : Nat} (hl : Narrow l) (h : ∀ p ∈ ps, p < 2 ^ 32) (hp : p < 2 ^ 32) : NarrowAll (l, ps ++ [p]) := by
  refine ⟨hl, fun q hq => ?_⟩
  rcases List.mem_append.1 hq with hq | hq
  · exact h q hq
  · obtain rfl := List.mem_singleton.1 hq
    exact hp

theorem ens_idx {l : List Nat} (h : ∀ p ∈ l, p < 2 ^ 32) (i : Nat) : Ens (idx l i) (· < 2 ^ 32) := by
  intro a e
  unfold idx at e
  split at e
  · rename_i e'
    obtain rfl := Except.ok.inj e
    exact h _ (List.mem_of_getElem? e')
  · cases e

theorem ens_run {c : LinkedList α × List Nat} (H : NarrowAll c) (o : ListOp α) : Ens (o.run c) (fun r => NarrowAll r.1) := by
  obtain ⟨H, hp⟩ := H
  cases o with
  | pushFront x => exact Ens.bind (ens_insertAt H H.front _ _) fun l h => Ens.ok (.add h hp h.front)
  | pushRear x => exact Ens.bind (ens_insertAt H H.rear _ _) fun l h => Ens.ok (.add h hp h.rear)
  | insertAt id d x =>
    exact Ens.bind (ens_idx hp id) fun p hpp => Ens.bind (ens_insertAt H hpp _ _) fun l h => Ens.bind (ens_node h _) fun n hn => Ens.ok (.add h hp (child_narrow hn))
  | removeAt id => exact Ens.bind (ens_idx hp id) fun p hpp => Ens.bind (ens_removeAt H hpp) fun r h => Ens.ok ⟨h, hp⟩
  | popFront => exact Ens.bind (ens_removeAt H H.front) fun r h => Ens.ok ⟨h, hp⟩
  | popRear => exact Ens.bind (ens_removeAt H H.rear) fun r h => Ens.ok ⟨h, hp⟩

theorem ens_runAll : ∀ (os : List (ListOp α)) {c : LinkedList α × List Nat} (_ : NarrowAll c), Ens (ListOp.runAll c os) (fun r => NarrowAll r.1)
  | [], _, H => Ens.ok H
  | o :: os, _, H => Ens.bind (ens_run H o) fun _ h => Ens.bind (ens_runAll os h) fun _ h' => Ens.ok h'

/-! ## reading what was written -/

theorem good_node {d : Dec α} {e : α → List (List Byte)} (hg : ∀ a, Good d a (e a).flatten) {n : Node α} (h : n.left < 2 ^ 32 ∧ n.right < 2 ^ 32) :
    Good (Node.dec d) n (Node.enc e n).flatten := by
  have h1 : Good (decOpt d) n.data (encOpt e n.data).flatten := by
    cases hd : n.data with
    | none => exact good_none
    | some a => exact good_some (hg a)
  have h2 : Good (decVec (decU 4)) [n.left, n.right] (leBytes 8 2 ++ [n.left, n.right].flatMap (leBytes 4)) := by
    refine good_Vec (l := [n.left, n.right]) (by simp) ?_
    intro a ha
    refine good_U ?_
    simp only [List.mem_cons, List.not_mem_nil, or_false] at ha
    rcases ha with rfl | rfl
    · exact h.1
    · exact h.2
  have h3 := h1.bind (f := fun data bs => decVec (decU 4) bs >>= fun x => some (Node.mk data (x.1.getD 0 NULL) (x.1.getD 1 NULL), x.2)) (c := n)
    (bs' := leBytes 8 2 ++ [n.left, n.right].flatMap (leBytes 4)) (by
      have := h2.bind (f := fun ch bs => some (Node.mk n.data (ch.getD 0 NULL) (ch.getD 1 NULL), bs)) (good_pure n)
      rw [List.append_nil] at this
      exact this)
  have : (Node.enc e n).flatten = (encOpt e n.data).flatten ++ (leBytes 8 2 ++ [n.left, n.right].flatMap (leBytes 4)) := by
    unfold Node.enc
    rw [List.flatten_append, flatten_encVec]
    simp [encU]
  rw [this]
  exact h3

theorem good_list {d : Dec α} {e : α → List (List Byte)} (hg : ∀ a, Good d a (e a).flatten) {l : LinkedList α} (H : Narrow l) (hm : l.memory.length < 2 ^ 64)
    (hl : l.len < 2 ^ 32) : Good (LinkedList.dec d) l (LinkedList.enc e l).flatten := by
  have h1 := good_Vec hm (e := fun n => (Node.enc e n).flatten) (d := Node.dec d) (fun n hn => good_node hg (H.mem n hn))
  have hu : ∀ {n : Nat}, n < 2 ^ 32 → Good (decU 4) n (leBytes 4 n) := fun h => good_U h
  have h2 := h1.bind (f := fun memory bs => decU 4 bs >>= fun front => decU 4 front.2 >>= fun rear => decU 4 rear.2 >>= fun pool => decU 4 pool.2 >>= fun len =>
      some (LinkedList.mk memory front.1 rear.1 pool.1 len.1, len.2)) (c := l)
    (bs' := leBytes 4 l.front ++ (leBytes 4 l.rear ++ (leBytes 4 l.pool ++ (leBytes 4 l.len ++ []))))
    ((hu H.front).bind (f := fun front bs => decU 4 bs >>= fun rear => decU 4 rear.2 >>= fun pool => decU 4 pool.2 >>= fun len =>
        some (LinkedList.mk l.memory front rear.1 pool.1 len.1, len.2)) <|
      (hu H.rear).bind (f := fun rear bs => decU 4 bs >>= fun pool => decU 4 pool.2 >>= fun len =>
        some (LinkedList.mk l.memory l.front rear pool.1 len.1, len.2)) <|
      (hu H.pool).bind (f := fun pool bs => decU 4 bs >>= fun len => some (LinkedList.mk l.memory l.front l.rear pool len.1, len.2)) <|
      (hu hl).bind (f := fun len bs => some (LinkedList.mk l.memory l.front l.rear l.pool len, bs)) (good_pure l))
  have : (LinkedList.enc e l).flatten = leBytes 8 l.memory.length ++ l.memory.flatMap (fun n => (Node.enc e n).flatten) ++
      (leBytes 4 l.front ++ (leBytes 4 l.rear ++ (leBytes 4 l.pool ++ (leBytes 4 l.len ++ [])))) := by
    unfold LinkedList.enc
    simp only [List.flatten_append, flatten_encVec, flatten_encU, List.append_nil, List.append_assoc]
  rw [this]
  exact h2

/-- C62. After any history, the serialised list reads back (also with other data behind it) as a list that iterates over the same items, has
the same length, and answers any further calls with the pointers stored before as the plain sequence does. A cut-off serialisation is
rejected. The items' own serialisation `e`, `d` is only assumed to read back what it wrote. -/
theorem C62_serialised_list (os : List (ListOp α)) (hok : ListOp.AllOk .empty os) (d : Dec α) (e : α → List (List Byte))
    (hg : ∀ a, Good d a (e a).flatten) :
    ∃ l ptrs, ListOp.runAll (.new, []) os = .ok ((l, ptrs), (ListOp.specAll .empty os).2) ∧
      (∀ rest, ∃ l', LinkedList.dec d ((LinkedList.enc e l).flatten ++ rest) = some (l', rest) ∧
        l'.len = (ListOp.specAll .empty os).1.items.length ∧ l'.iter = .ok ((ListOp.specAll .empty os).1.items.map (·.2)) ∧
        ∀ os', ListOp.AllOk (ListOp.specAll .empty os).1 os' →
          ∃ c, ListOp.runAll (l', ptrs) os' = .ok (c, (ListOp.specAll (ListOp.specAll .empty os).1 os').2)) ∧
      ∀ p q, (LinkedList.enc e l).flatten = p ++ q → q ≠ [] → LinkedList.dec d p = none := by
  obtain ⟨⟨l, ptrs⟩, er, h⟩ := listOps os represents_empty hok
  obtain ⟨fs, hs⟩ := h.seq
  have hnar : Narrow l := ((ens_runAll os (c := (.new, [])) ⟨narrow_new, by simp⟩) _ er).1
  have hmem : l.memory.length ≤ NULL := hs.slots.small
  have hlen : l.len ≤ l.memory.length := by
    have h1 := hs.len
    have h2 := hs.slots.total
    rw [List.length_map] at h2
    dsimp only at h1 h2
    omega
  have hnull : NULL = 4294967295 := rfl
  have G := good_list hg hnar (by norm_num; omega) (by norm_num; omega)
  refine ⟨l, ptrs, er, fun rest => ⟨l, G.read rest, by simpa using hs.len, by simpa [Function.comp_def] using iter_spec hs, ?_⟩, G.torn⟩
  intro os' hok'
  obtain ⟨c, ec, -⟩ := listOps os' h hok'
  exact ⟨c, ec⟩

/-- the hypotheses hold for 32-bit items and the history of C52 -/
example : ∀ a : BitVec 32, Good (fun bs => (decU 4 bs).map fun (n', bs) => (BitVec.ofNat 32 n', bs)) a ((fun a : BitVec 32 => encU 4 a.toNat) a).flatten := by
  intro a
  rw [flatten_encU]
  exact good_bits (w := 4) (n := 32) rfl a

/-- two items, one of them removed: two slots, the second one free -/
example : ((ListOp.runAll (.new, []) [.pushRear 7, .pushRear 9, .popRear]).map fun r =>
    (LinkedList.enc (fun n => encU 4 n) r.1.1).flatten.map (·.toNat)) = .ok
    [2, 0, 0, 0, 0, 0, 0, 0, 1, 7, 0, 0, 0, 2, 0, 0, 0, 0, 0, 0, 0, 0, 0, 0, 0, 0, 0, 0, 0, 0, 2, 0, 0, 0, 0, 0, 0, 0, 255, 255, 255, 255, 255, 255, 255, 255,
      0, 0, 0, 0, 0, 0, 0, 0, 1, 0, 0, 0, 1, 0, 0, 0] := by decide +kernel

end
end Adhoc
