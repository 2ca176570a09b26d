import Verif.Model.LinkedList
import Verif.Proofs.Basic
import Mathlib.Data.List.Perm.Basic
import Mathlib.Data.List.Nodup
import Mathlib.Data.List.Basic

/-! The circular doubly linked list with a free list, as a sequence of pointer/value pairs. -/

namespace Adhoc

/-! ## cyclic neighbours of a list -/

/-- the pairs of neighbours on the path `a, t..., h` -/
def path : Nat → List Nat → Nat → List (Nat × Nat)
  | a, [], h => [(a, h)]
  | a, b :: t, h => (a, b) :: path b t h

/-- the pairs of neighbours on a cycle -/
def cyc : List Nat → List (Nat × Nat)
  | [] => []
  | a :: t => path a t a

theorem path_append (u : List Nat) (x : Nat) (v : List Nat) (h : Nat) : ∀ a, path a (u ++ x :: v) h = path a u x ++ path x v h := by
  induction u with
  | nil => intro a; simp [path]
  | cons b u ih => intro a; simp [path, ih]

theorem cyc_rotate (u v : List Nat) : (cyc (u ++ v)).Perm (cyc (v ++ u)) := by
  cases u with
  | nil => simp
  | cons a u =>
    cases v with
    | nil => simp
    | cons b v =>
      simp only [List.cons_append, cyc]
      rw [path_append, path_append]
      exact List.perm_append_comm

theorem path_last (a : Nat) (t : List Nat) : ∃ A, ∀ q, path a t q = A ++ [((a :: t).getLast (by simp), q)] := by
  induction t generalizing a with
  | nil => exact ⟨[], fun q => rfl⟩
  | cons b t ih =>
    obtain ⟨A, hA⟩ := ih b
    refine ⟨(a, b) :: A, fun q => ?_⟩
    simp [path, hA]

/-- inserting `p` between two cyclic neighbours -/
theorem cyc_insert (u v : List Nat) (p : Nat) (h : v ++ u ≠ []) :
    ∃ A, (cyc (u ++ p :: v)).Perm (((v ++ u).getLast h, p) :: (p, (v ++ u).head h) :: A) ∧
      (cyc (u ++ v)).Perm (((v ++ u).getLast h, (v ++ u).head h) :: A) := by
  have h1 : (cyc (u ++ p :: v)).Perm (cyc (p :: (v ++ u))) := by simpa using cyc_rotate u (p :: v)
  have h2 := cyc_rotate u v
  obtain ⟨w, hw⟩ : ∃ w, w = v ++ u := ⟨_, rfl⟩
  subst_vars
  generalize v ++ u = w at *
  cases w with
  | nil => exact absurd rfl h
  | cons n t =>
    obtain ⟨A, hA⟩ := path_last n t
    refine ⟨A, ?_, ?_⟩
    · refine h1.trans ?_
      simp only [cyc, path, hA, List.head_cons]
      refine (List.Perm.cons _ (List.perm_append_singleton _ _)).trans ?_
      exact List.Perm.swap _ _ _
    · refine h2.trans ?_
      simp only [cyc, hA, List.head_cons]
      exact List.perm_append_singleton _ _

theorem path_fst (t : List Nat) (q : Nat) : ∀ a, (path a t q).map (·.1) = a :: t := by
  induction t with
  | nil => intro a; rfl
  | cons b t ih => intro a; simp [path, ih]

theorem path_snd (t : List Nat) (q : Nat) : ∀ a, (path a t q).map (·.2) = t ++ [q] := by
  induction t with
  | nil => intro a; rfl
  | cons b t ih => intro a; simp [path, ih]

theorem cyc_fst (l : List Nat) : (cyc l).map (·.1) = l := by
  cases l with
  | nil => rfl
  | cons a t => exact path_fst t a a

theorem cyc_snd (l : List Nat) : ((cyc l).map (·.2)).Perm l := by
  cases l with
  | nil => rfl
  | cons a t => simp only [cyc, path_snd]; exact List.perm_append_singleton _ _

/-! ## the memory as three arrays -/

section
variable {α : Type}

/-- right pointer of a slot -/
def rt (m : List (Node α)) (a : Nat) : Nat := (m[a]?.map (·.right)).getD 0
/-- left pointer of a slot -/
def lt (m : List (Node α)) (a : Nat) : Nat := (m[a]?.map (·.left)).getD 0
/-- contents of a slot -/
def dt (m : List (Node α)) (a : Nat) : Option α := m[a]?.bind (·.data)

theorem node_ok {l : LinkedList α} {p : Nat} (h : p < l.memory.length) :
    l.node p = .ok { data := dt l.memory p, left := lt l.memory p, right := rt l.memory p } := by
  unfold LinkedList.node
  rw [idx_of_lt h]
  simp [dt, lt, rt, List.getElem?_eq_getElem h]

theorem modify_ok {l : LinkedList α} {p : Nat} (h : p < l.memory.length) (f : Node α → Node α) :
    l.modify p f = .ok { l with memory := l.memory.set p (f l.memory[p]) } := by
  unfold LinkedList.modify
  rw [idx_of_lt h, bind_ok, setIdx_of_lt h]
  rfl

theorem rt_set {m : List (Node α)} {p : Nat} (h : p < m.length) (n : Node α) (a : Nat) :
    rt (m.set p n) a = if a = p then n.right else rt m a := by
  unfold rt
  rw [List.getElem?_set]
  by_cases e : p = a
  · subst e; simp [h]
  · rw [if_neg e, if_neg (fun x => e x.symm)]

theorem lt_set {m : List (Node α)} {p : Nat} (h : p < m.length) (n : Node α) (a : Nat) :
    lt (m.set p n) a = if a = p then n.left else lt m a := by
  unfold lt
  rw [List.getElem?_set]
  by_cases e : p = a
  · subst e; simp [h]
  · rw [if_neg e, if_neg (fun x => e x.symm)]

theorem dt_set {m : List (Node α)} {p : Nat} (h : p < m.length) (n : Node α) (a : Nat) :
    dt (m.set p n) a = if a = p then n.data else dt m a := by
  unfold dt
  rw [List.getElem?_set]
  by_cases e : p = a
  · subst e; simp [h]
  · rw [if_neg e, if_neg (fun x => e x.symm)]

theorem getElem_right {m : List (Node α)} {p : Nat} (h : p < m.length) : m[p].right = rt m p := by
  simp [rt, List.getElem?_eq_getElem h]
theorem getElem_left {m : List (Node α)} {p : Nat} (h : p < m.length) : m[p].left = lt m p := by
  simp [lt, List.getElem?_eq_getElem h]
theorem getElem_data {m : List (Node α)} {p : Nat} (h : p < m.length) : m[p].data = dt m p := by
  simp [dt, List.getElem?_eq_getElem h]

theorem modify_spec {l : LinkedList α} {p : Nat} (h : p < l.memory.length) (f : Node α → Node α) :
    ∃ m, l.modify p f = .ok { l with memory := m } ∧ m.length = l.memory.length ∧
      (∀ a, rt m a = if a = p then (f ⟨dt l.memory p, lt l.memory p, rt l.memory p⟩).right else rt l.memory a) ∧
      (∀ a, lt m a = if a = p then (f ⟨dt l.memory p, lt l.memory p, rt l.memory p⟩).left else lt l.memory a) ∧
      (∀ a, dt m a = if a = p then (f ⟨dt l.memory p, lt l.memory p, rt l.memory p⟩).data else dt l.memory a) := by
  have hn : (⟨dt l.memory p, lt l.memory p, rt l.memory p⟩ : Node α) = l.memory[p] := by
    rw [← getElem_right h, ← getElem_left h, ← getElem_data h]
  rw [hn]
  exact ⟨_, modify_ok h f, by simp, rt_set h _, lt_set h _, dt_set h _⟩

/-- the free list from `p`; a free slot holds nothing and has no left neighbour -/
def FreeChain (m : List (Node α)) : Nat → List Nat → Prop
  | p, [] => p = NULL
  | p, a :: t => p = a ∧ (lt m a = NULL ∧ dt m a = none) ∧ FreeChain m (rt m a) t

theorem freeChain_congr {m m' : List (Node α)} : ∀ (fs : List Nat) (p : Nat), (∀ a ∈ fs, rt m' a = rt m a ∧ lt m' a = lt m a ∧ dt m' a = dt m a) →
    FreeChain m p fs → FreeChain m' p fs
  | [], _, _, h => h
  | a :: t, p, hr, h => ⟨h.1, by rw [(hr a (by simp)).2.1, (hr a (by simp)).2.2]; exact h.2.1,
    by rw [(hr a (by simp)).1]; exact freeChain_congr t _ (fun b hb => hr b (by simp [hb])) h.2.2⟩

/-- slots: `ps` live in order, `fs` free in order -/
structure Slots (m : List (Node α)) (pool : Nat) (ps fs : List Nat) : Prop where
  nodup : (ps ++ fs).Nodup
  bound : ∀ a ∈ ps ++ fs, a < m.length
  total : m.length = ps.length + fs.length
  small : m.length ≤ NULL
  free : FreeChain m pool fs

/-- the list holds the pointer/value sequence `S`, with free slots `fs` -/
structure IsSeq (l : LinkedList α) (S : List (Nat × α)) (fs : List Nat) : Prop where
  slots : Slots l.memory l.pool (S.map (·.1)) fs
  ring : ∀ ab ∈ cyc (S.map (·.1)), rt l.memory ab.1 = ab.2 ∧ lt l.memory ab.2 = ab.1
  data : ∀ pv ∈ S, dt l.memory pv.1 = some pv.2
  front : l.front = (S.map (·.1)).headD NULL
  rear : l.rear = (S.map (·.1)).getLastD NULL
  len : l.len = S.length

theorem isSeq_new : IsSeq (α := α) .new [] [] where
  slots := ⟨by simp, by simp, rfl, by simp [LinkedList.new], rfl⟩
  ring := by simp [cyc]
  data := by simp
  front := rfl
  rear := rfl
  len := rfl

/-- what `allocate` does to the slots -/
theorem allocate_spec {l : LinkedList α} {ps fs : List Nat} (h : Slots l.memory l.pool ps fs) (hs : ps.length < NULL) (item : α) :
    ∃ l' p fs', l.allocate item = .ok (l', p) ∧ Slots l'.memory l'.pool (p :: ps) fs' ∧
      l'.front = l.front ∧ l'.rear = l.rear ∧ l'.len = l.len ∧ dt l'.memory p = some item ∧
      l.memory.length ≤ l'.memory.length ∧ l'.memory.length = max l.memory.length (ps.length + 1) ∧
      (∀ a, a ≠ p → a < l.memory.length → rt l'.memory a = rt l.memory a ∧ lt l'.memory a = lt l.memory a ∧ dt l'.memory a = dt l.memory a) := by
  have hn := h.nodup
  cases fs with
  | nil =>
    have hpool : l.pool = NULL := h.free
    have htot := h.total
    simp only [List.length_nil, Nat.add_zero] at htot
    have hlt : l.memory.length < NULL := by omega
    have hget : ∀ a, a < l.memory.length → (l.memory ++ [Node.ofItem item])[a]? = l.memory[a]? := fun a ha =>
      List.getElem?_append_left ha
    have hnew : (l.memory ++ [Node.ofItem item])[l.memory.length]? = some (Node.ofItem item) := by simp
    refine ⟨{ l with memory := l.memory ++ [Node.ofItem item] }, l.memory.length, [], ?_, ⟨?_, ?_, ?_, ?_, hpool⟩, rfl, rfl, rfl, ?_, ?_, ?_, ?_⟩
    · unfold LinkedList.allocate
      rw [if_pos hpool]
      have : ptrOf ((l.memory ++ [Node.ofItem item]).length - 1) = l.memory.length := by
        unfold ptrOf; unfold NULL at hlt
        simp; omega
      simp only [this]; rfl
    · simp only [List.append_nil, List.nodup_cons] at hn ⊢
      refine ⟨fun hm => ?_, hn⟩
      exact absurd (h.bound _ (by simpa using hm)) (by omega)
    · intro a ha
      simp at ha
      rcases ha with rfl | ha
      · simp
      · have := h.bound a (by simpa using ha); simp; omega
    · simp [htot]
    · simp; omega
    · simp [dt, Node.ofItem]
    · simp
    · simp [htot]
    · intro a _ ha
      simp only [rt, lt, dt, hget a ha]; simp
  | cons f fs =>
    have hpool : l.pool = f := h.free.1
    have hfree := h.free.2.2
    have hf : f < l.memory.length := h.bound f (by simp)
    have hfn : f ≠ NULL := by have := h.small; omega
    rw [List.nodup_append] at hn
    obtain ⟨hn1, hn2, hn3⟩ := hn
    rw [List.nodup_cons] at hn2
    obtain ⟨m1, e1, hl1, r1, l1, d1⟩ := modify_spec (l := { l with pool := rt l.memory f }) hf fun n => { n with data := some item }
    obtain ⟨m2, e2, hl2, r2, l2, d2⟩ := modify_spec (l := { l with pool := rt l.memory f, memory := m1 }) (p := f)
      (by show f < m1.length; rw [hl1]; exact hf) fun n => { n with left := NULL, right := NULL }
    simp only at r1 l1 d1 r2 l2 d2 hl1 hl2
    have hlen : m2.length = l.memory.length := by omega
    refine ⟨{ l with memory := m2, pool := rt l.memory f }, f, fs, ?_, ⟨?_, ?_, ?_, ?_, ?_⟩, rfl, rfl, rfl, ?_, ?_, ?_, ?_⟩
    · unfold LinkedList.allocate
      rw [if_neg (by rw [hpool]; exact hfn)]
      dsimp only
      rw [hpool, node_ok hf, bind_ok, e1, bind_ok, e2]
      rfl
    · simp only [List.cons_append, List.nodup_cons, List.mem_append, List.nodup_append]
      refine ⟨?_, hn1, hn2.2, fun a ha b hb => hn3 a ha b (by simp [hb])⟩
      rintro (h1 | h1)
      · exact hn3 f h1 f (by simp) rfl
      · exact hn2.1 h1
    · intro a ha
      have : a < l.memory.length := h.bound a (by simp at ha ⊢; tauto)
      simpa [hlen] using this
    · have := h.total; simp [hlen] at this ⊢; omega
    · have := h.small; simpa [hlen] using this
    · apply freeChain_congr fs _ _ hfree
      intro a ha
      have hne : a ≠ f := fun e => hn2.1 (e ▸ ha)
      simp only [r2, r1, l2, l1, d2, d1, if_neg hne, and_self]
    · show dt m2 f = _
      rw [d2, if_pos rfl, d1, if_pos rfl]
    · simp [hlen]
    · have := h.total; simp [hlen] at this ⊢; omega
    · intro a hne ha
      simp only [r2, r1, l2, l1, d2, d1, if_neg hne, and_self]

/-- what `free` does to the slots -/
theorem free_spec {l : LinkedList α} {ps fs : List Nat} {p : Nat} (h : Slots l.memory l.pool (p :: ps) fs) :
    ∃ l', l.free p = .ok (l', dt l.memory p) ∧ Slots l'.memory l'.pool ps (p :: fs) ∧
      l'.front = l.front ∧ l'.rear = l.rear ∧ l'.len = l.len ∧ l'.memory.length = l.memory.length ∧
      (∀ a, a ≠ p → rt l'.memory a = rt l.memory a ∧ lt l'.memory a = lt l.memory a ∧ dt l'.memory a = dt l.memory a) := by
  have hn := h.nodup
  have hp : p < l.memory.length := h.bound p (by simp)
  obtain ⟨m1, e1, hl1, r1, l1, d1⟩ := modify_spec (l := l) hp fun n => { n with left := NULL, right := l.pool }
  have hp1 : p < m1.length := by rw [hl1]; exact hp
  obtain ⟨m2, e2, hl2, r2, l2, d2⟩ := modify_spec (l := { l with pool := p, memory := m1 }) hp1 fun n => { n with data := none }
  simp only at r1 l1 d1 r2 l2 d2 hl1 hl2
  have hlen : m2.length = l.memory.length := by omega
  simp only [List.cons_append, List.nodup_cons, List.mem_append, not_or] at hn
  refine ⟨{ l with memory := m2, pool := p }, ?_, ⟨?_, ?_, ?_, ?_, rfl, ⟨by simp [l2, l1], by simp [d2]⟩, ?_⟩, rfl, rfl, rfl, ?_, ?_⟩
  · unfold LinkedList.free
    dsimp only
    rw [e1, bind_ok, node_ok (by exact hp1), bind_ok, e2]
    simp only [bind_ok, pure_eq_ok, d1, if_true]
  · rw [List.nodup_append] at hn ⊢
    refine ⟨hn.2.1, List.nodup_cons.2 ⟨hn.1.2, hn.2.2.1⟩, ?_⟩
    intro a ha b hb
    rcases List.mem_cons.1 hb with rfl | hb
    · intro e; exact hn.1.1 (e ▸ ha)
    · exact hn.2.2.2 a ha b hb
  · intro a ha
    have : a < l.memory.length := h.bound a (by simp at ha ⊢; tauto)
    simpa [hlen] using this
  · have := h.total; simp [hlen] at this ⊢; omega
  · have := h.small; simpa [hlen] using this
  · have : rt m2 p = l.pool := by rw [r2, if_pos rfl, r1, if_pos rfl]
    show FreeChain m2 (rt m2 p) fs
    rw [this]
    apply freeChain_congr fs _ _ h.free
    intro a ha
    have hne : a ≠ p := fun e => hn.1.2 (e ▸ ha)
    simp only [r2, r1, l2, l1, d2, d1, if_neg hne, and_self]
  · simp [hlen]
  · intro a hne
    simp only [r2, r1, l2, l1, d2, d1, if_neg hne, and_self]

/-- the neighbours in a ring with a pair exchanged -/
theorem mem_fst_ne {A : List (Nat × Nat)} {x y : Nat} (h : (((x, y) :: A).map (·.1)).Nodup) : ∀ ab ∈ A, ab.1 ≠ x := by
  intro ab hab e
  simp only [List.map_cons, List.nodup_cons, List.mem_map, not_exists, not_and] at h
  exact h.1 ab hab e

theorem mem_snd_ne {A : List (Nat × Nat)} {x y : Nat} (h : (((x, y) :: A).map (·.2)).Nodup) : ∀ ab ∈ A, ab.2 ≠ y := by
  intro ab hab e
  simp only [List.map_cons, List.nodup_cons, List.mem_map, not_exists, not_and] at h
  exact h.1 ab hab e

theorem cyc_fst_nodup {l : List Nat} (h : l.Nodup) {B : List (Nat × Nat)} (hp : (cyc l).Perm B) : (B.map (·.1)).Nodup :=
  (hp.map (·.1)).nodup_iff.1 (by rw [cyc_fst]; exact h)

theorem cyc_snd_nodup {l : List Nat} (h : l.Nodup) {B : List (Nat × Nat)} (hp : (cyc l).Perm B) : (B.map (·.2)).Nodup :=
  (hp.map (·.2)).nodup_iff.1 ((cyc_snd l).nodup_iff.2 h)

theorem cyc_mem {l : List Nat} {ab : Nat × Nat} (h : ab ∈ cyc l) : ab.1 ∈ l ∧ ab.2 ∈ l := by
  constructor
  · rw [← cyc_fst l]; exact List.mem_map_of_mem h
  · exact (cyc_snd l).mem_iff.1 (List.mem_map_of_mem h)

theorem ring_insert {m m' : List (Node α)} {u v : List Nat} {p : Nat} (h : v ++ u ≠ []) (hn : (u ++ v).Nodup) (hp : p ∉ u ++ v)
    (hr : ∀ ab ∈ cyc (u ++ v), rt m ab.1 = ab.2 ∧ lt m ab.2 = ab.1)
    (r : ∀ x, x ∈ p :: (u ++ v) → rt m' x = if x = p then (v ++ u).head h else if x = (v ++ u).getLast h then p else rt m x)
    (l : ∀ x, x ∈ p :: (u ++ v) → lt m' x = if x = p then (v ++ u).getLast h else if x = (v ++ u).head h then p else lt m x) :
    ∀ ab ∈ cyc (u ++ p :: v), rt m' ab.1 = ab.2 ∧ lt m' ab.2 = ab.1 := by
  obtain ⟨A, h1, h2⟩ := cyc_insert u v p h
  have hm1 : (v ++ u).getLast h ∈ u ++ v := by
    have := List.getLast_mem h; simp only [List.mem_append] at this ⊢; tauto
  have hm2 : (v ++ u).head h ∈ u ++ v := by
    have := List.head_mem h; simp only [List.mem_append] at this ⊢; tauto
  have n1 := mem_fst_ne (cyc_fst_nodup hn h2)
  have n2 := mem_snd_ne (cyc_snd_nodup hn h2)
  intro ab hab
  rcases List.mem_cons.1 (h1.mem_iff.1 hab) with rfl | hab
  · refine ⟨?_, ?_⟩
    · rw [r _ (by simp only [List.mem_cons]; right; exact hm1), if_neg (ne_of_mem_of_not_mem hm1 hp), if_pos rfl]
    · rw [l _ (by simp), if_pos rfl]
  rcases List.mem_cons.1 hab with rfl | hab
  · refine ⟨?_, ?_⟩
    · rw [r _ (by simp), if_pos rfl]
    · rw [l _ (by simp only [List.mem_cons]; right; exact hm2), if_neg (ne_of_mem_of_not_mem hm2 hp), if_pos rfl]
  · have hc : ab ∈ cyc (u ++ v) := h2.mem_iff.2 (by simp [hab])
    have := cyc_mem hc
    rw [r _ (List.mem_cons_of_mem _ this.1), l _ (List.mem_cons_of_mem _ this.2), if_neg (ne_of_mem_of_not_mem this.1 hp), if_neg (n1 _ hab),
      if_neg (ne_of_mem_of_not_mem this.2 hp), if_neg (n2 _ hab)]
    exact hr ab hc

theorem ring_remove {m m' : List (Node α)} {u v : List Nat} {p : Nat} (h : v ++ u ≠ []) (hn : (u ++ p :: v).Nodup)
    (hr : ∀ ab ∈ cyc (u ++ p :: v), rt m ab.1 = ab.2 ∧ lt m ab.2 = ab.1)
    (r : ∀ x, x ≠ p → rt m' x = if x = (v ++ u).getLast h then (v ++ u).head h else rt m x)
    (l : ∀ x, x ≠ p → lt m' x = if x = (v ++ u).head h then (v ++ u).getLast h else lt m x) :
    ∀ ab ∈ cyc (u ++ v), rt m' ab.1 = ab.2 ∧ lt m' ab.2 = ab.1 := by
  obtain ⟨A, h1, h2⟩ := cyc_insert u v p h
  have hp : p ∉ u ++ v := by
    have : (p :: (u ++ v)).Nodup := (List.perm_middle.nodup_iff).1 hn
    exact (List.nodup_cons.1 this).1
  have hnn : (u ++ v).Nodup := by
    have : (p :: (u ++ v)).Nodup := (List.perm_middle.nodup_iff).1 hn
    exact (List.nodup_cons.1 this).2
  have n1 := mem_fst_ne (cyc_fst_nodup hnn h2)
  have n2 := mem_snd_ne (cyc_snd_nodup hnn h2)
  have hm1 : (v ++ u).getLast h ≠ p := by
    intro e; apply hp; rw [← e]
    have := List.getLast_mem h; simp only [List.mem_append] at this ⊢; tauto
  have hm2 : (v ++ u).head h ≠ p := by
    intro e; apply hp; rw [← e]
    have := List.head_mem h; simp only [List.mem_append] at this ⊢; tauto
  intro ab hab
  have hmem := cyc_mem hab
  rcases List.mem_cons.1 (h2.mem_iff.1 hab) with rfl | hA
  · rw [r _ hm1, l _ hm2, if_pos rfl, if_pos rfl]; simp
  · rw [r _ (fun e => hp (e ▸ hmem.1)), l _ (fun e => hp (e ▸ hmem.2)), if_neg (n1 _ hA), if_neg (n2 _ hA)]
    exact hr ab (h1.mem_iff.2 (by simp [hA]))

/-- the ring neighbours of the position between `u` and `v` -/
theorem ring_gap {m : List (Node α)} {u v : List Nat} (h : v ++ u ≠ [])
    (hr : ∀ ab ∈ cyc (u ++ v), rt m ab.1 = ab.2 ∧ lt m ab.2 = ab.1) :
    rt m ((v ++ u).getLast h) = (v ++ u).head h ∧ lt m ((v ++ u).head h) = (v ++ u).getLast h := by
  obtain ⟨A, _, h2⟩ := cyc_insert u v 0 h
  exact hr _ (h2.mem_iff.2 (List.mem_cons_self ..))

/-- the ring neighbours of the element between `u` and `v` -/
theorem ring_mid {m : List (Node α)} {u v : List Nat} {p : Nat} (h : v ++ u ≠ [])
    (hr : ∀ ab ∈ cyc (u ++ p :: v), rt m ab.1 = ab.2 ∧ lt m ab.2 = ab.1) :
    rt m p = (v ++ u).head h ∧ lt m p = (v ++ u).getLast h := by
  obtain ⟨A, h1, _⟩ := cyc_insert u v p h
  exact ⟨(hr _ (h1.mem_iff.2 (List.mem_cons_of_mem _ (List.mem_cons_self ..)))).1, (hr _ (h1.mem_iff.2 (List.mem_cons_self ..))).2⟩

/-- reordering the live slots -/
theorem Slots.perm {m : List (Node α)} {pool : Nat} {ps ps' fs : List Nat} (h : Slots m pool ps fs) (hp : ps.Perm ps') : Slots m pool ps' fs where
  nodup := ((hp.append_right fs).nodup_iff).1 h.nodup
  bound a ha := h.bound a ((hp.append_right fs).mem_iff.2 ha)
  total := by rw [h.total, hp.length_eq]
  small := h.small
  free := h.free

/-- memory changed only at live slots -/
theorem Slots.congr {m m' : List (Node α)} {pool : Nat} {ps fs : List Nat} (h : Slots m pool ps fs) (hl : m'.length = m.length)
    (hr : ∀ a, a ∉ ps → rt m' a = rt m a ∧ lt m' a = lt m a ∧ dt m' a = dt m a) : Slots m' pool ps fs where
  nodup := h.nodup
  bound a ha := by rw [hl]; exact h.bound a ha
  total := by rw [hl]; exact h.total
  small := by rw [hl]; exact h.small
  free := freeChain_congr fs _ (fun a ha => hr a fun hp => (List.nodup_append.1 h.nodup).2.2 a hp a ha rfl) h.free

/-- an insertion into the empty list -/
theorem insertAt_nil {l : LinkedList α} {fs : List Nat} (h : IsSeq l [] fs) (node : Nat) (d : Dir) (x : α) :
    ∃ l' p fs', l.insertAt node d x = .ok l' ∧ IsSeq l' [(p, x)] fs' ∧ l'.memory.length = max l.memory.length 1 := by
  obtain ⟨l1, p, fs', e1, s1, f1, r1, n1, d1, -, hl1, k1⟩ := allocate_spec h.slots (by simp [NULL]) x
  have hp : p < l1.memory.length := s1.bound p (by simp)
  obtain ⟨m2, e2, hl2, r2, l2, d2⟩ := modify_spec (l := l1) hp fun n => { n with left := p, right := p }
  simp only at r2 l2 d2
  refine ⟨{ l1 with memory := m2, front := p, rear := p, len := l1.len + 1 }, p, fs', ?_, ⟨?_, ?_, ?_, rfl, rfl, ?_⟩, ?_⟩
  · unfold LinkedList.insertAt
    rw [if_pos (by rw [h.len]; rfl), e1, bind_ok]
    dsimp only
    rw [e2]; rfl
  · apply s1.congr hl2
    intro a ha
    rw [r2, l2, d2, if_neg (by simpa using ha), if_neg (by simpa using ha), if_neg (by simpa using ha)]
    exact ⟨rfl, rfl, rfl⟩
  · simp only [List.map_cons, List.map_nil, cyc, path, List.mem_singleton]
    rintro ab rfl
    simp [r2, l2]
  · simp only [List.mem_singleton]
    rintro pv rfl
    simp [d2, d1]
  · simp [n1, h.len]
  · simp [hl2, hl1]

/-- the four writes that link `p` after `a` -/
theorem splice_right {l : LinkedList α} {a b p : Nat} (ha : a < l.memory.length) (hb : b < l.memory.length) (hp : p < l.memory.length)
    (hap : a ≠ p) (hbp : b ≠ p) :
    ∃ m2 m3 m4 m5, l.modify a (fun n => n.setChild .right p) = .ok { l with memory := m2 } ∧
      LinkedList.modify { l with memory := m2 } b (fun n => n.setChild .left p) = .ok { l with memory := m3 } ∧
      LinkedList.modify { l with memory := m3 } p (fun n => n.setChild .left a) = .ok { l with memory := m4 } ∧
      LinkedList.modify { l with memory := m4 } p (fun n => n.setChild .right b) = .ok { l with memory := m5 } ∧
      m5.length = l.memory.length ∧
      (∀ x, rt m5 x = if x = p then b else if x = a then p else rt l.memory x) ∧
      (∀ x, lt m5 x = if x = p then a else if x = b then p else lt l.memory x) ∧
      (∀ x, dt m5 x = dt l.memory x) := by
  obtain ⟨m2, e2, hl2, r2, l2, d2⟩ := modify_spec (l := l) ha fun n => n.setChild .right p
  obtain ⟨m3, e3, hl3, r3, l3, d3⟩ := modify_spec (l := { l with memory := m2 }) (p := b) (by simpa [hl2] using hb) fun n => n.setChild .left p
  simp only at hl2 hl3
  obtain ⟨m4, e4, hl4, r4, l4, d4⟩ := modify_spec (l := { l with memory := m3 }) (p := p) (by simpa [hl2, hl3] using hp) fun n => n.setChild .left a
  simp only at hl4
  obtain ⟨m5, e5, hl5, r5, l5, d5⟩ := modify_spec (l := { l with memory := m4 }) (p := p) (by simpa [hl2, hl3, hl4] using hp) fun n => n.setChild .right b
  simp only [Node.setChild] at r2 l2 d2 r3 l3 d3 r4 l4 d4 r5 l5 d5 hl5
  refine ⟨m2, m3, m4, m5, e2, e3, e4, e5, by omega, ?_, ?_, ?_⟩
  · clear e2 e3 e4 e5 l2 l3 l4 l5 d2 d3 d4 d5
    intro x; grind
  · clear e2 e3 e4 e5 r2 r3 r4 r5 d2 d3 d4 d5
    intro x; grind
  · clear e2 e3 e4 e5 r2 r3 r4 r5 l2 l3 l4 l5
    intro x; grind

/-- the four writes that link `p` before `b` -/
theorem splice_left {l : LinkedList α} {a b p : Nat} (ha : a < l.memory.length) (hb : b < l.memory.length) (hp : p < l.memory.length)
    (hap : a ≠ p) (hbp : b ≠ p) :
    ∃ m2 m3 m4 m5, l.modify b (fun n => n.setChild .left p) = .ok { l with memory := m2 } ∧
      LinkedList.modify { l with memory := m2 } a (fun n => n.setChild .right p) = .ok { l with memory := m3 } ∧
      LinkedList.modify { l with memory := m3 } p (fun n => n.setChild .right b) = .ok { l with memory := m4 } ∧
      LinkedList.modify { l with memory := m4 } p (fun n => n.setChild .left a) = .ok { l with memory := m5 } ∧
      m5.length = l.memory.length ∧
      (∀ x, rt m5 x = if x = p then b else if x = a then p else rt l.memory x) ∧
      (∀ x, lt m5 x = if x = p then a else if x = b then p else lt l.memory x) ∧
      (∀ x, dt m5 x = dt l.memory x) := by
  obtain ⟨m2, e2, hl2, r2, l2, d2⟩ := modify_spec (l := l) hb fun n => n.setChild .left p
  obtain ⟨m3, e3, hl3, r3, l3, d3⟩ := modify_spec (l := { l with memory := m2 }) (p := a) (by simpa [hl2] using ha) fun n => n.setChild .right p
  simp only at hl2 hl3
  obtain ⟨m4, e4, hl4, r4, l4, d4⟩ := modify_spec (l := { l with memory := m3 }) (p := p) (by simpa [hl2, hl3] using hp) fun n => n.setChild .right b
  simp only at hl4
  obtain ⟨m5, e5, hl5, r5, l5, d5⟩ := modify_spec (l := { l with memory := m4 }) (p := p) (by simpa [hl2, hl3, hl4] using hp) fun n => n.setChild .left a
  simp only [Node.setChild] at r2 l2 d2 r3 l3 d3 r4 l4 d4 r5 l5 d5 hl5
  refine ⟨m2, m3, m4, m5, e2, e3, e4, e5, by omega, ?_, ?_, ?_⟩
  · clear e2 e3 e4 e5 l2 l3 l4 l5 d2 d3 d4 d5
    intro x; grind
  · clear e2 e3 e4 e5 r2 r3 r4 r5 d2 d3 d4 d5
    intro x; grind
  · clear e2 e3 e4 e5 r2 r3 r4 r5 l2 l3 l4 l5
    intro x; grind

theorem getLastD_append_cons (u : List Nat) (c : Nat) (v : List Nat) (z : Nat) : (u ++ c :: v).getLastD z = (c :: v).getLast (by simp) := by
  rw [List.getLastD_eq_getLast?, List.getLast?_append, List.getLast?_eq_some_getLast (by simp)]; simp

theorem getLastD_ne (u : List Nat) (h : u ≠ []) (z : Nat) : u.getLastD z = u.getLast h := by
  rw [List.getLastD_eq_getLast?, List.getLast?_eq_some_getLast h]; simp

theorem headD_ne (u : List Nat) (h : u ≠ []) (z : Nat) : u.headD z = u.head h := by
  cases u with
  | nil => exact absurd rfl h
  | cons a u => rfl

/-- the new last element after putting `p` behind `u` -/
theorem rear_insert {u v : List Nat} {p : Nat} (hu : u ≠ []) (hn : (u ++ v).Nodup) :
    (if u.getLast hu = (u ++ v).getLastD NULL then p else (u ++ v).getLastD NULL) = (u ++ p :: v).getLastD NULL := by
  cases v with
  | nil => rw [List.append_nil, getLastD_ne u hu, if_pos rfl, getLastD_append_cons]; rfl
  | cons c v =>
    rw [if_neg]
    · rw [getLastD_append_cons, getLastD_append_cons]; rfl
    · rw [getLastD_append_cons]
      exact (List.nodup_append.1 hn).2.2 _ (List.getLast_mem _) _ (List.getLast_mem _)

/-- the new first element after putting `p` before `v` -/
theorem front_insert {u v : List Nat} {p : Nat} (hv : v ≠ []) (hn : (u ++ v).Nodup) :
    (if v.head hv = (u ++ v).headD NULL then p else (u ++ v).headD NULL) = (u ++ p :: v).headD NULL := by
  cases u with
  | nil => rw [List.nil_append, headD_ne v hv, if_pos rfl]; rfl
  | cons c u =>
    rw [if_neg]
    · rfl
    · exact fun e => (List.nodup_append.1 hn).2.2 c (by simp) _ (List.head_mem hv) (by simpa using e.symm)

/-- an insertion next to a live node: `d = right` puts it after the last of `U`, `left` before the first of `V` -/
theorem insertAt_mid {l : LinkedList α} {U V : List (Nat × α)} {fs : List Nat} (h : IsSeq l (U ++ V) fs)
    (hs : (U ++ V).length < NULL) (node : Nat) (d : Dir) (x : α)
    (hnode : match d with
      | .right => ∃ hne : U ≠ [], node = (U.getLast hne).1
      | .left => ∃ hne : V ≠ [], node = (V.head hne).1) :
    ∃ l' p fs', l.insertAt node d x = .ok l' ∧ IsSeq l' (U ++ (p, x) :: V) fs' ∧
      l'.memory.length = max l.memory.length (U.length + V.length + 1) := by
  have hSne : U ++ V ≠ [] := by
    cases d with
    | right => obtain ⟨hne, _⟩ := hnode; simp [hne]
    | left => obtain ⟨hne, _⟩ := hnode; simp [hne]
  have hVU : V.map (·.1) ++ U.map (·.1) ≠ [] := by
    intro e; apply hSne; simp at e ⊢; tauto
  have hsl := h.slots
  rw [List.map_append] at hsl
  obtain ⟨l1, p, fs', e1, s1, f1, r1, n1, d1, hle, hl1, k1⟩ := allocate_spec hsl (by simpa using hs) x
  have hring := h.ring
  rw [List.map_append] at hring
  obtain ⟨u, hu⟩ : ∃ u, u = U.map (·.1) := ⟨_, rfl⟩
  obtain ⟨v, hv⟩ : ∃ v, v = V.map (·.1) := ⟨_, rfl⟩
  rw [← hu, ← hv] at hsl hring s1 hVU
  have hpn : p ∉ u ++ v := by
    have := s1.nodup; simp only [List.cons_append, List.nodup_cons] at this
    intro hm; apply this.1; simp only [List.mem_append] at hm ⊢; tauto
  have hnod : (u ++ v).Nodup := (List.nodup_append.1 hsl.nodup).1
  have hlive : ∀ a ∈ u ++ v, a < l.memory.length := fun a ha => hsl.bound a (by simp at ha ⊢; tauto)
  have k2 : ∀ a ∈ u ++ v, rt l1.memory a = rt l.memory a ∧ lt l1.memory a = lt l.memory a ∧ dt l1.memory a = dt l.memory a :=
    fun a ha => k1 a (fun e => hpn (e ▸ ha)) (hlive a ha)
  obtain ⟨b, hb⟩ : ∃ b, b = (v ++ u).head hVU := ⟨_, rfl⟩
  obtain ⟨a, ha⟩ : ∃ a, a = (v ++ u).getLast hVU := ⟨_, rfl⟩
  have ham : a ∈ u ++ v := by
    have := List.getLast_mem hVU; rw [← ha] at this; simp only [List.mem_append] at this ⊢; tauto
  have hbm : b ∈ u ++ v := by
    have := List.head_mem hVU; rw [← hb] at this; simp only [List.mem_append] at this ⊢; tauto
  have hap : a ≠ p := fun e => hpn (e ▸ ham)
  have hbp : b ≠ p := fun e => hpn (e ▸ hbm)
  have hgap := ring_gap hVU hring
  rw [← ha, ← hb] at hgap
  have hp1 : p < l1.memory.length := s1.bound p (by simp)
  have ha1 : a < l1.memory.length := Nat.lt_of_lt_of_le (hlive a ham) hle
  have hb1 : b < l1.memory.length := Nat.lt_of_lt_of_le (hlive b hbm) hle
  have hlen0 : ¬ l.len = 0 := by rw [h.len]; simpa using hSne
  have hNa : ∀ c ∈ u ++ v, ¬ c = NULL := fun c hc => by have := hlive c hc; have := hsl.small; omega
  -- the finishing argument, common to both directions
  have fin : ∀ (m : List (Node α)) (F Re : Nat), m.length = l1.memory.length →
      (∀ x, rt m x = if x = p then b else if x = a then p else rt l1.memory x) →
      (∀ x, lt m x = if x = p then a else if x = b then p else lt l1.memory x) →
      (∀ x, dt m x = dt l1.memory x) →
      F = (u ++ p :: v).headD NULL → Re = (u ++ p :: v).getLastD NULL →
      IsSeq { memory := m, front := F, rear := Re, pool := l1.pool, len := l1.len + 1 } (U ++ (p, x) :: V) fs' := by
    intro m F Re hm hr hl hd hF hR
    refine ⟨?_, ?_, ?_, ?_, ?_, ?_⟩
    · simp only [List.map_append, List.map_cons, ← hu, ← hv]
      refine (s1.congr hm ?_).perm List.perm_middle.symm
      intro c hc
      simp only [List.mem_cons, not_or] at hc
      rw [hr, hl, hd, if_neg hc.1, if_neg hc.1, if_neg (fun e : c = a => hc.2 (e ▸ ham)), if_neg (fun e : c = b => hc.2 (e ▸ hbm))]
      exact ⟨rfl, rfl, rfl⟩
    · simp only [List.map_append, List.map_cons, ← hu, ← hv]
      refine ring_insert (m := l.memory) hVU hnod hpn hring ?_ ?_
      · intro y hy
        rw [hr, ← hb, ← ha]
        split
        · rfl
        split
        · rfl
        · rename_i h1 h2
          exact (k2 y ((List.mem_cons.1 hy).resolve_left h1)).1
      · intro y hy
        rw [hl, ← hb, ← ha]
        split
        · rfl
        split
        · rfl
        · rename_i h1 h2
          exact (k2 y ((List.mem_cons.1 hy).resolve_left h1)).2.1
    · intro pv hpv
      rw [hd]
      have hold : ∀ pv ∈ U ++ V, dt l1.memory pv.1 = some pv.2 := by
        intro pv hpv
        rw [(k2 pv.1 (by rw [hu, hv, ← List.map_append]; exact List.mem_map_of_mem hpv)).2.2]
        exact h.data pv hpv
      simp only [List.mem_append, List.mem_cons] at hpv
      rcases hpv with hpv | rfl | hpv
      · exact hold pv (by simp [hpv])
      · exact d1
      · exact hold pv (by simp [hpv])
    · simp only [List.map_append, List.map_cons, ← hu, ← hv]; exact hF
    · simp only [List.map_append, List.map_cons, ← hu, ← hv]; exact hR
    · simp [n1, h.len]; omega
  have hfr : l1.front = (u ++ v).headD NULL := by rw [f1, h.front, hu, hv, List.map_append]
  have hre : l1.rear = (u ++ v).getLastD NULL := by rw [r1, h.rear, hu, hv, List.map_append]
  cases d with
  | right =>
    obtain ⟨hne, hnd⟩ := hnode
    have hu' : u ≠ [] := by simpa [hu] using hne
    have hul : u.getLast hu' = a := by rw [ha]; exact (List.getLast_append_of_ne_nil _ hu').symm
    have hna : node = a := by
      rw [hnd, ← hul]; subst hu; rw [List.getLast_map]
    obtain ⟨m2, m3, m4, m5, e2, e3, e4, e5, hm, r, lf, dd⟩ := splice_right ha1 hb1 hp1 hap hbp
    refine ⟨_, p, fs', ?_, fin m5 l1.front (if a = l1.rear then p else l1.rear) hm r lf dd ?_ ?_, ?_⟩
    · unfold LinkedList.insertAt
      rw [hna, if_neg hlen0, if_neg (hNa _ ham), e1, bind_ok]
      dsimp only
      rw [node_ok ha1, bind_ok]
      simp only [Node.child, Dir.flip, (k2 a ham).1, hgap.1]
      rw [e2, bind_ok, e3, bind_ok, e4, bind_ok, e5, bind_ok]
      simp only [reduceCtorEq, and_false, and_true, if_false]
      by_cases hc : a = l1.rear <;> simp [hc]
    · rw [hfr, headD_ne _ (by simp [hu']), headD_ne _ (by simp), List.head_append_of_ne_nil hu', List.head_append_of_ne_nil hu']
    · rw [hre, ← hul]; exact rear_insert hu' hnod
    · simp [hm, hl1]
  | left =>
    obtain ⟨hne, hnd⟩ := hnode
    have hv' : v ≠ [] := by simpa [hv] using hne
    have hvl : v.head hv' = b := by rw [hb]; exact (List.head_append_of_ne_nil hv').symm
    have hnb : node = b := by
      rw [hnd, ← hvl]; subst hv; rw [List.head_map]
    obtain ⟨m2, m3, m4, m5, e2, e3, e4, e5, hm, r, lf, dd⟩ := splice_left ha1 hb1 hp1 hap hbp
    refine ⟨_, p, fs', ?_, fin m5 (if b = l1.front then p else l1.front) l1.rear hm r lf dd ?_ ?_, ?_⟩
    · unfold LinkedList.insertAt
      rw [hnb, if_neg hlen0, if_neg (hNa _ hbm), e1, bind_ok]
      dsimp only
      rw [node_ok hb1, bind_ok]
      simp only [Node.child, Dir.flip, (k2 b hbm).2.1, hgap.2]
      rw [e2, bind_ok, e3, bind_ok, e4, bind_ok, e5, bind_ok]
      simp only [reduceCtorEq, and_false, and_true, if_false]
      by_cases hc : b = l1.front <;> simp [hc]
    · rw [hfr, ← hvl]; exact front_insert hv' hnod
    · rw [hre, getLastD_append_cons, List.getLast_cons hv', getLastD_ne _ (by simp [hv']), List.getLast_append_of_ne_nil _ hv']
    · simp [hm, hl1]

/-- removing the only element -/
theorem removeAt_one {l : LinkedList α} {p : Nat} {x : α} {fs : List Nat} (h : IsSeq l [(p, x)] fs) (node : Nat) :
    ∃ l', l.removeAt node = .ok (l', some x) ∧ IsSeq l' [] (p :: fs) ∧ l'.memory.length = l.memory.length := by
  have hf : l.front = p := by simpa using h.front
  have hr : l.rear = p := by simpa using h.rear
  have hlen : l.len = 1 := by simpa using h.len
  obtain ⟨l', e, s, f, r, n, hl, k⟩ := free_spec (l := { l with front := NULL, rear := NULL, len := 0 }) (p := p) (ps := []) (fs := fs) h.slots
  have hd : dt l.memory p = some x := h.data (p, x) (by simp)
  refine ⟨l', ?_, ⟨s, by simp [cyc], by simp, f, r, n⟩, hl⟩
  unfold LinkedList.removeAt
  rw [if_neg (by omega), if_pos hlen]
  simp only [hf, hr, ne_eq, not_true_eq_false, if_false, e, hd]

theorem front_remove {u v : List Nat} {p : Nat} (h : v ++ u ≠ []) (hn : (u ++ p :: v).Nodup) :
    (if p = (u ++ p :: v).headD NULL then (v ++ u).head h else (u ++ p :: v).headD NULL) = (u ++ v).headD NULL := by
  cases u with
  | nil =>
    rw [if_pos (by simp), List.nil_append, headD_ne _ (by simpa using h)]
    simp
  | cons c u =>
    rw [if_neg]
    · rfl
    · exact fun e => (List.nodup_append.1 hn).2.2 c (by simp) p (by simp) (by simpa using e.symm)

theorem rear_remove {u v : List Nat} {p : Nat} (h : v ++ u ≠ []) (hn : (u ++ p :: v).Nodup) :
    (if p = (u ++ p :: v).getLastD NULL then (v ++ u).getLast h else (u ++ p :: v).getLastD NULL) = (u ++ v).getLastD NULL := by
  cases v with
  | nil =>
    rw [getLastD_append_cons, if_pos (by simp), List.append_nil, getLastD_ne _ (by simpa using h)]
    simp
  | cons c v =>
    rw [if_neg]
    · rw [getLastD_append_cons, getLastD_append_cons, List.getLast_cons (by simp)]
    · rw [getLastD_append_cons, List.getLast_cons (by simp)]
      intro e
      have := (List.nodup_cons.1 (List.nodup_append.1 hn).2.1).1
      exact this (e ▸ List.getLast_mem _)

/-- removing a live node -/
theorem removeAt_mid {l : LinkedList α} {U V : List (Nat × α)} {p : Nat} {x : α} {fs : List Nat} (h : IsSeq l (U ++ (p, x) :: V) fs) :
    ∃ l', l.removeAt p = .ok (l', some x) ∧ IsSeq l' (U ++ V) (p :: fs) ∧ l'.memory.length = l.memory.length := by
  by_cases hUV : U ++ V = []
  · obtain ⟨rfl, rfl⟩ := List.append_eq_nil_iff.1 hUV
    exact removeAt_one h p
  have hVU : V.map (·.1) ++ U.map (·.1) ≠ [] := by
    intro e; apply hUV; simp at e ⊢; tauto
  have hsl := h.slots
  have hring := h.ring
  have hfr := h.front
  have hre := h.rear
  have hd : dt l.memory p = some x := h.data (p, x) (by simp)
  simp only [List.map_append, List.map_cons] at hsl hring hfr hre
  obtain ⟨u, hu⟩ : ∃ u, u = U.map (·.1) := ⟨_, rfl⟩
  obtain ⟨v, hv⟩ : ∃ v, v = V.map (·.1) := ⟨_, rfl⟩
  rw [← hu, ← hv] at hsl hring hfr hre hVU
  have hnod : (u ++ p :: v).Nodup := (List.nodup_append.1 hsl.nodup).1
  have hpn : p ∉ u ++ v := (List.nodup_cons.1 ((List.perm_middle.nodup_iff).1 hnod)).1
  have hlive : ∀ a ∈ u ++ p :: v, a < l.memory.length := fun a ha => hsl.bound a (List.mem_append_left _ ha)
  obtain ⟨b, hb⟩ : ∃ b, b = (v ++ u).head hVU := ⟨_, rfl⟩
  obtain ⟨a, ha⟩ : ∃ a, a = (v ++ u).getLast hVU := ⟨_, rfl⟩
  have ham : a ∈ u ++ v := by
    have := List.getLast_mem hVU; rw [← ha] at this; simp only [List.mem_append] at this ⊢; tauto
  have hbm : b ∈ u ++ v := by
    have := List.head_mem hVU; rw [← hb] at this; simp only [List.mem_append] at this ⊢; tauto
  have hap : a ≠ p := fun e => hpn (e ▸ ham)
  have hbp : b ≠ p := fun e => hpn (e ▸ hbm)
  have hmid := ring_mid hVU hring
  rw [← ha, ← hb] at hmid
  have hpl : p < l.memory.length := hlive p (by simp)
  have hal : a < l.memory.length := hlive a (by simp at ham ⊢; tauto)
  have hbl : b < l.memory.length := hlive b (by simp at hbm ⊢; tauto)
  have hlen2 : 2 ≤ l.len := by
    rw [h.len]; simp
    have : 0 < (U ++ V).length := List.length_pos_iff.2 hUV
    simp at this; omega
  obtain ⟨m2, e2, hl2, r2, l2, d2⟩ := modify_spec (l := l) hal fun n => { n with right := b }
  obtain ⟨m3, e3, hl3, r3, l3, d3⟩ := modify_spec (l := { l with memory := m2 }) (p := b) (by simpa [hl2] using hbl) fun n => { n with left := a }
  simp only at hl2 hl3 r2 l2 d2 r3 l3 d3
  have hlen3 : m3.length = l.memory.length := by omega
  have rr : ∀ y, rt m3 y = if y = a then b else rt l.memory y := by
    intro y; rw [r3]; split
    · rename_i e; rw [r2, e]
    · rw [r2]
  have ll : ∀ y, lt m3 y = if y = b then a else lt l.memory y := by
    intro y; rw [l3]; split
    · rfl
    · rw [l2]; split
      · rename_i e; rw [e]
      · rfl
  have dd : ∀ y, dt m3 y = dt l.memory y := by
    intro y; rw [d3]; split
    · rename_i e; rw [d2, e]; split
      · rename_i e; rw [e]
      · rfl
    · rw [d2]; split
      · rename_i e; rw [e]
      · rfl
  have hsl3 : Slots m3 l.pool (p :: (u ++ v)) fs := by
    refine (hsl.congr hlen3 ?_).perm List.perm_middle
    intro c hc
    rw [rr, ll, dd, if_neg, if_neg]
    · exact ⟨rfl, rfl, rfl⟩
    · rintro rfl
      apply hc; simp at hbm ⊢; tauto
    · rintro rfl
      apply hc; simp at ham ⊢; tauto
  obtain ⟨l', e4, s4, f4, r4, n4, hl4, k4⟩ := free_spec
    (l := { memory := m3, front := if p = l.front then b else l.front, rear := if p = l.rear then a else l.rear, pool := l.pool, len := l.len - 1 })
    (p := p) (ps := u ++ v) (fs := fs) hsl3
  simp only at f4 r4 n4 hl4 k4
  refine ⟨l', ?_, ⟨?_, ?_, ?_, ?_, ?_, ?_⟩, by omega⟩
  · unfold LinkedList.removeAt
    rw [if_neg (by omega), if_neg (by omega), node_ok hpl, bind_ok, bind_ok]
    simp only [hmid]
    rw [e2, bind_ok, e3, bind_ok]
    have hrp : rt m3 p = b := by rw [rr, if_neg (Ne.symm hap), hmid.1]
    have hlp : lt m3 p = a := by rw [ll, if_neg (Ne.symm hbp), hmid.2]
    have hn3 : ∀ F Re, LinkedList.node ⟨m3, F, Re, l.pool, l.len⟩ p = .ok ⟨dt m3 p, a, b⟩ := fun F Re => by
      rw [node_ok (l := ⟨m3, F, Re, l.pool, l.len⟩) (by simpa [hlen3] using hpl), hrp, hlp]
    rw [hd.symm.trans (dd p).symm, ← e4]
    by_cases hc : p = l.front <;> by_cases hc2 : p = l.rear
    · simp only [← hc, ← hc2, if_true, hn3, bind_ok, pure_eq_ok]
    · simp only [← hc, if_true, hn3, bind_ok, pure_eq_ok, if_neg hc2]
    · simp only [← hc2, if_true, hn3, bind_ok, pure_eq_ok, if_neg hc]
    · simp only [bind_ok, pure_eq_ok, if_neg hc, if_neg hc2]
  · rw [List.map_append, ← hu, ← hv]; exact s4
  · rw [List.map_append, ← hu, ← hv]
    refine ring_remove hVU hnod hring ?_ ?_
    · intro y hy
      rw [(k4 y hy).1, rr, ha, hb]
    · intro y hy
      rw [(k4 y hy).2.1, ll, ha, hb]
  · intro pv hpv
    have hm : pv.1 ∈ u ++ v := by rw [hu, hv, ← List.map_append]; exact List.mem_map_of_mem hpv
    rw [(k4 pv.1 (fun e => hpn (e ▸ hm))).2.2, dd]
    apply h.data
    simp at hpv ⊢; tauto
  · rw [f4, hfr, hb, List.map_append, ← hu, ← hv]; exact front_remove hVU hnod
  · rw [r4, hre, ha, List.map_append, ← hu, ← hv]; exact rear_remove hVU hnod
  · rw [n4, h.len]; simp

theorem cyc_adj (u : List Nat) (a b : Nat) (t : List Nat) : (a, b) ∈ cyc (u ++ a :: b :: t) := by
  rw [(cyc_rotate u (a :: b :: t)).mem_iff]
  simp [cyc, path]

theorem walk_spec {l : LinkedList α} {S : List (Nat × α)} {fs : List Nat} (h : IsSeq l S fs) :
    ∀ (v u : List Nat), u ++ v = S.map (·.1) → ∀ p, (∀ a t, v = a :: t → p = a) → l.walk v.length p = .ok v
  | [], u, _, p, _ => rfl
  | [a], u, e, p, hp => by
    obtain rfl := hp a [] rfl
    have : p < l.memory.length := h.slots.bound p (by rw [← e]; simp)
    simp only [List.length_cons, List.length_nil, LinkedList.walk, node_ok this, bind_ok, pure_eq_ok]
  | a :: b :: t, u, e, p, hp => by
    obtain rfl := hp a _ rfl
    have hlt : p < l.memory.length := h.slots.bound p (by rw [← e]; simp)
    have hr : rt l.memory p = b := (h.ring (p, b) (by rw [← e]; exact cyc_adj u p b t)).1
    have ih := walk_spec h (b :: t) (u ++ [p]) (by rw [← e]; simp) b (by rintro a t h; injection h with h _)
    rw [List.length_cons, LinkedList.walk, node_ok hlt, bind_ok, hr, ih]; rfl

theorem mapM_data {l : LinkedList α} : ∀ (S : List (Nat × α)), (∀ pv ∈ S, pv.1 < l.memory.length ∧ dt l.memory pv.1 = some pv.2) →
    (S.map (·.1)).mapM (fun p => do let n ← l.node p; expect n.data) = (.ok (S.map (·.2)) : R (List α))
  | [], _ => rfl
  | (p, v) :: S, h => by
    obtain ⟨h1, h2⟩ := h (p, v) (by simp)
    simp only at h1 h2
    rw [List.map_cons, List.mapM_cons, node_ok h1, bind_ok, mapM_data S (fun q hq => h q (by simp [hq]))]
    simp [h2, expect]

/-- iteration yields the values in order -/
theorem iter_spec {l : LinkedList α} {S : List (Nat × α)} {fs : List Nat} (h : IsSeq l S fs) : l.iter = .ok (S.map (·.2)) := by
  unfold LinkedList.iter
  have : l.walk l.len l.front = .ok (S.map (·.1)) := by
    have := walk_spec h (S.map (·.1)) [] rfl l.front (by
      intro a t e; rw [h.front, e]; rfl)
    rwa [List.length_map, ← h.len] at this
  rw [this, bind_ok]
  exact mapM_data S fun pv hpv => ⟨h.slots.bound _ (List.mem_append_left _ (List.mem_map_of_mem hpv)), h.data pv hpv⟩

theorem node_live {l : LinkedList α} {S : List (Nat × α)} {fs : List Nat} (h : IsSeq l S fs) {p : Nat} {v : α} (hm : (p, v) ∈ S) :
    l.node p = .ok { data := some v, left := lt l.memory p, right := rt l.memory p } := by
  rw [node_ok (h.slots.bound p (List.mem_append_left _ (List.mem_map_of_mem (f := (·.1)) hm))), h.data _ hm]

theorem pushFront_spec {l : LinkedList α} {S : List (Nat × α)} {fs : List Nat} (h : IsSeq l S fs) (hs : S.length < NULL) (x : α) :
    ∃ l' p fs', l.pushFront x = .ok l' ∧ IsSeq l' ((p, x) :: S) fs' ∧ l'.memory.length = max l.memory.length (S.length + 1) := by
  cases S with
  | nil => exact insertAt_nil h _ _ x
  | cons a S =>
    obtain ⟨l', p, fs', e, s, hl⟩ := insertAt_mid (U := []) (V := a :: S) h hs l.front .left x ⟨by simp, by rw [h.front]; rfl⟩
    exact ⟨l', p, fs', e, s, by simpa using hl⟩

theorem pushRear_spec {l : LinkedList α} {S : List (Nat × α)} {fs : List Nat} (h : IsSeq l S fs) (hs : S.length < NULL) (x : α) :
    ∃ l' p fs', l.pushRear x = .ok l' ∧ IsSeq l' (S ++ [(p, x)]) fs' ∧ l'.memory.length = max l.memory.length (S.length + 1) := by
  by_cases hS : S = []
  · subst hS; exact insertAt_nil h _ _ x
  · obtain ⟨l', p, fs', e, s, hl⟩ := insertAt_mid (U := S) (V := []) (by simpa using h) (by simpa using hs) l.rear .right x
      ⟨hS, by rw [h.rear, getLastD_ne _ (by simpa using hS), List.getLast_map]⟩
    exact ⟨l', p, fs', e, s, by simpa using hl⟩

theorem popFront_spec {l : LinkedList α} {S : List (Nat × α)} {fs : List Nat} (h : IsSeq l S fs) :
    ∃ l' fs', l.popFront = .ok (l', S.head?.map (·.2)) ∧ IsSeq l' S.tail fs' ∧ l'.memory.length = l.memory.length := by
  cases S with
  | nil => exact ⟨l, fs, by simp [LinkedList.popFront, LinkedList.removeAt, h.len], h, rfl⟩
  | cons a S =>
    obtain ⟨l', e, s, hl⟩ := removeAt_mid (U := []) (V := S) h
    refine ⟨l', _, ?_, s, hl⟩
    unfold LinkedList.popFront
    rw [h.front]; exact e

theorem popRear_spec {l : LinkedList α} {S : List (Nat × α)} {fs : List Nat} (h : IsSeq l S fs) :
    ∃ l' fs', l.popRear = .ok (l', S.getLast?.map (·.2)) ∧ IsSeq l' S.dropLast fs' ∧ l'.memory.length = l.memory.length := by
  rcases List.eq_nil_or_concat S with rfl | ⟨S, a, rfl⟩
  · exact ⟨l, fs, by simp [LinkedList.popRear, LinkedList.removeAt, h.len], h, rfl⟩
  · obtain ⟨l', e, s, hl⟩ := removeAt_mid (U := S) (V := []) (p := a.1) (x := a.2) (by simpa using h)
    refine ⟨l', _, ?_, by simpa using s, hl⟩
    unfold LinkedList.popRear
    rw [h.rear]; simpa using e

end
end Adhoc
