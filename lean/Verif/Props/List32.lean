import Verif.Model.List32
import Verif.Props.Lists

/-! # C146: how many items a linked list holds -/

namespace Adhoc
variable {α : Type}

namespace Spec

/-- the calls of `ListOp` on the list with a length of 32 bits -/
def run32 (b : Build) (c : LinkedList α × List Nat) : ListOp α → R ((LinkedList α × List Nat) × Option α)
  | .pushFront x => do
    let l ← c.1.pushFront32 b x
    pure ((l, c.2 ++ [l.front]), none)
  | .pushRear x => do
    let l ← c.1.pushRear32 b x
    pure ((l, c.2 ++ [l.rear]), none)
  | .insertAt id d x => do
    let p ← idx c.2 id
    let l ← c.1.insertAt32 b p d x
    let n ← l.node p
    pure ((l, c.2 ++ [n.child d]), none)
  | .removeAt id => do
    let p ← idx c.2 id
    let (l, out) ← c.1.removeAt p
    pure ((l, c.2), out)
  | .popFront => do
    let (l, out) ← c.1.popFront
    pure ((l, c.2), out)
  | .popRear => do
    let (l, out) ← c.1.popRear
    pure ((l, c.2), out)

/-- a sequence of calls with the values returned -/
def runCalls32 (b : Build) : LinkedList α × List Nat → List (ListOp α) → R ((LinkedList α × List Nat) × List (Option α))
  | c, [] => pure (c, [])
  | c, o :: os => do
    let (c, out) ← run32 b c o
    let (c, outs) ← runCalls32 b c os
    pure (c, out :: outs)

/-- items added at the rear, one after the other -/
def pushList32 (b : Build) (l : LinkedList α) (xs : List α) : R (LinkedList α) := xs.foldlM (fun l x => l.pushRear32 b x) l

end Spec
open Spec

theorem chkU_room {b : Build} {n : Nat} (h : n < NULL) : chkU b 32 ((n + 1 : Nat) : Int) = .ok (n + 1) := by
  unfold NULL at h
  unfold chkU
  rw [if_pos ⟨by omega, by omega⟩]
  rfl

theorem ens_len_modify (l : LinkedList α) (p : Nat) (f : Node α → Node α) {l' : LinkedList α} (h : l.modify p f = .ok l') : l'.len = l.len := by
  unfold LinkedList.modify at h
  obtain ⟨n, -, h⟩ := bind_eq_ok.1 h
  obtain ⟨m, -, h⟩ := bind_eq_ok.1 h
  cases h
  rfl

theorem ens_len_allocate (l : LinkedList α) (x : α) {r : LinkedList α × Nat} (h : l.allocate x = .ok r) : r.1.len = l.len := by
  unfold LinkedList.allocate at h
  split at h
  · cases h; rfl
  · obtain ⟨n, -, h⟩ := bind_eq_ok.1 h
    obtain ⟨l1, h1, h⟩ := bind_eq_ok.1 h
    obtain ⟨l2, h2, h⟩ := bind_eq_ok.1 h
    cases h
    have e1 := ens_len_modify _ _ _ h1
    exact (ens_len_modify _ _ _ h2).trans e1

theorem bind_congr_ok {β γ : Type} {x : R β} {f g : β → R γ} (h : ∀ a, x = .ok a → f a = g a) : x >>= f = x >>= g := by
  cases x with
  | error e => rfl
  | ok a => exact h a rfl

/-- with room for one more the two models agree -/
theorem insertAt32_eq {b : Build} {l : LinkedList α} (h : l.len < NULL) (node : Nat) (d : Dir) (x : α) : l.insertAt32 b node d x = l.insertAt node d x := by
  unfold LinkedList.insertAt32 LinkedList.insertAt
  split
  · refine bind_congr_ok ?_
    rintro ⟨l1, p⟩ h1
    have e1 : l1.len = l.len := ens_len_allocate l x h1
    refine bind_congr_ok fun l2 h2 => ?_
    have e2 := ens_len_modify _ _ _ h2
    rw [chkU_room (by omega)]
    rfl
  · split
    · rfl
    · refine bind_congr_ok ?_
      rintro ⟨l1, p⟩ h1
      have e1 : l1.len = l.len := ens_len_allocate l x h1
      refine bind_congr_ok fun n _ => ?_
      refine bind_congr_ok fun l2 h2 => bind_congr_ok fun l3 h3 => bind_congr_ok fun l4 h4 => bind_congr_ok fun l5 h5 => ?_
      have e2 := ens_len_modify _ _ _ h2
      have e3 := ens_len_modify _ _ _ h3
      have e4 := ens_len_modify _ _ _ h4
      have e5 := ens_len_modify _ _ _ h5
      dsimp only
      rw [chkU_room]
      · rfl
      · split <;> split <;> (show l5.len < NULL; omega)

theorem run32_eq {b : Build} {c : LinkedList α × List Nat} {s : ListOp.Seq α} (h : Represents c s) (o : ListOp α) (hok : o.Ok s) : run32 b c o = o.run c := by
  obtain ⟨fs, hs⟩ := h.seq
  have hl : c.1.len = s.items.length := by simpa using hs.len
  cases o with
  | pushFront x => have hok : s.items.length < NULL := hok; simp only [run32, ListOp.run, LinkedList.pushFront32, LinkedList.pushFront, insertAt32_eq (hl ▸ hok)]
  | pushRear x => have hok : s.items.length < NULL := hok; simp only [run32, ListOp.run, LinkedList.pushRear32, LinkedList.pushRear, insertAt32_eq (hl ▸ hok)]
  | insertAt id d x => have hok : s.items.length < NULL := hok.2; simp only [run32, ListOp.run, insertAt32_eq (hl ▸ hok)]
  | removeAt id => rfl
  | popFront => rfl
  | popRear => rfl

theorem runCalls32_eq {b : Build} : ∀ (os : List (ListOp α)) {c : LinkedList α × List Nat} {s : ListOp.Seq α}, Represents c s → ListOp.AllOk s os →
    runCalls32 b c os = ListOp.runAll c os
  | [], _, _, _, _ => rfl
  | o :: os, c, s, h, hok => by
    obtain ⟨c1, e1, h1⟩ := listOp_step h o hok.1
    rw [runCalls32, ListOp.runAll, run32_eq h o hok.1, e1, bind_ok, bind_ok]
    dsimp only
    rw [runCalls32_eq os h1 hok.2]

/-- up to 2^32 - 1 items fill the slots in order -/
theorem pushList32_spec (b : Build) : ∀ (n : Nat) (xs : List α), xs.length = n → n ≤ NULL →
    ∃ l, pushList32 b .new xs = .ok l ∧ IsSeq l ((List.range n).zip xs) []
  | 0, xs, h, _ => by
    obtain rfl := List.eq_nil_of_length_eq_zero h
    exact ⟨.new, rfl, isSeq_new⟩
  | n + 1, xs, h, hn => by
    obtain ⟨ys, y, rfl⟩ : ∃ ys y, xs = ys ++ [y] := ⟨_, _, (List.dropLast_append_getLast (l := xs) (by rintro rfl; simp at h)).symm⟩
    have hy : ys.length = n := by simpa using h
    obtain ⟨l, e, H⟩ := pushList32_spec b n ys hy (by omega)
    have hS : ((List.range n).zip ys).length = n := by simp [hy]
    have hfst : ((List.range n).zip ys).map (·.1) = List.range n := by
      have := List.map_fst_zip (l₁ := List.range n) (l₂ := ys) (by simp [hy])
      simpa using this
    have hlen : l.len = n := by rw [H.len, hS]
    have hmem : l.memory.length = n := by have := H.slots.total; simpa [hy] using this
    have key : ∃ l' p fs', l.insertAt l.rear .right y = .ok l' ∧ IsSeq l' ((List.range n).zip ys ++ [(p, y)]) fs' ∧ l'.memory.length = n + 1 := by
      by_cases h0 : n = 0
      · subst h0
        obtain rfl := List.eq_nil_of_length_eq_zero hy
        obtain ⟨l', p, fs', e1, e2, e3⟩ := insertAt_nil H l.rear .right y
        exact ⟨l', p, fs', e1, e2, by rw [e3, hmem]; rfl⟩
      · have hne : (List.range n).zip ys ≠ [] := by intro e; rw [e] at hS; simp at hS; omega
        have H' : IsSeq l ((List.range n).zip ys ++ []) [] := by simpa using H
        obtain ⟨l', p, fs', e1, e2, e3⟩ := insertAt_mid H' (by rw [List.append_nil, hS]; omega) l.rear .right y ⟨hne, by
          rw [H.rear]
          rw [List.getLastD_eq_getLast?, List.getLast?_map, List.getLast?_eq_some_getLast hne]
          rfl⟩
        refine ⟨l', p, fs', e1, e2, ?_⟩
        rw [e3, hmem, hS]
        simp
    obtain ⟨l', p, fs', e1, H', hm⟩ := key
    have ht := H'.slots.total
    have hfs : fs' = [] := by
      apply List.eq_nil_of_length_eq_zero
      rw [hm, List.length_map, List.length_append, hS] at ht
      simp at ht
      exact List.length_eq_zero_iff.2 ht
    subst hfs
    have hp : p = n := by
      have hb := H'.slots.bound p (by simp)
      have hd := H'.slots.nodup
      rw [List.append_nil, List.map_append, hfst] at hd
      have := (List.nodup_append.1 hd).2.2 p
      by_contra hc
      exact this (by rw [List.mem_range]; omega) p (by simp) rfl
    subst hp
    refine ⟨l', ?_, ?_⟩
    · unfold pushList32 at e ⊢
      rw [List.foldlM_append, e, bind_ok, List.foldlM_cons]
      unfold LinkedList.pushRear32
      rw [insertAt32_eq (by omega), e1]
      rfl
    · rw [List.range_succ, List.zip_append (by simp [hy])]
      exact H'

theorem ring_bound {l : LinkedList α} {S : List (Nat × α)} {fs : List Nat} (H : IsSeq l S fs) {p : Nat} (hp : p ∈ S.map (·.1)) :
    rt l.memory p < l.memory.length ∧ lt l.memory p < l.memory.length := by
  have hb : ∀ q ∈ S.map (·.1), q < l.memory.length := fun q hq => H.slots.bound q (List.mem_append_left _ hq)
  constructor
  · rw [← cyc_fst (S.map (·.1))] at hp
    obtain ⟨ab, h1, rfl⟩ := List.mem_map.1 hp
    rw [(H.ring ab h1).1]
    exact hb _ (cyc_mem h1).2
  · obtain ⟨ab, h1, rfl⟩ := List.mem_map.1 ((cyc_snd (S.map (·.1))).mem_iff.2 hp)
    rw [(H.ring ab h1).2]
    exact hb _ (cyc_mem h1).1

theorem setChild_data (n : Node α) (d : Dir) (p : Nat) : (n.setChild d p).data = n.data := by cases d <;> rfl

theorem dt_append {m : List (Node α)} {n : Node α} {a : Nat} (h : a < m.length) : dt (m ++ [n]) a = dt m a := by
  unfold dt
  rw [List.getElem?_append_left h]

/-- a list of 2^32 - 1 items, one more inserted -/
theorem insertAt32_full {b : Build} {l : LinkedList α} {S : List (Nat × α)} {fs : List Nat} (H : IsSeq l S fs) (hS : S.length = NULL) {node : Nat}
    (hn : node ∈ S.map (·.1)) (d : Dir) (x : α) :
    ∃ l' : LinkedList α, l'.len = 0 ∧ l'.pool = NULL ∧ l'.memory.length = NULL + 1 ∧ (∀ a < NULL, dt l'.memory a = dt l.memory a) ∧
      l'.front = (if node = l.front ∧ d = .left then NULL else l.front) ∧
      l.insertAt32 b node d x = match b with
        | .debug => .error .overflow
        | .release => .ok l' := by
  have hN : NULL = 2 ^ 32 - 1 := rfl
  have ht := H.slots.total
  rw [List.length_map, hS] at ht
  have hsm := H.slots.small
  have hfs : fs = [] := List.length_eq_zero_iff.1 (by omega)
  subst hfs
  have hml : l.memory.length = NULL := by simpa using ht
  have hpool : l.pool = NULL := H.slots.free
  have hnb : node < NULL := hml ▸ H.slots.bound node (List.mem_append_left _ hn)
  obtain ⟨hr, hl⟩ := ring_bound H hn
  let l1 : LinkedList α := { l with memory := l.memory ++ [Node.ofItem x] }
  have h1 : l.allocate x = .ok (l1, NULL) := by
    unfold LinkedList.allocate
    rw [if_pos hpool]
    show Except.ok (l1, ptrOf ((l.memory ++ [Node.ofItem x]).length - 1)) = _
    rw [List.length_append, hml, List.length_singleton, Nat.add_sub_cancel]
    rfl
  have hl1 : l1.memory.length = NULL + 1 := by
    show (l.memory ++ [Node.ofItem x]).length = _
    rw [List.length_append, hml]
    rfl
  have hg : l1.memory[node]? = l.memory[node]? := List.getElem?_append_left (by omega)
  obtain ⟨nd, hnd⟩ : ∃ nd, l.memory[node]? = some nd := ⟨_, List.getElem?_eq_getElem (by omega)⟩
  have h2 : l1.node node = .ok nd := by
    unfold LinkedList.node idx
    rw [hg, hnd]
  have hadj : nd.child d < l1.memory.length := by
    have e1 : rt l.memory node = nd.right := by simp [rt, hnd]
    have e2 : lt l.memory node = nd.left := by simp [lt, hnd]
    cases d with
    | left => show nd.left < _; omega
    | right => show nd.right < _; omega
  obtain ⟨m2, e2, k2, -, -, d2⟩ := modify_spec (l := l1) (p := node) (by omega) fun n => n.setChild d NULL
  obtain ⟨m3, e3, k3, -, -, d3⟩ := modify_spec (l := { l1 with memory := m2 }) (p := nd.child d) (by rw [k2]; exact hadj) fun n => n.setChild d.flip NULL
  obtain ⟨m4, e4, k4, -, -, d4⟩ := modify_spec (l := { l1 with memory := m3 }) (p := NULL) (by rw [k3, k2]; omega) fun n => n.setChild d.flip node
  obtain ⟨m5, e5, k5, -, -, d5⟩ := modify_spec (l := { l1 with memory := m4 }) (p := NULL) (by rw [k4, k3, k2]; omega) fun n => n.setChild d (nd.child d)
  simp only [setChild_data] at d2 d3 d4 d5
  have hd : ∀ a < NULL, dt m5 a = dt l.memory a := by
    intro a ha
    have z5 : dt m5 a = dt m4 a := by rw [d5]; split <;> simp_all
    have z4 : dt m4 a = dt m3 a := by rw [d4]; split <;> simp_all
    have z3 : dt m3 a = dt m2 a := by rw [d3]; split <;> simp_all
    have z2 : dt m2 a = dt l1.memory a := by rw [d2]; split <;> simp_all
    rw [z5, z4, z3, z2]
    exact dt_append (by omega)
  refine ⟨{ l1 with memory := m5, front := if node = l.front ∧ d = .left then NULL else l.front,
                    rear := if node = l.rear ∧ d = .right then NULL else l.rear, len := 0 }, rfl, hpool, by show m5.length = _; rw [k5, k4, k3, k2, hl1], hd, rfl, ?_⟩
  unfold LinkedList.insertAt32
  have hlen : l.len = NULL := by rw [H.len, hS]
  have h0 : NULL ≠ 0 := by decide
  rw [if_neg (by rw [hlen]; exact h0), if_neg (by omega), h1, bind_ok]
  dsimp only
  rw [h2, bind_ok, e2, bind_ok, e3, bind_ok, e4, bind_ok, e5, bind_ok]
  have key : ∀ lx : LinkedList α, lx.len = NULL → (do
      let len ← chkU b 32 ((lx.len + 1 : Nat) : Int)
      pure { lx with len := len } : R (LinkedList α)) = match b with
        | .debug => .error .overflow
        | .release => .ok { lx with len := 0 } := by
    intro lx hx
    rw [hx]
    cases b <;> rfl
  refine (key _ (by split <;> split <;> exact hlen)).trans ?_
  cases b with
  | debug => rfl
  | release =>
    refine congrArg Except.ok ?_
    by_cases hf : node = l.front ∧ d = .left <;> by_cases hq : node = l.rear ∧ d = .right <;> simp [hf, hq, l1]

/-- then one more at the rear -/
theorem pushRear32_after {b : Build} {l : LinkedList α} (h0 : l.len = 0) (hp : l.pool = NULL) (hm : l.memory.length = NULL + 1) {v : α} (hv : dt l.memory 0 = some v) (y : α) :
    ∃ l', l.pushRear32 b y = .ok l' ∧ l'.len = 1 ∧ l'.iter = .ok [v] := by
  let l1 : LinkedList α := { l with memory := l.memory ++ [Node.ofItem y] }
  have h1 : l.allocate y = .ok (l1, 0) := by
    unfold LinkedList.allocate
    rw [if_pos hp]
    show Except.ok (l1, ptrOf ((l.memory ++ [Node.ofItem y]).length - 1)) = _
    rw [List.length_append, hm, List.length_singleton, Nat.add_sub_cancel]
    rfl
  have hl1 : 0 < l1.memory.length := by
    show 0 < (l.memory ++ [Node.ofItem y]).length
    rw [List.length_append, List.length_singleton]
    omega
  obtain ⟨m2, e2, k2, r2, -, d2⟩ := modify_spec (l := l1) (p := 0) hl1 fun n => { n with left := 0, right := 0 }
  have hd : dt m2 0 = some v := by
    rw [d2, if_pos rfl]
    show dt l1.memory 0 = _
    rw [← hv]
    exact dt_append (by omega)
  refine ⟨{ l1 with memory := m2, front := 0, rear := 0, len := 1 }, ?_, rfl, ?_⟩
  · unfold LinkedList.pushRear32 LinkedList.insertAt32
    rw [if_pos h0, h1, bind_ok]
    dsimp only
    rw [e2, bind_ok]
    have : chkU b 32 ((({ l1 with memory := m2 } : LinkedList α).len + 1 : Nat) : Int) = .ok 1 := by
      show chkU b 32 ((l.len + 1 : Nat) : Int) = _
      rw [h0]
      cases b <;> rfl
    rw [this]
    rfl
  · obtain ⟨n, hn⟩ : ∃ n, m2[0]? = some n := ⟨_, List.getElem?_eq_getElem (by omega)⟩
    have hn' : n.data = some v := by
      have : dt m2 0 = n.data := by simp [dt, hn]
      rw [← this, hd]
    have hi : idx m2 0 = .ok n := by unfold idx; rw [hn]
    simp only [LinkedList.iter, LinkedList.walk, LinkedList.node, hi, bind_ok, pure_bind, List.mapM_cons, List.mapM_nil, hn', expect]
    rfl

/-! ## C146 -/

/-- C146, while it is true. Any sequence of calls, with never more than 2^32 - 1 items in the list, does with a length of 32 bits what it does with an unbounded one, in
both builds (and there it is a sequence, C52). -/
theorem C146_calls_partial (b : Build) (os : List (ListOp α)) (hok : ListOp.AllOk .empty os) : runCalls32 b (.new, []) os = ListOp.runAll (.new, []) os :=
  runCalls32_eq os represents_empty hok

/-- C146, while it is true. Of fewer than 2^32 items added at the rear, none is lost. -/
theorem C146_fits_partial (b : Build) (xs : List α) (h : xs.length < 2 ^ 32) :
    ∃ l, pushList32 b .new xs = .ok l ∧ l.len = xs.length ∧ l.iter = .ok xs ∧ l.memory.length = xs.length := by
  obtain ⟨l, e, H⟩ := pushList32_spec b xs.length xs rfl (by unfold NULL; omega)
  refine ⟨l, e, ?_, ?_, ?_⟩
  · rw [H.len]; simp
  · rw [iter_spec H, List.map_snd_zip (by simp)]
  · have := H.slots.total
    simpa using this

/-- the list with 2^32 - 1 items and one more -/
theorem full_then {xs : List α} (h : xs.length = NULL) (b : Build) (x : α) :
    ∃ l' : LinkedList α, l'.len = 0 ∧ l'.pool = NULL ∧ l'.memory.length = NULL + 1 ∧ (∀ a < NULL, dt l'.memory a = xs[a]?) ∧
      pushList32 b .new (xs ++ [x]) = match b with
        | .debug => .error .overflow
        | .release => .ok l' := by
  obtain ⟨l, e, H⟩ := pushList32_spec b NULL xs h (Nat.le_refl _)
  have h0 : 0 < NULL := by decide
  have hfst : ((List.range NULL).zip xs).map (·.1) = List.range NULL := List.map_fst_zip (by simp [h])
  have hz : ((List.range NULL).zip xs).length = NULL := by simp [h]
  have hrear : l.rear ∈ ((List.range NULL).zip xs).map (·.1) := by
    rw [H.rear, hfst, List.getLastD_eq_getLast?, List.getLast?_range, if_neg (by omega)]
    simp only [Option.getD_some, List.mem_range]
    omega
  obtain ⟨l', a1, a2, a3, a4, -, a6⟩ := insertAt32_full (b := b) H hz hrear .right x
  refine ⟨l', a1, a2, a3, ?_, ?_⟩
  · intro a ha
    rw [a4 a ha]
    have hx : a < xs.length := by omega
    rw [List.getElem?_eq_getElem hx]
    refine H.data (a, xs[a]) ?_
    rw [List.mem_iff_getElem]
    exact ⟨a, by rw [hz]; exact ha, by simp⟩
  · unfold pushList32 at e ⊢
    rw [List.foldlM_append, e, bind_ok, List.foldlM_cons]
    show (l.insertAt32 b l.rear .right x >>= fun l => pure l) = _
    rw [a6]
    cases b <;> rfl

/-- C146, when it is false. With the 2^32nd item a build with overflow checks panics; in one without, the list is empty then, of length 0 and with nothing to
iterate over, though all items are still in memory. -/
theorem C146_full_partial (xs : List α) (h : xs.length = 2 ^ 32) :
    pushList32 .debug .new xs = .error .overflow ∧
      ∃ l, pushList32 .release .new xs = .ok l ∧ l.len = 0 ∧ l.iter = .ok [] ∧ l.memory.length = 2 ^ 32 ∧ ∀ i < 2 ^ 32 - 1, dt l.memory i = xs[i]? := by
  have hN : NULL = 2 ^ 32 - 1 := rfl
  obtain ⟨ys, y, rfl⟩ : ∃ ys y, xs = ys ++ [y] := ⟨_, _, (List.dropLast_append_getLast (l := xs) (by rintro rfl; simp at h)).symm⟩
  have hy : ys.length = NULL := by
    rw [List.length_append, List.length_singleton] at h
    omega
  refine ⟨(full_then hy .debug y).elim fun _ r => r.2.2.2.2, ?_⟩
  obtain ⟨l, a1, a2, a3, a4, a5⟩ := full_then hy .release y
  refine ⟨l, a5, a1, ?_, by rw [a3, hN], ?_⟩
  · unfold LinkedList.iter
    rw [a1]
    rfl
  · intro i hi
    rw [a4 i (by omega), List.getElem?_append_left (by omega)]

/-- C146, when it is false. Of the next item pushed nothing is seen either: the list then holds one item, and it is the first that was ever pushed. -/
theorem C146_after_partial (xs : List α) (h : xs.length = 2 ^ 32) (y : α) :
    ∃ l x, xs[0]? = some x ∧ pushList32 .release .new (xs ++ [y]) = .ok l ∧ l.len = 1 ∧ l.iter = .ok [x] := by
  have hN : NULL = 2 ^ 32 - 1 := rfl
  obtain ⟨ys, z, rfl⟩ : ∃ ys y, xs = ys ++ [y] := ⟨_, _, (List.dropLast_append_getLast (l := xs) (by rintro rfl; simp at h)).symm⟩
  have hy : ys.length = NULL := by
    rw [List.length_append, List.length_singleton] at h
    omega
  obtain ⟨l, a1, a2, a3, a4, a5⟩ := full_then hy .release z
  have h0 : 0 < ys.length := by omega
  have hx : (ys ++ [z])[0]? = some ys[0] := by rw [List.getElem?_append_left h0, List.getElem?_eq_getElem h0]
  obtain ⟨l', e1, e2, e3⟩ := pushRear32_after (b := .release) a1 a2 a3 (v := ys[0]) (by rw [a4 0 (by omega), List.getElem?_eq_getElem h0]) y
  refine ⟨l', ys[0], hx, ?_, e2, e3⟩
  unfold pushList32 at a5 ⊢
  rw [List.foldlM_append, a5, bind_ok, List.foldlM_cons, e1]
  rfl

/-- C146 is false: not all of 2^32 items pushed are in the list. -/
theorem C146_false : ¬ ∀ (b : Build) (xs : List Unit), ∃ l, pushList32 b .new xs = .ok l ∧ l.iter = .ok xs := by
  intro H
  have hl : (List.replicate (2 ^ 32) ()).length = 2 ^ 32 := List.length_replicate
  obtain ⟨l, e, -⟩ := H .debug (List.replicate (2 ^ 32) ())
  rw [(C146_full_partial _ hl).1] at e
  cases e

/-- calls as in `C146_calls_partial`, and their result -/
example : ListOp.AllOk .empty [.pushRear 'a', .pushFront 'b', .insertAt 0 .left 'c', .removeAt 1] ∧
    (do let ((l, _), _) ← runCalls32 .debug (.new, []) [.pushRear 'a', .pushFront 'b', .insertAt 0 .left 'c', .removeAt 1]
        l.iter) = .ok ['c', 'a'] := by
  refine ⟨?_, by decide⟩
  simp [ListOp.AllOk, ListOp.Ok, ListOp.spec, ListOp.Seq.empty, ListOp.Seq.grow, NULL]

end Adhoc
