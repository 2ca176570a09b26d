import Verif.Props.ListSerde
import Verif.Props.Alias

/-! # C144: iterating over a list that was read from bytes -/

namespace Adhoc
open Bincode

/-- C144: in every list that `Deserialize` accepts, `iter` and `iter_mut` reach all items without a panic, and `iter_mut` hands out no item
twice. -/
def C144_statement : Prop := ∀ {α : Type} (d : Dec α) (bytes rest : List Byte) (l : LinkedList α) (f : Nat → α → α), LinkedList.dec d bytes = some (l, rest) →
  (∃ xs, l.iter = .ok xs) ∧ ∃ l' ps, l.iterMut f = .ok (l', ps) ∧ ps.Nodup

namespace Spec

/-- the slots and items `S` are what the links of the list lead through: as many as its length says, in different slots, each of them holding
its item; the front is the first, and every slot but the last links to the next one. Nothing is asked of the links to the left, of the rear, of the pool
or of the last link. -/
structure Threaded {α : Type} (l : LinkedList α) (S : List (Nat × α)) : Prop where
  slots : (S.map (·.1)).Nodup
  len : S.length = l.len
  first : ∀ x, S[0]? = some x → l.front = x.1
  next : ∀ i x y, S[i]? = some x → S[i + 1]? = some y → ∃ n, l.memory[x.1]? = some n ∧ n.right = y.1
  full : ∀ x ∈ S, ∃ n, l.memory[x.1]? = some n ∧ n.data = some x.2

end Spec
open Spec

section
variable {α : Type}

theorem full_lt {l : LinkedList α} {p : Nat} {v : α} (h : ∃ n, l.memory[p]? = some n ∧ n.data = some v) : p < l.memory.length ∧ dt l.memory p = some v := by
  obtain ⟨n, h1, h2⟩ := h
  exact ⟨(List.getElem?_eq_some_iff.1 h1).1, by simp [dt, h1, h2]⟩

/-- the iterator follows the links -/
theorem walk_thread {l : LinkedList α} : ∀ (S : List (Nat × α)) (p : Nat), (∀ x, S[0]? = some x → p = x.1) →
    (∀ i x y, S[i]? = some x → S[i + 1]? = some y → ∃ n, l.memory[x.1]? = some n ∧ n.right = y.1) →
    (∀ x ∈ S, ∃ n, l.memory[x.1]? = some n ∧ n.data = some x.2) → l.walk S.length p = .ok (S.map (·.1))
  | [], p, _, _, _ => rfl
  | x :: S, p, hf, hn, hd => by
    obtain rfl := hf x rfl
    have hx := full_lt (hd x (by simp))
    rw [List.length_cons, LinkedList.walk, node_ok hx.1, bind_ok]
    dsimp only
    rw [walk_thread S (rt l.memory x.1)]
    · rfl
    · intro y hy
      obtain ⟨n, h1, h2⟩ := hn 0 x y rfl (by simpa using hy)
      simp [rt, h1, h2]
    · intro i y z h1 h2
      exact hn (i + 1) y z (by simpa using h1) (by simpa using h2)
    · exact fun y hy => hd y (by simp [hy])

/-- and nothing else -/
theorem walk_links {l : LinkedList α} : ∀ (n p : Nat) (ps : List Nat), l.walk n p = .ok ps →
    ps.length = n ∧ (∀ q, ps[0]? = some q → p = q) ∧
      ∀ i q r, ps[i]? = some q → ps[i + 1]? = some r → ∃ nd, l.memory[q]? = some nd ∧ nd.right = r
  | 0, p, ps, h => by
    obtain rfl := Except.ok.inj h
    simp
  | n + 1, p, ps, h => by
    unfold LinkedList.walk at h
    by_cases hp : p < l.memory.length
    · rw [node_ok hp, bind_ok] at h
      dsimp only at h
      cases hw : l.walk n (rt l.memory p) with
      | error e => rw [hw] at h; cases h
      | ok qs =>
        rw [hw] at h
        obtain rfl := Except.ok.inj h
        obtain ⟨h1, h2, h3⟩ := walk_links n _ qs hw
        refine ⟨by simp [h1], by simp, ?_⟩
        intro i q r hq hr
        cases i with
        | zero =>
          obtain rfl : p = q := by simpa using hq
          have := h2 r (by simpa using hr)
          refine ⟨l.memory[p], List.getElem?_eq_getElem hp, ?_⟩
          rw [← this]
          simp [rt, List.getElem?_eq_getElem hp]
        | succ i => exact h3 i q r (by simpa using hq) (by simpa using hr)
    · rw [node_out (by omega)] at h
      cases h

/-- writing through references to different full slots -/
theorem writeAll_thread (f : Nat → α → α) : ∀ (V : List (Nat × α)) (l : LinkedList α) (i : Nat), (V.map (·.1)).Nodup →
    (∀ x ∈ V, ∃ n, l.memory[x.1]? = some n ∧ n.data = some x.2) →
    ∃ m, LinkedList.writeAll f l i (V.map (·.1)) = .ok { l with memory := m } ∧ m.length = l.memory.length ∧ (∀ a, rt m a = rt l.memory a) ∧
      (∀ a, a ∉ V.map (·.1) → dt m a = dt l.memory a) ∧ ∀ j x, V[j]? = some x → dt m x.1 = some (f (i + j) x.2)
  | [], l, i, _, _ => ⟨l.memory, rfl, rfl, fun _ => rfl, fun _ _ => rfl, by simp⟩
  | x :: V, l, i, hn, hd => by
    rw [List.map_cons, List.nodup_cons] at hn
    have hx := full_lt (hd x (by simp))
    obtain ⟨m, e, hl, r, -, d⟩ := modify_spec (l := l) hx.1 fun n => { n with data := some (f i x.2) }
    simp only at r d
    have hr : ∀ a, rt m a = rt l.memory a := fun a => by rw [r]; split <;> simp_all
    obtain ⟨m', e', hl', hr', hd', hv'⟩ := writeAll_thread f V { l with memory := m } (i + 1) hn.2 (by
      intro y hy
      have hy' := full_lt (hd y (by simp [hy]))
      have hne : y.1 ≠ x.1 := fun h => hn.1 (List.mem_map.2 ⟨y, hy, h⟩)
      have hlt : y.1 < m.length := by rw [hl]; exact hy'.1
      refine ⟨m[y.1], List.getElem?_eq_getElem hlt, ?_⟩
      have := d y.1
      rw [if_neg hne, hy'.2] at this
      simpa [dt, List.getElem?_eq_getElem hlt] using this)
    refine ⟨m', ?_, hl'.trans hl, fun a => (hr' a).trans (hr a), ?_, ?_⟩
    · rw [List.map_cons, LinkedList.writeAll, node_ok hx.1, bind_ok]
      dsimp only
      rw [hx.2, show expect (some x.2) = .ok x.2 from rfl, bind_ok, e, bind_ok, e']
    · intro a ha
      rw [List.map_cons, List.mem_cons, not_or] at ha
      rw [hd' a ha.2]
      show dt m a = _
      rw [d, if_neg ha.1]
    · intro j y hy
      cases j with
      | zero =>
        obtain rfl : x = y := by simpa using hy
        rw [hd' x.1 hn.1]
        show dt m x.1 = _
        rw [d, if_pos rfl, Nat.add_zero]
      | succ j =>
        have := hv' j y (by simpa using hy)
        rw [this, Nat.add_assoc, Nat.add_comm 1]

/-- writing through references to different slots finds them all full -/
theorem writeAll_full (f : Nat → α → α) : ∀ (ps : List Nat) (l l' : LinkedList α) (i : Nat), ps.Nodup → (∀ q ∈ ps, q < l.memory.length) →
    LinkedList.writeAll f l i ps = .ok l' → ∀ q ∈ ps, ∃ v, dt l.memory q = some v
  | [], _, _, _, _, _, _ => by simp
  | p :: ps, l, l', i, hn, hb, h => by
    rw [List.nodup_cons] at hn
    have hp := hb p (by simp)
    unfold LinkedList.writeAll at h
    rw [node_ok hp, bind_ok] at h
    dsimp only at h
    cases hd : dt l.memory p with
    | none => rw [hd] at h; cases h
    | some v =>
      rw [hd, show expect (some v) = .ok v from rfl, bind_ok] at h
      obtain ⟨m, e, hl, -, -, d⟩ := modify_spec (l := l) hp fun n => { n with data := some (f i v) }
      rw [e, bind_ok] at h
      have := writeAll_full f ps { l with memory := m } l' (i + 1) hn.2 (fun q hq => by rw [show ({ l with memory := m } : LinkedList α).memory = m from rfl, hl]; exact hb q (by simp [hq])) h
      intro q hq
      rcases List.mem_cons.1 hq with rfl | hq
      · exact ⟨v, hd⟩
      · obtain ⟨w, hw⟩ := this q hq
        have hne : q ≠ p := fun h => hn.1 (h ▸ hq)
        exact ⟨w, by rw [← hw]; show _ = dt m q; rw [d, if_neg hne]⟩

theorem dt_get {m : List (Node α)} {p : Nat} {v : α} (h : dt m p = some v) : ∃ n, m[p]? = some n ∧ n.data = some v := by
  unfold dt at h
  cases hm : m[p]? with
  | none => rw [hm] at h; cases h
  | some n => rw [hm] at h; exact ⟨n, rfl, h⟩

/-- C144, exactly: for every list, also one made up and read from bytes, `iter_mut` reaches its end without a panic and hands out no item twice
exactly if the links of the list lead through as many different full slots as its length says. -/
theorem C144_exact_partial (l : LinkedList α) (f : Nat → α → α) :
    (∃ l' ps, l.iterMut f = .ok (l', ps) ∧ ps.Nodup) ↔ ∃ S, Threaded l S := by
  constructor
  · rintro ⟨l', ps, h, hn⟩
    unfold LinkedList.iterMut at h
    cases hw : l.walk l.len l.front with
    | error e => rw [hw] at h; cases h
    | ok qs =>
      rw [hw, bind_ok] at h
      cases hq : LinkedList.writeAll f l 0 qs with
      | error e => rw [hq] at h; cases h
      | ok l1 =>
        rw [hq, bind_ok] at h
        obtain ⟨rfl, rfl⟩ := Prod.mk.inj (Except.ok.inj h)
        have hfull := writeAll_full f qs l l1 0 hn (walk_range _ hw) hq
        obtain ⟨h1, h2, h3⟩ := walk_links _ _ _ hw
        obtain ⟨vs, hvl, hvs⟩ : ∃ vs : List α, vs.length = qs.length ∧ ∀ (i : Nat) q v, qs[i]? = some q → vs[i]? = some v → dt l.memory q = some v := by
          clear hw hq h hn h1 h2 h3
          induction qs with
          | nil => exact ⟨[], rfl, by simp⟩
          | cons q qs ih =>
            obtain ⟨v, hv⟩ := hfull q (by simp)
            obtain ⟨vs, e, hvs⟩ := ih fun r hr => hfull r (by simp [hr])
            refine ⟨v :: vs, by simp [e], ?_⟩
            intro i r w hr hw
            cases i with
            | zero => simp at hr hw; subst hr hw; exact hv
            | succ i => exact hvs i r w (by simpa using hr) (by simpa using hw)
        have hfst : (qs.zip vs).map (·.1) = qs := List.map_fst_zip (by omega)
        have hget : ∀ (i : Nat) (x : Nat × α), (qs.zip vs)[i]? = some x → qs[i]? = some x.1 ∧ vs[i]? = some x.2 := by
          intro i x hx
          exact List.getElem?_zip_eq_some.1 hx
        refine ⟨qs.zip vs, ⟨by rw [hfst]; exact hn, by simp; omega, fun x hx => h2 _ (hget 0 x hx).1,
          fun i x y hx hy => h3 i _ _ (hget i x hx).1 (hget (i + 1) y hy).1, ?_⟩⟩
        intro x hx
        obtain ⟨i, hi⟩ := List.mem_iff_getElem?.1 hx
        exact dt_get (hvs i _ _ (hget i x hi).1 (hget i x hi).2)
  · rintro ⟨S, H⟩
    have hw := walk_thread S l.front H.first H.next H.full
    rw [H.len] at hw
    obtain ⟨m, e, -⟩ := writeAll_thread f S l 0 H.slots H.full
    refine ⟨{ l with memory := m }, S.map (·.1), ?_, H.slots⟩
    unfold LinkedList.iterMut
    rw [hw, bind_ok, e, bind_ok]
    rfl

theorem mapM_thread {l : LinkedList α} : ∀ (S : List (Nat × α)), (∀ x ∈ S, ∃ n, l.memory[x.1]? = some n ∧ n.data = some x.2) →
    (S.map (·.1)).mapM (m := R) (fun p => do
      let n ← l.node p
      expect n.data) = .ok (S.map (·.2))
  | [], _ => rfl
  | x :: S, h => by
    have hx := full_lt (h x (by simp))
    rw [List.map_cons, List.mapM_cons, node_ok hx.1, bind_ok]
    dsimp only
    rw [hx.2, show expect (some x.2) = .ok x.2 from rfl, bind_ok, mapM_thread S fun y hy => h y (by simp [hy]), bind_ok]
    rfl

/-- C144, such lists: `iter` yields the items in the order of the links, and `iter_mut` hands out each of them once, writes them in this order and
leaves a list whose links lead through the new items in the same slots. -/
theorem C144_threaded_partial (l : LinkedList α) (S : List (Nat × α)) (H : Threaded l S) (f : Nat → α → α) :
    l.iter = .ok (S.map (·.2)) ∧
      ∃ l', l.iterMut f = .ok (l', S.map (·.1)) ∧ Threaded l' (S.mapIdx fun i x => (x.1, f i x.2)) := by
  have hw := walk_thread S l.front H.first H.next H.full
  rw [H.len] at hw
  obtain ⟨m, e, hl, hr, -, hd⟩ := writeAll_thread f S l 0 H.slots H.full
  refine ⟨?_, { l with memory := m }, ?_, ?_⟩
  · unfold LinkedList.iter
    rw [hw, bind_ok]
    exact mapM_thread S H.full
  · unfold LinkedList.iterMut
    rw [hw, bind_ok, e, bind_ok]
    rfl
  · have hget : ∀ i y, (S.mapIdx fun i x => (x.1, f i x.2))[i]? = some y → ∃ x, S[i]? = some x ∧ y = (x.1, f i x.2) := by
      intro i y hy
      rw [List.getElem?_mapIdx] at hy
      cases hx : S[i]? with
      | none => rw [hx] at hy; cases hy
      | some x => rw [hx] at hy; exact ⟨x, rfl, (Option.some.inj hy).symm⟩
    have hfst : (S.mapIdx fun i x => (x.1, f i x.2)).map (·.1) = S.map (·.1) := by
      refine List.ext_getElem? fun i => ?_
      simp only [List.getElem?_map, List.getElem?_mapIdx, Option.map_map]
      rfl
    refine ⟨by rw [hfst]; exact H.slots, by rw [List.length_mapIdx]; exact H.len, ?_, ?_, ?_⟩
    · intro y hy
      obtain ⟨x, hx, rfl⟩ := hget 0 y hy
      exact H.first x hx
    · intro i y z hy hz
      obtain ⟨x, hx, rfl⟩ := hget i y hy
      obtain ⟨w, hw, rfl⟩ := hget (i + 1) z hz
      obtain ⟨n, h1, h2⟩ := H.next i x w hx hw
      have hlt : x.1 < m.length := by rw [hl]; exact (List.getElem?_eq_some_iff.1 h1).1
      refine ⟨m[x.1], List.getElem?_eq_getElem hlt, ?_⟩
      have := hr x.1
      simpa [rt, List.getElem?_eq_getElem hlt, h1, h2] using this
    · intro y hy
      obtain ⟨i, hi⟩ := List.mem_iff_getElem?.1 hy
      obtain ⟨x, hx, rfl⟩ := hget i y hi
      have := hd i x hx
      rw [Nat.zero_add] at this
      exact dt_get this

/-- C144, too long: in a list whose length exceeds its memory, whatever its links, `iter_mut` panics or hands out an item twice. -/
theorem C144_long_partial (l : LinkedList α) (f : Nat → α → α) (h : l.memory.length < l.len) : ¬ ∃ l' ps, l.iterMut f = .ok (l', ps) ∧ ps.Nodup := by
  rw [C144_exact_partial]
  rintro ⟨S, H⟩
  have h1 : S.map (·.1) ⊆ List.range l.memory.length := by
    intro q hq
    obtain ⟨x, hx, rfl⟩ := List.mem_map.1 hq
    exact List.mem_range.2 (full_lt (H.full x hx)).1
  have h2 := (H.slots.subperm h1).length_le
  rw [List.length_map, List.length_range, H.len] at h2
  omega

end

/-- 45 bytes: one node holding 5 whose two links lead to itself, front and rear are this node, the pool is empty, and the length is 2 -/
def selfLoop : List Byte :=
  [1, 0, 0, 0, 0, 0, 0, 0, 1, 5, 0, 0, 0, 2, 0, 0, 0, 0, 0, 0, 0, 0, 0, 0, 0, 0, 0, 0, 0, 0, 0, 0, 0, 0, 0, 0, 0, 255, 255, 255, 255, 2, 0, 0, 0]

/-- the list these bytes are read as -/
def looped : LinkedList Nat := ⟨[⟨some 5, 0, 0⟩], 0, 0, NULL, 2⟩

theorem selfLoop_reads : LinkedList.dec (decU 4) selfLoop = some (looped, []) := by decide +kernel

/-- C144 is false: of the list read from `selfLoop`, `iter_mut` hands out its only item twice. -/
theorem C144_false : ¬ C144_statement := by
  intro h
  obtain ⟨-, l', ps, h1, h2⟩ := h (decU 4) selfLoop [] looped (fun i _ => i) selfLoop_reads
  exact C144_long_partial looped _ (by decide) ⟨l', ps, h1, h2⟩

/-- what it hands out, and what is left of the item -/
example : looped.iterMut (fun _ x => x + 1) = .ok (⟨[⟨some 7, 0, 0⟩], 0, 0, NULL, 2⟩, [0, 0]) := by decide +kernel

/-- a made-up list that is threaded although its links to the left, its rear, its pool and its last link are nonsense -/
example : Threaded (⟨[⟨some 7, 9, 77⟩, ⟨none, 1, 1⟩, ⟨some 8, 4, 0⟩], 2, 1, 0, 2⟩ : LinkedList Nat) [(2, 8), (0, 7)] :=
  ⟨by decide, rfl, by simp, by
    intro i x y hx hy
    cases i with
    | zero => simp at hx hy; subst hx hy; exact ⟨_, rfl, rfl⟩
    | succ i => simp at hy, by
    intro x hx
    simp at hx
    rcases hx with rfl | rfl <;> exact ⟨_, rfl, rfl⟩⟩

end Adhoc
