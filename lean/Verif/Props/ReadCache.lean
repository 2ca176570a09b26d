import Verif.Props.CacheSerde
import Verif.Props.ReadList

/-! # C151: a cache read from bytes -/

namespace Adhoc
open Spec F32 Bincode

namespace Spec

/-- a cache that was made rightly: its list goes through the slots of `S` in both directions and around, most recently used first; all other slots
are free and linked to each other; the table leads from the key of each item to its slot, and nowhere else; no key is there twice; and there are no
more items than its capacity, which is not 0 -/
structure WellMade {κ ν : Type} (c : LruCache κ ν) (S : List (Nat × κ × ν)) (free : List Nat) : Prop where
  slots : (S.map (·.1) ++ free).Perm (List.range c.list.memory.length)
  small : c.list.memory.length ≤ NULL
  live : ∀ i p x, S[i]? = some (p, x) → c.list.memory[p]? = some
    ({ data := some x,
       left := if i = 0 then (S.map (·.1)).getLastD NULL else (S.map (·.1)).getD (i - 1) NULL,
       right := (S.map (·.1)).getD (i + 1) ((S.map (·.1)).headD NULL) } : Node (κ × ν))
  rest : ∀ i p, free[i]? = some p → c.list.memory[p]? = some ({ data := none, left := NULL, right := free.getD (i + 1) NULL } : Node (κ × ν))
  front : c.list.front = (S.map (·.1)).headD NULL
  rear : c.list.rear = (S.map (·.1)).getLastD NULL
  pool : c.list.pool = free.headD NULL
  len : c.list.len = S.length
  table : ∀ k p, c.table k = some p ↔ ∃ v, (p, (k, v)) ∈ S
  keys : (S.map (·.2.1)).Nodup
  room : S.length ≤ c.capacity
  some_room : 0 < c.capacity
  u32 : c.capacity ≤ NULL

end Spec

/-- C151: a cache read from bytes that has room does what it is told without a panic. -/
def C151_statement : Prop := ∀ (bytes rest : List Byte) (c : LruCache Nat Nat), LruCache.dec (decU 4) (decU 4) bytes = some (c, rest) →
  0 < c.capacity → ∀ os : List (CacheOp Nat Nat), ∃ r, CacheOp.runAll c os = .ok r

theorem path_mem {ab : Nat × Nat} (h : Nat) : ∀ (t : List Nat) (a : Nat), ab ∈ path a t h →
    ∃ i, (a :: t)[i]? = some ab.1 ∧ t.getD i h = ab.2 ∧ i ≤ t.length
  | [], a, hm => by
    simp only [path, List.mem_singleton] at hm
    subst hm
    exact ⟨0, rfl, rfl, Nat.le_refl _⟩
  | x :: t, a, hm => by
    simp only [path, List.mem_cons] at hm
    rcases hm with rfl | hm
    · exact ⟨0, rfl, rfl, Nat.zero_le _⟩
    · obtain ⟨i, h1, h2, h3⟩ := path_mem h t x hm
      exact ⟨i + 1, h1, by simpa using h2, by simpa using h3⟩

theorem freeChain_of {α : Type} {m : List (Node α)} : ∀ (fs : List Nat) (p : Nat), p = fs.headD NULL →
    (∀ i q, fs[i]? = some q → m[q]? = some ({ data := none, left := NULL, right := fs.getD (i + 1) NULL } : Node α)) → FreeChain m p fs
  | [], p, hp, _ => hp
  | a :: t, p, hp, h => by
    have h0 := h 0 a rfl
    refine ⟨hp, by simp [lt, dt, h0], freeChain_of t _ ?_ fun i q hq => ?_⟩
    · simp only [rt, h0]
      cases t <;> rfl
    · have := h (i + 1) q (by simpa using hq)
      simpa using this

/-- a cache that was made rightly holds its items -/
theorem Spec.WellMade.caches {κ ν : Type} [DecidableEq κ] {c : LruCache κ ν} {S : List (Nat × κ × ν)} {free : List Nat} (H : WellMade c S free) : Caches c (S.map (·.2)) where
  seq := by
    refine ⟨S, free, ⟨⟨?_, ?_, ?_, H.small, freeChain_of free _ H.pool H.rest⟩, ?_, ?_, H.front, H.rear, H.len⟩, rfl, H.table⟩
    · exact H.slots.nodup_iff.2 List.nodup_range
    · intro a ha
      exact List.mem_range.1 (H.slots.mem_iff.1 ha)
    · have := H.slots.length_eq
      simpa using this.symm
    · intro ab hab
      cases S with
      | nil => simp [cyc] at hab
      | cons s S =>
        simp only [List.map_cons, cyc] at hab
        obtain ⟨i, h1, h2, h3⟩ := path_mem _ _ _ hab
        rw [← List.map_cons (f := fun x : Nat × κ × ν => x.1), List.getElem?_map] at h1
        obtain ⟨⟨p, x⟩, hx, hp⟩ := Option.map_eq_some_iff.1 h1
        have hr := H.live i p x hx
        rw [show p = ab.1 from hp] at hr
        have hnext : ((s :: S).map (·.1)).getD (i + 1) (((s :: S).map (·.1)).headD NULL) = ab.2 := by
          rw [← h2]
          simp
        rw [hnext] at hr
        refine ⟨by simp [rt, hr], ?_⟩
        -- the neighbour on the right
        rcases Nat.lt_or_ge i S.length with hi | hi
        · have hg : (s :: S)[i + 1]? = some S[i] := by simp [hi]
          have hl := H.live (i + 1) S[i].1 S[i].2 hg
          have e2 : S[i].1 = ab.2 := by
            rw [← h2]
            simp [List.getD_eq_getElem?_getD, hi]
          rw [e2, if_neg (by omega)] at hl
          simp only [lt, hl, Option.map_some, Option.getD_some, Nat.add_sub_cancel]
          rw [List.getD_eq_getElem?_getD, List.getElem?_map, hx]
          exact hp
        · rw [List.length_map] at h3
          have hi : i = S.length := by omega
          have hl := H.live 0 s.1 s.2 rfl
          have e2 : s.1 = ab.2 := by
            rw [← h2]
            simp [List.getD_eq_getElem?_getD, hi]
          rw [e2, if_pos rfl] at hl
          simp only [lt, hl, Option.map_some, Option.getD_some]
          have : ((s :: S).map (·.1)).getLast? = some ab.1 := by
            rw [List.getLast?_eq_getElem?, List.getElem?_map, List.length_map, List.length_cons, Nat.add_sub_cancel, ← hi, hx]
            exact congrArg some hp
          rw [List.getLastD_eq_getLast?, this]
          rfl
    · rintro ⟨p, x⟩ hm
      obtain ⟨i, hi⟩ := List.mem_iff_getElem?.1 hm
      simp [dt, H.live i p x hi]
  nodup := by
    rw [List.map_map]
    exact H.keys
  cap := by simpa using H.room
  pos := H.some_room
  small := H.u32

theorem mem_path (h : Nat) : ∀ (t : List Nat) (a i : Nat), i ≤ t.length → ((a :: t).getD i NULL, t.getD i h) ∈ path a t h
  | [], a, i, hi => by
    have : i = 0 := by simpa using hi
    subst this
    simp [path]
  | x :: t, a, 0, _ => by simp [path]
  | x :: t, a, i + 1, hi => by
    have := mem_path h t x i (by simpa using hi)
    simp only [path, List.mem_cons]
    exact .inr (by simpa using this)

theorem freeChain_get {α : Type} {m : List (Node α)} : ∀ (fs : List Nat) (p : Nat), FreeChain m p fs → (∀ q ∈ fs, q < m.length) → p = fs.headD NULL ∧
    ∀ i q, fs[i]? = some q → m[q]? = some ({ data := none, left := NULL, right := fs.getD (i + 1) NULL } : Node α)
  | [], p, h, _ => ⟨h, by simp⟩
  | a :: t, p, h, hb => by
    obtain ⟨h1, ⟨h2, h3⟩, h4⟩ := h
    obtain ⟨e, ih⟩ := freeChain_get t _ h4 fun q hq => hb q (by simp [hq])
    refine ⟨h1, fun i q hq => ?_⟩
    cases i with
    | zero =>
      obtain rfl : a = q := by simpa using hq
      have ha := hb a (by simp)
      rw [List.getElem?_eq_getElem ha]
      simp only [rt, lt, dt, List.getElem?_eq_getElem ha, Option.map_some, Option.getD_some, Option.bind_some] at e h2 h3
      have : (a :: t).getD (0 + 1) NULL = t.headD NULL := by cases t <;> rfl
      rw [this, ← e, ← h2, ← h3]
    | succ i =>
      have := ih i q (by simpa using hq)
      simpa using this

/-- a cache that holds its items was made rightly -/
theorem Caches.made {κ ν : Type} [DecidableEq κ] {c : LruCache κ ν} {m : List (κ × ν)} (H : Caches c m) : ∃ S free, WellMade c S free ∧ S.map (·.2) = m := by
  obtain ⟨S, fs, hs, rfl, ht⟩ := H.seq
  obtain ⟨hp, hf⟩ := freeChain_get fs _ hs.slots.free fun q hq => hs.slots.bound q (by simp [hq])
  have hperm : (S.map (·.1) ++ fs).Perm (List.range c.list.memory.length) := by
    have hsub : S.map (·.1) ++ fs ⊆ List.range c.list.memory.length := fun a ha => List.mem_range.2 (hs.slots.bound a ha)
    refine (hs.slots.nodup.subperm hsub).perm_of_length_le ?_
    have := hs.slots.total
    simp only [List.length_map] at this
    simp [this]
  refine ⟨S, fs, ⟨hperm, hs.slots.small, ?_, hf, hs.front, hs.rear, hp, hs.len, ht, ?_, by simpa using H.cap, H.pos, H.small⟩, rfl⟩
  · intro i p x hi
    obtain ⟨hil, hig⟩ := List.getElem?_eq_some_iff.1 hi
    have hpm : p ∈ S.map (·.1) := List.mem_map.2 ⟨_, List.mem_of_getElem? hi, rfl⟩
    have hpl := hs.slots.bound p (by simp only [List.mem_append]; exact .inl hpm)
    have hd := hs.data _ (List.mem_of_getElem? hi)
    cases S with
    | nil => simp at hil
    | cons s S =>
      have hring := hs.ring
      simp only [List.map_cons, cyc] at hring
      have hpi : ((s :: S).map (·.1)).getD i NULL = p := by
        rw [List.getD_eq_getElem?_getD, List.getElem?_map, hi]
        rfl
      have hr := (hring _ (mem_path s.1 (S.map (·.1)) s.1 i (by simpa using Nat.le_of_lt_succ hil))).1
      simp only [List.map_cons] at hpi
      rw [hpi] at hr
      have hl : lt c.list.memory p = if i = 0 then ((s :: S).map (·.1)).getLastD NULL else ((s :: S).map (·.1)).getD (i - 1) NULL := by
        cases i with
        | zero =>
          rw [if_pos rfl]
          have := (hring _ (mem_path s.1 (S.map (·.1)) s.1 S.length (by simp))).2
          have e : p = s.1 := by simpa using hpi.symm
          have e2 : (S.map (·.1)).getD S.length s.1 = s.1 := by simp [List.getD_eq_getElem?_getD]
          rw [e2] at this
          dsimp only at this
          rw [e, this, List.getLastD_eq_getLast?, List.getLast?_eq_getElem?, List.getD_eq_getElem?_getD]
          simp
        | succ i =>
          rw [if_neg (by omega), Nat.add_sub_cancel]
          have := (hring _ (mem_path s.1 (S.map (·.1)) s.1 i (by simp at hil ⊢; omega))).2
          have e : (S.map (·.1)).getD i s.1 = p := by
            have hil' : i < S.length := by simpa using hil
            rw [← hpi]
            simp [List.getD_eq_getElem?_getD, hil']
          rw [e] at this
          exact this
      rw [List.getElem?_eq_getElem hpl]
      simp only [rt, dt, List.getElem?_eq_getElem hpl, Option.map_some, Option.getD_some, Option.bind_some] at hr hd
      rw [← hl]
      simp only [lt, List.getElem?_eq_getElem hpl, Option.map_some, Option.getD_some]
      rw [← hd]
      have e3 : ((s :: S).map (·.1)).getD (i + 1) (((s :: S).map (·.1)).headD NULL) = (S.map (·.1)).getD i s.1 := by simp
      rw [e3, ← hr]
  · have := H.nodup
    rwa [List.map_map] at this

/-- C151, the condition is not too much: every cache with room is made rightly after any calls. -/
theorem C151_reached_partial {κ ν : Type} [DecidableEq κ] (cap : Nat) (h1 : 0 < cap) (h2 : cap < 2 ^ 32) (os : List (CacheOp κ ν)) :
    ∃ c S free, CacheOp.runAll (.new cap) os = .ok (c, (CacheOp.specAll cap [] os).2) ∧ WellMade c S free ∧ S.map (·.2) = (CacheOp.specAll cap [] os).1 := by
  have hc : (LruCache.new cap : LruCache κ ν).capacity = cap := Nat.mod_eq_of_lt h2
  obtain ⟨c, e, h⟩ := cacheOps os (caches_new (κ := κ) (ν := ν) h1 h2)
  rw [hc] at e h
  obtain ⟨S, free, hm, hS⟩ := h.made
  exact ⟨c, S, free, e, hm, hS⟩

/-- C151, what is true of caches that were made rightly, also by others: all calls return what the recency-ordered list of the items returns. -/
theorem C151_made_partial {κ ν : Type} [DecidableEq κ] (c : LruCache κ ν) (S : List (Nat × κ × ν)) (free : List Nat) (H : WellMade c S free) (os : List (CacheOp κ ν)) :
    ∃ c', CacheOp.runAll c os = .ok (c', (CacheOp.specAll c.capacity (S.map (·.2)) os).2) ∧
      c'.len = (CacheOp.specAll c.capacity (S.map (·.2)) os).1.length ∧
      ∀ k, c'.lookup k = .ok ((CacheOp.specAll c.capacity (S.map (·.2)) os).1.lookup k) := by
  obtain ⟨c', e, h⟩ := cacheOps os H.caches
  obtain ⟨S', fs, hs, hS, -⟩ := h.seq
  refine ⟨c', e, by unfold LruCache.len; rw [hs.len, ← hS]; simp, fun k => ?_⟩
  obtain ⟨c1, e1, -, -⟩ := cacheOp_step h (.lookup k)
  simp only [CacheOp.run, CacheOp.spec] at e1
  cases hk : c'.lookup k with
  | error er => rw [hk] at e1; cases e1
  | ok v =>
    rw [hk, bind_ok] at e1
    exact congrArg Except.ok (Prod.mk.inj (Except.ok.inj e1)).2

/-- C151, looking up in any cache whatever: it panics exactly if the table leads behind the slots; otherwise it gives the value in the slot the table
leads to, whatever key is there, or nothing. -/
theorem C151_lookup_partial {κ ν : Type} (c : LruCache κ ν) (k : κ) :
    c.lookup k = match c.table k with
      | none => .ok none
      | some p => match c.list.memory[p]? with
        | none => .error .index
        | some n => .ok (n.data.map (·.2)) := by
  unfold LruCache.lookup
  cases c.table k with
  | none => rfl
  | some p =>
    simp only [LinkedList.node, idx]
    cases c.list.memory[p]? <;> rfl

/-- 44 bytes: a table in which the key 7 leads to slot 5, a list without slots, and the capacity 1 -/
def nowhere : List Byte :=
  [1, 0, 0, 0, 0, 0, 0, 0, 7, 0, 0, 0, 5, 0, 0, 0, 0, 0, 0, 0, 0, 0, 0, 0, 255, 255, 255, 255, 255, 255, 255, 255, 255, 255, 255, 255, 0, 0, 0, 0, 1, 0, 0, 0]

/-- C151 is false: in the cache read from these bytes, looking up 7 panics. -/
theorem C151_false : ¬ C151_statement := by
  intro h
  have e : ∃ c, LruCache.dec (decU 4) (decU 4) nowhere = some (c, []) ∧ c.capacity = 1 ∧ c.list.memory = [] ∧ c.table 7 = some 5 :=
    ⟨_, rfl, by decide +kernel, by decide +kernel, by decide +kernel⟩
  obtain ⟨c, h1, h2, h3, h4⟩ := e
  obtain ⟨r, hr⟩ := h nowhere [] c h1 (by omega) [.lookup 7]
  simp only [CacheOp.runAll, CacheOp.run, C151_lookup_partial, h4, h3] at hr
  cases hr

/-- a cache made by others: the items 1 ↦ 10 and 2 ↦ 20 in the slots 2 and 0, with slot 1 free -/
def othersCache : LruCache Nat Nat :=
  { table := fun k => if k = 1 then some 2 else if k = 2 then some 0 else none
    list := ⟨[⟨some (2, 20), 2, 2⟩, ⟨none, NULL, NULL⟩, ⟨some (1, 10), 0, 0⟩], 2, 0, 1, 2⟩
    capacity := 2 }

/-- it was made rightly, and with a third item 2 is gone -/
example : WellMade othersCache [(2, 1, 10), (0, 2, 20)] [1] ∧
    (CacheOp.runAll othersCache [.put 3 30, .lookup 2, .get 1]).map (·.2) = .ok [none, none, some 10] := by
  refine ⟨⟨?_, by decide, ?_, ?_, rfl, rfl, rfl, rfl, ?_, by decide, by decide, by decide, by decide⟩, by decide +kernel⟩
  · decide
  · intro i p x h
    match i, h with
    | 0, h => cases h; rfl
    | 1, h => cases h; rfl
  · intro i p h
    match i, h with
    | 0, h => cases h; rfl
  · intro k p
    simp only [othersCache, List.mem_cons, Prod.mk.injEq, List.not_mem_nil, or_false]
    by_cases h1 : k = 1
    · subst h1
      simp [eq_comm]
    · by_cases h2 : k = 2
      · subst h2
        simp [eq_comm]
      · simp [h1, h2]

end Adhoc
