import Verif.Props.ListSerde
import Verif.Props.Stale
import Verif.Props.Containers
import Verif.Proofs.Files

/-! # C108: the cache and the ring buffer through bincode -/

namespace Adhoc
open Bincode

/-- `entries` lists a map in some order -/
def Spec.Tabulates {κ : Type} (t : κ → Option Nat) (entries : List (κ × Nat)) : Prop :=
  (entries.map (·.1)).Nodup ∧ ∀ k p, (k, p) ∈ entries ↔ t k = some p

open Spec

section
variable {κ ν α : Type} [DecidableEq κ]

/-- the pointers of a list that holds a sequence are 32-bit numbers -/
theorem IsSeq.narrow {l : LinkedList α} {S : List (Nat × α)} {fs : List Nat} (h : IsSeq l S fs) : Narrow l := by
  have hn : NULL = 4294967295 := rfl
  have hsm := h.slots.small
  have hb : ∀ a ∈ S.map (·.1) ++ fs, a < 2 ^ 32 := fun a ha => by
    have := h.slots.bound a ha
    norm_num
    omega
  refine ⟨?_, ?_, ?_, ?_⟩
  · intro n hm
    obtain ⟨a, ha, rfl⟩ := List.mem_iff_getElem.1 hm
    rw [getElem_left ha, getElem_right ha]
    by_cases hS : a ∈ S.map (·.1)
    · have hfst := cyc_fst (S.map (·.1))
      have hsnd := (cyc_snd (S.map (·.1))).mem_iff (a := a)
      have h1 : a ∈ (cyc (S.map (·.1))).map (·.1) := by rw [hfst]; exact hS
      obtain ⟨ab, hab, e1⟩ := List.mem_map.1 h1
      obtain ⟨cd, hcd, e2⟩ := List.mem_map.1 (hsnd.2 hS)
      have r1 := (h.ring ab hab).1
      have r2 := (h.ring cd hcd).2
      rw [e1] at r1
      rw [e2] at r2
      rw [r1, r2]
      exact ⟨hb _ (List.mem_append_left _ (cyc_mem hcd).1), hb _ (List.mem_append_left _ (cyc_mem hab).2)⟩
    · obtain ⟨c1, -, c3⟩ := freeChain_mem h.slots.free (h.slots.covers ha hS)
      rw [c1]
      refine ⟨null_lt, ?_⟩
      rcases c3 with c3 | c3
      · rw [c3]; exact null_lt
      · exact hb _ (List.mem_append_right _ c3)
  · rw [h.front]
    cases S with
    | nil => exact null_lt
    | cons a S => exact hb _ (by simp)
  · rw [h.rear]
    by_cases hS : S.map (·.1) = []
    · rw [hS]; exact null_lt
    · rw [getLastD_ne _ hS]
      exact hb _ (List.mem_append_left _ (List.getLast_mem hS))
  · have := h.slots.free
    cases fs with
    | nil => rw [show l.pool = NULL from this]; exact null_lt
    | cons f fs => rw [this.1]; exact hb _ (by simp)

omit [DecidableEq κ] in
theorem good_pair {dk : Dec κ} {dv : Dec ν} {ek : κ → List (List Byte)} {ev : ν → List (List Byte)} {x : κ × ν}
    (hk : Good dk x.1 (ek x.1).flatten) (hv : Good dv x.2 (ev x.2).flatten) : Good (decPair dk dv) x (encPair ek ev x).flatten := by
  unfold encPair decPair
  rw [List.flatten_append]
  refine Good.then hk ?_
  dsimp only
  refine Good.last hv ?_
  exact good_pure x

/-- inserting the entries gives the map back -/
theorem tabulated {t : κ → Option Nat} {entries : List (κ × Nat)} (h : Tabulates t entries) :
    entries.foldl (fun t e => LruCache.tset t e.1 (some e.2)) (fun _ => none) = t := by
  obtain ⟨hn, hm⟩ := h
  have key : ∀ (es : List (κ × Nat)) (t0 : κ → Option Nat), (es.map (·.1)).Nodup → ∀ k,
      es.foldl (fun t e => LruCache.tset t e.1 (some e.2)) t0 k = if k ∈ es.map (·.1) then es.lookup k else t0 k := by
    intro es
    induction es with
    | nil => intro t0 _ k; simp
    | cons e es ih =>
      intro t0 hn k
      rw [List.map_cons, List.nodup_cons] at hn
      obtain ⟨a, p⟩ := e
      rw [List.foldl_cons, ih _ hn.2]
      by_cases hk : k = a
      · subst hk
        rw [if_neg hn.1]
        simp [LruCache.tset]
      · have hb : (k == a) = false := by simpa using hk
        simp only [List.map_cons, List.mem_cons, hk, false_or, List.lookup_cons, hb, LruCache.tset, if_false]
  funext k
  rw [key _ _ hn]
  cases ht : t k with
  | none =>
    rw [if_neg]
    rintro hk
    obtain ⟨⟨k', p⟩, h1, h2⟩ := List.mem_map.1 hk
    obtain rfl : k' = k := h2
    rw [(hm k' p).1 h1] at ht
    cases ht
  | some p =>
    have h1 := (hm k p).2 ht
    rw [if_pos (List.mem_map_of_mem (f := (·.1)) h1)]
    obtain ⟨U, V, rfl⟩ := List.append_of_mem h1
    refine lookup_mid ?_
    intro e he hc
    rw [List.map_append, List.map_cons] at hn
    exact (List.nodup_append.1 hn).2.2 e.1 (List.mem_map_of_mem he) k (by simp) hc

/-- C108, the cache: after any history, whatever order the entries of its table are written in, the serialised cache reads back (also with
other data behind it) as a cache that answers any further calls as the recency-ordered list of entries does. A cut-off serialisation is
rejected. The keys' and values' own serialisations are only assumed to read back what they wrote. -/
theorem C108_cache (cap : Nat) (h1 : 0 < cap) (h2 : cap < 2 ^ 32) (os : List (CacheOp κ ν)) (dk : Dec κ) (ek : κ → List (List Byte))
    (dv : Dec ν) (ev : ν → List (List Byte)) (hk : ∀ a, Good dk a (ek a).flatten) (hv : ∀ a, Good dv a (ev a).flatten) :
    ∃ c, CacheOp.runAll (.new cap) os = .ok (c, (CacheOp.specAll cap [] os).2) ∧ (∃ entries, Tabulates c.table entries) ∧
      ∀ entries, Tabulates c.table entries →
        (∀ rest, ∃ c', LruCache.dec dk dv ((c.enc ek ev entries).flatten ++ rest) = some (c', rest) ∧
          c'.len = (CacheOp.specAll cap [] os).1.length ∧
          ∀ os', ∃ c'', CacheOp.runAll c' os' = .ok (c'', (CacheOp.specAll cap (CacheOp.specAll cap [] os).1 os').2)) ∧
        ∀ p q, (c.enc ek ev entries).flatten = p ++ q → q ≠ [] → LruCache.dec dk dv p = none := by
  have hc : (LruCache.new cap : LruCache κ ν).capacity = cap := Nat.mod_eq_of_lt h2
  obtain ⟨c, e, h⟩ := cacheOps os (caches_new (κ := κ) (ν := ν) h1 h2)
  rw [hc] at e h
  have hcap : c.capacity = cap := by
    have : ∀ (os : List (CacheOp κ ν)) (c c' : LruCache κ ν) (m outs), Caches c m → CacheOp.runAll c os = .ok (c', outs) → c'.capacity = c.capacity := by
      intro os
      induction os with
      | nil => intro c c' m outs _ he; simp [CacheOp.runAll] at he; rw [he.1]
      | cons o os ih =>
        intro c c' m outs hm he
        obtain ⟨c1, e1, h1, hc1⟩ := cacheOp_step hm o
        obtain ⟨c2, e2, h2⟩ := cacheOps os h1
        have := ih c1 c2 _ _ h1 e2
        simp [CacheOp.runAll, e1, e2] at he
        rw [← he.1, this, hc1]
    rw [this os _ _ _ _ (caches_new h1 h2) e, hc]
  obtain ⟨S, fs, hs, hS, ht⟩ := h.seq
  have hnull : NULL = 4294967295 := rfl
  have hsm := hs.slots.small
  have htot := hs.slots.total
  rw [List.length_map] at htot
  have hlen := hs.len
  have hkeys : (S.map fun s => s.2.1).Nodup := by
    have := h.nodup
    rwa [← hS, List.map_map] at this
  refine ⟨c, e, ⟨S.map fun s => (s.2.1, s.1), by rw [List.map_map]; exact hkeys, ?_⟩, ?_⟩
  · intro k p
    rw [ht, List.mem_map]
    constructor
    · rintro ⟨⟨p', k', v⟩, hm, he⟩
      cases he
      exact ⟨v, hm⟩
    · rintro ⟨v, hm⟩
      exact ⟨_, hm, rfl⟩
  intro entries hE
  have hsmall : ∀ x ∈ entries, x.2 < 2 ^ 32 := by
    rintro ⟨k, p⟩ hx
    obtain ⟨v, hm⟩ := (ht k p).1 ((hE.2 k p).1 hx)
    have := hs.slots.bound p (List.mem_append_left _ (List.mem_map_of_mem (f := (·.1)) hm))
    norm_num
    omega
  have hcount : entries.length < 2 ^ 64 := by
    have hsub : entries.map (·.1) ⊆ S.map fun s => s.2.1 := by
      intro k hk
      obtain ⟨⟨k', p⟩, hx, rfl⟩ := List.mem_map.1 hk
      obtain ⟨v, hm⟩ := (ht k' p).1 ((hE.2 k' p).1 hx)
      exact List.mem_map.2 ⟨_, hm, rfl⟩
    have := (List.subperm_of_subset hE.1 hsub).length_le
    rw [List.length_map, List.length_map] at this
    norm_num
    omega
  have G : Good (LruCache.dec dk dv) c (c.enc ek ev entries).flatten := by
    unfold LruCache.enc LruCache.dec
    simp only [List.flatten_append, flatten_encU, List.append_assoc]
    refine Good.then (a := entries) ?_ ?_
    · rw [flatten_encVec]
      exact good_Vec hcount fun x hx => good_pair (hk _) (by rw [flatten_encU]; exact good_U (w := 4) (by simpa using hsmall x hx))
    dsimp only
    refine Good.then (good_list (fun a => good_pair (hk _) (hv _)) hs.narrow (by norm_num; omega) (by norm_num; omega)) ?_
    dsimp only
    refine Good.last (good_U (w := 4) (by rw [hcap]; simpa using h2)) ?_
    dsimp only
    rw [tabulated hE]
    exact good_pure c
  refine ⟨fun rest => ⟨c, G.read rest, ?_, fun os' => ?_⟩, G.torn⟩
  · unfold LruCache.len
    rw [hlen, ← hS]
    simp
  · obtain ⟨c', e', -⟩ := cacheOps os' h
    rw [hcap] at e'
    exact ⟨c', e'⟩

/-- a cache for two entries from which one was evicted: the table in one of its orders, the two live slots and the capacity -/
example : (CacheOp.runAll (.new 2) [.put 5 50, .put 6 60, .get 5, .put 7 70]).map (fun r =>
    (r.1.table 5, r.1.table 6, r.1.table 7, (r.1.enc (encU 1) (encU 1) [(7, 1), (5, 0)]).flatten.map (·.toNat))) = .ok
    (some 0, none, some 1, [2, 0, 0, 0, 0, 0, 0, 0, 7, 1, 0, 0, 0, 5, 0, 0, 0, 0, 2, 0, 0, 0, 0, 0, 0, 0, 1, 5, 50, 2, 0, 0, 0, 0, 0, 0, 0,
      1, 0, 0, 0, 1, 0, 0, 0, 1, 7, 70, 2, 0, 0, 0, 0, 0, 0, 0, 0, 0, 0, 0, 0, 0, 0, 0, 1, 0, 0, 0, 0, 0, 0, 0, 255, 255, 255, 255,
      2, 0, 0, 0, 2, 0, 0, 0]) := by decide +kernel

omit [DecidableEq κ]

theorem setIdx_length {xs ys : List α} {i : Nat} {x : α} (h : setIdx xs i x = .ok ys) : ys.length = xs.length := by
  unfold setIdx at h
  split at h
  · obtain rfl := Except.ok.inj h
    simp
  · cases h

/-- no call changes the size of the backing store -/
theorem RingOp.run_room {q q' : FixedRingBuffer α} {r : Option α} (o : RingOp α) (h : o.run q = .ok (q', r)) : q'.backing.length = q.backing.length := by
  cases o with
  | pushFront x =>
    simp only [RingOp.run, FixedRingBuffer.pushFront] at h
    split at h
    · cases hs : setIdx q.backing ((q.front + q.capacity - 1) &&& (q.capacity - 1)) x with
      | error e => rw [hs] at h; cases h
      | ok b =>
        rw [hs] at h
        obtain ⟨rfl, -⟩ := Prod.mk.inj (Except.ok.inj h)
        exact setIdx_length hs
    · obtain ⟨rfl, -⟩ := Prod.mk.inj (Except.ok.inj h)
      rfl
  | pushRear x =>
    simp only [RingOp.run, FixedRingBuffer.pushRear] at h
    split at h
    · cases hs : setIdx q.backing q.rear x with
      | error e => rw [hs] at h; cases h
      | ok b =>
        rw [hs] at h
        obtain ⟨rfl, -⟩ := Prod.mk.inj (Except.ok.inj h)
        exact setIdx_length hs
    · obtain ⟨rfl, -⟩ := Prod.mk.inj (Except.ok.inj h)
      rfl
  | popFront =>
    simp only [RingOp.run, FixedRingBuffer.popFront] at h
    split at h
    · cases hs : idx q.backing q.front with
      | error e => rw [hs] at h; cases h
      | ok b =>
        rw [hs] at h
        obtain ⟨rfl, -⟩ := Prod.mk.inj (Except.ok.inj h)
        rfl
    · obtain ⟨rfl, -⟩ := Prod.mk.inj (Except.ok.inj h)
      rfl
  | popRear =>
    simp only [RingOp.run, FixedRingBuffer.popRear] at h
    split at h
    · cases hs : idx q.backing ((q.rear + q.capacity - 1) &&& (q.capacity - 1)) with
      | error e => rw [hs] at h; cases h
      | ok b =>
        rw [hs] at h
        obtain ⟨rfl, -⟩ := Prod.mk.inj (Except.ok.inj h)
        rfl
    · obtain ⟨rfl, -⟩ := Prod.mk.inj (Except.ok.inj h)
      rfl
  | clear =>
    obtain ⟨rfl, -⟩ := Prod.mk.inj (Except.ok.inj h)
    rfl

theorem RingOp.runAll_room : ∀ (os : List (RingOp α)) {q q' : FixedRingBuffer α} {rs : List (Option α)},
    RingOp.runAll q os = .ok (q', rs) → q'.backing.length = q.backing.length
  | [], q, q', rs, h => by
    obtain ⟨rfl, -⟩ := Prod.mk.inj (Except.ok.inj h)
    rfl
  | o :: os, q, q', rs, h => by
    unfold RingOp.runAll at h
    cases h1 : o.run q with
    | error e => rw [h1] at h; cases h
    | ok r =>
      obtain ⟨q1, r1⟩ := r
      rw [h1] at h
      cases h2 : RingOp.runAll q1 os with
      | error e => simp only [bind, Except.bind] at h; rw [h2] at h; cases h
      | ok r2 =>
        obtain ⟨q2, r2⟩ := r2
        simp only [bind, Except.bind] at h
        rw [h2] at h
        obtain ⟨rfl, -⟩ := Prod.mk.inj (Except.ok.inj h)
        rw [RingOp.runAll_room os h2, RingOp.run_room o h1]

/-- C108, the ring buffer: after any history, the serialised buffer over a `Vec` reads back as one that holds the same items and answers any
further calls as the bounded queue does; a cut-off serialisation is rejected. -/
theorem C108_ring (backing : List α) (cap : Nat) (hcap : cap < 2 ^ 32) (hb : cap ≤ backing.length) (hlen : backing.length < 2 ^ 64)
    (hpow : FixedRingBuffer.countOnes 32 cap = 1) (os : List (RingOp α)) (d : Dec α) (e : α → List (List Byte)) (hg : ∀ a, Good d a (e a).flatten) :
    ∃ q0 q, FixedRingBuffer.new backing cap = .ok q0 ∧ RingOp.runAll q0 os = .ok (q, (RingOp.specAll cap [] os).2) ∧
      (∀ rest, ∃ q', FixedRingBuffer.dec d ((q.enc e).flatten ++ rest) = some (q', rest) ∧ q'.iter = .ok (RingOp.specAll cap [] os).1 ∧
        ∀ os', ∃ q'', RingOp.runAll q' os' = .ok (q'', (RingOp.specAll cap (RingOp.specAll cap [] os).1 os').2)) ∧
      ∀ p r, (q.enc e).flatten = p ++ r → r ≠ [] → FixedRingBuffer.dec d p = none := by
  obtain ⟨q0, e0, H0, hc0⟩ := FixedRingBuffer.isDeque_new hcap hb hpow
  obtain ⟨q, er, H, hc⟩ := ringOps os H0
  rw [hc0] at er H hc
  have hroom : q.backing.length = backing.length := by
    rw [RingOp.runAll_room os er]
    unfold FixedRingBuffer.new at e0
    rw [if_neg (by simp [hpow])] at e0
    rw [← Except.ok.inj e0]
  have hlt : q.rear < q.capacity := by
    rw [H.rear]
    exact Nat.mod_lt _ H.cap_pos
  have hf := H.front
  have hl := H.le
  have hn := H.len
  have G : Good (FixedRingBuffer.dec d) q (q.enc e).flatten := by
    unfold FixedRingBuffer.enc FixedRingBuffer.dec
    simp only [List.flatten_append, flatten_encU, List.append_assoc]
    refine Good.then (a := q.backing) ?_ ?_
    · rw [flatten_encVec]
      exact good_Vec (by omega) fun x _ => hg x
    dsimp only
    refine Good.then (good_U (w := 4) (by norm_num; omega)) ?_
    dsimp only
    refine Good.then (good_U (w := 4) (by norm_num; omega)) ?_
    dsimp only
    refine Good.then (good_U (w := 4) (by norm_num; omega)) ?_
    dsimp only
    refine Good.last (good_U (w := 4) (by norm_num; omega)) ?_
    exact good_pure q
  refine ⟨q0, q, e0, er, fun rest => ⟨q, G.read rest, FixedRingBuffer.iter_eq H, fun os' => ?_⟩, G.torn⟩
  obtain ⟨q', e', -⟩ := ringOps os' H
  rw [hc] at e'
  exact ⟨q', e'⟩

/-- a buffer for four items, full and wrapped around -/
example : ((do
    let q ← FixedRingBuffer.new [0, 0, 0, 0] 4
    let (q, _) ← RingOp.runAll q [.pushRear 1, .pushFront 2, .pushRear 3, .pushRear 4]
    pure q) : R (FixedRingBuffer Nat)).map (fun q => ((q.enc fun n => encU 1 n).flatten.map (·.toNat))) = .ok
    [4, 0, 0, 0, 0, 0, 0, 0, 1, 3, 4, 2, 3, 0, 0, 0, 3, 0, 0, 0, 4, 0, 0, 0, 4, 0, 0, 0] := by decide +kernel

example : RingOp.specAll 4 [] [RingOp.pushRear 1, .pushFront 2, .pushRear 3, .pushRear 4] = ([2, 1, 3, 4], [none, none, none, none]) := by decide +kernel

end
end Adhoc
