import Verif.Props.List32

/-!
# C53 with the length of the list as `u32`

A full cache drops its last entry before it adds one, so the list never gets longer than the capacity, which is of 32 bits too, and `self.len += 1` does not overflow.
-/

namespace Adhoc
variable {κ ν : Type} [DecidableEq κ]

/-- a call on the cache -/
def cacheRun32 (b : Build) (c : LruCache κ ν) : CacheOp κ ν → R (LruCache κ ν × Option ν)
  | .put k v => do
    let c ← c.put32 b k v
    pure (c, none)
  | .get k => c.get32 b k
  | .getMut k f => c.getMut32 b k f
  | .lookup k => do
    let v ← c.lookup k
    pure (c, v)
  | .remove k => c.remove k

/-- a sequence of calls with the values returned -/
def cacheRuns32 (b : Build) : LruCache κ ν → List (CacheOp κ ν) → R (LruCache κ ν × List (Option ν))
  | c, [] => pure (c, [])
  | c, o :: os => do
    let (c, out) ← cacheRun32 b c o
    let (c, outs) ← cacheRuns32 b c os
    pure (c, out :: outs)

/-- an insertion whose result has a length of 32 bits -/
theorem insertAt32_of {α : Type} {b : Build} {l l' : LinkedList α} {node : Nat} {d : Dir} {x : α} (h : l.insertAt node d x = .ok l') (hl : l'.len ≤ NULL) :
    l.insertAt32 b node d x = .ok l' := by
  by_cases hlt : l.len < NULL
  · rw [insertAt32_eq hlt, h]
  · have h0 : l.len ≠ 0 := by unfold NULL at hlt; omega
    unfold LinkedList.insertAt at h
    unfold LinkedList.insertAt32
    rw [if_neg h0] at h ⊢
    split at h
    · next hN => rw [if_pos hN, h]
    · obtain ⟨⟨l1, p⟩, h1, h⟩ := bind_eq_ok.1 h
      obtain ⟨n, -, h⟩ := bind_eq_ok.1 h
      obtain ⟨l2, h2, h⟩ := bind_eq_ok.1 h
      obtain ⟨l3, h3, h⟩ := bind_eq_ok.1 h
      obtain ⟨l4, h4, h⟩ := bind_eq_ok.1 h
      obtain ⟨l5, h5, h⟩ := bind_eq_ok.1 h
      have e1 : l1.len = l.len := ens_len_allocate l x h1
      have e2 := ens_len_modify _ _ _ h2
      have e3 := ens_len_modify _ _ _ h3
      have e4 := ens_len_modify _ _ _ h4
      have e5 := ens_len_modify _ _ _ h5
      have : l'.len = l5.len + 1 := by
        rw [← Except.ok.inj h]
        dsimp only
        split <;> split <;> rfl
      omega

theorem pushFront32_of {α : Type} {b : Build} {l l' : LinkedList α} {x : α} (h : l.pushFront x = .ok l') (hl : l'.len ≤ NULL) : l.pushFront32 b x = .ok l' :=
  insertAt32_of h hl

omit [DecidableEq κ] in
theorem raiseKey32_of {b : Build} {p : Nat} {l : LinkedList (κ × ν)} {val : Option ν} {r : LinkedList (κ × ν) × Nat} (h : LruCache.raiseKey p l val = .ok r)
    (hl : r.1.len ≤ NULL) : LruCache.raiseKey32 b p l val = .ok r := by
  unfold LruCache.raiseKey at h
  unfold LruCache.raiseKey32
  obtain ⟨⟨l1, item⟩, h1, h⟩ := bind_eq_ok.1 h
  obtain ⟨⟨key, old⟩, h2, h⟩ := bind_eq_ok.1 h
  obtain ⟨l2, h3, h⟩ := bind_eq_ok.1 h
  obtain rfl := Except.ok.inj h
  rw [h1, bind_ok]
  dsimp only at h2 h3 hl ⊢
  rw [h2, bind_ok]
  dsimp only at h3 ⊢
  rw [pushFront32_of h3 hl]
  rfl

theorem cacheRun32_of {b : Build} {c : LruCache κ ν} {o : CacheOp κ ν} {r : LruCache κ ν × Option ν} (h : o.run c = .ok r) (hl : r.1.len ≤ NULL) : cacheRun32 b c o = .ok r := by
  unfold LruCache.len at hl
  cases o with
  | put k v =>
    unfold CacheOp.run at h
    unfold cacheRun32
    dsimp only at h ⊢
    obtain ⟨c1, g, h'⟩ := bind_eq_ok.1 h
    obtain rfl := Except.ok.inj h'
    clear h h'
    dsimp only at hl
    suffices c.put32 b k v = .ok c1 by rw [this]; rfl
    unfold LruCache.put at g
    unfold LruCache.put32
    split at g
    · next p hp =>
      rw [hp]
      obtain ⟨⟨l1, p1⟩, h1, g⟩ := bind_eq_ok.1 g
      obtain rfl := Except.ok.inj g
      dsimp only
      rw [raiseKey32_of h1 hl]
      rfl
    · next hp =>
      rw [hp]
      dsimp only at g ⊢
      split at g
      · next hc =>
        rw [if_pos hc]
        obtain ⟨n, h1, g⟩ := bind_eq_ok.1 g
        obtain ⟨⟨k1, v1⟩, h2, g⟩ := bind_eq_ok.1 g
        obtain ⟨⟨l1, i1⟩, h3, g⟩ := bind_eq_ok.1 g
        dsimp only at g
        rw [pure_eq_ok, bind_ok] at g
        obtain ⟨l2, h4, g⟩ := bind_eq_ok.1 g
        obtain rfl := Except.ok.inj g
        rw [h1, bind_ok, h2, bind_ok]
        dsimp only
        rw [h3, bind_ok]
        dsimp only
        rw [pure_eq_ok, bind_ok, pushFront32_of h4 hl]
        rfl
      · next hc =>
        rw [if_neg hc]
        rw [pure_eq_ok, bind_ok] at g ⊢
        obtain ⟨l2, h4, g⟩ := bind_eq_ok.1 g
        obtain rfl := Except.ok.inj g
        rw [pushFront32_of h4 hl]
        rfl
  | get k =>
    unfold CacheOp.run at h
    unfold cacheRun32
    dsimp only at h ⊢
    unfold LruCache.get at h
    unfold LruCache.get32
    split at h
    · next hp => rw [hp]; exact h
    · next p hp =>
      rw [hp]
      obtain ⟨⟨l1, p1⟩, h1, h⟩ := bind_eq_ok.1 h
      obtain ⟨n, h2, h⟩ := bind_eq_ok.1 h
      obtain rfl := Except.ok.inj h
      dsimp only at h2 ⊢
      rw [raiseKey32_of h1 hl, bind_ok]
      dsimp only
      rw [h2]
      rfl
  | getMut k f =>
    unfold CacheOp.run at h
    unfold cacheRun32
    dsimp only at h ⊢
    unfold LruCache.getMut at h
    unfold LruCache.getMut32
    split at h
    · next hp => rw [hp]; exact h
    · next p hp =>
      rw [hp]
      obtain ⟨⟨l1, p1⟩, h1, h⟩ := bind_eq_ok.1 h
      obtain ⟨n, h2, h⟩ := bind_eq_ok.1 h
      obtain ⟨l2, h3, h⟩ := bind_eq_ok.1 h
      obtain rfl := Except.ok.inj h
      have e := ens_len_modify _ _ _ h3
      dsimp only at h2 h3 hl e ⊢
      rw [raiseKey32_of h1 (by dsimp only; omega), bind_ok]
      dsimp only
      rw [h2, bind_ok, h3]
      rfl
  | lookup k => exact h
  | remove k => exact h

theorem cacheRuns32_eq {b : Build} : ∀ (os : List (CacheOp κ ν)) {c : LruCache κ ν} {m : List (κ × ν)}, Caches c m → cacheRuns32 b c os = CacheOp.runAll c os
  | [], _, _, _ => rfl
  | o :: os, c, m, h => by
    obtain ⟨c1, e1, h1, -⟩ := cacheOp_step h o
    have hl : c1.len ≤ NULL := by
      obtain ⟨S, fs, hs, hS, -⟩ := h1.seq
      have := h1.cap
      have := h1.small
      unfold LruCache.len
      rw [hs.len, ← List.length_map (f := (·.2)), hS]
      omega
    rw [cacheRuns32, CacheOp.runAll, e1, cacheRun32_of e1 hl, bind_ok, bind_ok]
    dsimp only
    rw [cacheRuns32_eq os h1]

/-- C53 with 32 bits: the length of the list never overflows, so what `C53_lru_cache` says is true in both builds with the length of 32 bits that the list has. -/
theorem C53_length (b : Build) (cap : Nat) (h1 : 0 < cap) (h2 : cap < 2 ^ 32) (os : List (CacheOp κ ν)) :
    ∃ c, cacheRuns32 b (.new cap) os = .ok (c, (CacheOp.specAll cap [] os).2) ∧ c.len = (CacheOp.specAll cap [] os).1.length ∧ c.len ≤ cap ∧
      ∀ k, c.lookup k = .ok ((CacheOp.specAll cap [] os).1.lookup k) := by
  obtain ⟨c, e, hl, hc, -, hk⟩ := C53_lru_cache (κ := κ) (ν := ν) cap h1 h2 os
  exact ⟨c, by rw [cacheRuns32_eq os (caches_new h1 h2), e], hl, hc, hk⟩

/-- the history of `C53_lru_cache` with 32 bits -/
example : (cacheRuns32 .debug (.new 2) [.put 1 10, .put 2 20, CacheOp.get 1, .lookup 2, .put 3 30, .getMut 1 (· + 1), .remove 3]).map (·.2) =
    .ok [none, none, some 10, some 20, none, some 10, some 30] := by
  decide

end Adhoc
