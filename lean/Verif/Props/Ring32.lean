import Verif.Model.Ring32
import Verif.Model.ListSerde
import Verif.Props.Containers
import Verif.Proofs.Canonical

/-! # C147: ring buffers that were read from bytes -/

namespace Adhoc
variable {α : Type}

namespace Spec

/-- the calls of `RingOp` on the ring buffer with fields of 32 bits -/
def ringRun32 (b : Build) (q : FixedRingBuffer α) : RingOp α → R (FixedRingBuffer α × Option α)
  | .pushFront x => do
    let q ← q.pushFront32 b x
    pure (q, none)
  | .pushRear x => do
    let q ← q.pushRear32 b x
    pure (q, none)
  | .popFront => q.popFront32 b
  | .popRear => q.popRear32 b
  | .clear => pure (q.clear, none)

/-- a sequence of calls with the values returned -/
def ringAll32 (b : Build) : FixedRingBuffer α → List (RingOp α) → R (FixedRingBuffer α × List (Option α))
  | q, [] => pure (q, [])
  | q, o :: os => do
    let (q, r) ← ringRun32 b q o
    let (q, rs) ← ringAll32 b q os
    pure (q, r :: rs)

/-- In the build `b` the ring buffer is a bounded deque that now holds `xs`: after any calls nothing has panicked, the values returned are those of the deque, and `iter`
and `len` show what it then holds. -/
def ActsAs (b : Build) (q : FixedRingBuffer α) (xs : List α) : Prop :=
  xs.length ≤ q.capacity ∧ ∀ os, ∃ q', ringAll32 b q os = .ok (q', (RingOp.specAll q.capacity xs os).2) ∧
    q'.iter32 b = .ok (RingOp.specAll q.capacity xs os).1 ∧ q'.len = (RingOp.specAll q.capacity xs os).1.length

/-- the fields are of 32 bits -/
structure U32s (q : FixedRingBuffer α) : Prop where
  front : q.front < 2 ^ 32
  rear : q.rear < 2 ^ 32
  len : q.len < 2 ^ 32
  capacity : q.capacity < 2 ^ 32

/-- what a ring buffer must look like: empty and of capacity 0, or with a capacity that is a power of two and has room in the store, both ends inside and the rear as far
behind the front as the length says -/
def Shaped (q : FixedRingBuffer α) : Prop :=
  (q.capacity = 0 ∧ q.len = 0) ∨
  ((∃ k, q.capacity = 2 ^ k) ∧ q.capacity ≤ q.backing.length ∧ q.front < q.capacity ∧ q.len ≤ q.capacity ∧ q.rear = (q.front + q.len) % q.capacity)

end Spec

open Spec FixedRingBuffer Bincode

/-! ## If the fields are right -/

theorem pow_le_31 {k c : Nat} (h : c = 2 ^ k) (hc : c < 2 ^ 32) : c ≤ 2 ^ 31 := by
  have hk : k < 32 := by
    by_contra hk
    have := Nat.pow_le_pow_right (n := 2) (by norm_num) (Nat.le_of_not_lt hk)
    omega
  rw [h]
  exact Nat.pow_le_pow_right (by norm_num) (by omega)

theorem sub_one_ok {b : Build} {n : Nat} (h : 0 < n) (hn : n < 2 ^ 32) : chkU b 32 ((n : Int) - 1) = .ok (n - 1) := by
  rw [chkU_of ⟨by omega, by omega⟩]
  congr 1; omega

theorem stepOn32_eq {b : Build} {x c : Nat} (hx : x < c) (hc : c < 2 ^ 32) : stepOn32 b x c = .ok ((x + 1) &&& (c - 1)) := by
  unfold stepOn32
  rw [chkU_nat (by omega), bind_ok, sub_one_ok (by omega) hc, bind_ok]
  rfl

theorem stepBack32_eq {b : Build} {x c : Nat} (hx : x < c) (hc : c ≤ 2 ^ 31) : stepBack32 b x c = .ok ((x + c - 1) &&& (c - 1)) := by
  unfold stepBack32
  rw [chkU_nat (by omega), bind_ok, sub_one_ok (by omega) (by omega), bind_ok, sub_one_ok (by omega) (by omega), bind_ok]
  rfl

section
variable {b : Build} {q : FixedRingBuffer α} {xs : List α}

theorem IsDeque.le31 (h : q.IsDeque xs) (hc : q.capacity < 2 ^ 32) : q.capacity ≤ 2 ^ 31 := by
  obtain ⟨k, hk⟩ := h.pow
  exact pow_le_31 hk hc

theorem ringRun32_eq (h : q.IsDeque xs) (hc : q.capacity < 2 ^ 32) (o : RingOp α) : ringRun32 b q o = o.run q := by
  have hc1 := IsDeque.le31 h hc
  have hf := h.front
  have hr : q.rear < q.capacity := by rw [h.rear]; exact Nat.mod_lt _ h.cap_pos
  have hl := h.len
  have hle := h.le
  cases o with
  | pushFront x =>
    have e : q.pushFront32 b x = q.pushFront x := by
     unfold pushFront32 pushFront
     split
     · rw [stepBack32_eq hf hc1, chkU_nat (by omega)]
       rfl
     · rfl
    simp only [ringRun32, RingOp.run, e]
  | pushRear x =>
    have e : q.pushRear32 b x = q.pushRear x := by
     unfold pushRear32 pushRear
     split
     · rw [stepOn32_eq hr hc, chkU_nat (by omega)]
       rfl
     · rfl
    simp only [ringRun32, RingOp.run, e]
  | popFront =>
    show q.popFront32 b = q.popFront
    unfold popFront32 popFront
    split
    · next he =>
      rw [stepOn32_eq hf hc, sub_one_ok (by simp [isEmpty] at he; omega) (by omega)]
      rfl
    · rfl
  | popRear =>
    show q.popRear32 b = q.popRear
    unfold popRear32 popRear
    split
    · next he =>
      rw [stepBack32_eq hr hc1, sub_one_ok (by simp [isEmpty] at he; omega) (by omega)]
      rfl
    · rfl
  | clear => rfl

theorem iter32_eq (h : q.IsDeque xs) (hc : q.capacity < 2 ^ 32) : q.iter32 b = .ok xs := by
  have hc1 := IsDeque.le31 h hc
  have hf := h.front
  have hle := h.le
  unfold iter32
  cases xs with
  | nil => rw [h.len]; rfl
  | cons y ys =>
    rw [mapM_ok_map (g := fun i => (y :: ys).getD i y)]
    · congr 1
      apply List.ext_getElem
      · simp [h.len]
      · intro i h1 h2
        simp [List.getElem?_eq_getElem h2]
    · intro i hi
      rw [List.mem_range, h.len] at hi
      rw [chkU_nat (by omega), bind_ok, if_neg (by omega), idx_eq_ok, h.get i hi]
      simp [List.getElem?_eq_getElem hi]

theorem ringAll32_eq : ∀ (os : List (RingOp α)) {q : FixedRingBuffer α} {xs : List α}, q.IsDeque xs → q.capacity < 2 ^ 32 →
    ringAll32 b q os = RingOp.runAll q os
  | [], _, _, _, _ => rfl
  | o :: os, q, xs, h, hc => by
    unfold ringAll32 RingOp.runAll
    rw [ringRun32_eq h hc o]
    obtain ⟨q1, e1, h1, hc1⟩ := ringOps [o] h
    have e : o.run q = .ok (q1, (RingOp.spec q.capacity xs o).2) := by
      unfold RingOp.runAll at e1
      obtain ⟨⟨q2, r⟩, e2, e3⟩ := bind_eq_ok.1 e1
      unfold RingOp.runAll at e3
      simp [RingOp.specAll] at e3
      rw [e2, e3.1, e3.2]
    rw [e, bind_ok, bind_ok]
    dsimp only
    rw [ringAll32_eq os h1 (by rw [hc1]; exact hc)]

theorem acts_of_deque (h : q.IsDeque xs) (hc : q.capacity < 2 ^ 32) : ActsAs b q xs := by
  refine ⟨h.le, fun os => ?_⟩
  obtain ⟨q', e, h', hc'⟩ := ringOps os h
  exact ⟨q', by rw [ringAll32_eq os h hc, e], iter32_eq h' (by rw [hc']; exact hc), h'.len⟩

/-- of capacity 0 -/
theorem acts_none (h0 : q.capacity = 0) (hl : q.len = 0) : ActsAs b q [] := by
  refine ⟨by simp, fun os => ?_⟩
  rw [h0]
  induction os generalizing q with
  | nil => exact ⟨q, rfl, by unfold iter32; rw [hl]; rfl, hl⟩
  | cons o os ih =>
    have : ∃ q1, ringRun32 b q o = .ok (q1, (RingOp.spec 0 [] o).2) ∧ (RingOp.spec 0 ([] : List α) o).1 = [] ∧ q1.capacity = 0 ∧ q1.len = 0 := by
      cases o <;> simp [ringRun32, pushFront32, pushRear32, popFront32, popRear32, isFull, isEmpty, h0, hl, RingOp.spec, clear]
    obtain ⟨q1, e1, e2, h1, h2⟩ := this
    obtain ⟨q2, e3, e4, e5⟩ := ih h1 h2
    refine ⟨q2, ?_, ?_, ?_⟩
    · unfold ringAll32 RingOp.specAll
      rw [e1, bind_ok]
      dsimp only
      rw [e3, e2]
      rfl
    · unfold RingOp.specAll; rw [e2]; exact e4
    · unfold RingOp.specAll; rw [e2]; exact e5

/-- the items of a ring buffer with the right fields -/
theorem acts_of_shaped (h : Shaped q) (hc : q.capacity < 2 ^ 32) : ∃ xs, ActsAs b q xs := by
  rcases h with ⟨h0, hl⟩ | ⟨hp, hb, hf, hl, hr⟩
  · exact ⟨[], acts_none h0 hl⟩
  · have hlt : ∀ i, (q.front + i) % q.capacity < q.backing.length := fun i => lt_of_lt_of_le (Nat.mod_lt _ (by omega)) hb
    refine ⟨(List.range q.len).map fun i => q.backing[(q.front + i) % q.capacity]'(hlt i), acts_of_deque ⟨hp, hb, hf, by simpa using hr, by simp, by simpa using hl, ?_⟩ hc⟩
    intro i hi
    simp

/-! ## The fields must be right -/

theorem acts_step (h : ActsAs b q xs) (o : RingOp α) :
    ∃ q', ringRun32 b q o = .ok (q', (o.spec q.capacity xs).2) ∧ (q'.capacity = q.capacity → ActsAs b q' (o.spec q.capacity xs).1) := by
  obtain ⟨hle, hall⟩ := h
  obtain ⟨q1, e1, -, -⟩ := hall [o]
  unfold ringAll32 RingOp.specAll at e1
  obtain ⟨⟨q2, r⟩, e2, e3⟩ := bind_eq_ok.1 e1
  have hr : r = (o.spec q.capacity xs).2 := by
    simp [ringAll32, RingOp.specAll] at e3
    exact e3.2
  subst hr
  refine ⟨q2, e2, fun hcap => ⟨?_, fun os => ?_⟩⟩
  · rw [hcap]
    cases o <;> simp only [RingOp.spec]
    · split
      · simp; omega
      · exact hle
    · split
      · simp; omega
      · exact hle
    · simp; omega
    · simp; omega
    · simp
  · obtain ⟨q3, e4, e5, e6⟩ := hall (o :: os)
    unfold ringAll32 at e4
    rw [e2, bind_ok] at e4
    dsimp only at e4
    obtain ⟨⟨q4, rs⟩, e7, e8⟩ := bind_eq_ok.1 e4
    unfold RingOp.specAll at e8
    simp at e8
    refine ⟨q3, ?_, ?_, ?_⟩
    · rw [hcap, e7, e8.1, e8.2]
    · rw [hcap]; exact e5
    · rw [hcap]; exact e6

theorem acts_len (h : ActsAs b q xs) : q.len = xs.length ∧ q.iter32 b = .ok xs := by
  obtain ⟨q', e1, e2, e3⟩ := h.2 []
  have e : q = q' := by
    unfold ringAll32 at e1
    simp at e1
    exact e1.1
  subst e
  exact ⟨e3, e2⟩

theorem acts_popRear (h : ActsAs b q xs) (hx : xs ≠ []) :
    ∃ q', ActsAs b q' xs.dropLast ∧ q'.front = q.front ∧ q'.capacity = q.capacity ∧ q'.backing = q.backing := by
  obtain ⟨q', e, ha⟩ := acts_step h .popRear
  unfold ringRun32 popRear32 at e
  rw [if_pos (by simp [isEmpty, (acts_len h).1, hx])] at e
  obtain ⟨nr, -, e⟩ := bind_eq_ok.1 e
  obtain ⟨l, -, e⟩ := bind_eq_ok.1 e
  obtain ⟨it, -, e⟩ := bind_eq_ok.1 e
  simp at e
  obtain ⟨rfl, -⟩ := e
  exact ⟨_, ha rfl, rfl, rfl, rfl⟩

theorem acts_drainRear : ∀ (n : Nat) {q : FixedRingBuffer α} {xs : List α}, xs.length = n → ActsAs b q xs →
    ∃ q', ActsAs b q' [] ∧ q'.front = q.front ∧ q'.capacity = q.capacity ∧ q'.backing = q.backing
  | 0, q, xs, hn, h => ⟨q, by rwa [List.length_eq_zero_iff.1 hn] at h, rfl, rfl, rfl⟩
  | n + 1, q, xs, hn, h => by
    obtain ⟨q1, h1, f1, c1, b1⟩ := acts_popRear h (by intro e; simp [e] at hn)
    obtain ⟨q2, h2, f2, c2, b2⟩ := acts_drainRear n (by simp [hn]) h1
    exact ⟨q2, h2, by rw [f2, f1], by rw [c2, c1], by rw [b2, b1]⟩

theorem acts_popFront (h : ActsAs b q xs) (hx : xs ≠ []) :
    ∃ q', ActsAs b q' xs.tail ∧ q'.rear = q.rear ∧ q'.capacity = q.capacity ∧ q'.backing = q.backing ∧ stepOn32 b q.front q.capacity = .ok q'.front ∧
      idx q.backing q.front = .ok (xs.head hx) := by
  obtain ⟨q', e, ha⟩ := acts_step h .popFront
  unfold ringRun32 popFront32 at e
  rw [if_pos (by simp [isEmpty, (acts_len h).1, hx])] at e
  obtain ⟨nf, e0, e⟩ := bind_eq_ok.1 e
  obtain ⟨l, -, e⟩ := bind_eq_ok.1 e
  obtain ⟨it, e2, e⟩ := bind_eq_ok.1 e
  simp [RingOp.spec] at e
  obtain ⟨rfl, e3⟩ := e
  refine ⟨_, ha rfl, rfl, rfl, rfl, e0, ?_⟩
  rw [e2]
  rw [List.head?_eq_some_head hx] at e3
  exact congrArg _ (Option.some.inj e3)

theorem acts_pushRear (h : ActsAs b q xs) (hx : xs.length < q.capacity) (x : α) :
    ∃ q', ActsAs b q' (xs ++ [x]) ∧ q'.front = q.front ∧ q'.capacity = q.capacity ∧ q.rear < q.backing.length ∧ q'.backing = q.backing.set q.rear x ∧
      stepOn32 b q.rear q.capacity = .ok q'.rear := by
  obtain ⟨q', e, ha⟩ := acts_step h (.pushRear x)
  unfold ringRun32 at e
  obtain ⟨q1, e1, e⟩ := bind_eq_ok.1 e
  unfold pushRear32 at e1
  rw [if_pos (by simp [isFull, (acts_len h).1, hx])] at e1
  obtain ⟨bk, e2, e1⟩ := bind_eq_ok.1 e1
  obtain ⟨r, e3, e1⟩ := bind_eq_ok.1 e1
  obtain ⟨l, -, e1⟩ := bind_eq_ok.1 e1
  simp at e e1
  obtain ⟨rfl, -⟩ := e
  subst e1
  rw [setIdx_eq_ok] at e2
  obtain ⟨e4, rfl⟩ := e2
  have := ha rfl
  simp only [RingOp.spec, if_pos hx] at this
  exact ⟨_, this, rfl, rfl, e4, rfl, e3⟩

theorem mapM_at {β γ : Type} {f : β → R γ} : ∀ {l : List β} {r : List γ}, l.mapM f = .ok r → ∀ (i : Nat) (x : β), l[i]? = some x → ∃ y, r[i]? = some y ∧ f x = .ok y
  | [], r, _, i, x, hx => by simp at hx
  | a :: l, r, h, i, x, hx => by
    rw [List.mapM_cons] at h
    obtain ⟨y, e1, h⟩ := bind_eq_ok.1 h
    obtain ⟨ys, e2, h⟩ := bind_eq_ok.1 h
    obtain rfl := Except.ok.inj h
    cases i with
    | zero => simp at hx; subst hx; exact ⟨y, rfl, e1⟩
    | succ i => simpa using mapM_at e2 i x (by simpa using hx)

/-- what `iter` reads -/
theorem acts_slot (h : ActsAs b q xs) {i : Nat} (hi : i < xs.length) (h32 : q.front + i < 2 ^ 32) :
    q.backing[(q.front + i) % q.capacity]? = some xs[i] := by
  obtain ⟨hl, hit⟩ := acts_len h
  unfold iter32 at hit
  obtain ⟨y, hy, e⟩ := mapM_at hit i i (by rw [List.getElem?_range (by omega)])
  rw [chkU_nat h32, bind_ok] at e
  rw [List.getElem?_eq_getElem hi] at hy
  split at e
  · simp at e
  · rw [idx_eq_ok] at e
    rw [e, hy]

/-- an empty one has its ends at the same place inside -/
theorem acts_empty [Nontrivial α] (h : ActsAs b q []) (hc : 0 < q.capacity) (hf : q.front < 2 ^ 32) : q.front < q.capacity ∧ q.rear = q.front := by
  have key : ∀ j, (∀ x : α, (q.backing.set q.rear x)[j]? = some x) → q.rear = j := by
    intro j hj
    by_contra hne
    obtain ⟨x, y, hxy⟩ := exists_pair_ne α
    have h1 := hj x
    have h2 := hj y
    rw [List.getElem?_set_ne hne] at h1 h2
    rw [h1] at h2
    exact hxy (Option.some.inj h2)
  have h1 : q.rear = q.front % q.capacity := by
    apply key
    intro x
    obtain ⟨q1, a1, f1, c1, -, b1, -⟩ := acts_pushRear h hc x
    have := acts_slot a1 (i := 0) (by simp) (by rw [f1]; exact hf)
    rw [f1, c1, b1] at this
    simpa using this
  have h2 : q.rear = q.front := by
    apply key
    intro x
    obtain ⟨q1, a1, f1, c1, -, b1, -⟩ := acts_pushRear h hc x
    obtain ⟨q2, -, -, -, -, -, e⟩ := acts_popFront a1 (by simp)
    rw [idx_eq_ok, f1, b1] at e
    simpa using e
  refine ⟨?_, h2⟩
  rw [← h2, h1]
  exact Nat.mod_lt _ hc

/-- filled from its beginning with the same item -/
theorem acts_fill [Nontrivial α] (x : α) (h : ActsAs b q []) (hf : q.front = 0) (hr : q.rear = 0) (hc : q.capacity < 2 ^ 32) : ∀ k, k ≤ q.capacity →
    k ≤ q.backing.length ∧ (∀ j, j < k → j &&& (q.capacity - 1) = j) ∧
    ∃ q', ActsAs b q' (List.replicate k x) ∧ q'.front = 0 ∧ q'.capacity = q.capacity ∧ q'.backing.length = q.backing.length ∧
      q'.rear = k &&& (q.capacity - 1) := by
  intro k
  induction k with
  | zero => exact fun _ => ⟨by omega, by omega, q, h, hf, rfl, rfl, by simp [hr]⟩
  | succ k ih =>
    intro hk
    obtain ⟨h1, h2, q1, a1, f1, c1, b1, r1⟩ := ih (by omega)
    obtain ⟨y, hxy⟩ := exists_ne x
    have hle : k &&& (q.capacity - 1) ≤ k := Nat.and_le_left
    obtain ⟨q2, a2, f2, c2, s2, b2, -⟩ := acts_pushRear a1 (by simp; omega) y
    have hsame : k &&& (q.capacity - 1) = k := by
      by_contra hne
      have hs := acts_slot a2 (i := k &&& (q.capacity - 1)) (by simp; omega) (by rw [f2, f1]; omega)
      rw [f2, f1, c2, c1, Nat.zero_add, Nat.mod_eq_of_lt (by omega), b2, r1, List.getElem?_set_self (by omega)] at hs
      rw [List.getElem_append_left (by simp; omega)] at hs
      simp at hs
      exact hxy hs
    obtain ⟨q3, a3, f3, c3, s3, b3, r3⟩ := acts_pushRear a1 (by simp; omega) x
    rw [r1, hsame] at s3 r3
    rw [c1, stepOn32_eq (by omega) hc] at r3
    refine ⟨by omega, ?_, q3, ?_, by rw [f3, f1], by rw [c3, c1], by rw [b3, List.length_set, b1], (Except.ok.inj r3).symm⟩
    · intro j hj
      rcases Nat.lt_succ_iff_lt_or_eq.1 hj with hj | rfl
      · exact h2 j hj
      · exact hsame
    · rwa [← List.replicate_succ'] at a3

/-- a number whose predecessor keeps the bits of all smaller numbers is a power of two -/
theorem pow_of_masks {c : Nat} (hc : 0 < c) (h : ∀ j, j < c → j &&& (c - 1) = j) : ∃ k, c = 2 ^ k := by
  have h1 : 2 ^ c.log2 ≤ c := Nat.log2_self_le (by omega)
  have h2 : c < 2 ^ (c.log2 + 1) := Nat.lt_log2_self
  have h0 := Nat.two_pow_pos c.log2
  rw [Nat.pow_succ] at h2
  by_cases he : c = 2 ^ c.log2
  · exact ⟨_, he⟩
  · have := h (2 ^ c.log2 - 1) (by omega)
    rw [Nat.and_comm, Nat.and_two_pow_sub_one_eq_mod] at this
    refine ⟨c.log2 + 1, ?_⟩
    rw [Nat.pow_succ]
    generalize 2 ^ c.log2 = p at *
    rw [Nat.mod_eq_sub_mod (by omega), Nat.mod_eq_of_lt (by omega)] at this
    omega

theorem acts_drainFront (hp : ∃ k, q.capacity = 2 ^ k) (hc : q.capacity < 2 ^ 32) : ∀ (xs : List α) {p : FixedRingBuffer α}, p.capacity = q.capacity →
    p.front < q.capacity → ActsAs b p xs → ∃ p' : FixedRingBuffer α, ActsAs b p' [] ∧ p'.rear = p.rear ∧ p'.capacity = q.capacity ∧ p'.front = (p.front + xs.length) % q.capacity
  | [], p, e, hf, h => ⟨p, h, rfl, e, by simp [Nat.mod_eq_of_lt hf]⟩
  | x :: xs, p, e, hf, h => by
    obtain ⟨p1, a1, r1, c1, b1, s1, -⟩ := acts_popFront h (by simp)
    rw [e, stepOn32_eq hf hc] at s1
    obtain ⟨k, hk⟩ := hp
    have f1 : p1.front = (p.front + 1) % q.capacity := by
      rw [← Except.ok.inj s1, hk, Nat.and_two_pow_sub_one_eq_mod]
    obtain ⟨p2, a2, r2, c2, f2⟩ := acts_drainFront ⟨k, hk⟩ hc xs (by rw [c1, e]) (by rw [f1]; exact Nat.mod_lt _ (by omega)) a1
    refine ⟨p2, a2, by rw [r2, r1], c2, ?_⟩
    rw [f2, f1, Nat.mod_add_mod, List.length_cons]
    congr 1; omega

theorem shaped_of_acts [Nontrivial α] (hq : U32s q) (h : ActsAs b q xs) : Shaped q := by
  have hl := (acts_len h).1
  have hle := h.1
  by_cases h0 : q.capacity = 0
  · exact .inl ⟨h0, by omega⟩
  · right
    have hc := hq.capacity
    obtain ⟨x, -⟩ := exists_pair_ne α
    obtain ⟨qc, ec, ac⟩ := acts_step h .clear
    have : qc = q.clear := by
      unfold ringRun32 at ec
      simp at ec
      exact ec.1.symm
    subst this
    obtain ⟨hb, hm, -⟩ := acts_fill x (ac rfl) rfl rfl hc q.capacity (Nat.le_refl _)
    have hp := pow_of_masks (by omega) hm
    obtain ⟨q1, a1, f1, c1, b1⟩ := acts_drainRear _ rfl h
    obtain ⟨hf, -⟩ := acts_empty a1 (by omega) (by rw [f1]; exact hq.front)
    rw [f1, c1] at hf
    obtain ⟨q2, a2, r2, c2, f2⟩ := acts_drainFront hp hc xs rfl hf h
    have hlt : (q.front + xs.length) % q.capacity < q.capacity := Nat.mod_lt _ (by omega)
    obtain ⟨-, hr⟩ := acts_empty a2 (by omega) (by omega)
    exact ⟨hp, hb, hf, by omega, by rw [hl, ← f2, ← hr, r2]⟩

end

/-! ## C147 -/

/-- **C147** as stated: whatever bytes a ring buffer was read from, it acts as a bounded deque in both builds -/
def C147_statement : Prop := ∀ (α : Type) (d : Dec α) (bs rest : List Byte) (q : FixedRingBuffer α) (b : Build), FixedRingBuffer.dec d bs = some (q, rest) → ∃ xs, ActsAs b q xs

/-- C147, exactly. A ring buffer with any fields of 32 bits acts, in either build, as a bounded deque exactly if it is `Shaped`; the items are then those at
`front`, `front + 1`, … around the capacity. -/
theorem C147_exact_partial [Nontrivial α] (b : Build) (q : FixedRingBuffer α) (hq : U32s q) : (∃ xs, ActsAs b q xs) ↔ Shaped q :=
  ⟨fun ⟨_, h⟩ => shaped_of_acts hq h, fun h => acts_of_shaped h hq.capacity⟩

/-- C147, exactly, from the bytes: the fields that are read are of 32 bits -/
theorem C147_read_partial [Nontrivial α] (b : Build) (d : Dec α) (bs rest : List Byte) (q : FixedRingBuffer α) (h : FixedRingBuffer.dec d bs = some (q, rest)) :
    (∃ xs, ActsAs b q xs) ↔ Shaped q := by
  apply C147_exact_partial
  unfold FixedRingBuffer.dec at h
  simp only [Option.bind_eq_bind, Option.bind_eq_some_iff, Prod.exists] at h
  obtain ⟨_, b1, -, f, b2, h2, r, b3, h3, l, b4, h4, c, b5, h5, h6⟩ := h
  simp at h6
  obtain ⟨rfl, -⟩ := h6
  exact ⟨(back_U 4 _ _ _ h2).2, (back_U 4 _ _ _ h3).2, (back_U 4 _ _ _ h4).2, (back_U 4 _ _ _ h5).2⟩

/-- C147, what it holds: the items of a ring buffer that acts as a deque are read off its store -/
theorem C147_items_partial (b : Build) (q : FixedRingBuffer α) (xs : List α) (hq : U32s q) (h : ActsAs b q xs) (hs : Shaped q) :
    xs.length = q.len ∧ ∀ i (hi : i < xs.length), q.backing[(q.front + i) % q.capacity]? = some xs[i] := by
  refine ⟨(acts_len h).1.symm, fun i hi => acts_slot h hi ?_⟩
  have hl := (acts_len h).1
  rcases hs with ⟨h0, h1⟩ | ⟨⟨k, hk⟩, -, hf, hlc, -⟩
  · omega
  · have := pow_le_31 hk hq.capacity
    omega

/-- C147, for buffers made by `new`: it acts as an empty deque exactly if the store has room for the capacity. No sum of 32 bits then overflows. -/
theorem C147_new_partial [Nontrivial α] (b : Build) (backing : List α) (cap : Nat) (hcap : cap < 2 ^ 32) (q : FixedRingBuffer α) (h : FixedRingBuffer.new backing cap = .ok q) :
    ActsAs b q [] ↔ cap ≤ backing.length := by
  have hq : q = ⟨backing, 0, 0, 0, cap⟩ ∧ countOnes 32 cap = 1 := by
    unfold FixedRingBuffer.new at h
    split at h
    · simp at h
    · next hn => exact ⟨(Except.ok.inj h).symm, by simpa using hn⟩
  obtain ⟨rfl, hone⟩ := hq
  obtain ⟨k, hk⟩ := pow_of_countOnes hcap hone
  have hpos : 0 < cap := by rw [hk]; exact Nat.two_pow_pos k
  constructor
  · intro ha
    rcases shaped_of_acts ⟨by norm_num, by norm_num, by norm_num, hcap⟩ ha with ⟨h0, -⟩ | ⟨-, hb, -⟩
    · dsimp only at h0; omega
    · exact hb
  · intro hb
    obtain ⟨q', e', hd, hc'⟩ := isDeque_new hcap hb hone
    rw [h] at e'
    obtain rfl := Except.ok.inj e'
    exact acts_of_deque hd hcap

/-- 26 bytes: a store of two bytes, front, rear and length 0, and capacity 3 -/
def capThree : List Byte := [2, 0, 0, 0, 0, 0, 0, 0, 7, 7, 0, 0, 0, 0, 0, 0, 0, 0, 0, 0, 0, 0, 3, 0, 0, 0]

theorem capThree_reads : FixedRingBuffer.dec (decU 1) capThree = some (⟨[7, 7], 0, 0, 0, 3⟩, []) := by decide +kernel

/-- C147 is false: a capacity of 3 is read although `new` rejects it, and is no deque. -/
theorem C147_false : ¬ C147_statement := by
  intro h
  have := (C147_read_partial .release (decU 1) capThree [] _ capThree_reads).1 (h Nat (decU 1) capThree [] _ .release capThree_reads)
  rcases this with ⟨h, -⟩ | ⟨-, h, -⟩
  · simp at h
  · simp at h

/-- with room for three items and no overflow, a capacity of 3 still loses an item: the first two pushes go to the same place -/
example : ringAll32 .debug (⟨[0, 0, 0], 0, 0, 0, 3⟩ : FixedRingBuffer Nat) [.pushRear 1, .pushRear 2, .popFront] =
    .ok (⟨[2, 0, 0], 0, 0, 1, 3⟩, [none, none, some 2]) := by decide +kernel

/-- a ring buffer as it might be read that acts as a deque: its two items lie across the end of the store -/
example : Shaped (⟨[5, 6, 7, 8, 9], 3, 1, 2, 4⟩ : FixedRingBuffer Nat) ∧ U32s (⟨[5, 6, 7, 8, 9], 3, 1, 2, 4⟩ : FixedRingBuffer Nat) ∧
    (⟨[5, 6, 7, 8, 9], 3, 1, 2, 4⟩ : FixedRingBuffer Nat).iter32 .debug = .ok [8, 5] :=
  ⟨.inr ⟨⟨2, rfl⟩, by decide, by decide, by decide, by decide⟩, ⟨by decide, by decide, by decide, by decide⟩, by decide +kernel⟩

/-- `new` accepts a store that is too short, and the first call that reaches past it panics -/
example : FixedRingBuffer.new [0, 0] 4 = .ok (⟨[0, 0], 0, 0, 0, 4⟩ : FixedRingBuffer Nat) ∧
    ringAll32 .release (⟨[0, 0], 0, 0, 0, 4⟩ : FixedRingBuffer Nat) [.pushRear 1, .pushRear 2, .pushRear 3] = .error .index := by decide +kernel

end Adhoc
