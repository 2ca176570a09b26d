import Verif.Proofs.Channel
import Verif.Proofs.Headers
import Verif.Proofs.Rice
import Verif.Proofs.Room
import Verif.Proofs.Tidy
import Verif.Proofs.Sample

/-! One frame of one channel. -/

namespace Adhoc
open Spec

/-- `h` remembers `P` (and what came before), most recent last -/
def Last (h : CircularStack Int) (P : List Int) : Prop := ∃ old, IsRecent h ((P.reverse ++ old).take 4)

theorem last_new : Last (.new 0) [] := ⟨[], by simpa using isRecent_new 0⟩

theorem Last.push {h : CircularStack Int} {P : List Int} (H : Last h P) (x : Int) : Last (h.push x) (P ++ [x]) := by
  obtain ⟨old, H⟩ := H
  refine ⟨old, ?_⟩
  have := isRecent_push H x
  rw [List.reverse_append, List.reverse_singleton, List.append_assoc, List.singleton_append]
  have e : (x :: (P.reverse ++ old).take 4).take 4 = (x :: (P.reverse ++ old)).take 4 := by
    rw [List.take_succ_cons, List.take_succ_cons, List.take_take]; rfl
  rwa [e] at this

theorem Last.weaken {h : CircularStack Int} {P : List Int} (H : Last h P) : Last h [] := by
  obtain ⟨old, H⟩ := H
  exact ⟨P.reverse ++ old, by simpa using H⟩

theorem Last.prev {h : CircularStack Int} {P : List Int} (H : Last h P) {k : Nat} (h1 : 1 ≤ k) (h4 : k ≤ 4) (hk : k ≤ P.length) :
    h.prev k = P.getD (P.length - k) 0 := by
  obtain ⟨old, H⟩ := H
  rw [H.prev h1 (by simp; omega), List.getElem_take, List.getElem_append_left (by simp; omega), List.getElem_reverse,
    List.getD_eq_getElem?_getD, List.getElem?_eq_getElem (by omega)]
  simp only [Option.getD_some]
  congr 1
  omega

theorem Last.predict {h : CircularStack Int} {P : List Int} (H : Last h P) (h3 : 3 ≤ P.length) :
    FrameCodec.predictFrom h = guess P := by
  unfold FrameCodec.predictFrom guess
  rw [H.prev (by omega) (by omega) h3, H.prev (by omega) (by omega) (by omega), H.prev (by omega) (by omega) (by omega)]

/-- the three last codes -/
def lastThree (P : List Int) : Int × Int × Int :=
  (P.getD (P.length - 3) 0, P.getD (P.length - 2) 0, P.getD (P.length - 1) 0)

theorem Last.history {h : CircularStack Int} {P : List Int} (H : Last h P) (h3 : 3 ≤ P.length) :
    FrameCodec.historyOf h = lastThree P := by
  unfold FrameCodec.historyOf lastThree
  rw [H.prev (by omega) (by omega) h3, H.prev (by omega) (by omega) (by omega), H.prev (by omega) (by omega) (by omega)]

/-! ## the Rice parameter -/

/-- bits the table counts for a difference `e` at parameter `k` -/
def cost (k e : Nat) : Nat := e / 2 ^ k + k + 2

/-- |code - prediction| for `qs` after `P` (not limited) -/
def gaps : List Int → List Int → List Nat
  | _, [] => []
  | P, q :: qs => (q - guess P).natAbs :: gaps (P ++ [q]) qs

theorem gap_le {P : List Int} {q : Int} (hq : -32767 ≤ q ∧ q ≤ 32767) : (q - guess P).natAbs ≤ 65534 := by
  have := predict_range (P.getD (P.length - 3) 0) (P.getD (P.length - 2) 0) (P.getD (P.length - 1) 0)
  unfold guess
  omega

@[simp] theorem length_gaps : ∀ (P qs : List Int), (gaps P qs).length = qs.length
  | _, [] => rfl
  | P, q :: qs => by simp [gaps, length_gaps]

/-- one row of the table -/
theorem addCosts_ok {b : Build} {e : Nat} (he : e ≤ 65534) : ∀ (n : Nat) (t : List Nat) (_ : n ≤ 15) (_ : t.length = 16),
    (b = .release ∨ ∀ k, 16 - n ≤ k → k < 16 → t.getD k 0 + cost k e < 2 ^ 32) →
    ∃ t', FrameCodec.addCosts b e n t = .ok t' ∧ t'.length = 16 ∧
      ∀ k, t'.getD k 0 = if 16 - n ≤ k ∧ k < 16 then (t.getD k 0 + cost k e) % 2 ^ 32 else t.getD k 0
  | 0, t, _, hl, _ => ⟨t, rfl, hl, fun k => by rw [if_neg (by omega)]⟩
  | n + 1, t, hn, hl, hb => by
    obtain ⟨k, hk⟩ : ∃ k, k = 16 - (n + 1) := ⟨_, rfl⟩
    have hk16 : k < t.length := by omega
    have hd : e / 2 ^ k ≤ 65534 := (Nat.div_le_self _ _).trans he
    have hs3 : chkU b 32 ((t[k] : Int) + ((e / 2 ^ k + 1 + k + 1 : Nat) : Int)) = .ok ((t[k] + cost k e) % 2 ^ 32) := by
      have e1 : ((t[k] : Int) + ((e / 2 ^ k + 1 + k + 1 : Nat) : Int)) = ((t[k] + cost k e : Nat) : Int) := by
        unfold cost; push_cast; ring
      rw [e1]
      by_cases hlt : t[k] + cost k e < 2 ^ 32
      · rw [chkU_nat hlt, Nat.mod_eq_of_lt hlt]
      · rcases hb with rfl | hb
        · unfold chkU
          rw [if_neg (by push_cast at *; omega)]
          simp only
          congr 1
        · have := hb k (by omega) (by omega)
          rw [List.getD_eq_getElem?_getD, List.getElem?_eq_getElem hk16] at this
          exact absurd this hlt
    unfold FrameCodec.addCosts
    dsimp only
    rw [← hk, idx_of_lt hk16, bind_ok, Nat.shiftRight_eq_div_pow]
    rw [show (((e / 2 ^ k : Nat) : Int) + 1) = ((e / 2 ^ k + 1 : Nat) : Int) by push_cast; rfl, chkU_nat (by omega), bind_ok,
      show (((e / 2 ^ k + 1 : Nat) : Int) + (k : Int)) = ((e / 2 ^ k + 1 + k : Nat) : Int) by push_cast; rfl, chkU_nat (by omega), bind_ok,
      show (((e / 2 ^ k + 1 + k : Nat) : Int) + 1) = ((e / 2 ^ k + 1 + k + 1 : Nat) : Int) by push_cast; rfl, chkU_nat (by omega), bind_ok,
      hs3, bind_ok, setIdx_of_lt hk16, bind_ok]
    have hget : ∀ j, (t.set k ((t[k] + cost k e) % 2 ^ 32)).getD j 0 = if j = k then (t.getD k 0 + cost k e) % 2 ^ 32 else t.getD j 0 := by
      intro j
      simp only [List.getD_eq_getElem?_getD, List.getElem?_set]
      by_cases hj : j = k
      · subst hj; simp [hk16]
      · rw [if_neg (fun h => hj h.symm), if_neg hj]
    obtain ⟨t', h1, h2, h3⟩ := addCosts_ok (b := b) he n (t.set k ((t[k] + cost k e) % 2 ^ 32)) (by omega) (by simpa using hl) (by
      rcases hb with rfl | hb
      · exact .inl rfl
      · right
        intro j hj hj16
        rw [hget, if_neg (by omega)]
        exact hb j (by omega) hj16)
    refine ⟨t', h1, h2, ?_⟩
    intro j
    rw [h3, hget]
    by_cases hj : j = k
    · rw [if_neg (by omega), if_pos hj, if_pos (by omega), hj]
    · rw [if_neg hj]
      by_cases hj2 : 16 - n ≤ j ∧ j < 16
      · rw [if_pos hj2, if_pos (by omega)]
      · rw [if_neg hj2, if_neg (by omega)]


/-- the table after all samples: column sums -/
theorem costTable_ok {b : Build} : ∀ (ys : List F32) {h : CircularStack Int} {P : List Int} (_ : Last h P) (_ : 3 ≤ P.length)
    (t : List Nat) (_ : t.length = 16),
    (b = .release ∨ ∀ k, 1 ≤ k → k < 16 → t.getD k 0 + ((gaps P (ys.map truncateSample)).map (cost k)).sum < 2 ^ 32) →
    ∃ t', FrameCodec.costTable b h ys t = .ok t' ∧ t'.length = 16 ∧
      ∀ k, 1 ≤ k → k < 16 → t'.getD k 0 % 2 ^ 32 = (t.getD k 0 + ((gaps P (ys.map truncateSample)).map (cost k)).sum) % 2 ^ 32 ∧
        (t.getD k 0 < 2 ^ 32 → t'.getD k 0 < 2 ^ 32)
  | [], h, P, H, h3, t, hl, _ => ⟨t, rfl, hl, fun k _ _ => by simp [gaps]⟩
  | y :: ys, h, P, H, h3, t, hl, hb => by
    unfold FrameCodec.costTable
    dsimp only
    rw [H.predict h3]
    have hy := truncateSample_range y
    obtain ⟨t1, e1, l1, g1⟩ := addCosts_ok (b := b) (gap_le (P := P) hy) 15 t (by omega) hl (by
      rcases hb with rfl | hb
      · exact .inl rfl
      · right
        intro k h1 h2
        have := hb k (by omega) h2
        simp only [List.map_cons, gaps, List.sum_cons] at this
        omega)
    rw [e1, bind_ok]
    have hg : ∀ k, 1 ≤ k → k < 16 → t1.getD k 0 = (t.getD k 0 + cost k (truncateSample y - guess P).natAbs) % 2 ^ 32 := by
      intro k h1 h2
      rw [g1, if_pos (by omega)]
    obtain ⟨t2, e2, l2, g2⟩ := costTable_ok (b := b) ys (H.push (truncateSample y)) (by simp; omega) t1 l1 (by
      rcases hb with rfl | hb
      · exact .inl rfl
      · right
        intro k h1 h2
        have := hb k h1 h2
        simp only [List.map_cons, gaps, List.sum_cons] at this
        rw [hg k h1 h2, Nat.mod_eq_of_lt (by omega)]
        omega)
    refine ⟨t2, e2, l2, ?_⟩
    intro k h1 h2
    obtain ⟨ga, gb⟩ := g2 k h1 h2
    rw [hg k h1 h2] at ga gb
    constructor
    · rw [ga]
      simp only [List.map_cons, gaps, List.sum_cons, Nat.mod_add_mod, Nat.add_assoc]
    · intro _
      exact gb (Nat.mod_lt _ (by norm_num))

theorem foldl_min (l : List (Nat × Nat)) : ∀ (c : Nat × Nat),
    let m := l.foldl (fun m p => if p.1 < m.1 then p else m) c
    (m = c ∨ m ∈ l) ∧ m.1 ≤ c.1 ∧ ∀ p ∈ l, m.1 ≤ p.1 := by
  induction l with
  | nil => intro c; simp
  | cons a l ih =>
    intro c
    simp only [List.foldl_cons]
    obtain ⟨c', hc'⟩ : ∃ c', c' = if a.1 < c.1 then a else c := ⟨_, rfl⟩
    have hcc : (c' = a ∨ c' = c) ∧ c'.1 ≤ a.1 ∧ c'.1 ≤ c.1 := by
      rw [hc']; split
      · exact ⟨.inl rfl, by omega, by omega⟩
      · exact ⟨.inr rfl, by omega, by omega⟩
    rw [← hc']
    obtain ⟨h1, h2, h3⟩ := ih c'
    refine ⟨?_, h2.trans hcc.2.2, ?_⟩
    · rcases h1 with h1 | h1
      · rw [h1]; rcases hcc.1 with e | e <;> simp [e]
      · simp [h1]
    · intro p hp
      rcases List.mem_cons.1 hp with rfl | hp
      · exact h2.trans hcc.2.1
      · exact h3 p hp

/-- the first of the least: a later candidate replaces the best one only if it is strictly less -/
theorem foldl_min_first (l : List (Nat × Nat)) : ∀ (c : Nat × Nat),
    (c :: l).Pairwise (fun p q => p.2 < q.2) →
    ∀ p ∈ c :: l, p.2 < (l.foldl (fun m p => if p.1 < m.1 then p else m) c).2 →
      (l.foldl (fun m p => if p.1 < m.1 then p else m) c).1 < p.1 := by
  induction l with
  | nil => intro c _ p hp; simp at hp; subst hp; simp
  | cons a l ih =>
    intro c hpw p hp
    simp only [List.foldl_cons]
    intro hlt
    have hca : c.2 < a.2 := (List.pairwise_cons.1 hpw).1 a (by simp)
    by_cases hac : a.1 < c.1
    · rw [if_pos hac] at hlt ⊢
      rcases List.mem_cons.1 hp with rfl | hp
      · exact lt_of_le_of_lt (foldl_min l a).2.1 hac
      · exact ih a (List.pairwise_cons.1 hpw).2 p hp hlt
    · rw [if_neg hac] at hlt ⊢
      have hpw' : (c :: l).Pairwise (fun p q => p.2 < q.2) := by
        rw [List.pairwise_cons] at hpw ⊢
        exact ⟨fun q hq => hpw.1 q (by simp [hq]), (List.pairwise_cons.1 hpw.2).2⟩
      rcases List.mem_cons.1 hp with rfl | hp
      · exact ih p hpw' p (by simp) hlt
      · rcases List.mem_cons.1 hp with rfl | hp
        · have := ih c hpw' c (by simp) (by omega)
          omega
        · exact ih c hpw' p (by simp [hp]) hlt

/-- `argminPos` finds the first least positive entry after index 0 -/
theorem argminPos_some {t : List Nat} {k : Nat} (h : FrameCodec.argminPos t = some k) :
    1 ≤ k ∧ k < t.length ∧ (∀ j, 1 ≤ j → j < t.length → 0 < t.getD j 0 → t.getD k 0 ≤ t.getD j 0) ∧
      (∀ j, 1 ≤ j → j < k → 0 < t.getD j 0 → t.getD k 0 < t.getD j 0) ∧ 0 < t.getD k 0 := by
  have hmem : ∀ p : Nat × Nat, p ∈ (t.zipIdx.drop 1).filter (fun p => decide (p.1 > 0)) ↔
      1 ≤ p.2 ∧ p.2 < t.length ∧ p.1 = t.getD p.2 0 ∧ 0 < p.1 := by
    intro p
    obtain ⟨v, i⟩ := p
    rw [List.mem_filter, List.mem_drop_iff_getElem]
    simp only [List.getElem_zipIdx, List.length_zipIdx, decide_eq_true_eq, Prod.mk.injEq]
    constructor
    · rintro ⟨⟨j, hj, h1, h2⟩, h3⟩
      subst h2
      refine ⟨by omega, by omega, ?_, h3⟩
      rw [← h1, List.getD_eq_getElem?_getD, List.getElem?_eq_getElem (by omega)]
      simp [Nat.add_comm]
    · rintro ⟨h1, h2, h3, h4⟩
      refine ⟨⟨i - 1, by omega, ?_, by omega⟩, h4⟩
      rw [h3, List.getD_eq_getElem?_getD, List.getElem?_eq_getElem (by omega)]
      simp only [Option.getD_some]
      congr 1
      omega
  have hpw : ((t.zipIdx.drop 1).filter (fun p => decide (p.1 > 0))).Pairwise (fun p q => p.2 < q.2) := by
    refine List.Pairwise.filter _ (List.Pairwise.drop ?_)
    rw [List.pairwise_iff_getElem]
    intro i j hi hj hij
    simpa using hij
  unfold FrameCodec.argminPos at h
  dsimp only at h
  revert h hmem hpw
  generalize (t.zipIdx.drop 1).filter (fun p => decide (p.1 > 0)) = l
  intro h hmem hpw
  cases l with
  | nil => simp at h
  | cons c cs =>
    simp only [Option.some.injEq] at h
    obtain ⟨h1, h2, h3⟩ := foldl_min cs c
    have hf := foldl_min_first cs c hpw
    generalize hm : cs.foldl (fun m p => if p.1 < m.1 then p else m) c = m at *
    have hmm : m ∈ c :: cs := by
      rcases h1 with h1 | h1
      · rw [h1]; simp
      · simp [h1]
    obtain ⟨a1, a2, a3, a4⟩ := (hmem m).1 hmm
    subst h
    refine ⟨a1, a2, ?_, ?_, by omega⟩
    · intro j hj1 hj2 hj3
      have := (hmem (t.getD j 0, j)).2 ⟨hj1, hj2, rfl, hj3⟩
      rw [← a3]
      rcases List.mem_cons.1 this with e | e
      · rw [← e] at h2; exact h2
      · exact h3 _ e
    · intro j hj1 hj2 hj3
      have := (hmem (t.getD j 0, j)).2 ⟨hj1, by omega, rfl, hj3⟩
      rw [← a3]
      exact hf _ this hj2

theorem argminPos_none {t : List Nat} (h : FrameCodec.argminPos t = none) {j : Nat} (h1 : 1 ≤ j) (h2 : j < t.length) : t.getD j 0 = 0 := by
  by_contra hne
  have hmem : (t[j], j) ∈ (t.zipIdx.drop 1).filter (fun p => decide (p.1 > 0)) := by
    rw [List.mem_filter, List.mem_drop_iff_getElem]
    refine ⟨⟨j - 1, by simp; omega, ?_⟩, ?_⟩
    · simp only [List.getElem_zipIdx, Prod.mk.injEq]
      constructor
      · congr 1; omega
      · omega
    · rw [List.getD_eq_getElem?_getD, List.getElem?_eq_getElem h2, Option.getD_some] at hne
      simp only [decide_eq_true_eq]
      omega
  unfold FrameCodec.argminPos at h
  dsimp only at h
  revert h hmem
  generalize (t.zipIdx.drop 1).filter (fun p => decide (p.1 > 0)) = l
  intro h hmem
  cases l with
  | nil => simp at hmem
  | cons c cs => simp at h

theorem gaps_le : ∀ (qs P : List Int) (_ : ∀ q ∈ qs, -32767 ≤ q ∧ q ≤ 32767), ∀ e ∈ gaps P qs, e ≤ 65534
  | [], _, _, e, h => by simp [gaps] at h
  | q :: qs, P, hq, e, h => by
    simp only [gaps, List.mem_cons] at h
    rcases h with rfl | h
    · exact gap_le (hq q (by simp))
    · exact gaps_le qs _ (fun x hx => hq x (by simp [hx])) e h

theorem map_trunc_range (ys : List F32) : ∀ q ∈ ys.map truncateSample, -32767 ≤ q ∧ q ≤ 32767 := by
  intro q hq
  obtain ⟨y, _, rfl⟩ := List.mem_map.1 hq
  exact truncateSample_range y

theorem cost_le {k e : Nat} (hk : 1 ≤ k) (hk' : k < 16) (he : e ≤ 65534) : cost k e ≤ 32770 := by
  unfold cost
  rcases Nat.lt_or_ge k 2 with h | h
  · have : k = 1 := by omega
    subst this
    omega
  · have : e / 2 ^ k ≤ e / 2 ^ 2 := Nat.div_le_div_left (Nat.pow_le_pow_right (by norm_num) h) (by norm_num)
    omega

theorem sum_cost_le {k : Nat} (hk : 1 ≤ k) (hk' : k < 16) : ∀ (l : List Nat) (_ : ∀ e ∈ l, e ≤ 65534), (l.map (cost k)).sum ≤ l.length * 32770
  | [], _ => by simp
  | e :: l, h => by
    have := sum_cost_le hk hk' l (fun x hx => h x (by simp [hx]))
    have := cost_le hk hk' (h e (by simp))
    simp only [List.map_cons, List.sum_cons, List.length_cons]
    omega

theorem sum_cost_pos {k : Nat} {l : List Nat} (h : l ≠ []) : 0 < (l.map (cost k)).sum := by
  cases l with
  | nil => exact absurd rfl h
  | cons e l =>
    have : 0 < cost k e := by unfold cost; positivity
    simp only [List.map_cons, List.sum_cons]; omega

/-- no more large differences than small ones -/
def Mild (l : List Nat) : Prop := l.countP (49152 ≤ ·) ≤ l.countP (· < 16384)

theorem sum_cost_14_15 : ∀ (l : List Nat) (_ : ∀ e ∈ l, e < 65536),
    (l.map (cost 14)).sum + l.countP (· < 16384) = (l.map (cost 15)).sum + l.countP (49152 ≤ ·)
  | [], _ => by simp
  | e :: l, h => by
    have := sum_cost_14_15 l (fun x hx => h x (by simp [hx]))
    have := h e (by simp)
    simp only [List.map_cons, List.sum_cons, cost, List.countP_cons, decide_eq_true_eq] at *
    split_ifs <;> omega

theorem sum_cost_convex (j : Nat) : ∀ l : List Nat, 2 * (l.map (cost (j + 1))).sum ≤ (l.map (cost j)).sum + (l.map (cost (j + 2))).sum
  | [] => by simp
  | e :: l => by
    have := sum_cost_convex j l
    have h1 : e / 2 ^ (j + 1) = e / 2 ^ j / 2 := by rw [pow_succ, Nat.div_div_eq_div_mul]
    have h2 : e / 2 ^ (j + 2) = e / 2 ^ j / 4 := by rw [pow_add, Nat.div_div_eq_div_mul]; norm_num
    simp only [List.map_cons, List.sum_cons]
    have : 2 * cost (j + 1) e ≤ cost j e + cost (j + 2) e := by
      unfold cost
      rw [h1, h2]
      generalize e / 2 ^ j = x
      omega
    omega

/-- the parameter 15 is the best one exactly for the lists that are not mild -/
theorem sum_cost_wild {l : List Nat} (hl : ∀ e ∈ l, e < 65536) (h : ¬ Mild l) {j : Nat} (hj : j ≤ 14) :
    (l.map (cost 15)).sum < (l.map (cost j)).sum := by
  have h1 := sum_cost_14_15 l hl
  unfold Mild at h
  have step : ∀ d, d ≤ 14 → (l.map (cost (14 - d + 1))).sum < (l.map (cost (14 - d))).sum := by
    intro d
    induction d with
    | zero => intro _; norm_num; omega
    | succ d ih =>
      intro hd
      have h2 := ih (by omega)
      have h3 := sum_cost_convex (14 - (d + 1)) l
      rw [show 14 - (d + 1) + 1 = 14 - d by omega, show 14 - (d + 1) + 2 = 14 - d + 1 by omega] at h3
      rw [show 14 - (d + 1) + 1 = 14 - d by omega]
      omega
  have all : ∀ d, d ≤ 14 → (l.map (cost 15)).sum < (l.map (cost (14 - d))).sum := by
    intro d
    induction d with
    | zero => intro h; exact step 0 h
    | succ d ih =>
      intro hd
      have h2 := ih (by omega)
      have h3 := step (d + 1) hd
      rw [show 14 - (d + 1) + 1 = 14 - d by omega] at h3
      omega
  have := all (14 - j) (by omega)
  rwa [show 14 - (14 - j) = j by omega] at this

/-- total cost of a frame at parameter `k` -/
def frameCost (k : Nat) (P qs : List Int) : Nat := ((gaps P qs).map (cost k)).sum

/-- the sum the encoder compares is kept in 32 bits -/
def wrappedCost (k : Nat) (P qs : List Int) : Nat := frameCost k P qs % 2 ^ 32

/-- `k` is the first parameter with the least positive 32-bit sum, or 1 if there is none -/
def Picked (k : Nat) (P qs : List Int) : Prop :=
  (∀ j, 1 ≤ j → j ≤ 15 → 0 < wrappedCost j P qs →
    wrappedCost k P qs ≤ wrappedCost j P qs ∧ (j < k → wrappedCost k P qs < wrappedCost j P qs)) ∧
  (0 < wrappedCost k P qs ∨ (k = 1 ∧ ∀ j, 1 ≤ j → j ≤ 15 → wrappedCost j P qs = 0))

/-- what the encoder picks -/
theorem computeOptimal_ok {b : Build} {h : CircularStack Int} {P : List Int} (H : Last h P) (h3 : 3 ≤ P.length) (ys : List F32)
    (hb : b = .release ∨ ys.length ≤ 131064) :
    ∃ k, FrameCodec.computeOptimalDivisorExponent b h ys = .ok k ∧ 1 ≤ k ∧ k ≤ 15 ∧
      (ys.length ≤ 131064 → ∀ j, 1 ≤ j → j ≤ 15 →
        frameCost k P (ys.map truncateSample) ≤ frameCost j P (ys.map truncateSample) ∧
        (j < k → frameCost k P (ys.map truncateSample) < frameCost j P (ys.map truncateSample))) ∧
      Picked k P (ys.map truncateSample) := by
  have hle : ys.length ≤ 131064 → ∀ k, 1 ≤ k → k < 16 → frameCost k P (ys.map truncateSample) < 2 ^ 32 := by
    intro hl k h1 h2
    have := sum_cost_le h1 h2 _ (gaps_le (ys.map truncateSample) P (map_trunc_range ys))
    rw [length_gaps, List.length_map] at this
    unfold frameCost
    omega
  have h0 : ∀ k, (List.replicate 16 0).getD k 0 = 0 := by
    intro k
    rw [List.getD_eq_getElem?_getD, List.getElem?_replicate]
    split <;> rfl
  obtain ⟨t, e, hl, ht⟩ := costTable_ok (b := b) ys H h3 (List.replicate 16 0) (by simp) (by
    rcases hb with rfl | hb
    · exact .inl rfl
    · right
      intro k h1 h2
      rw [h0, Nat.zero_add]
      exact hle hb k h1 h2)
  unfold FrameCodec.computeOptimalDivisorExponent
  rw [e, bind_ok]
  refine ⟨_, rfl, ?_⟩
  have htk : ∀ k, 1 ≤ k → k < 16 → t.getD k 0 = wrappedCost k P (ys.map truncateSample) := by
    intro k h1 h2
    obtain ⟨a, c⟩ := ht k h1 h2
    rw [h0] at a c
    rwa [Nat.zero_add, Nat.mod_eq_of_lt (c (by norm_num))] at a
  have hpick : 1 ≤ (FrameCodec.argminPos t).getD 1 ∧ (FrameCodec.argminPos t).getD 1 ≤ 15 ∧
      Picked ((FrameCodec.argminPos t).getD 1) P (ys.map truncateSample) := by
    cases hm : FrameCodec.argminPos t with
    | none =>
      have hz : ∀ j, 1 ≤ j → j ≤ 15 → wrappedCost j P (ys.map truncateSample) = 0 := by
        intro j h1 h2
        rw [← htk j h1 (by omega)]
        exact argminPos_none hm h1 (by omega)
      refine ⟨by simp, by simp, ?_, .inr ⟨by simp, hz⟩⟩
      intro j h1 h2 h4
      rw [hz j h1 h2] at h4
      omega
    | some k =>
      obtain ⟨a1, a2, a3, a4, a5⟩ := argminPos_some hm
      simp only [Option.getD_some]
      refine ⟨a1, by omega, ?_, .inl ?_⟩
      · intro j h1 h2 h4
        rw [← htk j h1 (by omega)] at h4 ⊢
        rw [← htk k a1 (by omega)]
        exact ⟨a3 j h1 (by omega) h4, fun hjk => a4 j h1 hjk h4⟩
      · rw [← htk k a1 (by omega)]
        exact a5
  obtain ⟨p1, p2, p3⟩ := hpick
  refine ⟨p1, p2, ?_, p3⟩
  intro hy j h1 h2
  have hw : ∀ k, 1 ≤ k → k ≤ 15 → wrappedCost k P (ys.map truncateSample) = frameCost k P (ys.map truncateSample) :=
    fun k h1 h2 => Nat.mod_eq_of_lt (hle hy k h1 (by omega))
  by_cases hys : ys = []
  · subst hys
    refine ⟨by simp [frameCost, gaps], fun hj => ?_⟩
    rcases p3.2 with h | h
    · rw [hw _ p1 p2] at h
      simp [frameCost, gaps] at h
    · omega
  · have hpos : 0 < wrappedCost j P (ys.map truncateSample) := by
      rw [hw j h1 h2]
      apply sum_cost_pos
      cases ys with
      | nil => exact absurd rfl hys
      | cons y ys => simp [gaps]
    have := p3.1 j h1 h2 hpos
    rwa [hw _ p1 p2, hw _ h1 h2] at this

/-- no debug-build overflow when encoding `qs` after `P` -/
def Calm (b : Build) (P qs : List Int) : Prop := b = .release ∨ (qs.length ≤ 131064 ∧ Mild (gaps P qs))

theorem computeOptimal_calm {b : Build} {h : CircularStack Int} {P : List Int} (H : Last h P) (h3 : 3 ≤ P.length) (ys : List F32)
    (hc : Calm b P (ys.map truncateSample)) :
    ∃ k, FrameCodec.computeOptimalDivisorExponent b h ys = .ok k ∧ 1 ≤ k ∧ (k ≤ 14 ∨ (k = 15 ∧ b = .release)) ∧
      (ys.length ≤ 131064 → ∀ j, 1 ≤ j → j ≤ 15 →
        frameCost k P (ys.map truncateSample) ≤ frameCost j P (ys.map truncateSample)) ∧ Picked k P (ys.map truncateSample) := by
  rcases hc with rfl | ⟨hl, hg⟩
  · obtain ⟨k, e, h1, h2, h4, h5⟩ := computeOptimal_ok (b := .release) H h3 ys (.inl rfl)
    refine ⟨k, e, h1, ?_, fun hy j hj hj' => (h4 hy j hj hj').1, h5⟩
    rcases Nat.lt_or_ge k 15 with h | h
    · exact .inl (by omega)
    · exact .inr ⟨by omega, rfl⟩
  · rw [List.length_map] at hl
    obtain ⟨k, e, h1, h2, h4, h5⟩ := computeOptimal_ok (b := b) H h3 ys (.inr (by omega))
    refine ⟨k, e, h1, .inl ?_, fun hy j hj hj' => (h4 hy j hj hj').1, h5⟩
    by_contra hk
    have hk : k = 15 := by omega
    subst hk
    have := (h4 (by omega) 14 (by omega) (by omega)).2 (by omega)
    have := sum_cost_14_15 (gaps P (ys.map truncateSample)) fun e he => by
      have := gaps_le (ys.map truncateSample) P (map_trunc_range ys) e he
      omega
    unfold frameCost Mild at *
    omega

/-! ## encoding -/

theorem clampI_ok {x lo hi : Int} (h : lo ≤ hi) : clampI x lo hi = .ok (max lo (min hi x)) := by
  unfold clampI
  rw [if_neg (by omega)]
  congr 1
  split_ifs <;> omega

theorem encodeSamples_ok {b : Build} {k : Nat} (hk : k ≤ 14 ∨ (k = 15 ∧ b = .release)) :
    ∀ (ys : List F32) {s : BitStream} {bits : List Bool} {h : CircularStack Int} {P : List Int} (_ : Holds s bits) (_ : Last h P)
      (_ : 3 ≤ P.length),
    ∃ s' h', FrameCodec.encodeSamples b k s h ys = .ok (s', h') ∧
      Holds s' (bits ++ (residuals P (ys.map truncateSample)).flatMap (riceBits k)) ∧ Last h' (P ++ ys.map truncateSample)
  | [], s, bits, h, P, hs, hh, _ => ⟨s, h, rfl, by simpa [residuals] using hs, by simpa using hh⟩
  | y :: ys, s, bits, h, P, hs, hh, h3 => by
    unfold FrameCodec.encodeSamples
    dsimp only
    rw [hh.predict h3, clampI_ok (by norm_num), bind_ok]
    obtain ⟨r, hr⟩ : ∃ r, r = max (-32767) (min 32766 (truncateSample y - guess P)) := ⟨_, rfl⟩
    rw [show max (-32768 + 1) (min (32767 - 1) (truncateSample y - guess P)) = r by rw [hr]; rfl]
    obtain ⟨s1, e1, hs1⟩ := holds_writeCompressed (b := b) hs hk (v := r) (by omega)
    rw [e1, bind_ok]
    obtain ⟨s2, h2, e2, hs2, hh2⟩ := encodeSamples_ok (b := b) hk ys hs1 (hh.push (truncateSample y)) (by simp; omega)
    refine ⟨s2, h2, e2, ?_, ?_⟩
    · simpa [residuals, ← hr] using hs2
    · simpa using hh2

/-! ## frames -/

/-- an encoded frame: the codes its channel held before, the Rice parameter, the new codes -/
structure Fr where
  pre : List Int
  exp : Nat
  codes : List Int

namespace Fr

/-- codes written verbatim -/
def raw (f : Fr) : List Int := if f.pre = [] then f.codes.take 3 else []

/-- codes written as differences -/
def body (f : Fr) : List Int := if f.pre = [] then f.codes.drop 3 else f.codes

/-- the bits of a 16-bit code -/
def rawBits (q : Int) : List Bool := (List.range 16).map (BitVec.ofInt 16 q).getLsbD

def bits (f : Fr) : List Bool :=
  f.raw.flatMap rawBits ++ (residuals (f.pre ++ f.raw) f.body).flatMap (riceBits f.exp)

def hdr (f : Fr) (pos : Nat) : FrameHeader :=
  { exponent := f.exp, size := f.codes.length % 2 ^ 16, bitCursor := pos % 2 ^ 64, isInit := f.pre.isEmpty
    history := lastThree (f.pre ++ f.raw) }

/-- how many bits are written last -/
def lastWidth (f : Fr) : Nat := if f.body = [] then 16 else f.exp

/-- frames the encoder makes -/
structure WF (f : Fr) : Prop where
  first : f.pre = [] → 3 ≤ f.codes.length
  later : f.pre ≠ [] → 3 ≤ f.pre.length
  exp1 : 1 ≤ f.exp
  exp15 : f.exp ≤ 15
  range : ∀ q ∈ f.codes, -32767 ≤ q ∧ q ≤ 32767
  opt : f.body.length ≤ 131064 → ∀ j, 1 ≤ j → j ≤ 15 → frameCost f.exp (f.pre ++ f.raw) f.body ≤ frameCost j (f.pre ++ f.raw) f.body
  picked : Picked f.exp (f.pre ++ f.raw) f.body

theorem raw_body (f : Fr) : f.raw ++ f.body = f.codes := by
  unfold raw body; split <;> simp

theorem WF.base {f : Fr} (h : f.WF) : 3 ≤ (f.pre ++ f.raw).length := by
  unfold raw
  by_cases hp : f.pre = []
  · have := h.first hp
    simp [hp]; omega
  · have := h.later hp
    simp [hp]; omega

end Fr

/-- what a channel remembers while encoding: nothing yet (state `init`) or the codes so far -/
structure EncChan (fc : FrameCodec) (Q : List Int) : Prop where
  state : fc.state = if Q = [] then .init else .encoding
  hist : Last fc.history Q
  len : Q ≠ [] → 3 ≤ Q.length
  buf : fc.buffered = []

/-- the part of the input coded as differences -/
def Fr.calm (b : Build) (Q codes : List Int) : Prop :=
  if Q = [] then Calm b (codes.take 3) (codes.drop 3) else Calm b Q codes

theorem push_mod (h : FrameHeaders) (x : FrameHeader) : h.push x = h.push { x with bitCursor := x.bitCursor % 2 ^ 64 } := by
  unfold FrameHeaders.push
  simp only [Nat.mod_mod]

theorem holds_writeU16 {s : BitStream} {bits : List Bool} (h : Holds s bits) (q : Int) :
    ∃ s', s.writeU16 (BitVec.ofInt 16 q) = .ok s' ∧ Holds s' (bits ++ Fr.rawBits q) := by
  unfold BitStream.writeU16
  obtain ⟨s', e, hs⟩ := holds_writeBits h ((BitVec.ofInt 16 q).setWidth 128) (n := 16) (by omega)
  refine ⟨s', e, ?_⟩
  have : (List.range 16).map ((BitVec.ofInt 16 q).setWidth 128).getLsbD = Fr.rawBits q := by
    unfold Fr.rawBits
    apply List.map_congr_left
    intro i hi
    have : i < 16 := by simpa using hi
    rw [BitVec.getLsbD_setWidth]
    simp; omega
  rwa [this] at hs

theorem encodeFrame_ok {b : Build} {fc : FrameCodec} {Q : List Int} (hfc : EncChan fc Q) {st : AudioStream} {bits : List Bool}
    (hs : Holds st.stream bits) {hd : FrameHeaders} {log : List FrameHeader} (hl : IsLog hd log log.length) (ys : List F32)
    (h3 : Q = [] → 3 ≤ ys.length) (hc : Fr.calm b Q (ys.map truncateSample)) :
    ∃ (fc' : FrameCodec) (st' : AudioStream) (hd' : FrameHeaders) (f : Fr), fc.encodeFrame b st hd ys = .ok (fc', st', hd') ∧ f.WF ∧ f.pre = Q ∧ f.codes = ys.map truncateSample ∧
      EncChan fc' (Q ++ f.codes) ∧ Holds st'.stream (bits ++ f.bits) ∧ st'.info = st.info ∧
      IsLog hd' (log ++ [f.hdr bits.length]) (log.length + 1) ∧ st.stream.binary.length ≤ st'.stream.binary.length ∧
      (f.codes ≠ [] → (st'.stream.bitCursor - f.lastWidth) / 128 + 2 ≤ st'.stream.binary.length) ∧
      (Tidy st.stream → Tidy st'.stream ∧ (f.codes ≠ [] → st'.stream.binary.length = (st'.stream.bitCursor - f.lastWidth) / 128 + 2) ∧
        (f.codes = [] → st'.stream = st.stream)) ∧ (Unflagged hd → Unflagged hd') := by
  unfold FrameCodec.encodeFrame
  rw [hfc.state]
  have hpush : ∀ (hd : FrameHeaders) (x : FrameHeader), IsLog hd log log.length → x.exponent < 16 →
      ∃ h', hd.push x = .ok h' ∧ IsLog h' (log ++ [{ x with bitCursor := x.bitCursor % 2 ^ 64 }]) (log.length + 1) := by
    intro hd x H hx
    rw [push_mod]
    obtain ⟨h', e, H'⟩ := isLog_push H (x := { x with bitCursor := x.bitCursor % 2 ^ 64 }) ⟨hx, Nat.mod_lt _ (by norm_num)⟩
    rw [if_neg (by omega)] at H'
    exact ⟨h', e, H'⟩
  by_cases hQ : Q = []
  · subst hQ
    have hy := h3 rfl
    match ys, hy with
    | y0 :: y1 :: y2 :: ys, _ =>
    simp only [if_pos]
    unfold Fr.calm at hc
    rw [if_pos rfl] at hc
    simp only [List.map_cons, List.take_succ_cons, List.take_zero, List.drop_succ_cons, List.drop_zero] at hc
    rw [idx_of_lt (by simp), bind_ok]
    obtain ⟨s1, e1, hs1⟩ := holds_writeU16 hs (truncateSample y0)
    simp only [List.getElem_cons_zero]
    rw [e1, bind_ok, idx_of_lt (by simp), bind_ok]
    obtain ⟨s2, e2, hs2⟩ := holds_writeU16 hs1 (truncateSample y1)
    simp only [List.getElem_cons_succ, List.getElem_cons_zero]
    rw [e2, bind_ok, idx_of_lt (by simp), bind_ok]
    obtain ⟨s3, e3, hs3⟩ := holds_writeU16 hs2 (truncateSample y2)
    simp only [List.getElem_cons_succ, List.getElem_cons_zero]
    rw [e3, bind_ok]
    have hh := ((hfc.hist.push (truncateSample y0)).push (truncateSample y1)).push (truncateSample y2)
    simp only [List.nil_append, List.cons_append, List.drop_succ_cons, List.drop_zero] at hh ⊢
    obtain ⟨k, ek, hk1, hk, hopt, hpick⟩ := computeOptimal_calm (b := b) hh (by simp) ys hc
    rw [ek, bind_ok]
    obtain ⟨hd', eh, hl'⟩ := hpush hd { exponent := k, size := (y0 :: y1 :: y2 :: ys).length % 2 ^ 16, bitCursor := st.stream.bitCursor, isInit := true, history := FrameCodec.historyOf (((fc.history.push (truncateSample y0)).push (truncateSample y1)).push (truncateSample y2)) } hl (by show k < 16; omega)
    rw [eh, bind_ok]
    obtain ⟨s4, h4, e4, hs4, hh4⟩ := encodeSamples_ok (b := b) hk ys hs3 hh (by simp)
    have hg1 := writeBits_inv (by omega) hs.chunks e1
    have hg1' := writeBits_inv (by omega) hs1.chunks e2
    have hg2 := writeBits_inv (by omega) hs2.chunks e3
    have hg3 := hg1.mono.trans (hg1'.mono.trans hg2.mono)
    have hgs : (ys = [] ∧ s4 = s3) ∨ (ys ≠ [] ∧ Grown s3 s4 k) := by
      have := encodeSamples_inv (by omega) ys e4
      by_cases h : ys = []
      · exact .inl ⟨h, this.1 h⟩
      · exact .inr ⟨h, this.2 h⟩
    rw [e4, bind_ok]
    have hgt : Tidy st.stream → Tidy s3 ∧ s3.binary.length = (s3.bitCursor - 16) / 128 + 2 := fun h =>
      tidy_writeU16 (tidy_writeU16 (tidy_writeU16 h e1).1 e2).1 e3
    refine ⟨_, _, _, ⟨[], k, (y0 :: y1 :: y2 :: ys).map truncateSample⟩, rfl, ⟨?_, ?_, hk1, ?_, ?_, ?_, ?_⟩, rfl, rfl, ⟨?_, ?_, ?_, ?_⟩, ?_, rfl, ?_, ?_, ?_, ?_,
      fun hu => unflagged_push hl hu eh⟩
    · intro _; simp
    · intro h; exact absurd rfl h
    · show k ≤ 15; omega
    · exact map_trunc_range _
    · simpa [Fr.raw, Fr.body] using hopt
    · simpa [Fr.raw, Fr.body] using hpick
    · simp
    · simpa using hh4
    · intro _; simp
    · exact hfc.buf
    · simpa [Fr.bits, Fr.raw, Fr.body] using hs4
    · rw [hh.history (by simp)] at hl'
      simpa [Fr.hdr, Fr.raw, hs.cursor] using hl'
    · exact (hg3.trans (hgs.elim (fun h => by rw [h.2]) (fun h => h.2.mono)))
    · intro _
      rcases hgs with ⟨h0, h1⟩ | ⟨h0, h1⟩
      · simp only [Fr.lastWidth, Fr.body, h0, if_pos]
        rw [h1]; exact hg2.room
      · have : Fr.lastWidth ⟨[], k, (y0 :: y1 :: y2 :: ys).map truncateSample⟩ = k := by simp [Fr.lastWidth, Fr.body, h0]
        rw [this]; exact h1.room
    · intro ht
      obtain ⟨t1, t2⟩ := hgt ht
      obtain ⟨u1, u2⟩ := tidy_encodeSamples (by omega) ys t1.toLoose e4
      by_cases h0 : ys = []
      · rw [u1 h0]
        refine ⟨t1, fun _ => ?_, fun h => by simp at h⟩
        simp only [Fr.lastWidth, Fr.body, h0, if_pos]
        exact t2
      · obtain ⟨u3, u4⟩ := u2 h0
        refine ⟨u3, fun _ => ?_, fun h => by simp at h⟩
        have : Fr.lastWidth ⟨[], k, (y0 :: y1 :: y2 :: ys).map truncateSample⟩ = k := by simp [Fr.lastWidth, Fr.body, h0]
        rw [this]; exact u4
  · simp only [if_neg hQ]
    unfold Fr.calm at hc
    rw [if_neg hQ] at hc
    have hQ3 := hfc.len hQ
    obtain ⟨k, ek, hk1, hk, hopt, hpick⟩ := computeOptimal_calm (b := b) hfc.hist hQ3 ys hc
    rw [ek, bind_ok]
    obtain ⟨hd', eh, hl'⟩ := hpush hd { exponent := k, size := ys.length % 2 ^ 16, bitCursor := st.stream.bitCursor, isInit := false, history := FrameCodec.historyOf fc.history } hl (by show k < 16; omega)
    rw [eh, bind_ok]
    obtain ⟨s4, h4, e4, hs4, hh4⟩ := encodeSamples_ok (b := b) hk ys hs hfc.hist hQ3
    have hgs := encodeSamples_inv (by omega) ys e4
    rw [e4, bind_ok]
    refine ⟨_, _, _, ⟨Q, k, ys.map truncateSample⟩, rfl, ⟨?_, ?_, hk1, ?_, ?_, ?_, ?_⟩, rfl, rfl, ⟨?_, ?_, ?_, ?_⟩, ?_, rfl, ?_, ?_, ?_, ?_,
      fun hu => unflagged_push hl hu eh⟩
    · intro h; exact absurd h hQ
    · intro _; exact hQ3
    · show k ≤ 15; omega
    · exact map_trunc_range _
    · simpa [Fr.raw, Fr.body, hQ] using hopt
    · simpa [Fr.raw, Fr.body, hQ] using hpick
    · rw [if_neg (by simp [hQ])]
    · simpa using hh4
    · intro _; simp; omega
    · exact hfc.buf
    · simpa [Fr.bits, Fr.raw, Fr.body, hQ] using hs4
    · rw [hfc.hist.history hQ3] at hl'
      have hQe : Q.isEmpty = false := by simpa using hQ
      simpa [Fr.hdr, Fr.raw, hs.cursor, hQ, hQe] using hl'
    · by_cases h : ys = []
      · rw [hgs.1 h]
      · exact (hgs.2 h).mono
    · intro h0
      have h0 : ys ≠ [] := by simpa using h0
      have : Fr.lastWidth ⟨Q, k, ys.map truncateSample⟩ = k := by simp [Fr.lastWidth, Fr.body, hQ, h0]
      rw [this]; exact (hgs.2 h0).room
    · intro ht
      obtain ⟨u1, u2⟩ := tidy_encodeSamples (by omega) ys ht.toLoose e4
      by_cases h0 : ys = []
      · rw [u1 h0]
        exact ⟨ht, fun h => absurd (by simp [h0]) h, fun _ => rfl⟩
      · obtain ⟨u3, u4⟩ := u2 h0
        refine ⟨u3, fun _ => ?_, fun h => absurd h (by simpa using h0)⟩
        have : Fr.lastWidth ⟨Q, k, ys.map truncateSample⟩ = k := by simp [Fr.lastWidth, Fr.body, hQ, h0]
        rw [this]; exact u4

/-! ## decoding -/

theorem decodeSamples_ok {b : Build} {k : Nat} (hk : k ≤ 15) :
    ∀ (rs : List Int) (_ : ∀ r ∈ rs, -32767 ≤ r ∧ r ≤ 32767) {s : BitStream} {pre post : List Bool} {h : CircularStack Int}
      {P : List Int} (buf : List F32)
      (_ : Reads s (pre ++ rs.flatMap (riceBits k) ++ post) pre.length) (_ : Last h P) (_ : 3 ≤ P.length),
    ∃ s' h', FrameCodec.decodeSamples b k rs.length s h buf = .ok (s', h', buf ++ (rebuild P rs).map out) ∧
      Reads s' (pre ++ rs.flatMap (riceBits k) ++ post) (pre ++ rs.flatMap (riceBits k)).length ∧ Last h' (P ++ rebuild P rs)
  | [], _, s, pre, post, h, P, buf, hs, hh, _ => ⟨s, h, by simp [FrameCodec.decodeSamples, rebuild], by simpa using hs, by simpa [rebuild] using hh⟩
  | r :: rs, hr, s, pre, post, h, P, buf, hs, hh, h3 => by
    have hr0 := hr r (by simp)
    simp only [List.flatMap_cons] at hs ⊢
    rw [show pre ++ (riceBits k r ++ rs.flatMap (riceBits k)) ++ post = pre ++ riceBits k r ++ (rs.flatMap (riceBits k) ++ post) by
      simp [List.append_assoc]] at hs
    obtain ⟨s1, e1, hs1⟩ := reads_readCompressed (b := b) hs hk hr0
    rw [List.length_cons]
    unfold FrameCodec.decodeSamples
    rw [e1, bind_ok]
    dsimp only
    rw [hh.predict h3, toInt_ofInt16 (by omega), clampI_ok (by norm_num), bind_ok]
    obtain ⟨d, hd⟩ : ∃ d, d = max (-32768) (min 32767 (r + guess P)) := ⟨_, rfl⟩
    rw [← hd]
    have e : pre ++ riceBits k r ++ (rs.flatMap (riceBits k) ++ post) = (pre ++ riceBits k r) ++ rs.flatMap (riceBits k) ++ post := by
      simp [List.append_assoc]
    rw [e, ← List.length_append] at hs1
    obtain ⟨s2, h2, e2, hs2, hh2⟩ := decodeSamples_ok (b := b) hk rs (fun x hx => hr x (by simp [hx])) (buf ++ [out d]) hs1 (hh.push d) (by simp; omega)
    refine ⟨s2, h2, ?_, ?_, ?_⟩
    · have : rebuild P (r :: rs) = d :: rebuild (P ++ [d]) rs := by rw [hd]; rfl
      rw [this]
      simpa [out] using e2
    · simpa [List.append_assoc] using hs2
    · have : rebuild P (r :: rs) = d :: rebuild (P ++ [d]) rs := by rw [hd]; rfl
      rw [this]
      simpa using hh2

theorem readRaw_ok {s : BitStream} {pre post : List Bool} {q : Int} (hq : -32768 ≤ q ∧ q ≤ 32767)
    (hs : Reads s (pre ++ Fr.rawBits q ++ post) pre.length) :
    ∃ s', FrameCodec.readRaw s = .ok (s', q) ∧ Reads s' (pre ++ Fr.rawBits q ++ post) (pre ++ Fr.rawBits q).length := by
  have hl : (Fr.rawBits q).length = 16 := by simp [Fr.rawBits]
  obtain ⟨s', v, e, hs', hv⟩ := reads_readBits hs (n := 16) (by omega) (by simp [hl])
  refine ⟨s', ?_, by simpa [hl] using hs'⟩
  unfold FrameCodec.readRaw
  rw [e, bind_ok]
  have : v.setWidth 16 = BitVec.ofInt 16 q := by
    apply BitVec.eq_of_getLsbD_eq
    intro i hi
    rw [BitVec.getLsbD_setWidth, hv]
    simp only [hi, decide_true, Bool.true_and]
    rw [List.getD_eq_getElem?_getD, List.getElem?_append_left (by simp [hl]; omega), List.getElem?_append_right (by omega)]
    simp [Fr.rawBits, hi]
  simp only [pure_eq_ok, this, toInt_ofInt16 hq]

/-- what a channel remembers while decoding: nothing yet (state `init`) or the codes so far -/
structure DecChan (fc : FrameCodec) (D : List Int) (buf : List F32) : Prop where
  state : fc.state = if D = [] then .init else .decoding
  hist : Last fc.history D
  buf : fc.buffered = buf

theorem out_of_range {q : Int} (h : -32767 ≤ q ∧ q ≤ 32767) : out q = normalizeSample q := by
  unfold out
  have : |q| ≤ 32767 := abs_le.2 h
  exact F32.clamp_unit_id (is_normalize (by linarith)) (normalize_le_one this)

/-- decoding one frame. `D` is what the channel has decoded before. -/
theorem decodeFrame_ok {b : Build} {f : Fr} (hf : f.WF) (hsz : f.codes.length < 65536) {fc : FrameCodec} {D : List Int} {buf : List F32}
    (hD : DecChan fc D buf) (hlen : D.length = f.pre.length) {st : AudioStream} {pre post : List Bool}
    (hs : Reads st.stream (pre ++ f.bits ++ post) pre.length) {hd : FrameHeaders} {log : List FrameHeader} {i p : Nat}
    (hl : IsLog hd log i) (hi : log[i]? = some (f.hdr p)) :
    ∃ fc' st' hd' n, fc.decodeFrame b st hd = .ok (fc', st', hd', n) ∧
      DecChan fc' (D ++ f.raw ++ rebuild (D ++ f.raw) (residuals (f.pre ++ f.raw) f.body))
        (buf ++ (f.raw ++ rebuild (D ++ f.raw) (residuals (f.pre ++ f.raw) f.body)).map out) ∧
      Reads st'.stream (pre ++ f.bits ++ post) (pre ++ f.bits).length ∧ st'.info = st.info ∧
      IsLog hd' log (i + 1) := by
  obtain ⟨hd', e, hl'⟩ := isLog_next hl
  rw [if_pos (by by_contra h; rw [List.getElem?_eq_none (by omega)] at hi; cases hi)] at hl'
  unfold FrameCodec.decodeFrame
  rw [e, bind_ok, hi]
  dsimp only
  rw [hD.state]
  have hk := hf.exp15
  have hsize : (f.hdr p).size = f.codes.length := by
    show f.codes.length % 2 ^ 16 = _
    omega
  have hresr : ∀ r ∈ residuals (f.pre ++ f.raw) f.body, -32767 ≤ r ∧ r ≤ 32767 := by
    intro r hr
    have := residuals_range _ _ r hr
    omega
  have hbase := hf.base
  by_cases hp : f.pre = []
  · have hD0 : D = [] := by
      rw [hp] at hlen; simpa using hlen
    subst hD0
    have hcl := hf.first hp
    obtain ⟨q0, q1, q2, qs, hcodes⟩ : ∃ q0 q1 q2 qs, f.codes = q0 :: q1 :: q2 :: qs := by
      match f.codes, hcl with
      | q0 :: q1 :: q2 :: qs, _ => exact ⟨q0, q1, q2, qs, rfl⟩
    have hraw : f.raw = [q0, q1, q2] := by simp [Fr.raw, hp, hcodes]
    have hbody : f.body = qs := by simp [Fr.body, hp, hcodes]
    have hr0 := hf.range q0 (by simp [hcodes])
    have hr1 := hf.range q1 (by simp [hcodes])
    have hr2 := hf.range q2 (by simp [hcodes])
    have hbits : f.bits = Fr.rawBits q0 ++ (Fr.rawBits q1 ++ (Fr.rawBits q2 ++ (residuals [q0, q1, q2] qs).flatMap (riceBits f.exp))) := by
      simp [Fr.bits, hraw, hbody, hp]
    simp only [hbody, hp, hraw, List.nil_append, if_pos]
    obtain ⟨rs, hrs⟩ : ∃ rs, rs = residuals [q0, q1, q2] qs := ⟨_, rfl⟩
    rw [← hrs] at hbits ⊢
    have hrl : rs.length = (f.hdr p).size - 3 := by rw [hrs, hsize, hcodes]; simp
    have hrr : ∀ r ∈ rs, -32767 ≤ r ∧ r ≤ 32767 := by
      simp only [hraw, hbody, hp, List.nil_append] at hresr
      rw [hrs]; exact hresr
    rw [hbits] at hs ⊢
    rw [show pre ++ (Fr.rawBits q0 ++ (Fr.rawBits q1 ++ (Fr.rawBits q2 ++ rs.flatMap (riceBits f.exp)))) ++ post =
      pre ++ Fr.rawBits q0 ++ (Fr.rawBits q1 ++ (Fr.rawBits q2 ++ rs.flatMap (riceBits f.exp)) ++ post) by simp [List.append_assoc]] at hs
    obtain ⟨s1, e1, hs1⟩ := readRaw_ok (by omega) hs
    rw [e1, bind_ok]
    rw [show pre ++ Fr.rawBits q0 ++ (Fr.rawBits q1 ++ (Fr.rawBits q2 ++ rs.flatMap (riceBits f.exp)) ++ post) =
      (pre ++ Fr.rawBits q0) ++ Fr.rawBits q1 ++ (Fr.rawBits q2 ++ rs.flatMap (riceBits f.exp) ++ post) by simp [List.append_assoc]] at hs1
    obtain ⟨s2, e2, hs2⟩ := readRaw_ok (by omega) hs1
    dsimp only
    rw [e2, bind_ok]
    rw [show pre ++ Fr.rawBits q0 ++ Fr.rawBits q1 ++ (Fr.rawBits q2 ++ rs.flatMap (riceBits f.exp) ++ post) =
      (pre ++ Fr.rawBits q0 ++ Fr.rawBits q1) ++ Fr.rawBits q2 ++ (rs.flatMap (riceBits f.exp) ++ post) by simp [List.append_assoc]] at hs2
    obtain ⟨s3, e3, hs3⟩ := readRaw_ok (by omega) hs2
    dsimp only
    rw [e3, bind_ok]
    dsimp only
    have hh := ((hD.hist.push q0).push q1).push q2
    simp only [List.nil_append, List.cons_append] at hh
    rw [hh.prev (k := 3) (by omega) (by omega) (by simp), hh.prev (k := 2) (by omega) (by omega) (by simp),
      hh.prev (k := 1) (by omega) (by omega) (by simp)]
    rw [show pre ++ Fr.rawBits q0 ++ Fr.rawBits q1 ++ Fr.rawBits q2 ++ (rs.flatMap (riceBits f.exp) ++ post) =
      (pre ++ Fr.rawBits q0 ++ Fr.rawBits q1 ++ Fr.rawBits q2) ++ rs.flatMap (riceBits f.exp) ++ post by simp [List.append_assoc]] at hs3
    rw [← hrl]
    obtain ⟨s4, h4, e4, hs4, hh4⟩ := decodeSamples_ok (b := b) hk rs hrr (fc.buffered ++ [normalizeSample q0, normalizeSample q1, normalizeSample q2]) hs3 hh (by simp)
    rw [show (f.hdr p).exponent = f.exp from rfl]
    have e4' : FrameCodec.decodeSamples b f.exp rs.length s3 (((fc.history.push q0).push q1).push q2)
      (fc.buffered ++ [normalizeSample ([q0, q1, q2].getD ([q0, q1, q2].length - 3) 0), normalizeSample ([q0, q1, q2].getD ([q0, q1, q2].length - 2) 0), normalizeSample ([q0, q1, q2].getD ([q0, q1, q2].length - 1) 0)]) = _ := e4
    rw [e4', bind_ok]
    refine ⟨_, _, _, _, rfl, ⟨?_, hh4, ?_⟩, ?_, rfl, hl'⟩
    · simp
    · simp [hD.buf, out_of_range hr0, out_of_range hr1, out_of_range hr2]
    · simpa [List.append_assoc] using hs4
  · have hDne : D ≠ [] := by
      intro h; rw [h] at hlen; exact hp (by simpa using hlen.symm)
    have hraw : f.raw = [] := by simp [Fr.raw, hp]
    have hbody : f.body = f.codes := by simp [Fr.body, hp]
    have hbits : f.bits = (residuals f.pre f.codes).flatMap (riceBits f.exp) := by
      simp [Fr.bits, hraw, hbody]
    simp only [hraw, hbody, List.append_nil, List.nil_append] at *
    rw [hbits] at hs ⊢
    obtain ⟨s4, h4, e4, hs4, hh4⟩ := decodeSamples_ok (b := b) hk _ hresr fc.buffered hs hD.hist (by omega)
    simp only [if_neg hDne]
    rw [length_residuals] at e4
    rw [show (f.hdr p).exponent = f.exp from rfl, hsize, e4, bind_ok]
    refine ⟨_, _, _, _, rfl, ⟨?_, hh4, ?_⟩, hs4, rfl, hl'⟩
    · rw [if_neg (by simp [hDne])]
    · simp [hD.buf]

/-- a frame appends to what the channel decodes to -/
theorem Fr.WF.decoded {f : Fr} (hf : f.WF) :
    Spec.decoded f.pre ++ f.raw ++ rebuild (Spec.decoded f.pre ++ f.raw) (residuals (f.pre ++ f.raw) f.body) = Spec.decoded (f.pre ++ f.codes) := by
  by_cases hp : f.pre = []
  · simp [Fr.raw, Fr.body, hp]
    rfl
  · simp only [Fr.raw, Fr.body, hp, if_false, List.append_nil]
    rw [decoded_append _ (hf.later hp)]

end Adhoc
