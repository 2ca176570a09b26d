import Verif.Model.Tools
import Verif.Props.Noise
import Verif.Proofs.Table

/-! # C85 (nodes from maps), C86 (noise histogram), C87 (mean squared error), C88 (Gaussian filter) -/

namespace Adhoc
open Spec F32

/-! ## C85 -/

/-- **C85**: a node is read from a map exactly when the map has the two fields, each once and with a value of its type, in either order, and nothing
else; children beyond the second are ignored and missing ones are NULL. -/
theorem C85_map {α V : Type} (decData : V → Option (Option α)) (decChildren : V → Option (List Nat)) (entries : List (String × V)) (n : Node α) :
    Node.visitMap decData decChildren entries = .ok n ↔
      ∃ v w c, decData v = some n.data ∧ decChildren w = some c ∧ (entries = [("data", v), ("children", w)] ∨ entries = [("children", w), ("data", v)]) ∧
        [n.left, n.right] = (c ++ [NULL, NULL]).take 2 := by
  have kids : ∀ (c : List Nat) (l r : Nat), [l, r] = (c ++ [NULL, NULL]).take 2 ↔ l = c.getD 0 NULL ∧ r = c.getD 1 NULL := by
    intro c l r
    rcases c with _ | ⟨a, _ | ⟨b, c⟩⟩ <;> simp
  have full : ∀ (es : List (String × V)) (d : Option α) (c : List Nat) (x : Option (Option α) × Option (List Nat)),
      Node.visitEntries decData decChildren es (some d) (some c) = .ok x → es = [] ∧ x = (some d, some c) := by
    intro es d c x h
    rcases es with _ | ⟨⟨k, v⟩, es⟩
    · cases h; exact ⟨rfl, rfl⟩
    · rw [Node.visitEntries] at h
      split at h
      · cases h
      · split at h <;> cases h
  have half1 : ∀ (es : List (String × V)) (d d' : Option α) (c : List Nat),
      Node.visitEntries decData decChildren es (some d) none = .ok (some d', some c) → d' = d ∧ ∃ w, decChildren w = some c ∧ es = [("children", w)] := by
    intro es d d' c h
    rcases es with _ | ⟨⟨k, v⟩, es⟩
    · cases h
    · rw [Node.visitEntries] at h
      split at h
      · cases h
      · split at h
        · rename_i hk
          rw [if_neg (by simp)] at h
          split at h
          · cases h
          · rename_i c' hc
            obtain ⟨rfl, hx⟩ := full _ _ _ _ h
            simp only [Prod.mk.injEq, Option.some.injEq] at hx
            obtain ⟨rfl, rfl⟩ := hx
            exact ⟨rfl, v, hc, by rw [hk]⟩
        · cases h
  have half2 : ∀ (es : List (String × V)) (d : Option α) (c c' : List Nat),
      Node.visitEntries decData decChildren es none (some c) = .ok (some d, some c') → c' = c ∧ ∃ v, decData v = some d ∧ es = [("data", v)] := by
    intro es d c c' h
    rcases es with _ | ⟨⟨k, v⟩, es⟩
    · cases h
    · rw [Node.visitEntries] at h
      split at h
      · rename_i hk
        rw [if_neg (by simp)] at h
        split at h
        · cases h
        · rename_i d' hd
          obtain ⟨rfl, hx⟩ := full _ _ _ _ h
          simp only [Prod.mk.injEq, Option.some.injEq] at hx
          obtain ⟨rfl, rfl⟩ := hx
          exact ⟨rfl, v, hd, by rw [hk]⟩
      · split at h <;> cases h
  have all : ∀ (d : Option α) (c : List Nat), Node.visitEntries decData decChildren entries none none = .ok (some d, some c) →
      ∃ v w, decData v = some d ∧ decChildren w = some c ∧ (entries = [("data", v), ("children", w)] ∨ entries = [("children", w), ("data", v)]) := by
    intro d c h
    rcases entries with _ | ⟨⟨k, v⟩, es⟩
    · cases h
    · rw [Node.visitEntries] at h
      split at h
      · rename_i hk
        rw [if_neg (by simp)] at h
        split at h
        · cases h
        · rename_i d' hd
          obtain ⟨rfl, w, hw, rfl⟩ := half1 _ _ _ _ h
          exact ⟨v, w, hd, hw, .inl (by rw [hk])⟩
      · split at h
        · rename_i hk
          rw [if_neg (by simp)] at h
          split at h
          · cases h
          · rename_i c' hc
            obtain ⟨rfl, w, hw, rfl⟩ := half2 _ _ _ _ h
            exact ⟨w, v, hw, hc, .inr (by rw [hk])⟩
        · cases h
  constructor
  · intro h
    unfold Node.visitMap at h
    rcases e : Node.visitEntries decData decChildren entries none none with p | ⟨_ | d, _ | c⟩ <;> rw [e] at h <;> try cases h
    obtain ⟨v, w, h1, h2, h3⟩ := all _ _ e
    exact ⟨v, w, c, h1, h2, h3, (kids _ _ _).2 ⟨rfl, rfl⟩⟩
  · rintro ⟨v, w, c, h1, h2, h3, h4⟩
    obtain ⟨h4, h5⟩ := (kids _ _ _).1 h4
    have e : Node.visitEntries decData decChildren entries none none = .ok (some n.data, some c) := by
      rcases h3 with rfl | rfl <;> simp [Node.visitEntries, h1, h2]
      all_goals rfl
    unfold Node.visitMap
    rw [e]
    show Except.ok _ = _
    rw [← h4, ← h5]

/-- both orders, one child, a duplicate, a missing field, an unknown one and a value of the wrong type -/
example :
    let dd : Int ⊕ List Nat → Option (Option Int) := fun v => v.getLeft?.map some
    let dc : Int ⊕ List Nat → Option (List Nat) := fun v => v.getRight?
    (Node.visitMap dd dc [("data", .inl 7), ("children", .inr [1, 2, 3])]).map (fun n => (n.data, n.left, n.right)) = .ok (some 7, 1, 2) ∧
    (Node.visitMap dd dc [("children", .inr [1]), ("data", .inl 7)]).map (fun n => (n.data, n.left, n.right)) = .ok (some 7, 1, NULL) ∧
    (Node.visitMap dd dc [("data", .inl 7), ("data", .inl 8)]).map (fun n => n.left) = .error (.duplicateField "data") ∧
    (Node.visitMap dd dc [("data", .inl 7)]).map (fun n => n.left) = .error (.missingField "children") ∧
    (Node.visitMap dd dc [("data", .inl 7), ("kids", .inr [])]).map (fun n => n.left) = .error (.unknownField "kids") ∧
    (Node.visitMap dd dc [("data", .inr [])]).map (fun n => n.left) = .error .value := by decide

/-! ## C86 -/

theorem delta_is : Is NoiseDistribution.delta (13421773 / 2 ^ 28) := by
  have h := Is.div (is_int (n := 1) (by norm_num)) (is_int (n := 20) (by norm_num)) (by norm_num) rep_one (by norm_num [abs_le])
  rw [show roundQ (((1 : ℤ) : ℚ) / ((20 : ℤ) : ℚ)) = 13421773 / 2 ^ 28 by decide +kernel] at h
  exact h

theorem part_near {v : F32} {q : ℚ} (h : Is v q) (h1 : -1 ≤ q) (h2 : q ≤ 1) {j : Nat} (hj : j < 20)
    (h3 : (j : ℚ) / 10 - 1 + 1 / 2 ^ 20 ≤ q) (h4 : q + 1 / 2 ^ 20 < ((j : ℚ) + 1) / 10 - 1) : NoiseDistribution.place v = j := by
  have rep2 : Rep 2 := by simpa using rep_int (n := 2) (by norm_num)
  have rep20 : Rep 20 := by simpa using rep_int (n := 20) (by norm_num)
  have ia := Is.add h (is_int (n := 1) (by norm_num)) rep2 (by push_cast; rw [abs_le]; constructor <;> linarith)
  have a0 : 0 ≤ roundQ (q + (1 : ℤ)) := le_roundQ (by simpa using grid_int (n := 0) (by norm_num)) (by push_cast; linarith)
  have a2 : roundQ (q + (1 : ℤ)) ≤ 2 := roundQ_le rep2.grid (by push_cast; linarith)
  have ea := roundQ_err (q + (1 : ℤ))
  push_cast at ia a0 a2 ea
  rw [abs_of_nonneg (show 0 ≤ q + 1 by linarith)] at ea
  generalize roundQ (q + 1) = a at ia a0 a2 ea
  have ih : Is (ofRat (1 / 2)) (1 / 2) := ⟨(grid_half (n := 1) (e := -1) (by norm_num) (by norm_num) (by norm_num)).rep (by norm_num [abs_lt]), ofRat_rep _⟩
  have im := Is.mul ia ih rep_one (by rw [abs_le]; constructor <;> linarith)
  have m0 : 0 ≤ roundQ (a * (1 / 2)) := le_roundQ (by simpa using grid_int (n := 0) (by norm_num)) (by linarith)
  have m1 : roundQ (a * (1 / 2)) ≤ 1 := roundQ_le rep_one.grid (by linarith)
  have em := roundQ_err (a * (1 / 2))
  rw [abs_of_nonneg (show 0 ≤ a * (1 / 2) by linarith)] at em
  generalize roundQ (a * (1 / 2)) = m at im m0 m1 em
  have hd : ∀ m : ℚ, m / (13421773 / 2 ^ 28) = m * (268435456 / 13421773) := by intro m; ring
  have it := Is.div im delta_is (by norm_num) rep20 (by rw [hd, abs_le]; constructor <;> linarith)
  have et := roundQ_err (m / (13421773 / 2 ^ 28))
  rw [hd, abs_of_nonneg (show 0 ≤ m * (268435456 / 13421773) by linarith)] at et
  rw [hd] at it
  generalize roundQ (m * (268435456 / 13421773)) = t at it et
  have near : |t - 10 * (q + 1)| ≤ 10 / 2 ^ 20 := by
    rw [abs_le] at ea em et ⊢
    constructor <;> norm_num at ea em et ⊢ <;> linarith [ea.1, ea.2, em.1, em.2, et.1, et.2]
  rw [abs_le] at near
  have tj : (j : ℚ) ≤ t := by linarith [near.1]
  have tj1 : t < (j : ℚ) + 1 := by linarith [near.2]
  have fl : ⌊t⌋ = (j : ℤ) := by
    rw [Int.floor_eq_iff]
    exact ⟨by exact_mod_cast tj, by exact_mod_cast tj1⟩
  have hjabs : |(j : ℤ)| ≤ 2 ^ 24 := by rw [abs_of_nonneg (by omega)]; omega
  unfold NoiseDistribution.place
  have key : ∀ x : F32, Is x t → ((Signal.floor x).toIntSat 0 (2 ^ 64 - 1)).toNat = j := by
    rintro x ⟨hr, rfl⟩
    have : Signal.floor (fin t hr) = fin ((j : ℤ) : ℚ) (rep_int hjabs) := by
      show ofRat ((t.floor : ℤ) : ℚ) = _
      rw [show t.floor = (j : ℤ) from fl]
      exact ofInt_fin hjabs
    rw [this]
    show (max 0 (min (2 ^ 64 - 1) (truncQ ((j : ℤ) : ℚ)))).toNat = j
    rw [truncQ_int]
    have : (2 : ℤ) ^ 64 = 18446744073709551616 := by norm_num
    omega
  exact key _ it

theorem sum_set_succ : ∀ (l : List Nat) (i : Nat) (h : i < l.length), (l.set i (l[i] + 1)).sum = l.sum + 1
  | a :: l, 0, _ => by simp; omega
  | a :: l, i + 1, h => by
    have := sum_set_succ l i (by simpa using h)
    simp only [List.set_cons_succ, List.sum_cons, List.getElem_cons_succ]
    omega

/-- the frequencies after `done`, when `rest` follows -/
theorem frequencies_fold (b : Build) : ∀ (rest : List F32) (done : List F32) (freq : List Nat), (done ++ rest).length < 2 ^ 64 → freq.length = 20 →
    (∀ k < 20, freq[k]? = some (done.countP fun v => min (NoiseDistribution.place v) 19 = k)) → freq.sum = done.length →
    ∃ freq', rest.foldlM (fun freq v => do
        let i := min (NoiseDistribution.place v) 19
        let f ← idx freq i
        let f ← chkU b 64 ((f : Int) + 1)
        setIdx freq i f) freq = .ok freq' ∧ freq'.length = 20 ∧ freq'.sum = (done ++ rest).length ∧
      ∀ k < 20, freq'[k]? = some ((done ++ rest).countP fun v => min (NoiseDistribution.place v) 19 = k)
  | [], done, freq, _, hf, hc, hs => ⟨freq, rfl, hf, by simpa using hs, by simpa using hc⟩
  | v :: rest, done, freq, hl, hf, hc, hs => by
    obtain ⟨i, hi⟩ : ∃ i, i = min (NoiseDistribution.place v) 19 := ⟨_, rfl⟩
    have hi20 : i < freq.length := by omega
    have hv := hc i (by omega)
    rw [List.getElem?_eq_getElem hi20, Option.some.injEq] at hv
    have hle : done.countP (fun v => min (NoiseDistribution.place v) 19 = i) ≤ done.length := List.countP_le_length
    simp only [List.length_append, List.length_cons] at hl
    have hstep : (do
        let f ← idx freq i
        let f ← chkU b 64 ((f : Int) + 1)
        setIdx freq i f) = .ok (freq.set i (freq[i] + 1)) := by
      rw [idx_of_lt hi20, bind_ok, show ((freq[i] : Nat) : Int) + 1 = ((freq[i] + 1 : Nat) : Int) by push_cast; rfl, chkU_nat (by omega), bind_ok,
        setIdx_of_lt hi20]
    obtain ⟨freq', e, h1, h2, h3⟩ := frequencies_fold b rest (done ++ [v]) (freq.set i (freq[i] + 1)) (by simpa using hl) (by simpa using hf) (by
      intro k hk
      rw [List.countP_append, List.countP_singleton]
      by_cases hki : k = i
      · subst hki
        rw [List.getElem?_set_self hi20, hv, if_pos (by rw [hi]; simp)]
      · rw [List.getElem?_set_ne (fun h => hki h.symm), hc k hk, if_neg (by rw [← hi]; simpa using fun h => hki h.symm), Nat.add_zero]) (by
      rw [sum_set_succ _ _ hi20, hs, List.length_append]; rfl)
    refine ⟨freq', ?_, h1, by simpa using h2, by simpa using h3⟩
    rw [List.foldlM_cons]
    dsimp only
    rw [← hi, hstep, bind_ok]
    exact e

theorem sum_floor (N : Nat) (hN : 0 < N) : ∀ fs : List Nat, (fs.map fun f => f * 300 / N).sum * N ≤ fs.sum * 300 ∧
    fs.sum * 300 ≤ (fs.map fun f => f * 300 / N).sum * N + fs.length * (N - 1)
  | [] => by simp
  | f :: fs => by
    have ih := sum_floor N hN fs
    have h1 := Nat.div_add_mod (f * 300) N
    have h2 := Nat.mod_lt (f * 300) hN
    simp only [List.map_cons, List.sum_cons, List.length_cons, Nat.add_mul, Nat.one_mul]
    rw [Nat.mul_comm (f * 300 / N) N]
    omega

theorem mapM_each {α β : Type} (f : α → R β) (g : α → β) : ∀ (l : List α), (∀ a ∈ l, f a = .ok (g a)) → l.mapM f = .ok (l.map g)
  | [], _ => rfl
  | a :: l, h => by
    rw [List.mapM_cons, h a (by simp), bind_ok, mapM_each f g l (fun a ha => h a (by simp [ha])), bind_ok]
    rfl

/-- **C86**: the histogram. There is a part for every value, also for NaN and infinities, and a value of [-1, 1] that is at least 2^-20 away from the
bounds of the tenth it is in has that part. Each value is counted once, in its part; a line has 300 stars per value in its part, divided by the
number of values and rounded down, which makes 281 to 300 stars in all. Without values, the division by zero panics. -/
theorem C86_histogram : ∃ part : F32 → Nat, (∀ v, part v < 20) ∧
    (∀ v q, Is v q → -1 ≤ q → q ≤ 1 → ∀ j : Nat, j < 20 → (j : ℚ) / 10 - 1 + 1 / 2 ^ 20 ≤ q → q + 1 / 2 ^ 20 < ((j : ℚ) + 1) / 10 - 1 → part v = j) ∧
    ∀ (b : Build) (values : List F32), values.length * 300 < 2 ^ 64 →
      (values = [] → NoiseDistribution.stars b values = .error .divZero) ∧
      (values ≠ [] → ∃ lines, NoiseDistribution.stars b values = .ok lines ∧
        lines = (List.range 20).map (fun k => values.countP (fun v => part v = k) * 300 / values.length) ∧ 281 ≤ lines.sum ∧ lines.sum ≤ 300) := by
  refine ⟨fun v => min (NoiseDistribution.place v) 19, fun v => by dsimp only; omega, ?_, ?_⟩
  · intro v q hv h1 h2 j hj h3 h4
    dsimp only
    rw [part_near hv h1 h2 hj h3 h4]
    omega
  · intro b values hl
    obtain ⟨fs, e, h1, h2, h3⟩ := frequencies_fold b values [] (List.replicate 20 0) (by rw [List.nil_append]; omega) rfl (by
      intro k hk
      rw [List.getElem?_replicate, if_pos hk]; rfl) rfl
    rw [List.nil_append] at h2 h3
    have e : NoiseDistribution.frequencies b values = .ok fs := e
    unfold NoiseDistribution.stars
    rw [e, bind_ok]
    have hfs : fs = (List.range 20).map fun k => values.countP (fun v => min (NoiseDistribution.place v) 19 = k) := by
      apply List.ext_getElem?
      intro k
      by_cases hk : k < 20
      · rw [h3 k hk, List.getElem?_map, List.getElem?_range hk]; rfl
      · rw [List.getElem?_eq_none (by omega), List.getElem?_eq_none (by simp; omega)]
    constructor
    · rintro rfl
      have : (List.range 20) = 0 :: (List.range 20).tail := rfl
      rw [this, List.mapM_cons, idx_of_lt (by omega), bind_ok]
      have h0 : fs[0]'(by omega) = 0 := by
        have := h3 0 (by omega)
        rw [List.getElem?_eq_getElem (by omega)] at this
        simpa using this
      rw [h0]
      rfl
    · intro hne
      have hN : 0 < values.length := List.length_pos_of_ne_nil hne
      have hm : (List.range 20).mapM (fun k => do
          let f ← idx fs k
          let p ← chkU b 64 ((f : Int) * 300)
          if values.length = 0 then .error .divZero else pure (p / values.length)) =
          .ok ((List.range 20).map fun k => values.countP (fun v => min (NoiseDistribution.place v) 19 = k) * 300 / values.length) := by
        refine mapM_each _ _ _ fun k hk => ?_
        have hk := List.mem_range.1 hk
        have hc : values.countP (fun v => min (NoiseDistribution.place v) 19 = k) ≤ values.length := List.countP_le_length
        rw [idx_eq_ok.2 (h3 k hk), bind_ok]
        generalize values.countP (fun v => min (NoiseDistribution.place v) 19 = k) = c at hc ⊢
        have hc' : c * 300 < 2 ^ 64 := lt_of_le_of_lt (Nat.mul_le_mul_right _ hc) hl
        rw [show ((c : Nat) : Int) * 300 = ((c * 300 : Nat) : Int) from (Int.natCast_mul c 300).symm, chkU_nat hc', bind_ok, if_neg (by omega)]
        rfl
      refine ⟨_, hm, rfl, ?_⟩
      have hsum := sum_floor values.length hN fs
      rw [h1, h2] at hsum
      have hmap : (List.range 20).map (fun k => values.countP (fun v => min (NoiseDistribution.place v) 19 = k) * 300 / values.length) =
          fs.map fun f => f * 300 / values.length := by
        have := congrArg (List.map fun f => f * 300 / values.length) hfs
        rw [List.map_map] at this
        exact this.symm
      rw [hmap]
      generalize (fs.map fun f => f * 300 / values.length).sum = S at hsum ⊢
      generalize values.length = N at hsum hN ⊢
      obtain ⟨h1, h2⟩ := hsum
      constructor
      · by_contra h
        have : S * N ≤ 280 * N := Nat.mul_le_mul_right _ (by omega)
        omega
      · by_contra h
        have : 301 * N ≤ S * N := Nat.mul_le_mul_right _ (by omega)
        omega

/-- three values, NaN and infinity -/
example : (NoiseDistribution.stars .debug [ofRat (-19 / 20), ofRat (1 / 20), ofInt 1, .nan, .inf false]).map (fun l => (l.getD 0 0, l.getD 10 0, l.getD 19 0)) =
    .ok (120, 60, 120) := by decide +kernel

/-! ## C87 -/

theorem neg_ofRat (q : ℚ) : neg (ofRat q) = ofRat (-q) := by
  by_cases h : |roundQ q| < 2 ^ 128
  · rw [ofRat_fin h, ofRat_fin (q := -q) (by rwa [roundQ_neg, abs_neg]), fin_neg]
    exact fin_ext _ _ (roundQ_neg q).symm
  · have hq : q ≠ 0 := by rintro rfl; apply h; rw [roundQ_zero, abs_zero]; norm_num
    have e1 : ofRat q = inf (decide (q < 0)) := dif_neg h
    have e2 : ofRat (-q) = inf (decide (-q < 0)) := dif_neg (by rwa [roundQ_neg, abs_neg])
    rw [e1, e2]
    show inf (!decide (q < 0)) = _
    rcases lt_or_gt_of_ne hq with h | h
    · rw [decide_eq_true h, decide_eq_false (by linarith : ¬ -q < 0)]; rfl
    · rw [decide_eq_false (by linarith : ¬ q < 0), decide_eq_true (by linarith : -q < 0)]; rfl

theorem neg_div' (x y : F32) : neg x / y = neg (x / y) := by
  rcases x with _ | s | ⟨a, ha⟩ <;> rcases y with _ | t | ⟨b, hb⟩ <;> try rfl
  · show inf ((!s) != decide (b < 0)) = inf (!(s != decide (b < 0)))
    cases s <;> cases decide (b < 0) <;> rfl
  · rw [fin_neg]; rfl
  · rw [fin_neg]
    show ofRat 0 = neg (ofRat 0)
    rw [neg_ofRat, neg_zero]
  · rw [fin_neg]
    by_cases h : b = 0
    · subst h
      by_cases ha0 : a = 0
      · subst ha0
        simp [div_def, div, neg]
      · show (if (0 : ℚ) = 0 then (if -a = 0 then nan else inf (decide (-a < 0))) else ofRat (-a / 0)) = neg (if (0 : ℚ) = 0 then (if a = 0 then nan else inf (decide (a < 0))) else ofRat (a / 0))
        rw [if_pos rfl, if_pos rfl, if_neg ha0, if_neg (by simpa using ha0)]
        show _ = inf (!decide (a < 0))
        rcases lt_or_gt_of_ne ha0 with h | h
        · rw [decide_eq_true h, decide_eq_false (by linarith : ¬ -a < 0)]; rfl
        · rw [decide_eq_false (by linarith : ¬ a < 0), decide_eq_true (by linarith : -a < 0)]; rfl
    · rw [fin_div _ _ h, fin_div _ _ h, neg_ofRat, neg_div]

theorem sub_swap (x y : F32) : neg (x - y) = y - x := by
  rcases x with _ | s | ⟨a, ha⟩ <;> rcases y with _ | t | ⟨b, hb⟩ <;> try rfl
  · cases s <;> cases t <;> rfl
  · rw [sub_def, sub_def, fin_neg]
    rfl
  · rw [sub_def, sub_def, fin_neg]
    cases t <;> rfl
  · rw [fin_sub, fin_sub, neg_ofRat, neg_sub]

/-- C87 is false: the error of an empty signal is not 0 but NaN. -/
theorem C87_false (sq : F32 → F32) : computeMse sq [] [] = .nan := by
  show ofInt 0 / ofInt 0 = nan
  decide +kernel

theorem mse_fold {sq : F32 → F32} (h0 : sq (ofInt 0) = ofInt 0) : ∀ a : List F32, (∀ x ∈ a, ∃ q, Is x q) →
    (a.zip a).foldl (fun acc p => acc + sq (p.1 - p.2)) (ofInt 0) = ofInt 0
  | [], _ => rfl
  | x :: a, h => by
    obtain ⟨q, hq, rfl⟩ := h x (by simp)
    rw [List.zip_cons_cons, List.foldl_cons]
    dsimp only
    rw [fin_sub, sub_self, show ofRat 0 = ofInt 0 from congrArg ofRat Int.cast_zero.symm, h0, add_zero']
    exact mse_fold h0 a fun y hy => h y (by simp [hy])

/-- C87, what holds, for any squaring function that is 0 at 0 and even: the error of a signal of numbers that is not empty against itself is 0, the
order of the signals does not matter, and nor do samples for which the other signal has none. -/
theorem C87_mse_partial (sq : F32 → F32) (h0 : sq (ofInt 0) = ofInt 0) (heven : ∀ x, sq (neg x) = sq x) :
    (∀ a : List F32, a ≠ [] → a.length < 2 ^ 64 → (∀ x ∈ a, ∃ q, Is x q) → computeMse sq a a = ofInt 0) ∧
    (∀ a b : List F32, computeMse sq a b = computeMse sq b a) ∧
    (∀ a b c : List F32, a.length = b.length → computeMse sq (a ++ c) b = computeMse sq a b) := by
  refine ⟨fun a ha hl hf => ?_, fun a b => ?_, fun a b c h => ?_⟩
  · unfold computeMse
    rw [mse_fold h0 a hf, Nat.min_self]
    have hpos : 0 < a.length := List.length_pos_of_ne_nil ha
    have h1 : (1 : ℚ) ≤ (((a.length : Nat) : ℤ) : ℚ) := by exact_mod_cast hpos
    have h2 : (((a.length : Nat) : ℤ) : ℚ) ≤ 2 ^ 64 := by exact_mod_cast hl.le
    have i := is_ofRat (q := (((a.length : Nat) : ℤ) : ℚ)) (B := 2 ^ 64)
      ((grid_half (n := 1) (e := 64) (by norm_num) (by norm_num) (by norm_num)).rep (by norm_num [abs_lt])) (by rw [abs_of_nonneg (by linarith)]; exact h2)
    have hr : 1 ≤ roundQ (((a.length : Nat) : ℤ) : ℚ) := le_roundQ rep_one.grid h1
    have z := is_int (n := 0) (by norm_num)
    have d := Is.div z i (by linarith) rep_one (by simp)
    push_cast at d
    rw [zero_div, roundQ_zero] at d
    exact d.eq (by simpa using z)
  · unfold computeMse
    rw [Nat.min_comm]
    congr 1
    generalize ofInt 0 = acc
    induction a generalizing b acc with
    | nil => simp
    | cons x a ih =>
      rcases b with _ | ⟨y, b⟩
      · rfl
      · rw [List.zip_cons_cons, List.zip_cons_cons, List.foldl_cons, List.foldl_cons]
        dsimp only
        rw [← sub_swap y x, heven]
        exact ih _ _
  · unfold computeMse
    rw [List.length_append, h, Nat.min_eq_right (by omega), Nat.min_self]
    congr 2
    rw [← List.append_nil b, List.zip_append h, List.append_nil]
    simp

/-- the hypotheses hold for the exact square; two samples that differ by 1/2 -/
example : computeMse (fun x => x * x) [ofInt 1, ofInt 1] [ofRat (1 / 2), ofInt 1] = ofRat (1 / 8) ∧ ofInt 0 * ofInt 0 = ofInt 0 := by decide +kernel

/-! ## C88 -/

/-- C88 is false: a filter with one coefficient is NaN, whatever the functions of the platform are as long as they keep NaN; and the places of the
four coefficients of a filter are not mirror images. -/
theorem C88_false : (∀ (root : F32) (sq exp : F32 → F32), sq .nan = .nan → exp .nan = .nan → ∀ sigma r, Gaussian.filter root sq exp 1 sigma r = [.nan]) ∧
    Gaussian.place 4 (ofInt 1) 1 ≠ neg (Gaussian.place 4 (ofInt 1) 2) := by
  have nan_mul : ∀ x : F32, .nan * x = F32.nan := fun x => by cases x <;> rfl
  have mul_nan : ∀ x : F32, x * .nan = F32.nan := fun x => by cases x <;> rfl
  have nan_div : ∀ x : F32, .nan / x = F32.nan := fun x => by cases x <;> rfl
  have nan_sub : ∀ x : F32, .nan - x = F32.nan := fun x => by cases x <;> rfl
  constructor
  · intro root sq exp h1 h2 sigma r
    unfold Gaussian.filter Gaussian.place
    have z : ofInt ((0 : Nat) : ℤ) / ofInt ((1 : Nat) - 1 : ℤ) = .nan := by decide +kernel
    simp only [List.range_one, List.map_cons, List.map_nil]
    rw [z, nan_mul, nan_mul, nan_sub, nan_div, h1, mul_nan, h2, mul_nan]
  · decide +kernel

/-- C88, what holds: there are as many coefficients as asked for, the first is taken at -r and the last at r, so that they are the same for every
even squaring function. -/
theorem C88_ends_partial (root : F32) (sq exp : F32 → F32) (heven : ∀ x, sq (neg x) = sq x) (n : Nat) (h2 : 2 ≤ n) (hn : n ≤ 2 ^ 24) (sigma r : F32) {q : ℚ}
    (hr : Is r q) (hq : |q| < 2 ^ 127) :
    (Gaussian.filter root sq exp n sigma r).length = n ∧ Gaussian.place n r 0 = neg r ∧ Gaussian.place n r (n - 1) = r ∧
      (Gaussian.filter root sq exp n sigma r)[0]? = (Gaussian.filter root sq exp n sigma r)[n - 1]? := by
  have hn1 : |((n : ℤ) - 1)| ≤ 2 ^ 24 := by rw [abs_of_nonneg (by omega)]; omega
  have hpos : (0 : ℚ) < (((n : ℤ) - 1 : ℤ) : ℚ) := by exact_mod_cast (by omega : (0 : ℤ) < (n : ℤ) - 1)
  have two := is_int (n := 2) (by norm_num)
  have rep2 : Rep 2 := by simpa using rep_int (n := 2) (by norm_num)
  have p0 : Gaussian.place n r 0 = neg r := by
    unfold Gaussian.place
    have d := Is.div (is_int (n := ((0 : Nat) : ℤ)) (by norm_num)) (is_int hn1) (ne_of_gt hpos) rep_one (by simp)
    simp only [Nat.cast_zero, Int.cast_zero, zero_div, roundQ_zero] at d
    have m := Is.mul d two rep2 (by simp)
    rw [zero_mul, roundQ_zero] at m
    have m2 := Is.mul m hr rep2 (by simp)
    rw [zero_mul, roundQ_zero] at m2
    obtain ⟨h0, e0⟩ := m2
    obtain ⟨hq', rfl⟩ := hr
    show _ - _ = _
    rw [show ofInt ((0 : Nat) : ℤ) = ofInt 0 from rfl] at *
    rw [show (ofInt 0 / ofInt ((n : ℤ) - 1)) * ofInt 2 * fin q hq' = fin 0 h0 from e0, fin_sub, zero_sub]
    rfl
  have p1 : Gaussian.place n r (n - 1) = r := by
    unfold Gaussian.place
    rw [show ((n - 1 : Nat) : ℤ) = (n : ℤ) - 1 by omega]
    have d := Is.div (is_int hn1) (is_int hn1) (ne_of_gt hpos) rep_one (by rw [div_self (ne_of_gt hpos)]; simp)
    rw [div_self (ne_of_gt hpos), roundQ_grid rep_one.grid] at d
    have m := Is.mul d two rep2 (by norm_num)
    push_cast at m
    rw [one_mul, roundQ_grid rep2.grid] at m
    obtain ⟨hq', hq''⟩ := hr
    have g2 : Rep (2 * q) := by
      obtain ⟨a, e, h1, h2, h3⟩ := hq'.grid
      refine Grid.rep ⟨a, e + 1, h1, by omega, ?_⟩ ?_
      · rw [h3, zpow_add₀ (by norm_num)]; ring
      · rw [abs_mul]; norm_num; norm_num at hq; linarith
    obtain ⟨h3, e3⟩ := m
    rw [e3, hq'', fin_mul, ofRat_rep g2, fin_sub, show 2 * q - q = q by ring, ofRat_rep hq']
  refine ⟨by simp [Gaussian.filter], p0, p1, ?_⟩
  unfold Gaussian.filter
  dsimp only
  rw [List.getElem?_map, List.getElem?_map, List.getElem?_range (by omega), List.getElem?_range (by omega)]
  simp only [Option.map_some]
  rw [p0, p1, neg_div', heven]

/-- five coefficients at -1, -1/2, 0, 1/2, 1 -/
example : (List.range 5).map (Gaussian.place 5 (ofInt 1)) = [ofInt (-1), ofRat (-1 / 2), ofInt 0, ofRat (1 / 2), ofInt 1] := by decide +kernel

end Adhoc
