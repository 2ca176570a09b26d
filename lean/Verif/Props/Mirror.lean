import Verif.Props.Tools
import Verif.Props.Apart
import Verif.Props.Generations

/-!
# C96: inverting a signal

Rounding to nearest even, truncation towards zero and the predictor treat both signs alike. The limits of a difference do not, by one, but
no Rice parameter tells the two limits apart.
-/

namespace Adhoc
open Spec F32

/-! ## floats -/

theorem neg_add_f (x y : F32) : neg (x + y) = neg x + neg y := by
  rcases x with _ | s | ⟨a, ha⟩ <;> rcases y with _ | t | ⟨b, hb⟩ <;> try rfl
  · cases s <;> cases t <;> rfl
  · rw [fin_neg]; rfl
  · rw [fin_neg]; rfl
  · rw [fin_neg]; rfl
  · rw [fin_add, fin_neg, fin_neg, fin_add, neg_ofRat, neg_add]

theorem neg_mul_f (x y : F32) : neg x * y = neg (x * y) := by
  rcases x with _ | s | ⟨a, ha⟩ <;> rcases y with _ | t | ⟨b, hb⟩ <;> try rfl
  · cases s <;> cases t <;> rfl
  · show (if b = 0 then nan else inf ((!s) != decide (b < 0))) = neg (if b = 0 then nan else inf (s != decide (b < 0)))
    split
    · rfl
    · cases s <;> cases decide (b < 0) <;> rfl
  · rw [fin_neg]; rfl
  · rw [fin_neg]
    show (if -a = 0 then nan else inf (t != decide (-a < 0))) = neg (if a = 0 then nan else inf (t != decide (a < 0)))
    by_cases h : a = 0
    · rw [if_pos h, if_pos (by rw [h, neg_zero])]; rfl
    · rw [if_neg h, if_neg (by simpa using h)]
      rcases lt_or_gt_of_ne h with h | h
      · rw [decide_eq_true h, decide_eq_false (by linarith : ¬ -a < 0)]; cases t <;> rfl
      · rw [decide_eq_false (by linarith : ¬ a < 0), decide_eq_true (by linarith : -a < 0)]; cases t <;> rfl
  · rw [fin_neg, fin_mul, fin_mul, neg_ofRat, neg_mul]

theorem mul_comm_f (x y : F32) : x * y = y * x := by
  rcases x with _ | s | ⟨a, ha⟩ <;> rcases y with _ | t | ⟨b, hb⟩ <;> try rfl
  · cases s <;> cases t <;> rfl
  · rw [fin_mul, fin_mul, mul_comm]

theorem mul_neg_f (x y : F32) : x * neg y = neg (x * y) := by rw [mul_comm_f, neg_mul_f, mul_comm_f]

theorem neg_sub_f (x y : F32) : neg (x - y) = neg x - neg y := by
  rw [sub_def, sub_def]; exact neg_add_f x (neg y)

theorem neg_ofInt (n : ℤ) : ofInt (-n) = neg (ofInt n) := by
  unfold ofInt; rw [neg_ofRat]; push_cast; rfl

theorem neg_neg_f (x : F32) : neg (neg x) = x := by
  rcases x with _ | s | ⟨a, ha⟩
  · rfl
  · cases s <;> rfl
  · rw [fin_neg, fin_neg]; exact fin_ext _ _ (neg_neg a)

theorem lt_neg_f (x y : F32) : lt (neg x) (neg y) = lt y x := by
  rcases x with _ | s | ⟨a, ha⟩ <;> rcases y with _ | t | ⟨b, hb⟩ <;> try rfl
  · cases s <;> cases t <;> rfl
  · rw [fin_neg]; cases s <;> rfl
  · rw [fin_neg]; rfl
  · rw [fin_neg]; cases t <;> rfl
  · rw [fin_neg, fin_neg]
    show decide (-a < -b) = decide (b < a)
    simp

theorem clamp_neg_f (x : F32) : (neg x).clamp (ofInt (-1)) (ofInt 1) = neg (x.clamp (ofInt (-1)) (ofInt 1)) := by
  have h1 : neg (ofInt 1) = ofInt (-1) := (neg_ofInt 1).symm
  have h2 : neg (ofInt (-1)) = ofInt 1 := by rw [← h1, neg_neg_f]
  have hl : lt (neg x) (ofInt (-1)) = lt (ofInt 1) x := by rw [← h1, lt_neg_f]
  have hh : lt (ofInt 1) (neg x) = lt x (ofInt (-1)) := by rw [← h2, lt_neg_f]
  have hc : lt (ofInt 1) (ofInt (-1)) = false := by decide +kernel
  unfold clamp
  dsimp only
  rw [hl]
  cases e1 : lt (ofInt 1) x <;> cases e2 : lt x (ofInt (-1)) <;>
    simp only [hh, e1, e2, hc, if_true, if_false, h1, h2, Bool.false_eq_true]
  exfalso
  obtain ⟨r1, i1⟩ : Is (ofInt 1) 1 := by simpa using is_int (n := 1) (by norm_num)
  obtain ⟨r2, i2⟩ : Is (ofInt (-1)) (-1) := by simpa using is_int (n := -1) (by norm_num)
  rw [i1] at e1
  rw [i2] at e2
  rcases x with _ | s | ⟨a, ha⟩
  · cases e1
  · cases s
    · cases e2
    · cases e1
  · have e1 : 1 < a := of_decide_eq_true e1
    have e2 : a < -1 := of_decide_eq_true e2
    linarith

theorem truncateSample_neg (x : F32) : truncateSample (neg x) = -truncateSample x := by
  have r1 := truncateSample_range x
  have r2 := truncateSample_range (neg x)
  unfold truncateSample at *
  rw [clamp_neg_f, neg_mul_f] at *
  generalize x.clamp (ofInt (-1)) (ofInt 1) * ofInt 32767 = y at *
  rcases y with _ | s | ⟨a, ha⟩
  · rfl
  · cases s
    · exact absurd r2.1 (by decide)
    · exact absurd r1.1 (by decide)
  · rw [fin_neg] at *
    simp only [toIntSat, truncQ_neg] at *
    omega

theorem normalizeSample_neg (i : ℤ) : normalizeSample (-i) = neg (normalizeSample i) := by
  unfold normalizeSample; rw [neg_ofInt, neg_mul_f]

theorem quantise_neg (x : F32) : quantise (neg x) = neg (quantise x) := by
  unfold quantise; rw [truncateSample_neg, normalizeSample_neg]

theorem predict_neg (a b c : ℤ) : predict (-a) (-b) (-c) = -predict a b c := by
  unfold predict FixedParabola.fromSamples FixedParabola.computeCoefs FixedParabola.eval
  dsimp only
  rw [← truncateSample_neg]
  simp only [normalizeSample_neg, ← neg_sub_f, mul_neg_f, neg_mul_f, ← neg_add_f]

/-! ## differences -/

theorem getD_map_neg (P : List Int) (i : Nat) : (P.map (- ·)).getD i 0 = -P.getD i 0 := by
  simp only [List.getD_eq_getElem?_getD, List.getElem?_map]
  cases P[i]? <;> simp

theorem guess_neg (P : List Int) : guess (P.map (- ·)) = -guess P := by
  unfold guess
  rw [List.length_map, getD_map_neg, getD_map_neg, getD_map_neg, predict_neg]

theorem gaps_neg : ∀ (qs P : List Int), gaps (P.map (- ·)) (qs.map (- ·)) = gaps P qs
  | [], P => rfl
  | q :: qs, P => by
    have := gaps_neg qs (P ++ [q])
    rw [List.map_append] at this
    rw [List.map_cons, gaps, gaps, guess_neg, ← this]
    congr 1
    omega

theorem residuals_neg_bits {k : Nat} (hk : 1 ≤ k) : ∀ (qs P : List Int),
    ((residuals (P.map (- ·)) (qs.map (- ·))).flatMap (riceBits k)).length = ((residuals P qs).flatMap (riceBits k)).length
  | [], P => rfl
  | q :: qs, P => by
    have ih := residuals_neg_bits hk qs (P ++ [q])
    rw [List.map_append] at ih
    rw [List.map_cons, residuals, residuals, List.flatMap_cons, List.flatMap_cons, List.length_append, List.length_append,
      show List.map (fun x => -x) P ++ [-q] = List.map (fun x => -x) P ++ List.map (fun x => -x) [q] from rfl, ih, guess_neg, length_riceBits,
      length_riceBits]
    have : (max (-32767) (min 32766 (-q - -guess P))).natAbs / 2 ^ k = (max (-32767) (min 32766 (q - guess P))).natAbs / 2 ^ k := by
      obtain ⟨j, rfl⟩ : ∃ j, k = 1 + j := ⟨k - 1, by omega⟩
      rw [Nat.pow_add, ← Nat.div_div_eq_div_mul, ← Nat.div_div_eq_div_mul]
      congr 1
      omega
    rw [this]

/-! ## frames -/

theorem column_map_neg (n ch : Nat) (pcm : List F32) : column n ch (pcm.map neg) = (column n ch pcm).map neg := by
  unfold column
  rw [List.length_map, List.map_map]
  apply List.map_congr_left
  intro k _
  simp only [Function.comp, List.getD_eq_getElem?_getD, List.getElem?_map]
  cases pcm[k * n + ch]? with
  | some x => rfl
  | none => show ofInt 0 = neg (ofInt 0); rw [← neg_ofInt]; rfl

/-- `g` is `f` with every code inverted -/
structure Inverse (f g : Fr) : Prop where
  pre : g.pre = f.pre.map (- ·)
  codes : g.codes = f.codes.map (- ·)

theorem Inverse.raw {f g : Fr} (h : Inverse f g) : g.raw = f.raw.map (- ·) := by
  unfold Fr.raw
  rw [h.pre, h.codes]
  by_cases e : f.pre = [] <;> simp [e]

theorem Inverse.body {f g : Fr} (h : Inverse f g) : g.body = f.body.map (- ·) := by
  unfold Fr.body
  rw [h.pre, h.codes]
  by_cases e : f.pre = [] <;> simp [e]

theorem Inverse.size {f g : Fr} (h : Inverse f g) (hf : f.WF) (hg : g.WF) : g.exp = f.exp ∧ g.bits.length = f.bits.length := by
  have hc : ∀ j, wrappedCost j (g.pre ++ g.raw) g.body = wrappedCost j (f.pre ++ f.raw) f.body := by
    intro j
    unfold wrappedCost frameCost
    rw [h.body, h.pre, h.raw, ← List.map_append, gaps_neg]
  have he : g.exp = f.exp := by
    refine picked_unique (P := f.pre ++ f.raw) (qs := f.body) ?_ hf.picked ⟨hg.exp1, hg.exp15⟩ ⟨hf.exp1, hf.exp15⟩
    have := hg.picked
    unfold Picked at this ⊢
    simpa only [hc] using this
  refine ⟨he, ?_⟩
  unfold Fr.bits
  have h16 : ∀ l : List Int, (l.flatMap Fr.rawBits).length = 16 * l.length := by
    intro l
    rw [List.length_flatMap, List.map_congr_left (g := fun _ => 16)]
    · simp [Nat.mul_comm]
    · intro q _; simp [Fr.rawBits]
  rw [List.length_append, List.length_append, h16, h16, h.body, h.pre, h.raw, ← List.map_append, he, residuals_neg_bits hf.exp1, List.length_map]

/-- the frames of the inverted recording -/
theorem frames_inverse {n : Nat} {calls : List (List F32)} {blocks blocks' : List (Nat → Fr)}
    (H : Recorded n (ofInt 1) calls blocks) (H' : Recorded n (ofInt 1) (calls.map (·.map neg)) blocks') {ch : Nat} (hch : ch < n) :
    List.Forall₂ (fun blk blk' => Inverse (blk ch) (blk' ch)) blocks blocks' := by
  have hl := H.len
  have hl' := H'.len
  rw [List.length_map] at hl'
  have key : ∀ j ≤ calls.length, List.Forall₂ (fun blk blk' => Inverse (blk ch) (blk' ch)) (blocks.take j) (blocks'.take j) := by
    intro j
    induction j with
    | zero => intro; exact .nil
    | succ j ih =>
      intro hj
      have ih := ih (by omega)
      have m := H.made j (by omega) (by omega) ch hch
      have m' := H'.made j (by omega) (by rw [List.length_map]; omega) ch hch
      have hc : codesOf (blocks'.take j) ch = (codesOf (blocks.take j) ch).map (- ·) := by
        unfold codesOf
        clear m m'
        generalize blocks.take j = A at ih
        generalize blocks'.take j = B at ih
        induction ih with
        | nil => rfl
        | cons h _ ih => rw [List.flatMap_cons, List.flatMap_cons, h.codes, ih, List.map_append]
      rw [List.take_succ_eq_append_getElem (by omega), List.take_succ_eq_append_getElem (by omega)]
      refine List.rel_append ih (.cons ⟨?_, ?_⟩ .nil)
      · rw [m'.pre, m.pre, hc]
      · rw [m'.exact, m.exact, ditherAt_one, ditherAt_one, List.getElem_map, column_map_neg, List.map_map, List.map_map]
        apply List.map_congr_left
        intro x _
        exact truncateSample_neg x
  have := key calls.length le_rfl
  rwa [List.take_of_length_le (by omega), List.take_of_length_le (by omega)] at this

/-- C96, size: at level 0 an inverted signal takes exactly as many bits as the signal, in sync or not. -/
theorem C96_size (b b' : Build) (info : StreamInfo) (hn : 0 < info.channels) (calls : List (List F32)) (c c' : AdhocCodec)
    (h : encodeAll b (fresh info 0) calls = .ok c) (h' : encodeAll b' (fresh info 0) (calls.map (·.map fun x => -x)) = .ok c') :
    c'.stream.stream.len = c.stream.stream.len := by
  obtain ⟨-, blocks, H, HR, -⟩ := recorded_of_ok hn h
  obtain ⟨-, blocks', H', HR', -⟩ := recorded_of_ok hn h'
  rw [(fresh_zero info).2] at HR HR'
  show c'.stream.stream.bitCursor = c.stream.stream.bitCursor
  rw [H.bits.cursor, H'.bits.cursor, length_bitsOf_flat, length_bitsOf_flat]
  congr 1
  apply List.map_congr_left
  intro ch hch
  have hch : ch < info.channels := by simpa using hch
  have hinv := frames_inverse HR HR' hch
  congr 1
  apply List.ext_getElem
  · simp [hinv.length_eq]
  · intro j h1 h2
    have hj : j < blocks.length := by simpa using h2
    have hj' : j < blocks'.length := by simpa using h1
    simp only [List.getElem_map]
    exact ((List.forall₂_iff_get.1 hinv).2 j hj hj' |>.size ((HR.toRec hn).wf j hj ch hch) ((HR'.toRec hn).wf j hj' ch hch)).2

/-- C96, sound: at level 0, when the signal and its inverse are in sync, both can be recorded, and what is decoded from one is the inverse of
what is decoded from the other. -/
theorem C96_sound (b b' : Build) (info : StreamInfo) (hn : 0 < info.channels) (calls : List (List F32)) (hp : Proper info.channels calls)
    (hs : ∀ ch < info.channels, InSync (Spec.codes ch (signal info.channels calls)))
    (hs' : ∀ ch < info.channels, InSync (Spec.codes ch (signal info.channels (calls.map (·.map fun x => -x))))) :
    ∃ c c', encodeAll b (fresh info 0) calls = .ok c ∧ encodeAll b (fresh info 0) (calls.map (·.map fun x => -x)) = .ok c' ∧
      ∀ bufs, ∃ d d' outs, decodeAll b' c.init bufs = .ok (d, outs) ∧
        decodeAll b' c'.init (bufs.map (·.map fun x => -x)) = .ok (d', outs.map fun r => (r.1.map fun x => -x, r.2)) := by
  obtain ⟨c, e, hd⟩ := C01_round_trip b b' info hn calls hp hs
  have hp' : Proper info.channels (calls.map (·.map fun x => -x)) := by
    refine ⟨?_, ?_, ?_⟩
    · intro pcm hpcm
      rw [List.head?_map] at hpcm
      obtain ⟨x, hx, rfl⟩ := Option.mem_map.1 hpcm
      rw [List.length_map]
      exact hp.first x hx
    · intro pcm hpcm
      obtain ⟨x, hx, rfl⟩ := List.mem_map.1 hpcm
      rw [List.length_map]
      exact hp.short x hx
    · have := hp.gap
      rw [List.map_map]
      simpa only [Function.comp_def, List.length_map] using this
  obtain ⟨c', e', hd'⟩ := C01_round_trip b b' info hn _ hp' hs'
  refine ⟨c, c', e, e', ?_⟩
  intro bufs
  obtain ⟨d, ed⟩ := hd bufs
  obtain ⟨d', ed'⟩ := hd' (bufs.map (·.map fun x => -x))
  refine ⟨d, d', _, ed, ?_⟩
  rw [ed']
  have h1 : (signal info.channels (calls.map (·.map fun x => -x))).map (·.map quantise) =
      ((signal info.channels calls).map (·.map quantise)).map (·.map fun x => -x) := by
    rw [← signal_map info.channels (fun x => -x) calls, List.map_map, List.map_map]
    apply List.map_congr_left
    intro blk _
    simp only [Function.comp, List.map_map]
    apply List.map_congr_left
    intro x _
    exact quantise_neg x
  rw [h1, ← readBlocks_map]

/-- `demo` and its inverse are in sync -/
example : Proper 2 demo ∧ (∀ ch < 2, InSync (Spec.codes ch (signal 2 demo))) ∧
    ∀ ch < 2, InSync (Spec.codes ch (signal 2 (demo.map (·.map fun x => -x)))) := by
  refine ⟨demo_proper, demo_inSync, ?_⟩
  intro ch hch
  exact inSync_of_all (by revert ch; decide +kernel)

end Adhoc
