import Verif.Model.SignedZero
import Verif.Proofs.Values
import Verif.Proofs.Halts
import Verif.Proofs.Sample
import Verif.Spec.Tape
import Verif.Proofs.Time
import Mathlib.Tactic.IntervalCases

/-! # C145: the sign of zero -/

namespace Adhoc
open F32 (fin_ext ofRat_rep ofRat_fin)

namespace Z32

theorem erase_round (q : ℚ) (s : Bool) : erase (round q s) = F32.ofRat q := by
  unfold round
  split
  · next h => subst h; exact (ofRat_rep rep_zero).symm
  · split
    · next hz =>
      have hl : |roundQ q| < 2 ^ 128 := by rw [hz]; norm_num
      rw [ofRat_fin hl]
      exact fin_ext _ _ hz.symm
    · split
      · next hz hl => rw [ofRat_fin hl]; rfl
      · next hz hl => unfold F32.ofRat; rw [dif_neg hl]; rfl

theorem erase_ofInt (n : ℤ) : erase (ofInt n) = F32.ofInt n := erase_round _ _
theorem erase_ofRat (q : ℚ) : erase (ofRat q) = F32.ofRat q := erase_round _ _

theorem erase_plain (x : F32) : erase (plain x) = x := by
  cases x with
  | nan => rfl
  | inf s => rfl
  | fin q h =>
    show erase (if h0 : q = 0 then _ else _) = _
    split
    · next h0 => exact fin_ext _ _ h0.symm
    · rfl

theorem fin_zero {q : ℚ} (h : q = 0) : F32.fin 0 rep_zero = F32.ofRat q := by subst h; exact (ofRat_rep rep_zero).symm

theorem erase_neg (a : Z32) : erase (-a) = -erase a := by
  cases a with
  | nan => rfl
  | inf s => rfl
  | zero s => exact fin_zero neg_zero
  | fin q h h0 => exact (ofRat_rep h.neg).symm

theorem erase_add : ∀ a b : Z32, erase (a + b) = erase a + erase b
  | .nan, .nan => rfl
  | .nan, .inf _ => rfl
  | .nan, .zero _ => rfl
  | .nan, .fin _ _ _ => rfl
  | .inf _, .nan => rfl
  | .zero _, .nan => rfl
  | .fin _ _ _, .nan => rfl
  | .inf s, .inf t => by show erase (if s = t then _ else _) = if s = t then _ else _; split <;> rfl
  | .inf _, .zero _ => rfl
  | .inf _, .fin _ _ _ => rfl
  | .zero _, .inf _ => rfl
  | .fin _ _ _, .inf _ => rfl
  | .zero _, .zero _ => fin_zero (add_zero 0)
  | .zero _, .fin q h _ => ((ofRat_rep (q := 0 + q) (by simpa using h)).trans (fin_ext _ h (zero_add q))).symm
  | .fin q h _, .zero _ => ((ofRat_rep (q := q + 0) (by simpa using h)).trans (fin_ext _ h (add_zero q))).symm
  | .fin _ _ _, .fin _ _ _ => erase_round _ _

theorem erase_sub (a b : Z32) : erase (a - b) = erase a - erase b :=
  (erase_add a (-b)).trans (by rw [erase_neg]; rfl)

theorem erase_mul : ∀ a b : Z32, erase (a * b) = erase a * erase b
  | .nan, .nan => rfl
  | .nan, .inf _ => rfl
  | .nan, .zero _ => rfl
  | .nan, .fin _ _ _ => rfl
  | .inf _, .nan => rfl
  | .zero _, .nan => rfl
  | .fin _ _ _, .nan => rfl
  | .inf _, .inf _ => rfl
  | .inf s, .zero _ => by
    show F32.nan = F32.mul (.inf s) (.fin 0 rep_zero)
    simp only [F32.mul, if_true]
  | .zero _, .inf s => by
    show F32.nan = F32.mul (.fin 0 rep_zero) (.inf s)
    simp only [F32.mul, if_true]
  | .inf _, .fin _ _ h0 => (if_neg h0).symm
  | .fin _ _ h0, .inf _ => (if_neg h0).symm
  | .zero _, .zero _ => fin_zero (mul_zero 0)
  | .zero _, .fin q _ _ => fin_zero (zero_mul q)
  | .fin q _ _, .zero _ => fin_zero (mul_zero q)
  | .fin _ _ _, .fin _ _ _ => erase_round _ _

theorem erase_div : ∀ (a b : Z32) (_ : b ≠ zero true), erase (a / b) = erase a / erase b
  | .nan, .nan, _ => rfl
  | .nan, .inf _, _ => rfl
  | .nan, .zero _, _ => rfl
  | .nan, .fin _ _ _, _ => rfl
  | .inf _, .nan, _ => rfl
  | .zero _, .nan, _ => rfl
  | .fin _ _ _, .nan, _ => rfl
  | .inf _, .inf _, _ => rfl
  | .inf s, .zero false, _ => by
    show F32.inf (s != false) = F32.inf (s != decide ((0 : ℚ) < 0))
    simp
  | _, .zero true, h => absurd rfl h
  | .inf _, .fin _ _ _, _ => rfl
  | .zero _, .inf _, _ => fin_zero rfl
  | .fin _ _ _, .inf _, _ => fin_zero rfl
  | .zero _, .zero false, _ => by
    show F32.nan = F32.div (.fin 0 rep_zero) (.fin 0 rep_zero)
    simp only [F32.div, if_true]
  | .zero _, .fin q _ h0, _ => (fin_zero (zero_div q)).trans (if_neg h0).symm
  | .fin q _ h0, .zero false, _ => by
    show F32.inf (false != decide (q < 0)) = F32.div (.fin q _) (.fin 0 rep_zero)
    simp only [F32.div, if_true, if_neg h0, Bool.false_bne]
  | .fin _ _ _, .fin _ _ h0, _ => (erase_round _ _).trans (if_neg h0).symm

theorem lt_erase (a b : Z32) : lt a b = F32.lt (erase a) (erase b) := by
  cases a <;> cases b <;> rfl

theorem erase_ite (p : Bool) (a b : Z32) : erase (if p then a else b) = if p then erase a else erase b := by cases p <;> rfl

theorem erase_clamp (x lo hi : Z32) : erase (x.clamp lo hi) = (erase x).clamp (erase lo) (erase hi) := by
  unfold clamp F32.clamp
  dsimp only
  rw [erase_ite, lt_erase, erase_ite, lt_erase]

theorem toIntSat_erase (lo hi : ℤ) (x : Z32) : toIntSat lo hi x = (erase x).toIntSat lo hi := by
  cases x <;> try rfl

end Z32

open Z32

theorem ofInt_ne_negZero (n : ℤ) : Z32.ofInt n ≠ .zero true := by
  unfold Z32.ofInt Z32.round
  split
  · simp
  · next h =>
    split
    · next hz =>
      exfalso
      have h1 : roundQ 1 = 1 := roundQ_grid F32.rep_one.grid
      have h2 : roundQ (-1) = -1 := roundQ_grid F32.rep_one.neg.grid
      have hn : n ≠ 0 := fun e => h (by rw [e]; rfl)
      rcases lt_or_gt_of_ne hn with g | g
      · have := roundQ_mono (show (n : ℚ) ≤ -1 by exact_mod_cast (by omega : n ≤ -1))
        rw [hz, h2] at this
        norm_num at this
      · have := roundQ_mono (show (1 : ℚ) ≤ n by exact_mod_cast (by omega : (1 : ℤ) ≤ n))
        rw [hz, h1] at this
        norm_num at this
    · split <;> simp

theorem truncateSampleZ_eq (x : Z32) : truncateSampleZ x = truncateSample (erase x) := by
  unfold truncateSampleZ truncateSample
  rw [toIntSat_erase, erase_mul, erase_clamp]
  simp only [erase_ofInt]

theorem erase_factor : erase NORMALIZE_FACTOR_Z = NORMALIZE_FACTOR := by
  unfold NORMALIZE_FACTOR_Z NORMALIZE_FACTOR
  rw [erase_div _ _ (ofInt_ne_negZero _), erase_ofInt, erase_ofInt]

theorem erase_normalize (k : Int) : erase (normalizeSampleZ k) = normalizeSample k := by
  unfold normalizeSampleZ normalizeSample
  rw [erase_mul, erase_ofInt, erase_factor]

theorem predictZ_eq (x y z : Int) : predictZ x y z = predict x y z := by
  unfold predictZ predict FixedParabola.computeCoefs FixedParabola.eval FixedParabola.fromSamples
  dsimp only
  rw [truncateSampleZ_eq]
  simp only [erase_add, erase_sub, erase_mul, erase_ofInt, erase_ofRat, erase_normalize]

theorem erase_place (n : Nat) (k : Int) : erase (Z32.ofInt n / Z32.ofInt 16384 * Z32.ofInt k) = F32.ofInt n / F32.ofInt 16384 * F32.ofInt k := by
  rw [erase_mul, erase_div _ _ (ofInt_ne_negZero _), erase_ofInt, erase_ofInt, erase_ofInt]

theorem map_bindZ {α β γ : Type} (x : R α) (f : α → R β) (g : β → γ) : (x >>= f).map g = x >>= fun a => (f a).map g := by cases x <;> rfl

theorem triangleZ_eq (b : Build) (s : PseudoRandom) : (s.triangleZ b).map (fun r => (r.1, erase r.2)) = s.triangle b := by
  unfold PseudoRandom.triangleZ PseudoRandom.triangle
  rw [map_bindZ]
  refine congrArg _ (funext fun p => ?_)
  rw [map_bindZ]
  refine congrArg _ (funext ?_)
  rintro ⟨s', r2⟩
  dsimp only
  rw [← erase_place, ← erase_place, ← erase_add]
  rfl

theorem idx_mapZ {α β : Type} (f : α → β) (l : List α) (i : Nat) : idx (l.map f) i = (idx l i).map f := by
  unfold idx
  rw [List.getElem?_map]
  cases l[i]? <;> rfl

theorem bind_mapZ {α β γ : Type} (x : R α) (f : α → β) (g : β → R γ) : x.map f >>= g = x >>= fun a => g (f a) := by cases x <;> rfl

theorem predictFromZ_eq (h : CircularStack Int) : FrameCodec.predictFromZ h = FrameCodec.predictFrom h := predictZ_eq _ _ _

theorem costTableZ_eq (b : Build) : ∀ (xs : List Z32) (h : CircularStack Int) (t : List Nat),
    FrameCodec.costTableZ b h xs t = FrameCodec.costTable b h (xs.map erase) t
  | [], _, _ => rfl
  | x :: xs, h, t => by
    rw [List.map_cons, FrameCodec.costTableZ, FrameCodec.costTable, truncateSampleZ_eq, predictFromZ_eq]
    exact congrArg _ (funext fun t => costTableZ_eq b xs _ t)

theorem divisorZ_eq (b : Build) (h : CircularStack Int) (xs : List Z32) :
    FrameCodec.computeOptimalDivisorExponentZ b h xs = FrameCodec.computeOptimalDivisorExponent b h (xs.map erase) := by
  unfold FrameCodec.computeOptimalDivisorExponentZ FrameCodec.computeOptimalDivisorExponent
  rw [costTableZ_eq]

theorem encodeSamplesZ_eq (b : Build) (k : Nat) : ∀ (xs : List Z32) (s : BitStream) (h : CircularStack Int),
    FrameCodec.encodeSamplesZ b k s h xs = FrameCodec.encodeSamples b k s h (xs.map erase)
  | [], _, _ => rfl
  | x :: xs, s, h => by
    rw [List.map_cons, FrameCodec.encodeSamplesZ, FrameCodec.encodeSamples, truncateSampleZ_eq, predictFromZ_eq]
    exact congrArg _ (funext fun e => congrArg _ (funext fun s => encodeSamplesZ_eq b k xs s _))

theorem encodeFrameZ_eq (b : Build) (c : FrameCodec) (stream : AudioStream) (headers : FrameHeaders) (pcm : List Z32) :
    c.encodeFrameZ b stream headers pcm = c.encodeFrame b stream headers (pcm.map erase) := by
  unfold FrameCodec.encodeFrameZ FrameCodec.encodeFrame
  cases c.state with
  | init => simp only [idx_mapZ, bind_mapZ, truncateSampleZ_eq, divisorZ_eq, encodeSamplesZ_eq, List.map_drop, List.length_map]
  | encoding => simp only [divisorZ_eq, encodeSamplesZ_eq, List.length_map]
  | decoding => rfl

theorem erase_amp : erase AdhocCodec.DITHER_AMPLITUDE_Z = AdhocCodec.DITHER_AMPLITUDE := erase_ofRat _

theorem ditherZ_eq (b : Build) (inv : Z32) : ∀ (xs : List Z32) (seq : PseudoRandom),
    (AdhocCodec.ditherZ b inv seq xs).map (fun r => (r.1, r.2.map erase)) = AdhocCodec.dither b (erase inv) seq (xs.map erase)
  | [], _ => rfl
  | x :: xs, seq => by
    rw [List.map_cons, AdhocCodec.ditherZ, AdhocCodec.dither, ← triangleZ_eq, map_bindZ, bind_mapZ]
    refine congrArg _ (funext ?_)
    rintro ⟨seq', noise⟩
    dsimp only
    rw [← ditherZ_eq b inv xs seq', map_bindZ, bind_mapZ]
    refine congrArg _ (funext ?_)
    rintro ⟨seq'', ys⟩
    dsimp only
    rw [← erase_amp, ← erase_ofInt 1, ← erase_sub, ← erase_mul, ← erase_mul, ← erase_add, ← erase_mul]
    rfl

theorem mapM_map {α β γ : Type} (f : α → R β) (g : β → γ) : ∀ l : List α, l.mapM (fun a => (f a).map g) = (l.mapM f).map (List.map g)
  | [] => rfl
  | a :: l => by
    rw [List.mapM_cons, List.mapM_cons, mapM_map f g l]
    cases f a with
    | error e => rfl
    | ok b =>
      cases l.mapM f <;> rfl

theorem deinterleaveZ_eq (pcm : List Z32) (n m ch : Nat) :
    AdhocCodec.deinterleave (pcm.map erase) n m ch = (AdhocCodec.deinterleaveZ pcm n m ch).map (List.map erase) := by
  unfold AdhocCodec.deinterleave AdhocCodec.deinterleaveZ
  rw [← mapM_map]
  simp only [idx_mapZ]

theorem encodeChannelZ_eq (b : Build) (c : AdhocCodec) (pcm : List Z32) (n m ch : Nat) :
    c.encodeChannelZ b pcm n m ch = c.encodeChannel b (pcm.map erase) n m ch := by
  unfold AdhocCodec.encodeChannelZ AdhocCodec.encodeChannel
  rw [deinterleaveZ_eq, bind_mapZ]
  refine congrArg _ (funext fun xs => ?_)
  rw [← erase_plain c.invScale, ← ditherZ_eq, erase_plain, bind_mapZ]
  simp only [encodeFrameZ_eq]

theorem encodeZ_eq (b : Build) (c : AdhocCodec) (pcm : List Z32) : c.encodeZ b pcm = c.encode b (pcm.map erase) := by
  unfold AdhocCodec.encodeZ AdhocCodec.encode AdhocCodec.encodeRawZ AdhocCodec.encodeRaw
  simp only [encodeChannelZ_eq, List.length_map]

/-! ## decoding -/

theorem setIdx_mapZ {α β : Type} (f : α → β) (l : List α) (i : Nat) (x : α) : setIdx (l.map f) i (f x) = (setIdx l i x).map (List.map f) := by
  unfold setIdx
  rw [List.length_map, ← List.map_set]
  split <;> rfl

theorem popBlockZ_eq (legal : Nat) : ∀ (n ch : Nat) (c : AdhocCodec) (pcm : List Z32) (cursor : Nat),
    (AdhocCodec.popBlockZ legal n ch c pcm cursor).map (fun r => (r.1, r.2.1.map erase, r.2.2)) = AdhocCodec.popBlock legal n ch c (pcm.map erase) cursor
  | 0, _, _, _, _ => rfl
  | n + 1, ch, c, pcm, cursor => by
    rw [AdhocCodec.popBlockZ, AdhocCodec.popBlock]
    split
    · rw [map_bindZ]
      refine congrArg _ (funext fun fc => ?_)
      rw [map_bindZ]
      refine congrArg _ (funext fun chs => ?_)
      have hs : fc.buffered.headD (F32.ofInt 0) = erase (((fc.buffered.head?).map Z32.plain).getD (Z32.ofInt 0)) := by
        cases fc.buffered with
        | nil => exact (erase_ofInt 0).symm
        | cons x l => exact (erase_plain x).symm
      rw [hs, setIdx_mapZ, map_bindZ, bind_mapZ]
      exact congrArg _ (funext fun pcm' => popBlockZ_eq legal n _ _ pcm' _)
    · rfl

theorem decodeLoopZ_eq (b : Build) (n legal : Nat) : ∀ (fuel : Nat) (c : AdhocCodec) (pcm : List Z32) (cursor : Nat),
    (AdhocCodec.decodeLoopZ b n legal fuel c pcm cursor).map (fun r => (r.1, r.2.1.map erase, r.2.2)) = AdhocCodec.decodeLoop b n legal fuel c (pcm.map erase) cursor
  | 0, _, _, _ => rfl
  | fuel + 1, c, pcm, cursor => by
    rw [AdhocCodec.decodeLoopZ, AdhocCodec.decodeLoop]
    split
    · rw [map_bindZ]
      refine congrArg _ (funext ?_)
      rintro ⟨c', left⟩
      dsimp only
      split
      · rfl
      · rw [map_bindZ, ← popBlockZ_eq, bind_mapZ]
        exact congrArg _ (funext fun r => decodeLoopZ_eq b n legal fuel _ _ _)
    · rfl

theorem decodeZ_eq (b : Build) (c : AdhocCodec) (buf : List Z32) :
    (c.decodeZ b buf).map (fun r => (r.1, r.2.1.map erase, r.2.2)) = c.decode b (buf.map erase) := by
  unfold AdhocCodec.decodeZ AdhocCodec.decode AdhocCodec.decodeRawZ AdhocCodec.decodeRaw
  simp only [bind_assoc, map_bindZ, pure_bind]
  refine congrArg _ (funext fun info => ?_)
  rw [List.length_map]
  refine congrArg _ (funext fun q => ?_)
  rw [← decodeLoopZ_eq, bind_mapZ]
  refine congrArg _ (funext ?_)
  rintro ⟨c', pcm, k⟩
  dsimp only
  refine congrArg Except.ok (Prod.ext rfl (Prod.ext ?_ rfl))
  show (pcm.map (· * plain c'.scale)).map erase = (pcm.map erase).map (· * c'.scale)
  rw [List.map_map, List.map_map]
  refine List.map_congr_left fun x _ => ?_
  show erase (x * plain c'.scale) = erase x * c'.scale
  rw [erase_mul, erase_plain]

/-! ## which zeros there are -/

theorem plainZ_ne (x : F32) : plain x ≠ .zero true := by
  cases x with
  | nan => simp [plain]
  | inf s => simp [plain]
  | fin q h =>
    show (if h0 : q = 0 then Z32.zero false else Z32.fin q h h0) ≠ _
    split <;> simp

theorem plain_erase {x : Z32} (h : x ≠ .zero true) : plain (erase x) = x := by
  cases x with
  | nan => rfl
  | inf s => rfl
  | zero s =>
    cases s with
    | false =>
      show plain (.fin 0 rep_zero) = _
      simp [plain]
    | true => exact absurd rfl h
  | fin q h h0 => exact dif_neg h0

theorem roundQ_mul_ne {a s : ℚ} (ha : Rep a) (h0 : a ≠ 0) (hs : 1 ≤ |s|) : roundQ (a * s) ≠ 0 := by
  have hp : 0 < |a| := abs_pos.2 h0
  have hr : Rep |a| := by
    rcases abs_choice a with e | e <;> rw [e]
    · exact ha
    · exact ha.neg
  have hm : |a| ≤ |a * s| := by rw [abs_mul]; exact le_mul_of_one_le_right hp.le hs
  rcases abs_choice (a * s) with e | e
  · have := roundQ_mono (show |a| ≤ a * s by rw [← e]; exact hm)
    rw [roundQ_grid hr.grid] at this
    linarith
  · have := roundQ_mono (show a * s ≤ -|a| by linarith)
    rw [roundQ_grid hr.neg.grid] at this
    linarith

theorem round_ne_zero {q : ℚ} {s : Bool} (h0 : q ≠ 0) (h : roundQ q ≠ 0) (t : Bool) : Z32.round q s ≠ .zero t := by
  unfold Z32.round
  rw [if_neg h0, dif_neg h]
  split <;> simp

/-- a product with a factor of at least 1 is a zero only if the other factor is -/
theorem mul_zero_iff {x : Z32} {s : ℚ} (hs : 1 ≤ |s|) (h : Rep s) (h0 : s ≠ 0) {t : Bool} (e : x * .fin s h h0 = .zero t) :
    ∃ u, x = .zero u ∧ t = (u != decide (s < 0)) := by
  cases x with
  | nan => cases e
  | inf u => cases e
  | zero u =>
    refine ⟨u, rfl, ?_⟩
    have e' : Z32.zero (u != decide (s < 0)) = .zero t := e
    injection e' with e'
    exact e'.symm
  | fin q hq hq0 => exact absurd e (round_ne_zero (mul_ne_zero hq0 h0) (roundQ_mul_ne hq hq0 hs) t)

theorem factor_fin : ∃ (q : ℚ) (h : Rep q) (h0 : q ≠ 0), NORMALIZE_FACTOR_Z = .fin q h h0 ∧ 0 < q := by
  have e := erase_factor
  obtain ⟨v, hv, hp⟩ : ∃ v, F32.Is NORMALIZE_FACTOR v ∧ 0 < v := ⟨_, is_norm, by norm_num⟩
  obtain ⟨h, hv⟩ := hv
  rw [hv] at e
  cases hz : NORMALIZE_FACTOR_Z with
  | nan => rw [hz] at e; cases e
  | inf s => rw [hz] at e; cases e
  | zero s =>
    rw [hz] at e
    injection e with e
    exact absurd e hp.ne
  | fin q hq h0 =>
    rw [hz] at e
    injection e with e
    exact ⟨q, hq, h0, rfl, by rw [e]; exact hp⟩

theorem ofInt_cases (k : Int) : Z32.ofInt k = .zero false ∨ (∃ s, Z32.ofInt k = .inf s) ∨ ∃ (v : ℚ) (h : Rep v) (h0 : v ≠ 0), Z32.ofInt k = .fin v h h0 ∧ 1 ≤ |v| := by
  by_cases hk : k = 0
  · exact .inl (by subst hk; unfold Z32.ofInt Z32.round; rw [if_pos (by norm_num)])
  have h1 : roundQ 1 = 1 := roundQ_grid F32.rep_one.grid
  have h2 : roundQ (-1) = -1 := roundQ_grid F32.rep_one.neg.grid
  have ha : 1 ≤ |roundQ k| := by
    rcases lt_or_gt_of_ne hk with g | g
    · have := roundQ_mono (show (k : ℚ) ≤ -1 by exact_mod_cast (by omega : k ≤ -1))
      rw [h2] at this
      rw [abs_of_nonpos (by linarith)]
      linarith
    · have := roundQ_mono (show (1 : ℚ) ≤ k by exact_mod_cast (by omega : (1 : ℤ) ≤ k))
      rw [h1] at this
      rw [abs_of_nonneg (by linarith)]
      exact this
  have hz : roundQ k ≠ 0 := by intro e; rw [e] at ha; norm_num at ha
  unfold Z32.ofInt Z32.round
  rw [if_neg (by exact_mod_cast hk), dif_neg hz]
  split
  · next hl => exact .inr (.inr ⟨_, rep_roundQ hl, hz, rfl, ha⟩)
  · exact .inr (.inl ⟨_, rfl⟩)

/-- a normalised sample is never `-0.0` -/
theorem normalizeZ_ne (k : Int) : normalizeSampleZ k ≠ .zero true := by
  obtain ⟨q, hq, h0, e, hp⟩ := factor_fin
  unfold normalizeSampleZ
  rw [e]
  rcases ofInt_cases k with h | ⟨s, h⟩ | ⟨v, hv, hv0, h, ha⟩
  · rw [h]
    show Z32.zero (false != decide (q < 0)) ≠ _
    rw [decide_eq_false (by linarith)]
    simp
  · rw [h]
    show Z32.inf _ ≠ _
    simp
  · rw [h]
    show Z32.round (v * q) false ≠ _
    rw [mul_comm]
    exact round_ne_zero (mul_ne_zero h0 hv0) (roundQ_mul_ne hq h0 ha) _

theorem clampZ_ne {x lo hi : Z32} (hx : x ≠ .zero true) (hl : lo ≠ .zero true) (hh : hi ≠ .zero true) : x.clamp lo hi ≠ .zero true := by
  unfold Z32.clamp
  dsimp only
  split <;> split <;> assumption

theorem rawZ_eq (k : Int) : FrameCodec.rawZ k = plain (normalizeSample k) := by
  unfold FrameCodec.rawZ
  rw [← erase_normalize, plain_erase (normalizeZ_ne k)]

theorem decodedZ_eq (k : Int) : FrameCodec.decodedZ k = plain ((normalizeSample k).clamp (F32.ofInt (-1)) (F32.ofInt 1)) := by
  unfold FrameCodec.decodedZ
  rw [← erase_normalize, ← erase_ofInt (-1), ← erase_ofInt 1, ← erase_clamp, plain_erase (clampZ_ne (normalizeZ_ne k) (ofInt_ne_negZero _) (ofInt_ne_negZero _))]

/-! ## the scale stays -/

theorem ens_scale_decodeChannel (b : Build) (c : AdhocCodec) (ch : Nat) {s : F32} (h : c.scale = s) : Ens (c.decodeChannel b ch) (fun c' => c'.scale = s) := by
  unfold AdhocCodec.decodeChannel
  refine (Ens.any _).bind fun fc _ => (Ens.any _).bind ?_
  rintro ⟨fc', st, hd, k⟩ _
  exact (Ens.any _).bind fun chs _ => .ok h

theorem ens_scale_bufferAudio (b : Build) (n : Nat) {s : F32} : ∀ (left : Nat) (c : AdhocCodec) (_ : c.scale = s),
    Ens (AdhocCodec.bufferAudio b n left c) (fun r => r.1.scale = s)
  | 0, c, h => .ok h
  | left + 1, c, h => by
    rw [AdhocCodec.bufferAudio]
    split
    · exact (Ens.foldlM (fun c ch hc => ens_scale_decodeChannel b c ch hc) _ c h).bind fun c' h' => ens_scale_bufferAudio b n left c' h'
    · exact .ok h

/-- up to `cursor` there is no `-0.0`, from there on it is the buffer as it was given -/
structure FilledZ (buf : List Z32) (s : F32) (r : AdhocCodec × List Z32 × Nat) : Prop where
  scale : r.1.scale = s
  head : ∀ i < r.2.2, r.2.1[i]? ≠ some (.zero true)
  tail : ∀ i ≥ r.2.2, r.2.1[i]? = buf[i]?

theorem FilledZ.put {buf : List Z32} {s : F32} {c c' : AdhocCodec} {pcm pcm' : List Z32} {k : Nat} (H : FilledZ buf s (c, pcm, k)) (hc : c'.scale = c.scale)
    {x : Z32} (hx : x ≠ .zero true) (h : setIdx pcm k x = .ok pcm') : FilledZ buf s (c', pcm', k + 1) := by
  obtain ⟨hlt, rfl⟩ := setIdx_eq_ok.1 h
  refine ⟨hc.trans H.scale, ?_, ?_⟩
  · intro i hi
    show (pcm.set k x)[i]? ≠ _
    by_cases e : i = k
    · subst e
      rw [List.getElem?_set_self hlt]
      exact fun e => hx (Option.some.inj e)
    · rw [List.getElem?_set_ne (Ne.symm e)]
      have hi' : i < k + 1 := hi
      exact H.head i (show i < k by omega)
  · intro i hi
    show (pcm.set k x)[i]? = _
    have hi' : k + 1 ≤ i := hi
    rw [List.getElem?_set_ne (by omega)]
    exact H.tail i (show k ≤ i by omega)

theorem ens_popBlockZ {buf : List Z32} {s : F32} (legal : Nat) : ∀ (n ch : Nat) (c : AdhocCodec) (pcm : List Z32) (k : Nat) (_ : FilledZ buf s (c, pcm, k)),
    Ens (AdhocCodec.popBlockZ legal n ch c pcm k) (FilledZ buf s)
  | 0, _, _, _, _, H => .ok H
  | n + 1, ch, c, pcm, k, H => by
    rw [AdhocCodec.popBlockZ]
    split
    · refine (Ens.any _).bind fun fc _ => (Ens.any _).bind fun chs _ => ?_
      refine Ens.bind (P := fun pcm' => FilledZ buf s ({ c with channelStateList := chs }, pcm', k + 1)) ?_ fun pcm' H' => ens_popBlockZ legal n _ _ _ _ H'
      intro pcm' h
      refine H.put (by rfl) ?_ h
      cases fc.buffered with
      | nil => exact ofInt_ne_negZero 0
      | cons x l => exact plainZ_ne x
    · exact .ok H

theorem ens_decodeLoopZ {buf : List Z32} {s : F32} (b : Build) (n legal : Nat) : ∀ (fuel : Nat) (c : AdhocCodec) (pcm : List Z32) (k : Nat) (_ : FilledZ buf s (c, pcm, k)),
    Ens (AdhocCodec.decodeLoopZ b n legal fuel c pcm k) (FilledZ buf s)
  | 0, _, _, _, _ => .error
  | fuel + 1, c, pcm, k, H => by
    rw [AdhocCodec.decodeLoopZ]
    split
    · refine (ens_scale_bufferAudio b n _ c H.scale).bind ?_
      rintro ⟨c', left⟩ hc
      have H' : FilledZ buf s (c', pcm, k) := ⟨hc, H.head, H.tail⟩
      dsimp only
      split
      · exact .ok H'
      · refine (ens_popBlockZ legal n 0 c' pcm k H').bind ?_
        rintro ⟨c'', pcm'', k''⟩ H''
        exact ens_decodeLoopZ b n legal fuel c'' pcm'' k'' H''
    · exact .ok H

theorem ens_decodeZ (b : Build) (c : AdhocCodec) (buf : List Z32) :
    Ens (c.decodeZ b buf) fun r => r.1.scale = c.scale ∧ ∃ pcm : List Z32, r.2.1 = pcm.map (· * plain c.scale) ∧ (∀ i < r.2.2.getD 0, pcm[i]? ≠ some (.zero true)) ∧
      ∀ i ≥ r.2.2.getD 0, pcm[i]? = buf[i]? := by
  unfold AdhocCodec.decodeZ AdhocCodec.decodeRawZ
  simp only [bind_assoc, pure_bind]
  refine (Ens.any _).bind fun info _ => (Ens.any _).bind fun q _ => ?_
  refine (ens_decodeLoopZ (buf := buf) b _ _ _ c buf 0 ⟨rfl, fun i h => absurd h (Nat.not_lt_zero i), fun i _ => rfl⟩).bind ?_
  rintro ⟨c', pcm, k⟩ H
  refine .ok ⟨H.scale, pcm, ?_, ?_⟩
  · show pcm.map (· * plain c'.scale) = _
    rw [show c'.scale = c.scale from H.scale]
  · have e : (if k > 0 then some k else none : Option Nat).getD 0 = k := by
      split
      · rfl
      · simp only [Option.getD_none]
        omega
    show (∀ i < (if k > 0 then some k else none : Option Nat).getD 0, _) ∧ ∀ i ≥ (if k > 0 then some k else none : Option Nat).getD 0, _
    rw [e]
    exact ⟨H.head, H.tail⟩

theorem ens_scale_seek (b : Build) (c : AdhocCodec) (p : SeekFrom) : Ens (c.seek b p) fun c' => c'.scale = c.scale := by
  unfold AdhocCodec.seek
  refine (Ens.any _).bind fun info _ => ?_
  dsimp only
  cases p with
  | start dt =>
    dsimp only
    split
    · exact .ok rfl
    · unfold AdhocCodec.seekTo
      refine (Ens.any _).bind fun t _ => (Ens.any _).bind fun bl _ => (Ens.any _).bind ?_
      rintro ⟨sk, block⟩ _
      refine (Ens.any _).bind fun h? _ => (Ens.any _).bind fun hdr _ => ?_
      refine (Ens.foldlM (P := fun c' => c'.scale = c.scale) (fun c' off hc => ?_) _ _ rfl).bind fun c' hc => ?_
      · unfold AdhocCodec.seekChannel
        refine (Ens.any _).bind fun h? _ => (Ens.any _).bind fun hdr _ => (Ens.any _).bind fun fc _ => (Ens.any _).bind ?_
        rintro ⟨fc', st, hd, k⟩ _
        exact (Ens.any _).bind fun chs _ => .ok hc
      · have key : ∀ (fuel skipped : Nat) (c' : AdhocCodec) (_ : c'.scale = c.scale),
            Ens (AdhocCodec.prune b info.channels t fuel skipped c') fun c'' => c''.scale = c.scale := by
          intro fuel
          induction fuel with
          | zero => exact fun _ _ _ => .error
          | succ fuel ih =>
            intro skipped c' hc
            rw [AdhocCodec.prune]
            split
            · refine Ens.bind (P := fun c'' => c''.scale = c.scale) ?_ fun c'' h => (Ens.any _).bind fun sk _ => ih _ _ h
              unfold AdhocCodec.dropOne
              refine Ens.foldlM (fun c'' off h => ?_) _ _ hc
              exact (Ens.any _).bind fun fc _ => (Ens.any _).bind fun chs _ => .ok h
            · exact .ok hc
        exact key _ _ _ hc
  | «end» _ => exact .error
  | current _ => exact .error

/-! ## WAV -/

namespace WavCodec

theorem convert8Z_eq (x : Byte) : convert8Z x = convert8 x := by
  unfold convert8Z convert8
  dsimp only
  rw [toIntSat_erase, erase_mul, erase_clamp, erase_sub, erase_mul, erase_div _ _ (ofInt_ne_negZero _)]
  simp only [erase_ofInt]

theorem seekOffsetZ_eq (info : StreamInfo) (dt : Int) : seekOffsetZ info dt = seekOffset info dt := by
  unfold seekOffsetZ seekOffset
  rw [toIntSat_erase, erase_mul, erase_div _ _ (ofInt_ne_negZero _)]
  simp only [erase_ofInt]

theorem encodeZ_eq (w : WavCodec) (xs : List Z32) : w.encodeZ xs = w.encode (xs.map erase) := by
  unfold encodeZ encode
  rw [List.length_map]
  refine congrArg _ (funext fun q => ?_)
  dsimp only
  rw [← List.map_take, List.foldlM_map]
  simp only [truncateSampleZ_eq]

theorem decodeLoopZ_eq (pcm : List Byte) (len valid : Nat) : ∀ (fuel cursor : Nat) (out : List Z32) (k : Nat),
    (decodeLoopZ pcm len valid fuel cursor out k).map (fun r => (r.1, r.2.1.map erase, r.2.2)) = decodeLoop pcm len valid fuel cursor (out.map erase) k
  | 0, _, _, _ => rfl
  | fuel + 1, cursor, out, k => by
    rw [decodeLoopZ, decodeLoop]
    split
    · rw [map_bindZ]
      refine congrArg _ (funext fun s => ?_)
      rw [← erase_normalize, setIdx_mapZ, map_bindZ, bind_mapZ]
      exact congrArg _ (funext fun out' => decodeLoopZ_eq pcm len valid fuel _ out' _)
    · rfl

theorem decodeZ_eq (w : WavCodec) (out : List Z32) : (w.decodeZ out).map (fun r => (r.1, r.2.1.map erase, r.2.2)) = w.decode (out.map erase) := by
  unfold decodeZ decode
  dsimp only
  rw [List.length_map, map_bindZ]
  refine congrArg _ (funext fun q => ?_)
  rw [← decodeLoopZ_eq, map_bindZ, bind_mapZ]
  rfl

theorem ens_decodeLoopZ {buf : List Z32} (pcm : List Byte) (len valid : Nat) : ∀ (fuel cursor : Nat) (out : List Z32) (k : Nat)
    (_ : ∀ i < k, out[i]? ≠ some (.zero true)) (_ : ∀ i ≥ k, out[i]? = buf[i]?),
    Ens (decodeLoopZ pcm len valid fuel cursor out k) fun r => (∀ i < r.2.2, r.2.1[i]? ≠ some (.zero true)) ∧ ∀ i ≥ r.2.2, r.2.1[i]? = buf[i]?
  | 0, _, _, _, _, _ => .error
  | fuel + 1, cursor, out, k, h1, h2 => by
    rw [decodeLoopZ]
    split
    · refine (Ens.any _).bind fun s _ => ?_
      intro r hr
      obtain ⟨out', ho, hr⟩ := bind_eq_ok.1 hr
      obtain ⟨hlt, rfl⟩ := setIdx_eq_ok.1 ho
      refine ens_decodeLoopZ pcm len valid fuel _ _ _ ?_ ?_ r hr
      · intro i hi
        by_cases e : i = k
        · subst e
          rw [List.getElem?_set_self hlt]
          exact fun e => normalizeZ_ne s (Option.some.inj e)
        · rw [List.getElem?_set_ne (Ne.symm e)]
          exact h1 i (by omega)
      · intro i hi
        rw [List.getElem?_set_ne (by omega)]
        exact h2 i (by omega)
    · exact .ok ⟨h1, h2⟩

end WavCodec

theorem seekOffsetZ_eq (info : StreamInfo) (dt : Nat) : AdhocCodec.seekOffsetZ info dt = AdhocCodec.seekOffset info dt := by
  unfold AdhocCodec.seekOffsetZ AdhocCodec.seekOffset
  rw [toIntSat_erase, erase_mul, erase_div _ _ (ofInt_ne_negZero _)]
  simp only [erase_ofInt]

/-! ## the arithmetic itself -/

namespace Spec

/-- the sign bit, of what is a number -/
def signBit : Z32 → Option Bool
  | .nan => none
  | .inf s => some s
  | .zero s => some s
  | .fin q _ _ => some (decide (q < 0))

/-- one call on a codec that is played, with buffers that know the sign of zero -/
inductive ActZ
  /-- `decode` into a buffer -/
  | read (buf : List Z32)
  /-- `seek(SeekFrom::Start(ms))` -/
  | seek (ms : Nat)

/-- the call without the sign of zero -/
def ActZ.erase : ActZ → Act
  | read buf => .read (buf.map Z32.erase)
  | seek ms => .seek ms

/-- the results of a sequence of reads and seeks -/
def windsZ (b : Build) : AdhocCodec → List ActZ → R (List (List Z32 × Option Nat))
  | _, [] => pure []
  | c, .read buf :: acts => do
    let (c, out, n) ← c.decodeZ b buf
    let outs ← windsZ b c acts
    pure ((out, n) :: outs)
  | c, .seek ms :: acts => do
    let c ← c.seek b (.start ms)
    windsZ b c acts

/-- a sequence of `encode` calls -/
def encodeAllZ (b : Build) (c : AdhocCodec) (calls : List (List Z32)) : R AdhocCodec :=
  calls.foldlM (fun c pcm => do let (c, _) ← c.encodeZ b pcm; pure c) c

end Spec
open Spec

theorem sign_round {q : ℚ} (h0 : q ≠ 0) (s : Bool) : signBit (Z32.round q s) = some (decide (q < 0)) := by
  unfold Z32.round
  rw [if_neg h0]
  split
  · rfl
  · next hz =>
    split
    · show some (decide (roundQ q < 0)) = _
      have h1 : roundQ 0 = 0 := roundQ_zero
      rcases lt_or_gt_of_ne h0 with g | g
      · have := roundQ_mono g.le
        rw [h1] at this
        rw [decide_eq_true g, decide_eq_true (lt_of_le_of_ne this hz)]
      · have := roundQ_mono g.le
        rw [h1] at this
        rw [decide_eq_false (by linarith), decide_eq_false (by linarith)]
    · rfl

theorem sign_prod {a b : ℚ} (ha : a ≠ 0) (hb : b ≠ 0) : decide (a * b < 0) = (decide (a < 0) != decide (b < 0)) := by
  rcases lt_or_gt_of_ne ha with g | g <;> rcases lt_or_gt_of_ne hb with k | k
  · have := mul_pos_of_neg_of_neg g k; simp [g, k, this.le]
  · have := mul_neg_of_neg_of_pos g k; simp [g, k.le, this]
  · have := mul_neg_of_pos_of_neg g k; simp [g.le, k, this]
  · rw [decide_eq_false (not_lt.2 (mul_pos g k).le), decide_eq_false (not_lt.2 (le_of_lt g)), decide_eq_false (not_lt.2 (le_of_lt k))]; rfl

theorem sign_mul : ∀ x y : Z32, x * y ≠ .nan → ∃ s t, signBit x = some s ∧ signBit y = some t ∧ signBit (x * y) = some (s != t)
  | .nan, .nan, h => absurd rfl h
  | .nan, .inf _, h => absurd rfl h
  | .nan, .zero _, h => absurd rfl h
  | .nan, .fin _ _ _, h => absurd rfl h
  | .inf _, .nan, h => absurd rfl h
  | .zero _, .nan, h => absurd rfl h
  | .fin _ _ _, .nan, h => absurd rfl h
  | .inf s, .inf t, _ => ⟨s, t, rfl, rfl, rfl⟩
  | .inf _, .zero _, h => absurd rfl h
  | .zero _, .inf _, h => absurd rfl h
  | .inf s, .fin q _ _, _ => ⟨s, decide (q < 0), rfl, rfl, rfl⟩
  | .fin q _ _, .inf s, _ => ⟨decide (q < 0), s, rfl, rfl, congrArg some (by cases s <;> cases decide (q < 0) <;> rfl)⟩
  | .zero s, .zero t, _ => ⟨s, t, rfl, rfl, rfl⟩
  | .zero s, .fin q _ _, _ => ⟨s, decide (q < 0), rfl, rfl, rfl⟩
  | .fin q _ _, .zero s, _ => ⟨decide (q < 0), s, rfl, rfl, congrArg some (by cases s <;> cases decide (q < 0) <;> rfl)⟩
  | .fin a _ ha, .fin b _ hb, _ => ⟨_, _, rfl, rfl, (sign_round (mul_ne_zero ha hb) _).trans (congrArg some (sign_prod ha hb))⟩

theorem sign_quot {a b : ℚ} (ha : a ≠ 0) (hb : b ≠ 0) : decide (a / b < 0) = (decide (a < 0) != decide (b < 0)) := by
  rw [← sign_prod ha hb]
  congr 1
  rw [eq_iff_iff, div_neg_iff, mul_neg_iff]

theorem sign_div : ∀ x y : Z32, x / y ≠ .nan → ∃ s t, signBit x = some s ∧ signBit y = some t ∧ signBit (x / y) = some (s != t)
  | .nan, .nan, h => absurd rfl h
  | .nan, .inf _, h => absurd rfl h
  | .nan, .zero _, h => absurd rfl h
  | .nan, .fin _ _ _, h => absurd rfl h
  | .inf _, .nan, h => absurd rfl h
  | .zero _, .nan, h => absurd rfl h
  | .fin _ _ _, .nan, h => absurd rfl h
  | .inf _, .inf _, h => absurd rfl h
  | .inf s, .zero t, _ => ⟨s, t, rfl, rfl, rfl⟩
  | .zero s, .inf t, _ => ⟨s, t, rfl, rfl, rfl⟩
  | .inf s, .fin q _ _, _ => ⟨s, decide (q < 0), rfl, rfl, rfl⟩
  | .fin q _ _, .inf s, _ => ⟨decide (q < 0), s, rfl, rfl, congrArg some (by cases s <;> cases decide (q < 0) <;> rfl)⟩
  | .zero _, .zero _, h => absurd rfl h
  | .zero s, .fin q _ _, _ => ⟨s, decide (q < 0), rfl, rfl, rfl⟩
  | .fin q _ _, .zero s, _ => ⟨decide (q < 0), s, rfl, rfl, congrArg some (by cases s <;> cases decide (q < 0) <;> rfl)⟩
  | .fin a _ ha, .fin b _ hb, _ => ⟨_, _, rfl, rfl, (sign_round (div_ne_zero ha hb) _).trans (congrArg some (sign_quot ha hb))⟩

/-! ## C145 -/

theorem windsZ_eq (b : Build) : ∀ (acts : List ActZ) (c : AdhocCodec),
    (windsZ b c acts).map (List.map fun r => (r.1.map erase, r.2)) = winds b c (acts.map ActZ.erase)
  | [], _ => rfl
  | .read buf :: acts, c => by
    show (c.decodeZ b buf >>= _).map _ = c.decode b (buf.map erase) >>= _
    rw [← decodeZ_eq, map_bindZ, bind_mapZ]
    refine congrArg _ (funext ?_)
    rintro ⟨c', out, n⟩
    dsimp only
    rw [← windsZ_eq b acts c', map_bindZ, bind_mapZ]
    rfl
  | .seek ms :: acts, c => by
    show (c.seek b (.start ms) >>= _).map _ = c.seek b (.start ms) >>= _
    rw [map_bindZ]
    exact congrArg _ (funext fun c' => windsZ_eq b acts c')

/-- what a call leaves in a buffer, when the scale is `s` -/
theorem decodeZ_zeros {b : Build} {c c' : AdhocCodec} {buf out : List Z32} {n : Option Nat} (h : c.decodeZ b buf = .ok (c', out, n)) {s : ℚ} (hs : F32.Is c.scale s)
    (h1 : 1 ≤ |s|) :
    c'.scale = c.scale ∧ (∀ i < n.getD 0, ∀ t, out[i]? = some (.zero t) → t = decide (s < 0)) ∧ ∀ i ≥ n.getD 0, out[i]? = buf[i]?.map (· * plain c.scale) := by
  obtain ⟨e1, pcm, e2, e3, e4⟩ := ens_decodeZ b c buf _ h
  have e2 : out = pcm.map (· * plain c.scale) := e2
  have e3 : ∀ i < n.getD 0, pcm[i]? ≠ some (.zero true) := e3
  have e4 : ∀ i ≥ n.getD 0, pcm[i]? = buf[i]? := e4
  refine ⟨e1, ?_, ?_⟩
  · intro i hi t ht
    obtain ⟨hr, hs⟩ := hs
    have hs0 : s ≠ 0 := by intro e; rw [e] at h1; norm_num at h1
    have hp : plain c.scale = .fin s hr hs0 := by rw [hs]; exact dif_neg hs0
    rw [e2, List.getElem?_map, hp] at ht
    cases hx : pcm[i]? with
    | none => rw [hx] at ht; cases ht
    | some x =>
      rw [hx] at ht
      obtain ⟨u, rfl, hu⟩ := mul_zero_iff h1 hr hs0 (Option.some.inj ht)
      cases u with
      | false => rw [hu]; simp
      | true => exact absurd hx (e3 i hi)
  · intro i hi
    rw [e2, List.getElem?_map, e4 i hi]

theorem windsZ_zeros {b : Build} {s : ℚ} (h1 : 1 ≤ |s|) : ∀ (acts : List ActZ) (c : AdhocCodec) (_ : F32.Is c.scale s) (outs : List (List Z32 × Option Nat))
    (_ : windsZ b c acts = .ok outs), ∀ r ∈ outs, ∀ i < r.2.getD 0, ∀ t, r.1[i]? = some (.zero t) → t = decide (s < 0)
  | [], _, _, outs, h => by cases h; simp
  | .read buf :: acts, c, hs, outs, h => by
    obtain ⟨⟨c', out, n⟩, h2, h⟩ := bind_eq_ok.1 h
    obtain ⟨outs', h3, h⟩ := bind_eq_ok.1 h
    cases h
    obtain ⟨e1, e2, -⟩ := decodeZ_zeros h2 hs h1
    intro r hr
    rcases List.mem_cons.1 hr with rfl | hr
    · exact e2
    · exact windsZ_zeros h1 acts c' (by rw [e1]; exact hs) outs' h3 r hr
  | .seek ms :: acts, c, hs, outs, h => by
    obtain ⟨c', h2, h⟩ := bind_eq_ok.1 h
    exact windsZ_zeros h1 acts c' (by rw [ens_scale_seek b c _ c' h2]; exact hs) outs h

/-- C145, encoding. Recording does not see the sign of a zero: with samples in which `-0.0` and `+0.0` are told apart, every step of `encode` done with them, the
codec that comes out is the one the model, which has one zero, gives. So recordings that differ only in signs of zeros are the same. -/
theorem C145_encode (b : Build) (c : AdhocCodec) (calls : List (List Z32)) : encodeAllZ b c calls = encodeAll b c (calls.map (List.map erase)) := by
  unfold encodeAllZ encodeAll
  rw [List.foldlM_map]
  simp only [encodeZ_eq]

/-- C145, encoding as WAV -/
theorem C145_wav_encode (w : WavCodec) (xs : List Z32) : w.encodeZ xs = w.encode (xs.map erase) := w.encodeZ_eq xs

/-- C145, playing. Reading and seeking as in the model, except that the zeros have signs. -/
theorem C145_decode (b : Build) (c : AdhocCodec) (acts : List ActZ) :
    (windsZ b c acts).map (List.map fun r => (r.1.map erase, r.2)) = winds b c (acts.map ActZ.erase) := windsZ_eq b acts c

/-- C145, the samples that are kept between calls. What the frame decoder puts in the buffers of the channels is never `-0.0`. -/
theorem C145_buffered (k : Int) : FrameCodec.rawZ k = plain (normalizeSample k) ∧
    FrameCodec.decodedZ k = plain ((normalizeSample k).clamp (F32.ofInt (-1)) (F32.ofInt 1)) ∧ FrameCodec.rawZ k ≠ .zero true ∧ FrameCodec.decodedZ k ≠ .zero true :=
  ⟨rawZ_eq k, decodedZ_eq k, rawZ_eq k ▸ plainZ_ne _, decodedZ_eq k ▸ plainZ_ne _⟩

theorem ens_scale_encode (b : Build) (c : AdhocCodec) (pcm : List F32) : Ens (c.encode b pcm) fun r => r.1.scale = c.scale := by
  unfold AdhocCodec.encode AdhocCodec.encodeRaw
  dsimp only
  refine Ens.bind (P := fun c' => c'.scale = c.scale) ((Ens.any _).bind fun info _ => (Ens.any _).bind fun q _ => ?_) fun c' h => .ok h
  refine Ens.foldlM (fun c' ch h => ?_) _ c rfl
  unfold AdhocCodec.encodeChannel
  refine (Ens.any _).bind fun xs _ => (Ens.any _).bind ?_
  rintro ⟨seq, ys⟩ _
  refine (Ens.any _).bind fun fc _ => (Ens.any _).bind ?_
  rintro ⟨fc', st, hd⟩ _
  exact (Ens.any _).bind fun chs _ => .ok h

theorem load_sign {b : Build} {bytes : List Byte} {c : AdhocCodec} (h : AdhocCodec.load b bytes = .ok (some c)) :
    ∃ s, F32.Is c.scale s ∧ 1 ≤ |s| ∧ decide (s < 0) = decide (c.compressionLevel % 32 = 31) := by
  unfold AdhocCodec.load at h
  split at h
  · cases h
  · rename_i slim rest _
    obtain ⟨s, hs, h⟩ := bind_eq_ok.1 h
    dsimp only at h
    split at h
    · cases h
    · cases h
      have hs : s = asI 32 (2 ^ (slim.compressionLevel % 32)) := by
        unfold AdhocCodec.shl1 at hs
        split at hs
        · rw [Nat.mod_eq_of_lt (by assumption)]
          exact (Except.ok.inj hs).symm
        · cases b with
          | debug => cases hs
          | release => exact (Except.ok.inj hs).symm
      show ∃ v, F32.Is (F32.ofInt s) v ∧ 1 ≤ |v| ∧ decide (v < 0) = decide (slim.compressionLevel % 32 = 31)
      have hk := Nat.mod_lt slim.compressionLevel (show 0 < 32 by norm_num)
      generalize slim.compressionLevel % 32 = k at *
      have hg : Rep ((2 : ℚ) ^ k) := rep_pow (by omega)
      have hP : (1 : ℚ) ≤ 2 ^ k := one_le_pow₀ (by norm_num)
      by_cases h31 : k = 31
      · have e : s = -2 ^ k := by subst h31; rw [hs]; decide
        refine ⟨-2 ^ k, ⟨hg.neg, ?_⟩, by rw [abs_neg, abs_of_nonneg (by linarith)]; exact hP, ?_⟩
        · rw [e, F32.ofInt]
          push_cast
          exact ofRat_rep _
        · rw [decide_eq_true h31, decide_eq_true (by linarith)]
      · have e : s = 2 ^ k := by
          rw [hs]
          have : k < 31 := by omega
          clear hg hP h31 hs hk
          interval_cases k <;> decide
        refine ⟨2 ^ k, ⟨hg, ?_⟩, by rw [abs_of_nonneg (by linarith)]; exact hP, ?_⟩
        · rw [e, F32.ofInt]
          push_cast
          exact ofRat_rep _
        · rw [decide_eq_false h31, decide_eq_false (by linarith)]

/-- C145, what is delivered by a codec that was made and given a level: no zero among the samples is negative, whatever is recorded before, and whatever is read and
sought. -/
theorem C145_made (b b' : Build) (info : StreamInfo) (level : Nat) (calls : List (List Z32)) (c : AdhocCodec) (h : encodeAllZ b (fresh info level) calls = .ok c)
    (acts : List ActZ) (outs : List (List Z32 × Option Nat)) (ho : windsZ b' c.init acts = .ok outs) :
    ∀ r ∈ outs, ∀ i < r.2.getD 0, r.1[i]? ≠ some (.zero true) := by
  rw [C145_encode] at h
  have key : ∀ (calls : List (List F32)) (c₀ : AdhocCodec), Ens (encodeAll b c₀ calls) fun c => c.scale = c₀.scale := by
    intro calls c₀
    unfold encodeAll
    refine Ens.foldlM (P := fun c => c.scale = c₀.scale) (fun c pcm hc => ?_) calls c₀ rfl
    exact (ens_scale_encode b c pcm).bind fun r hr => .ok (hr.trans hc)
  have hc : c.scale = F32.ofInt (2 ^ min level 10) := key _ _ _ h
  have hr : Rep ((2 : ℚ) ^ min level 10) := rep_pow (by omega)
  have hP : (1 : ℚ) ≤ 2 ^ min level 10 := one_le_pow₀ (by norm_num)
  have hs : F32.Is c.init.scale (2 ^ min level 10) := by
    refine ⟨hr, ?_⟩
    show c.scale = _
    rw [hc, F32.ofInt]
    push_cast
    exact ofRat_rep _
  intro r hr i hi e
  have := windsZ_zeros (by rw [abs_of_nonneg (by linarith)]; exact hP) acts c.init hs outs ho r hr i hi true e
  rw [decide_eq_false (by linarith)] at this
  cases this

/-- C145, what is delivered by a codec that was loaded, from any bytes: the zeros are `-0.0` if the level in the file is 31 modulo 32, and else `+0.0`. -/
theorem C145_loaded (b b' : Build) (bytes : List Byte) (c : AdhocCodec) (h : AdhocCodec.load b bytes = .ok (some c))
    (acts : List ActZ) (outs : List (List Z32 × Option Nat)) (ho : windsZ b' c acts = .ok outs) :
    ∀ r ∈ outs, ∀ i < r.2.getD 0, ∀ t, r.1[i]? = some (.zero t) → t = decide (c.compressionLevel % 32 = 31) := by
  obtain ⟨s, hs, h1, e⟩ := load_sign h
  rw [← e]
  exact windsZ_zeros h1 acts c hs outs ho

/-- C145, the rest of a buffer. What a read does not fill is multiplied with the scale of the codec, and so a `-0.0` there stays `-0.0` if the scale is positive. -/
theorem C145_rest (b : Build) (c c' : AdhocCodec) (buf out : List Z32) (n : Option Nat) (h : c.decodeZ b buf = .ok (c', out, n)) :
    ∀ i ≥ n.getD 0, out[i]? = buf[i]?.map (· * plain c.scale) := by
  obtain ⟨-, pcm, e2, -, e4⟩ := ens_decodeZ b c buf _ h
  have e2 : out = pcm.map (· * plain c.scale) := e2
  have e4 : ∀ i ≥ n.getD 0, pcm[i]? = buf[i]? := e4
  intro i hi
  rw [e2, List.getElem?_map, e4 i hi]

/-- C145, reading a WAV codec: as in the model except that the zeros have signs, no sample that is delivered is `-0.0`, and the rest of the buffer stays as it is. -/
theorem C145_wav_decode (w : WavCodec) (buf : List Z32) :
    (w.decodeZ buf).map (fun r => (r.1, r.2.1.map erase, r.2.2)) = w.decode (buf.map erase) ∧
      ∀ w' out n, w.decodeZ buf = .ok (w', out, n) → (∀ i < n.getD 0, out[i]? ≠ some (.zero true)) ∧ ∀ i ≥ n.getD 0, out[i]? = buf[i]? := by
  refine ⟨w.decodeZ_eq buf, ?_⟩
  intro w' out n h
  unfold WavCodec.decodeZ at h
  obtain ⟨q, -, h⟩ := bind_eq_ok.1 h
  obtain ⟨⟨cur, out', k⟩, h2, h⟩ := bind_eq_ok.1 h
  cases h
  have := WavCodec.ens_decodeLoopZ (buf := buf) _ _ _ _ _ buf 0 (fun i h => absurd h (Nat.not_lt_zero i)) (fun _ _ => rfl) _ h2
  have e : (if k > 0 then some k else none : Option Nat).getD 0 = k := by
    split
    · rfl
    · simp only [Option.getD_none]
      omega
  rw [e]
  exact this

/-- C145, the other places with `f32`: widening of 8-bit samples and the offsets of seeks -/
theorem C145_other (x : Byte) (info : StreamInfo) (dt : Int) (ms : Nat) :
    WavCodec.convert8Z x = WavCodec.convert8 x ∧ WavCodec.seekOffsetZ info dt = WavCodec.seekOffset info dt ∧ AdhocCodec.seekOffsetZ info ms = AdhocCodec.seekOffset info ms :=
  ⟨WavCodec.convert8Z_eq x, WavCodec.seekOffsetZ_eq info dt, seekOffsetZ_eq info ms⟩

theorem rep_mult {a : ℚ} (h : Rep a) : ∃ m : ℤ, a = m * (2 : ℚ) ^ (-149 : ℤ) := by
  obtain ⟨n, e, -, he, rfl, -⟩ := h
  refine ⟨n * 2 ^ (e + 149).toNat, ?_⟩
  push_cast
  rw [mul_assoc, ← zpow_natCast, ← zpow_add₀ (by norm_num)]
  congr 2
  omega

theorem rep_least : Rep ((2 : ℚ) ^ (-149 : ℤ)) := ⟨1, -149, by norm_num, by norm_num, by push_cast; ring, by
  rw [abs_of_pos (by positivity)]; norm_num⟩

theorem roundQ_add_ne {a b : ℚ} (ha : Rep a) (hb : Rep b) (h : a + b ≠ 0) : roundQ (a + b) ≠ 0 := by
  obtain ⟨m, rfl⟩ := rep_mult ha
  obtain ⟨n, rfl⟩ := rep_mult hb
  have e : (m : ℚ) * 2 ^ (-149 : ℤ) + n * 2 ^ (-149 : ℤ) = 2 ^ (-149 : ℤ) * ((m + n : ℤ) : ℚ) := by push_cast; ring
  rw [e] at h ⊢
  refine roundQ_mul_ne rep_least (by positivity) ?_
  have h0 : m + n ≠ 0 := by intro e; rw [e] at h; simp at h
  have := Int.one_le_abs h0
  exact_mod_cast this

theorem add_negZero : ∀ x y : Z32, x + y = .zero true → x = .zero true ∧ y = .zero true
  | .nan, .nan, h => by cases h
  | .nan, .inf _, h => by cases h
  | .nan, .zero _, h => by cases h
  | .nan, .fin _ _ _, h => by cases h
  | .inf _, .nan, h => by cases h
  | .zero _, .nan, h => by cases h
  | .fin _ _ _, .nan, h => by cases h
  | .inf s, .inf t, h => by
    have h : (if s = t then Z32.inf s else .nan) = .zero true := h
    split at h <;> cases h
  | .inf _, .zero _, h => by cases h
  | .inf _, .fin _ _ _, h => by cases h
  | .zero _, .inf _, h => by cases h
  | .fin _ _ _, .inf _, h => by cases h
  | .zero s, .zero t, h => by
    have h : Z32.zero (s && t) = .zero true := h
    injection h with h
    rw [Bool.and_eq_true] at h
    exact ⟨by rw [h.1], by rw [h.2]⟩
  | .zero _, .fin _ _ _, h => by cases h
  | .fin _ _ _, .zero _, h => by cases h
  | .fin a ha _, .fin b hb _, h => by
    have h : Z32.round (a + b) false = .zero true := h
    by_cases h0 : a + b = 0
    · unfold Z32.round at h
      rw [if_pos h0] at h
      cases h
    · exact absurd h (round_ne_zero h0 (roundQ_add_ne ha hb h0) _)

/-- C145, the arithmetic: the sign bit of a product or a quotient that is a number is that of the one times that of the other, a sum is `-0.0` only if both terms are, and a finite
number less itself is `+0.0`. -/
theorem C145_signs (x y : Z32) :
    (x * y ≠ .nan → ∃ s t, signBit x = some s ∧ signBit y = some t ∧ signBit (x * y) = some (s != t)) ∧
      (x / y ≠ .nan → ∃ s t, signBit x = some s ∧ signBit y = some t ∧ signBit (x / y) = some (s != t)) ∧ (x + y = .zero true ↔ x = .zero true ∧ y = .zero true) ∧
      ((∃ q h h0, x = .fin q h h0) ∨ (∃ s, x = .zero s) → x - x = .zero false) := by
  refine ⟨sign_mul x y, sign_div x y, ⟨add_negZero x y, ?_⟩, ?_⟩
  · rintro ⟨rfl, rfl⟩
    rfl
  · rintro (⟨q, h, h0, rfl⟩ | ⟨s, rfl⟩)
    · show Z32.round (q + -q) false = _
      unfold Z32.round
      rw [if_pos (by ring)]
    · cases s <;> rfl

theorem convInnerZ_eq (samples kernel : List Z32) (i : Nat) : ∀ (js : List Nat) (sum : Z32),
    (Signal.convInnerZ samples kernel i js sum).map erase = Signal.convInner (samples.map erase) (kernel.map erase) i js (erase sum)
  | [], _ => rfl
  | j :: js, sum => by
    rw [Signal.convInnerZ, Signal.convInner]
    dsimp only
    rw [List.length_map, List.length_map]
    split
    · rw [← erase_ofInt 0, pure_bind, pure_bind, map_bindZ, idx_mapZ, bind_mapZ]
      refine congrArg _ (funext fun k => ?_)
      rw [← erase_mul, ← erase_add]
      exact convInnerZ_eq samples kernel i js _
    · rw [map_bindZ, idx_mapZ, bind_mapZ]
      refine congrArg _ (funext fun s => ?_)
      rw [map_bindZ, idx_mapZ, bind_mapZ]
      refine congrArg _ (funext fun k => ?_)
      rw [← erase_mul, ← erase_add]
      exact convInnerZ_eq samples kernel i js _

theorem ens_convInnerZ (samples kernel : List Z32) (i : Nat) : ∀ (js : List Nat) (sum : Z32) (_ : sum ≠ .zero true),
    Ens (Signal.convInnerZ samples kernel i js sum) fun y => y ≠ .zero true
  | [], _, h => .ok h
  | j :: js, sum, h => by
    rw [Signal.convInnerZ]
    dsimp only
    split <;> exact (Ens.any _).bind fun s _ => (Ens.any _).bind fun k _ => ens_convInnerZ samples kernel i js _ fun e => h (add_negZero _ _ e).1

/-- C145, convolution: as in the model, and no sample it computes is `-0.0`. -/
theorem C145_convolve (samples kernel result : List Z32) :
    (Signal.convolve1dZ samples kernel result).map (List.map erase) = Signal.convolve1d (samples.map erase) (kernel.map erase) (result.map erase) ∧
      ∀ out, Signal.convolve1dZ samples kernel result = .ok out → ∀ i < samples.length, out[i]? ≠ some (.zero true) := by
  constructor
  · unfold Signal.convolve1dZ Signal.convolve1d
    rw [List.length_map, List.length_map]
    generalize List.range samples.length = l
    induction l generalizing result with
    | nil => rfl
    | cons i l ih =>
      rw [List.foldlM_cons, List.foldlM_cons, ← erase_ofInt 0, ← convInnerZ_eq, bind_assoc, bind_assoc, bind_mapZ, map_bindZ]
      refine congrArg _ (funext fun sum => ?_)
      rw [setIdx_mapZ, map_bindZ, bind_mapZ]
      refine congrArg _ (funext fun r => ?_)
      rw [← erase_ofInt 0] at ih
      exact ih r
  · intro out h
    have key : ∀ (n : Nat) (r out : List Z32), (List.range n).foldlM (fun result i => do
        let sum ← Signal.convInnerZ samples kernel i (List.range kernel.length) (Z32.ofInt 0)
        setIdx result i sum) r = .ok out → ∀ i < n, out[i]? ≠ some (.zero true) := by
      intro n
      induction n with
      | zero => exact fun _ _ _ i h => absurd h (Nat.not_lt_zero i)
      | succ n ih =>
        intro r out h i hi
        rw [List.range_succ, List.foldlM_append] at h
        obtain ⟨r', h1, h⟩ := bind_eq_ok.1 h
        rw [List.foldlM_cons] at h
        obtain ⟨r'', h2, h⟩ := bind_eq_ok.1 h
        cases h
        obtain ⟨sum, h3, h2⟩ := bind_eq_ok.1 h2
        obtain ⟨hlt, rfl⟩ := setIdx_eq_ok.1 h2
        by_cases e : i = n
        · subst e
          rw [List.getElem?_set_self hlt]
          exact fun e => ens_convInnerZ samples kernel i _ _ (ofInt_ne_negZero 0) _ h3 (Option.some.inj e)
        · rw [List.getElem?_set_ne (Ne.symm e)]
          exact ih r r' h1 i (by omega)
    exact key _ _ _ h

/-! ## cases -/

/-- `-0.0` convolved with 1 is `+0.0` -/
example : Signal.convolve1dZ [.zero true, Z32.ofInt 2] [Z32.ofInt 1] [.nan, .nan] = .ok [.zero false, Z32.ofInt 2] := by decide +kernel

/-- three samples, two of them `-0.0`, mono: the file is that of three times `+0.0` -/
example : ((encodeAllZ .debug (fresh ⟨8000, 1⟩ 2) [[.zero true, .zero false, .zero true]]).map fun c => c.encPieces.flatten) =
    (encodeAll .debug (fresh ⟨8000, 1⟩ 2) [[F32.ofInt 0, F32.ofInt 0, F32.ofInt 0]]).map fun c => c.encPieces.flatten := by decide +kernel

/-- read back with a buffer of five times `-0.0`: three samples are delivered, as `+0.0`, and two `-0.0` stay -/
example : (do let c ← encodeAllZ .debug (fresh ⟨8000, 1⟩ 0) [[.zero true, .zero false, .zero true]]
              windsZ .debug c.init [.read (List.replicate 5 (.zero true))]) =
    .ok [([.zero false, .zero false, .zero false, .zero true, .zero true], some 3)] := by decide +kernel

/-- a file with level 31: the scale is -2^31, and silence is delivered as `-0.0` -/
example : (do let c ← encodeAllZ .debug (fresh ⟨8000, 1⟩ 0) [[.zero true, .zero false, .zero true]]
              let c? ← AdhocCodec.load .debug { c with compressionLevel := 31 }.encPieces.flatten
              match c? with
              | some c => windsZ .debug c [.read (List.replicate 5 (.zero true))]
              | none => .error .expect) =
    .ok [([.zero true, .zero true, .zero true, .zero false, .zero false], some 3)] := by decide +kernel

/-- a WAV file of silence -/
example : (do let (w, _) ← (WavCodec.new ⟨8000, 1⟩).encodeZ [.zero true, .zero false]
              let (_, out, n) ← { w with shortCursor := 0 }.decodeZ (List.replicate 3 (.zero true))
              pure (out, n)) = (.ok ([.zero false, .zero false, .zero true], some 2) : R _) := by decide +kernel

/-- signs of products and sums -/
example : Z32.zero true * Z32.ofInt (-2) = .zero false ∧ Z32.zero false * Z32.ofInt (-2) = .zero true ∧ Z32.zero true + Z32.zero false = .zero false ∧
    Z32.zero true + Z32.zero true = .zero true ∧ Z32.ofInt 3 - Z32.ofInt 3 = .zero false := by decide +kernel

end Adhoc
