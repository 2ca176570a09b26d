import Verif.Proofs.Alike
import Verif.Props.RoundTrip
import Verif.Props.Samples

/-! # C71: encoding what was decoded, again and again -/

namespace Adhoc
open Spec F32

/-- the same 16-bit code -/
def SameCode (x y : F32) : Prop := truncateSample x = truncateSample y

theorem costTable_codes {b : Build} : ∀ {xs ys : List F32} (_ : List.Forall₂ SameCode xs ys) (h : CircularStack Int) (t : List Nat),
    FrameCodec.costTable b h xs t = FrameCodec.costTable b h ys t
  | _, _, .nil, _, _ => rfl
  | x :: xs, y :: ys, .cons e H, h, t => by
    unfold FrameCodec.costTable
    unfold SameCode at e
    rw [e]
    dsimp only
    congr 1
    funext t'
    exact costTable_codes H _ _

theorem exponent_codes {b : Build} {xs ys : List F32} (H : List.Forall₂ SameCode xs ys) (h : CircularStack Int) :
    FrameCodec.computeOptimalDivisorExponent b h xs = FrameCodec.computeOptimalDivisorExponent b h ys := by
  unfold FrameCodec.computeOptimalDivisorExponent
  rw [costTable_codes H]

theorem encodeSamples_codes {b : Build} {k : Nat} : ∀ {xs ys : List F32} (_ : List.Forall₂ SameCode xs ys) (s : BitStream) (h : CircularStack Int),
    FrameCodec.encodeSamples b k s h xs = FrameCodec.encodeSamples b k s h ys
  | _, _, .nil, _, _ => rfl
  | x :: xs, y :: ys, .cons e H, s, h => by
    unfold FrameCodec.encodeSamples
    unfold SameCode at e
    rw [e]
    dsimp only
    exact bind_congr fun a => bind_congr fun s' => encodeSamples_codes H _ _

theorem forall₂_drop {α : Type} {P : α → α → Prop} : ∀ {l l' : List α} (_ : List.Forall₂ P l l') (n : Nat), List.Forall₂ P (l.drop n) (l'.drop n)
  | _, _, h, 0 => h
  | _, _, .nil, _ + 1 => by simp
  | _, _, .cons _ t, n + 1 => by simpa using forall₂_drop t n

theorem encodeFrame_codes {b : Build} {xs ys : List F32} (H : List.Forall₂ SameCode xs ys) (c : FrameCodec) (st : AudioStream) (hd : FrameHeaders) :
    c.encodeFrame b st hd xs = c.encodeFrame b st hd ys := by
  have key : Same (c.encodeFrame b st hd xs) (c.encodeFrame b st hd ys) Eq := by
    unfold FrameCodec.encodeFrame
    have hl := H.length_eq
    cases c.state with
    | init =>
      dsimp only
      refine (same_idx H 0).bind fun a a' h => ?_
      unfold SameCode at h
      rw [h]
      refine (Same.refl _).bind ?_
      rintro s _ rfl
      refine (same_idx H 1).bind fun a1 a1' h1 => ?_
      unfold SameCode at h1
      rw [h1]
      refine (Same.refl _).bind ?_
      rintro s1 _ rfl
      refine (same_idx H 2).bind fun a2 a2' h2 => ?_
      unfold SameCode at h2
      rw [h2, hl, exponent_codes (forall₂_drop H 3)]
      refine (Same.refl _).bind ?_
      rintro s2 _ rfl
      refine (Same.refl _).bind ?_
      rintro k _ rfl
      refine (Same.refl _).bind ?_
      rintro hd _ rfl
      rw [encodeSamples_codes (forall₂_drop H 3)]
      exact Same.refl _
    | encoding =>
      dsimp only
      rw [hl, exponent_codes H]
      refine (Same.refl _).bind ?_
      rintro k _ rfl
      rw [encodeSamples_codes H]
      exact Same.refl _
    | decoding => exact Same.refl _
  rcases key with ⟨e, h1, h2⟩ | ⟨a, a', h1, h2, rfl⟩ <;> rw [h1, h2]

theorem dither_codes {b : Build} : ∀ {xs ys : List F32} (_ : List.Forall₂ SameCode xs ys) {s : PseudoRandom} (_ : s.sequence < 507961),
    ∃ s', s'.sequence < 507961 ∧ AdhocCodec.dither b (ofInt 1) s xs = .ok (s', xs) ∧ AdhocCodec.dither b (ofInt 1) s ys = .ok (s', ys)
  | _, _, .nil, s, h => ⟨s, h, rfl, rfl⟩
  | x :: xs, y :: ys, .cons _ H, s, h => by
    obtain ⟨r1, r, n, m, e, hr, hm, hn, -⟩ := triangle_ok (b := b) h
    obtain ⟨s', hs', e1, e2⟩ := dither_codes H (s := { sequence := r }) hr
    refine ⟨s', hs', ?_, ?_⟩
    · unfold AdhocCodec.dither
      rw [e, bind_ok]
      dsimp only
      rw [e1, bind_ok]
      dsimp only
      rw [dithered_one (x := x) ⟨n, m, hm, hn, rfl⟩]
      rfl
    · unfold AdhocCodec.dither
      rw [e, bind_ok]
      dsimp only
      rw [e2, bind_ok]
      dsimp only
      rw [dithered_one (x := y) ⟨n, m, hm, hn, rfl⟩]
      rfl

/-- a level 0 codec: what encoding keeps -/
def LevelZero (c : AdhocCodec) : Prop := c.invScale = ofInt 1 ∧ c.seq.sequence < 507961

theorem same_mapM {α β : Type} {f g : α → R β} {P : β → β → Prop} (h : ∀ a, Same (f a) (g a) P) : ∀ l : List α,
    Same (l.mapM f) (l.mapM g) (List.Forall₂ P)
  | [] => by
    rw [List.mapM_nil, List.mapM_nil]
    exact Same.ok .nil
  | a :: l => by
    rw [List.mapM_cons, List.mapM_cons]
    refine (h a).bind fun x y hxy => ?_
    refine (same_mapM h l).bind fun xs ys hs => ?_
    exact Same.ok (.cons hxy hs)

theorem same_encodeChannel {b : Build} {pcm pcm' : List F32} (H : List.Forall₂ SameCode pcm pcm') {n m ch : Nat} {c : AdhocCodec} (hc : LevelZero c) :
    Same (c.encodeChannel b pcm n m ch) (c.encodeChannel b pcm' n m ch) fun d d' => d = d' ∧ LevelZero d := by
  unfold AdhocCodec.encodeChannel
  refine Same.bind (P := List.Forall₂ SameCode) (same_mapM (fun k => same_idx H _) _) fun xs ys hxy => ?_
  obtain ⟨s', hs', e1, e2⟩ := dither_codes (b := b) hxy hc.2
  rw [hc.1, e1, e2, bind_ok, bind_ok]
  dsimp only
  refine (Same.refl _).bind ?_
  rintro fc _ rfl
  rw [encodeFrame_codes hxy]
  refine (Same.refl _).bind ?_
  rintro ⟨fc', st, hd⟩ _ rfl
  dsimp only
  refine (Same.refl _).bind ?_
  rintro chs _ rfl
  exact Same.ok ⟨rfl, rfl, hs'⟩

theorem same_encode {b : Build} {pcm pcm' : List F32} (H : List.Forall₂ SameCode pcm pcm') {c : AdhocCodec} (hc : LevelZero c) :
    Same (c.encode b pcm) (c.encode b pcm') fun d d' => d = d' ∧ LevelZero d.1 := by
  unfold AdhocCodec.encode AdhocCodec.encodeRaw
  rw [H.length_eq]
  refine Same.bind (P := fun d d' => d = d' ∧ LevelZero d) ?_ ?_
  · refine (Same.refl _).bind ?_
    rintro info _ rfl
    dsimp only
    refine (Same.refl _).bind ?_
    rintro m _ rfl
    refine Same.foldlM (fun d d' ch h => ?_) _ _ _ ⟨rfl, hc⟩
    obtain ⟨rfl, h⟩ := h
    exact same_encodeChannel H h
  · rintro d _ ⟨rfl, h⟩
    exact Same.ok ⟨rfl, h⟩

theorem same_encodeAll {b : Build} : ∀ {calls calls' : List (List F32)} (_ : List.Forall₂ (List.Forall₂ SameCode) calls calls') {c : AdhocCodec} (_ : LevelZero c),
    encodeAll b c calls = encodeAll b c calls'
  | _, _, .nil, _, _ => rfl
  | pcm :: calls, pcm' :: calls', .cons h t, c, hc => by
    unfold encodeAll
    rw [List.foldlM_cons, List.foldlM_cons]
    rcases same_encode (b := b) h hc with ⟨e, h1, h2⟩ | ⟨a, a', h1, h2, rfl, h3⟩
    · rw [h1, h2]; rfl
    · rw [h1, h2]
      exact same_encodeAll t h3

theorem levelZero_fresh (info : StreamInfo) : LevelZero (fresh info 0) := by
  refine ⟨(fresh_zero info).2, ?_⟩
  show AdhocCodec.new.seq.sequence < 507961
  decide

/-- one trip through 16 bits: every sample becomes what its code stands for -/
def Spec.generation (calls : List (List F32)) : List (List F32) := calls.map (·.map quantise)

/-- At level 0 the codec sees only the 16-bit codes: two recordings whose calls hold the same codes, call by call, leave the codec in the
same state, stream, headers and all, or panic alike. -/
theorem C71_codes_only (b : Build) (info : StreamInfo) (calls calls' : List (List F32))
    (h : calls.map (·.map truncateSample) = calls'.map (·.map truncateSample)) :
    encodeAll b (fresh info 0) calls = encodeAll b (fresh info 0) calls' := by
  have go1 : ∀ (l l' : List F32), l.map truncateSample = l'.map truncateSample → List.Forall₂ SameCode l l' := by
    intro l
    induction l with
    | nil => intro l' h; cases l' with
      | nil => exact .nil
      | cons => simp at h
    | cons a l ih => intro l' h; cases l' with
      | nil => simp at h
      | cons a' l' =>
        rw [List.map_cons, List.map_cons, List.cons.injEq] at h
        exact .cons h.1 (ih _ h.2)
  have go : ∀ (l l' : List (List F32)), l.map (·.map truncateSample) = l'.map (·.map truncateSample) → List.Forall₂ (List.Forall₂ SameCode) l l' := by
    intro l
    induction l with
    | nil => intro l' h; cases l' with
      | nil => exact .nil
      | cons => simp at h
    | cons a l ih => intro l' h; cases l' with
      | nil => simp at h
      | cons a' l' =>
        rw [List.map_cons, List.map_cons, List.cons.injEq] at h
        exact .cons (go1 _ _ h.1) (ih _ h.2)
  exact same_encodeAll (go _ _ h) (levelZero_fresh info)

theorem quantise_settles (x : F32) : truncateSample (quantise (quantise x)) = truncateSample (quantise x) :=
  again_again (i := truncateSample x) ((code_abs (x := x)).trans (by norm_num))

theorem generation_settles (calls : List (List F32)) : generation (generation (generation calls)) = generation (generation calls) := by
  unfold generation
  simp only [List.map_map]
  congr 1
  funext l
  simp only [Function.comp_apply, List.map_map]
  congr 1
  funext x
  show normalizeSample (truncateSample (quantise (quantise x))) = normalizeSample (truncateSample (quantise x))
  rw [quantise_settles]

/-! decoding with buffers cut like the calls -/

theorem blocksOf_flatten {n : Nat} (hn : 0 < n) (xs : List F32) (h : n ∣ xs.length) : (blocksOf n xs).flatten = xs := by
  obtain ⟨k, hk⟩ := h
  unfold blocksOf
  rw [hk, Nat.mul_div_cancel_left _ hn]
  have key : ∀ m ≤ k, ((List.range m).map fun k => (xs.drop (k * n)).take n).flatten = xs.take (m * n) := by
    intro m
    induction m with
    | zero => intro _; simp
    | succ m ih =>
      intro hm
      rw [List.range_succ, List.map_append, List.flatten_append, ih (by omega), Nat.succ_mul, List.take_add]
      simp
  rw [key k le_rfl, List.take_of_length_le (by rw [hk, Nat.mul_comm])]

theorem blocksOf_map (n : Nat) (f : F32 → F32) (xs : List F32) : (blocksOf n xs).map (·.map f) = blocksOf n (xs.map f) := by
  unfold blocksOf
  rw [List.map_map, List.length_map]
  congr 1
  funext k
  simp [List.map_take, List.map_drop]

theorem signal_map (n : Nat) (f : F32 → F32) (calls : List (List F32)) :
    (signal n calls).map (·.map f) = signal n (calls.map (·.map f)) := by
  unfold signal
  rw [List.map_flatMap, List.flatMap_map]
  congr 1
  funext xs
  exact blocksOf_map n f xs

theorem readBlocks_calls {n : Nat} (hn : 0 < n) : ∀ (calls bufs : List (List F32)) (_ : ∀ pcm ∈ calls, n ∣ pcm.length)
    (_ : bufs.map List.length = calls.map List.length), (readBlocks n (signal n calls) bufs).map (·.1) = calls
  | [], bufs, _, h => by
    have : bufs = [] := by simpa using h
    subst this
    rfl
  | pcm :: calls, [], _, h => by simp at h
  | pcm :: calls, buf :: bufs, hd, h => by
    rw [List.map_cons, List.map_cons, List.cons.injEq] at h
    have hb : (blocksOf n pcm).length = pcm.length / n := by simp [blocksOf]
    have hs : signal n (pcm :: calls) = blocksOf n pcm ++ signal n calls := by simp [signal]
    have hm : min (buf.length / n) (signal n (pcm :: calls)).length = (blocksOf n pcm).length := by
      rw [hs, List.length_append, h.1, hb]
      omega
    rw [readBlocks_cons, hm, hs, List.take_left, List.drop_left, List.map_cons, readBlocks_calls hn calls bufs (fun p hp => hd p (by simp [hp])) h.2,
      blocksOf_flatten hn pcm (hd pcm (by simp)), hb, Nat.div_mul_cancel (hd pcm (by simp)), List.drop_of_length_le h.1.le, List.append_nil]

theorem proper_generation {n : Nat} {calls : List (List F32)} (h : Proper n calls) : Proper n (generation calls) := by
  obtain ⟨h1, h2, h3⟩ := h
  refine ⟨?_, ?_, ?_⟩
  · cases calls with
    | nil => simp [generation]
    | cons a l => simpa [generation] using h1
  · intro pcm hp
    obtain ⟨p, hq, rfl⟩ := List.mem_map.1 hp
    simpa using h2 p hq
  · unfold generation
    rw [List.map_map]
    have : (fun pcm : List F32 => pcm.length / n) ∘ (fun l : List F32 => l.map quantise) = fun pcm => pcm.length / n := by
      funext l
      simp
    rw [this]
    exact h3

/-- C71. Record a signal at level 0, play it into buffers cut like the calls, record what came out, play that, and record it once more.
If the first two recordings are in sync, then the second playback is the third, and the third recording is the second one exactly. -/
theorem C71_generations (b b' : Build) (info : StreamInfo) (hn : 0 < info.channels) (calls : List (List F32)) (hp : Proper info.channels calls)
    (hd : ∀ pcm ∈ calls, info.channels ∣ pcm.length)
    (h1 : ∀ ch < info.channels, InSync (Spec.codes ch (signal info.channels calls)))
    (h2 : ∀ ch < info.channels, InSync (Spec.codes ch (signal info.channels (generation calls))))
    (bufs : List (List F32)) (hb : bufs.map List.length = calls.map List.length) :
    ∃ c₁ c₂ d₁ d₂ outs₁ outs₂, encodeAll b (fresh info 0) calls = .ok c₁ ∧ decodeAll b' c₁.init bufs = .ok (d₁, outs₁) ∧
      encodeAll b (fresh info 0) (outs₁.map (·.1)) = .ok c₂ ∧ decodeAll b' c₂.init bufs = .ok (d₂, outs₂) ∧
      encodeAll b (fresh info 0) (outs₂.map (·.1)) = .ok c₂ ∧
      outs₁.map (·.1) = generation calls ∧ outs₂.map (·.1) = generation (outs₁.map (·.1)) := by
  have hlen : ∀ l : List (List F32), (generation l).map List.length = l.map List.length := by
    intro l
    unfold generation
    rw [List.map_map]
    congr 1
    funext x
    simp
  have hd' : ∀ pcm ∈ generation calls, info.channels ∣ pcm.length := by
    intro pcm hp
    obtain ⟨p, hq, rfl⟩ := List.mem_map.1 hp
    simpa using hd p hq
  have hd'' : ∀ pcm ∈ generation (generation calls), info.channels ∣ pcm.length := by
    intro pcm hp
    obtain ⟨p, hq, rfl⟩ := List.mem_map.1 hp
    simpa using hd' p hq
  obtain ⟨c₁, e1, hd1⟩ := C01_round_trip b b' info hn calls hp h1
  obtain ⟨d₁, f1⟩ := hd1 bufs
  obtain ⟨c₂, e2, hd2⟩ := C01_round_trip b b' info hn (generation calls) (proper_generation hp) h2
  obtain ⟨d₂, f2⟩ := hd2 bufs
  have o1 := readBlocks_calls hn (generation calls) bufs hd' (by rw [hb, hlen])
  have o2 := readBlocks_calls hn (generation (generation calls)) bufs hd'' (by rw [hb, hlen, hlen])
  rw [signal_map] at f1 f2
  refine ⟨c₁, c₂, d₁, d₂, _, _, e1, f1, ?_, f2, ?_, o1, ?_⟩
  · exact (congrArg _ o1).trans e2
  · rw [← e2]
    refine (congrArg _ o2).trans ?_
    refine C71_codes_only b info _ _ ?_
    unfold generation
    simp only [List.map_map]
    congr 1
    funext l
    simp only [Function.comp_apply, List.map_map]
    congr 1
    funext x
    exact quantise_settles x
  · exact o2.trans (congrArg generation o1.symm)

/-- five samples in one call, one of which has a code that slips -/
def slipping : List (List F32) := [[ofRat (1 / 2), ofRat (1 / 4), ofRat (326725 / 327670), ofRat (3 / 4), ofInt 0]]

theorem slipping_codes : Spec.codes 0 (signal 1 slipping) = [16383, 8191, 32672, 24575, 0] ∧
    Spec.codes 0 (signal 1 (generation slipping)) = [16383, 8191, 32671, 24575, 0] := by decide +kernel

/-- the hypotheses of C71 hold for `slipping`, whose second recording differs from the first -/
example : Proper 1 slipping ∧ (∀ pcm ∈ slipping, 1 ∣ pcm.length) ∧ (∀ ch < 1, InSync (Spec.codes ch (signal 1 slipping))) ∧
    (∀ ch < 1, InSync (Spec.codes ch (signal 1 (generation slipping)))) ∧ generation (generation slipping) ≠ generation slipping := by
  refine ⟨⟨by simp [slipping], by simp [slipping], ?_⟩, by simp, ?_, ?_, by decide +kernel⟩
  · intro j
    match j with
    | 0 => exact .inl ⟨0, by simp, by simp [slipping]⟩
    | j + 1 => exact .inr fun t => by simp [slipping, Nat.add_right_comm j 1 t]
  · intro ch hch
    obtain rfl : ch = 0 := by omega
    rw [slipping_codes.1]; exact inSync_of_all (by decide +kernel)
  · intro ch hch
    obtain rfl : ch = 0 := by omega
    rw [slipping_codes.2]; exact inSync_of_all (by decide +kernel)

end Adhoc
