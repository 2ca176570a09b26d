import Verif.Model.Cost
import Verif.Proofs.Terminate
import Verif.Proofs.Values
import Verif.Proofs.Room

/-! # Clocked computations and their bounds -/

namespace Adhoc

/-- the clocked computation `x` does what `y` does; if it succeeds with result `a` after `k` ticks then `Q a k` -/
def Costs {α : Type} (x : Clocked α) (y : R α) (Q : α → Nat → Prop) : Prop :=
  (∀ e, y = .error e → ∀ t, x t = .error e) ∧ ∀ a, y = .ok a → ∃ k, (∀ t, x t = .ok (a, t + k)) ∧ Q a k

/-- at most `m` ticks -/
def Brief {α : Type} (x : Clocked α) (y : R α) (m : Nat) : Prop := Costs x y fun _ k => k ≤ m

namespace Costs

theorem mono {α : Type} {x : Clocked α} {y : R α} {P Q : α → Nat → Prop} (h : Costs x y P) (hpq : ∀ a k, y = .ok a → P a k → Q a k) : Costs x y Q := by
  refine ⟨h.1, fun a ha => ?_⟩
  obtain ⟨k, h1, h2⟩ := h.2 a ha
  exact ⟨k, h1, hpq a k ha h2⟩

theorem bind {α β : Type} {x : Clocked α} {y : R α} {f : α → Clocked β} {g : α → R β} {P : α → Nat → Prop} {Q : β → Nat → Prop}
    (hx : Costs x y P) (hf : ∀ a i, y = .ok a → P a i → Costs (f a) (g a) fun b j => Q b (i + j)) : Costs (x >>= f) (y >>= g) Q := by
  have e : ∀ t, (x >>= f) t = (x t >>= fun p => f p.1 p.2) := fun _ => rfl
  cases y with
  | error p =>
    have h1 := hx.1 p rfl
    refine ⟨fun q hq t => ?_, fun a ha => by cases ha⟩
    cases hq
    rw [e, h1]; rfl
  | ok a =>
    obtain ⟨i, h1, h2⟩ := hx.2 a rfl
    obtain ⟨h3, h4⟩ := hf a i rfl h2
    rw [bind_ok]
    refine ⟨fun q hq t => ?_, fun b hb => ?_⟩
    · rw [e, h1, bind_ok]; exact h3 q hq _
    · obtain ⟨j, h5, h6⟩ := h4 b hb
      exact ⟨i + j, fun t => by rw [e, h1, bind_ok, ← Nat.add_assoc]; exact h5 _, h6⟩

theorem lift {α : Type} {y : R α} {Q : α → Nat → Prop} (h : ∀ a, y = .ok a → Q a 0) : Costs (liftM y : Clocked α) y Q := by
  cases y with
  | error p => exact ⟨fun q hq t => by cases hq; rfl, fun a ha => by cases ha⟩
  | ok a => exact ⟨fun q hq => (by cases hq), fun b hb => ⟨0, fun t => by cases hb; rfl, h b hb⟩⟩

/-- code without loops takes no ticks -/
theorem free {α β : Type} {y : R α} {f : α → Clocked β} {g : α → R β} {Q : β → Nat → Prop}
    (hf : ∀ a, y = .ok a → Costs (f a) (g a) Q) : Costs ((liftM y : Clocked α) >>= f) (y >>= g) Q := by
  refine bind (P := fun _ k => k = 0) (lift fun _ _ => rfl) ?_
  rintro a _ h rfl
  exact (hf a h).mono fun b k _ hb => by rwa [Nat.zero_add]

theorem pure {α : Type} {a : α} {Q : α → Nat → Prop} (h : Q a 0) : Costs (Pure.pure a : Clocked α) (.ok a) Q :=
  ⟨fun q hq => (by cases hq), fun b hb => ⟨0, fun t => by cases hb; rfl, by cases hb; exact h⟩⟩

theorem error {α : Type} {e : Panic} {Q : α → Nat → Prop} : Costs (fun _ => .error e : Clocked α) (.error e) Q :=
  ⟨fun q hq t => by cases hq; rfl, fun a ha => by cases ha⟩

theorem ticks {β : Type} {n : Nat} {f : Unit → Clocked β} {y : R β} {Q : β → Nat → Prop} (h : Costs (f ()) y fun b k => Q b (n + k)) :
    Costs (Adhoc.ticks n >>= f) y Q := by
  have e : ∀ t, (Adhoc.ticks n >>= f) t = f () (t + n) := fun _ => rfl
  refine ⟨fun q hq t => by rw [e]; exact h.1 q hq _, fun b hb => ?_⟩
  obtain ⟨k, h2, h3⟩ := h.2 b hb
  exact ⟨n + k, fun t => by rw [e, h2, Nat.add_assoc], h3⟩

end Costs

namespace Brief

theorem bind {α β : Type} {x : Clocked α} {y : R α} {f : α → Clocked β} {g : α → R β} {m n : Nat}
    (hx : Brief x y m) (hf : ∀ a, y = .ok a → Brief (f a) (g a) n) : Brief (x >>= f) (y >>= g) (m + n) :=
  Costs.bind hx fun a i h hi => Costs.mono (hf a h) fun _ k _ hk => by omega

theorem free {α β : Type} {y : R α} {f : α → Clocked β} {g : α → R β} {n : Nat}
    (hf : ∀ a, y = .ok a → Brief (f a) (g a) n) : Brief ((liftM y : Clocked α) >>= f) (y >>= g) n := Costs.free hf

theorem ticks {β : Type} {n m : Nat} {f : Unit → Clocked β} {y : R β} (h : Brief (f ()) y m) : Brief (Adhoc.ticks n >>= f) y (n + m) :=
  Costs.ticks (Costs.mono h fun _ k _ hk => by omega)

theorem lift {α : Type} {y : R α} : Brief (liftM y : Clocked α) y 0 := Costs.lift fun _ _ => Nat.le_refl 0

theorem pure {α : Type} {a : α} {n : Nat} : Brief (Pure.pure a : Clocked α) (.ok a) n := Costs.pure (Nat.zero_le _)

theorem error {α : Type} {e : Panic} {n : Nat} : Brief (fun _ => .error e : Clocked α) (.error e) n := Costs.error

theorem le {α : Type} {x : Clocked α} {y : R α} {m n : Nat} (h : Brief x y m) (hmn : m ≤ n) : Brief x y n := Costs.mono h fun _ _ _ hk => hk.trans hmn

theorem foldlM {α β : Type} {F : β → α → Clocked β} {f : β → α → R β} {m : Nat} (hf : ∀ c a, Brief (F c a) (f c a) m) :
    ∀ (l : List α) (c : β), Brief (l.foldlM F c) (l.foldlM f c) (m * l.length)
  | [], c => Brief.pure
  | a :: l, c => by
    rw [List.foldlM_cons, List.foldlM_cons]
    refine (Brief.bind (hf c a) fun c' _ => foldlM hf l c').le ?_
    rw [List.length_cons, Nat.mul_add]; omega

end Brief

/-! ## encoding -/

theorem brief_writeUnary : ∀ (fuel : Nat) (s : BitStream) (q : Int), Brief (BitStream.writeUnaryT fuel s q) (BitStream.writeUnary fuel s q) ((q.toNat + 127) / 128)
  | 0, _, _ => Brief.error
  | fuel + 1, s, q => by
    unfold BitStream.writeUnaryT BitStream.writeUnary
    split
    · refine (Brief.ticks (m := (q.toNat + 127) / 128 - 1) ?_).le (by omega)
      split
      · refine Brief.free fun s' _ => (brief_writeUnary fuel s' _).le (by omega)
      · exact Brief.lift.le (by omega)
    · exact Brief.pure

theorem brief_writeCompressed (b : Build) (s : BitStream) (k : Nat) (e : BitVec 16) : Brief (s.writeCompressedT b k e) (s.writeCompressed b k e) 256 := by
  unfold BitStream.writeCompressedT BitStream.writeCompressed
  dsimp only
  refine Brief.free fun a _ => Brief.free fun m _ => Brief.free fun s1 _ => ?_
  refine (Brief.bind (n := 0) (brief_writeUnary _ _ _) fun s2 _ => Brief.free fun s3 _ => Brief.lift).le ?_
  have := BitVec.toInt_lt (x := a.sshiftRight k)
  omega

theorem brief_addCosts (b : Build) (e : Nat) : ∀ (n : Nat) (t : List Nat), Brief (FrameCodec.addCostsT b e n t) (FrameCodec.addCosts b e n t) n
  | 0, _ => Brief.pure
  | n + 1, t => by
    unfold FrameCodec.addCostsT FrameCodec.addCosts
    refine (Brief.ticks (m := n) ?_).le (by omega)
    dsimp only
    exact Brief.free fun _ _ => Brief.free fun _ _ => Brief.free fun _ _ => Brief.free fun _ _ => Brief.free fun _ _ => Brief.free fun t' _ => brief_addCosts b e n t'

theorem brief_costTable (b : Build) : ∀ (xs : List F32) (h : CircularStack Int) (t : List Nat),
    Brief (FrameCodec.costTableT b h xs t) (FrameCodec.costTable b h xs t) (16 * xs.length)
  | [], _, _ => Brief.pure
  | x :: xs, h, t => by
    unfold FrameCodec.costTableT FrameCodec.costTable
    dsimp only
    refine (Brief.ticks (Brief.bind (brief_addCosts b _ 15 t) fun t' _ => brief_costTable b xs _ t')).le ?_
    rw [List.length_cons]; omega

theorem brief_exponent (b : Build) (h : CircularStack Int) (xs : List F32) :
    Brief (FrameCodec.computeOptimalDivisorExponentT b h xs) (FrameCodec.computeOptimalDivisorExponent b h xs) (16 * xs.length + 16) := by
  unfold FrameCodec.computeOptimalDivisorExponentT FrameCodec.computeOptimalDivisorExponent
  exact Brief.bind (n := 16) (brief_costTable b xs h _) fun t _ => (Brief.ticks (m := 0) (Brief.pure))

theorem brief_encodeSamples (b : Build) (k : Nat) : ∀ (xs : List F32) (s : BitStream) (h : CircularStack Int),
    Brief (FrameCodec.encodeSamplesT b k s h xs) (FrameCodec.encodeSamples b k s h xs) (257 * xs.length)
  | [], _, _ => Brief.pure
  | x :: xs, s, h => by
    unfold FrameCodec.encodeSamplesT FrameCodec.encodeSamples
    dsimp only
    refine (Brief.ticks (m := 256 + 257 * xs.length) (Brief.free fun e _ => Brief.bind (brief_writeCompressed b s k _) fun s' _ =>
      brief_encodeSamples b k xs s' _)).le ?_
    rw [List.length_cons]; omega

theorem brief_encodeFrame (b : Build) (c : FrameCodec) (stream : AudioStream) (headers : FrameHeaders) (pcm : List F32) :
    Brief (c.encodeFrameT b stream headers pcm) (c.encodeFrame b stream headers pcm) (273 * pcm.length + 19) := by
  unfold FrameCodec.encodeFrameT FrameCodec.encodeFrame
  have hd : (pcm.drop 3).length ≤ pcm.length := by rw [List.length_drop]; omega
  cases c.state
  · dsimp only
    refine (Brief.ticks (n := 3) (m := 273 * pcm.length + 16) ?_).le (by omega)
    refine Brief.free fun p0 _ => Brief.free fun s0 _ => Brief.free fun p1 _ => Brief.free fun s1 _ => Brief.free fun p2 _ => Brief.free fun s2 _ => ?_
    refine (Brief.bind (brief_exponent b _ _) fun e _ => Brief.free fun hs _ => Brief.bind (brief_encodeSamples b e _ _ _) fun r _ => ?_).le
      (show 16 * (pcm.drop 3).length + 16 + (257 * (pcm.drop 3).length + 0) ≤ _ by omega)
    exact Brief.pure
  · dsimp only
    refine (Brief.bind (brief_exponent b _ _) fun e _ => Brief.free fun hs _ => Brief.bind (brief_encodeSamples b e _ _ _) fun r _ => ?_).le
      (show 16 * pcm.length + 16 + (257 * pcm.length + 0) ≤ _ by omega)
    exact Brief.pure
  · exact Brief.error

theorem brief_dither (b : Build) (inv : F32) : ∀ (xs : List F32) (seq : PseudoRandom), Brief (AdhocCodec.ditherT b inv seq xs) (AdhocCodec.dither b inv seq xs) xs.length
  | [], _ => Brief.pure
  | x :: xs, seq => by
    unfold AdhocCodec.ditherT AdhocCodec.dither
    dsimp only
    refine (Brief.ticks (m := xs.length + 0) (Brief.free fun r _ => Brief.bind (brief_dither b inv xs r.1) fun r' _ => Brief.pure)).le ?_
    rw [List.length_cons]; omega

theorem length_dithered {b : Build} {inv : F32} : ∀ (xs : List F32) (seq : PseudoRandom), Ens (AdhocCodec.dither b inv seq xs) fun r => r.2.length = xs.length
  | [], _ => Ens.ok rfl
  | x :: xs, seq => by
    unfold AdhocCodec.dither
    refine Ens.bind (Ens.any _) fun r _ => Ens.bind (length_dithered xs _) fun r' h => Ens.ok ?_
    dsimp only
    rw [List.length_cons, List.length_cons, h]

theorem mapM_length {α β : Type} {f : α → R β} : ∀ (l : List α), Ens (l.mapM f) fun r => r.length = l.length
  | [] => Ens.ok rfl
  | a :: l => by
    rw [List.mapM_cons]
    refine Ens.bind (Ens.any _) fun x _ => Ens.bind (mapM_length l) fun xs h => Ens.ok ?_
    rw [List.length_cons, List.length_cons, h]

theorem brief_encodeChannel (b : Build) (c : AdhocCodec) (pcm : List F32) (n m ch : Nat) :
    Brief (c.encodeChannelT b pcm n m ch) (c.encodeChannel b pcm n m ch) (275 * m + 20) := by
  unfold AdhocCodec.encodeChannelT AdhocCodec.encodeChannel
  refine (Brief.ticks (n := 1) (m := m + (274 * m + 19)) ?_).le (by omega)
  refine Brief.bind (show Brief (AdhocCodec.deinterleaveT pcm n m ch) (AdhocCodec.deinterleave pcm n m ch) m from ?_) fun xs hxs => ?_
  · unfold AdhocCodec.deinterleaveT
    exact Brief.ticks (m := 0) Brief.lift
  · have hl : xs.length = m := by
      have := mapM_length (f := fun k => idx pcm (k * n + ch)) (List.range m) xs hxs
      rwa [List.length_range] at this
    refine (Brief.bind (n := 273 * m + 19) (brief_dither b _ xs _) fun r hr => Brief.free fun fc _ => ?_).le (show xs.length + (273 * m + 19) ≤ _ by omega)
    have hr' := length_dithered xs _ r hr
    refine (Brief.bind (n := 0) (brief_encodeFrame b fc _ _ _) fun r' _ => Brief.free fun chs _ => Brief.pure).le ?_
    rw [hr', hl]

theorem brief_encode (b : Build) (c : AdhocCodec) (pcm : List F32) {info : StreamInfo} (hi : c.stream.info = some info) :
    Brief (c.encodeT b pcm) (c.encode b pcm) (276 * pcm.length + 20 * info.channels) := by
  unfold AdhocCodec.encodeT AdhocCodec.encode AdhocCodec.encodeRaw
  simp only [bind_assoc]
  refine Brief.free fun i h => ?_
  rw [hi] at h
  obtain rfl := Except.ok.inj h
  refine Brief.free fun m hm => ?_
  have hm' : m = pcm.length / info.channels := by
    unfold udiv at hm
    split at hm
    · cases hm
    · exact (Except.ok.inj hm).symm
  refine (Brief.ticks (Brief.bind (n := 0) (Brief.foldlM (fun c ch => brief_encodeChannel b c pcm _ _ ch) _ c) fun c' _ => Brief.pure)).le ?_
  rw [List.length_range]
  have h1 : m * info.channels ≤ pcm.length := by rw [hm']; exact Nat.div_mul_le_self _ _
  have h2 : m ≤ pcm.length := by rw [hm']; exact Nat.div_le_self _ _
  nlinarith

/-! ## decoding -/

/-- all bits from `T` on are zero -/
def Dark (T : Nat) (s : BitStream) : Prop := ∀ i, T ≤ i → bitAt s.binary i = false

theorem Dark.gentle {T w : Nat} {s s' : BitStream} (h : Dark T s) (g : Gentle s s' w) : Dark T s' ∧ s.bitCursor ≤ s'.bitCursor := by
  refine ⟨fun i hi => ?_, by have := g.ahead; omega⟩
  obtain ⟨n, e⟩ := g.pad
  have hb : ∀ n, bitAt (s.binary ++ List.replicate n 0#128) i = bitAt s.binary i := by
    intro n
    induction n with
    | zero => simp
    | succ n ih => rw [List.replicate_succ', ← List.append_assoc, bitAt_append_zero, ih]
  rw [e, hb]
  exact h i hi

theorem costs_readOnes (b : Build) (T : Nat) : ∀ (fuel : Nat) (s : BitStream) (q : BitVec 16), Dark T s →
    Costs (BitStream.readOnesT b fuel s q) (BitStream.readOnes b fuel s q) fun r k => Dark T r.1 ∧ 128 * k + (T - r.1.bitCursor) ≤ 128 + (T - s.bitCursor)
  | 0, _, _, _ => Costs.error
  | fuel + 1, s, q, h => by
    unfold BitStream.readOnesT BitStream.readOnes
    refine Costs.ticks (Costs.free fun r hr => ?_)
    obtain ⟨s', v⟩ := r
    obtain ⟨h1, h2, h3, h4⟩ := BitStream.peekBits_bits hr
    have hd : Dark T s' := fun i hi => by rw [h2]; exact h i hi
    dsimp only
    split
    · next hall =>
      refine Costs.free fun q' _ => (costs_readOnes b T fuel _ q' (by exact hd)).mono fun r k _ ⟨k1, k2⟩ => ⟨k1, ?_⟩
      have hlast : s.bitCursor + 127 < T := by
        by_contra hc
        have := h4 hall 127 (by norm_num)
        rw [h _ (by omega)] at this
        simp at this
      have : (s'.offsetBitCursor 128).bitCursor = s'.bitCursor + 128 := rfl
      omega
    · refine Costs.pure ⟨hd, ?_⟩
      dsimp only
      omega

theorem brief_firstZero : ∀ (n : Nat) (v : BitVec 128), Brief (BitStream.firstZeroT n v) (.ok (BitStream.firstZero n v)) n
  | 0, _ => Brief.pure
  | n + 1, v => by
    unfold BitStream.firstZeroT BitStream.firstZero
    split
    · refine (Brief.ticks (m := n + 0) ?_).le (by omega)
      have := Brief.bind (n := 0) (g := fun m => .ok (m + 1)) (brief_firstZero n (v >>> 1)) fun m _ => Brief.pure
      exact this
    · exact Brief.pure

theorem costs_readCompressed (b : Build) (T : Nat) (s : BitStream) (e : Nat) (h : Dark T s) :
    Costs (s.readCompressedT b e) (s.readCompressed b e) fun r k => Dark T r.1 ∧ 128 * k + (T - r.1.bitCursor) ≤ 128 * 129 + (T - s.bitCursor) := by
  unfold BitStream.readCompressedT BitStream.readCompressed
  refine Costs.free fun r hr => ?_
  obtain ⟨s1, v1⟩ := r
  obtain ⟨d1, c1⟩ := h.gentle (readBit_inv hr)
  dsimp only
  refine Costs.bind (costs_readOnes b T _ s1 _ d1) ?_
  rintro ⟨s2, ch, q⟩ i - ⟨d2, c2⟩
  dsimp only at d2 c2 ⊢
  refine Costs.bind (y := .ok (BitStream.firstZero 128 ch)) (g := fun z => _) (brief_firstZero 128 ch) fun z j hz hj => ?_
  obtain rfl := Except.ok.inj hz
  refine Costs.free fun q' _ => Costs.free fun r hr => ?_
  obtain ⟨s3, v3⟩ := r
  obtain ⟨d3, c3⟩ := Dark.gentle (by exact d2) (readBits_inv hr)
  have e3 : (s2.offsetBitCursor (BitStream.firstZero 128 ch + 1)).bitCursor = s2.bitCursor + (BitStream.firstZero 128 ch + 1) := rfl
  refine Costs.free fun _ _ => Costs.free fun _ _ => Costs.free fun _ _ => Costs.free fun _ _ => Costs.free fun _ _ => Costs.pure ⟨d3, ?_⟩
  dsimp only
  omega

theorem costs_decodeSamples (b : Build) (T e : Nat) : ∀ (n : Nat) (s : BitStream) (h : CircularStack Int) (buf : List F32), Dark T s →
    Costs (FrameCodec.decodeSamplesT b e n s h buf) (FrameCodec.decodeSamples b e n s h buf) fun r k => Dark T r.1 ∧
      128 * k + (T - r.1.bitCursor) ≤ 128 * 130 * n + (T - s.bitCursor)
  | 0, _, _, _, h => Costs.pure ⟨h, by dsimp only; omega⟩
  | n + 1, s, hs, buf, h => by
    unfold FrameCodec.decodeSamplesT FrameCodec.decodeSamples
    refine Costs.ticks (Costs.bind (costs_readCompressed b T s e h) ?_)
    rintro ⟨s1, v1⟩ i - ⟨d1, c1⟩
    dsimp only at d1 c1 ⊢
    refine Costs.free fun cur _ => (costs_decodeSamples b T e n s1 _ _ d1).mono fun r k _ ⟨d2, c2⟩ => ⟨d2, ?_⟩
    omega

/-- the samples declared by the headers from the cursor on -/
def restOf (h : FrameHeaders) : Nat := (h.frameSizeList.drop h.headerCursor).sum

theorem rest_next {h h' : FrameHeaders} {o : Option FrameHeader} (e : h.next = .ok (h', o)) : (o.elim 0 (·.size)) + restOf h' = restOf h ∧ h'.frameSizeList = h.frameSizeList := by
  unfold FrameHeaders.next at e
  dsimp only at e
  split at e
  · obtain ⟨size, h1, e⟩ := bind_eq_ok.1 e
    obtain ⟨cursor, -, e⟩ := bind_eq_ok.1 e
    obtain ⟨history, -, e⟩ := bind_eq_ok.1 e
    obtain ⟨rfl, rfl⟩ := Prod.mk.inj (Except.ok.inj e)
    rw [idx_eq_ok] at h1
    refine ⟨?_, rfl⟩
    show size + (h.frameSizeList.drop (h.headerCursor + 1)).sum = (h.frameSizeList.drop h.headerCursor).sum
    have hl := (List.getElem?_eq_some_iff.1 h1)
    obtain ⟨hl, hv⟩ := hl
    rw [List.drop_eq_getElem_cons hl, List.sum_cons, hv]
  · obtain ⟨rfl, rfl⟩ := Prod.mk.inj (Except.ok.inj e)
    exact ⟨by simp, rfl⟩

theorem costs_decodeFrame (b : Build) (T : Nat) (c : FrameCodec) (st : AudioStream) (hd : FrameHeaders) (h : Dark T st.stream) :
    Costs (c.decodeFrameT b st hd) (c.decodeFrame b st hd) fun r k => Dark T r.2.1.stream ∧
      128 * k + (128 * 130 * restOf r.2.2.1 + (T - r.2.1.stream.bitCursor)) ≤ 128 * 6 + (128 * 130 * restOf hd + (T - st.stream.bitCursor)) := by
  unfold FrameCodec.decodeFrameT FrameCodec.decodeFrame
  refine Costs.free fun r hr => ?_
  obtain ⟨hd', o⟩ := r
  obtain ⟨hrest, -⟩ := rest_next hr
  cases o with
  | none =>
    refine Costs.pure ⟨h, ?_⟩
    dsimp only [Option.elim] at hrest ⊢
    omega
  | some hdr =>
    dsimp only [Option.elim] at hrest ⊢
    cases c.state
    · dsimp only
      have raw : ∀ {s s' : BitStream} {x : Int}, FrameCodec.readRaw s = .ok (s', x) → Dark T s → Dark T s' ∧ s.bitCursor ≤ s'.bitCursor := by
        intro s s' x e hs
        unfold FrameCodec.readRaw at e
        obtain ⟨⟨t, v⟩, ht, e⟩ := bind_eq_ok.1 e
        obtain ⟨rfl, -⟩ := Prod.mk.inj (Except.ok.inj e)
        exact hs.gentle (readBits_inv ht)
      refine Costs.ticks (Costs.free fun r0 h0 => Costs.free fun r1 h1 => Costs.free fun r2 h2 => ?_)
      obtain ⟨d0, c0⟩ := raw h0 h
      obtain ⟨d1, c1⟩ := raw h1 d0
      obtain ⟨d2, c2⟩ := raw h2 d1
      refine Costs.bind (costs_decodeSamples b T _ _ r2.1 _ _ d2) ?_
      rintro ⟨s3, hh, buf⟩ i - ⟨d3, c3⟩
      refine Costs.pure ⟨d3, ?_⟩
      dsimp only at c3 ⊢
      omega
    · exact Costs.error
    · dsimp only
      refine Costs.bind (costs_decodeSamples b T _ _ st.stream _ _ h) ?_
      rintro ⟨s3, hh, buf⟩ i - ⟨d3, c3⟩
      refine Costs.pure ⟨d3, ?_⟩
      dsimp only at c3 ⊢
      omega

/-- what is still to be done: the samples declared, and the bits that may be ones -/
def workLeft (T : Nat) (c : AdhocCodec) : Nat := 128 * 130 * restOf c.frameHeaderList + (T - c.stream.stream.bitCursor)

theorem setIdx_length' {α : Type} {l l' : List α} {i : Nat} {a : α} (e : setIdx l i a = .ok l') : l'.length = l.length := by
  unfold setIdx at e
  split at e
  · rw [← Except.ok.inj e, List.length_set]
  · cases e

theorem costs_decodeChannel (b : Build) (T : Nat) (c : AdhocCodec) (ch : Nat) (h : Dark T c.stream.stream) :
    Costs (c.decodeChannelT b ch) (c.decodeChannel b ch) fun c' k => Dark T c'.stream.stream ∧ c'.channelStateList.length = c.channelStateList.length ∧
      128 * k + workLeft T c' ≤ 128 * 7 + workLeft T c := by
  unfold AdhocCodec.decodeChannelT AdhocCodec.decodeChannel
  refine Costs.ticks (Costs.free fun fc _ => Costs.bind (costs_decodeFrame b T fc _ _ h) ?_)
  rintro ⟨fc', st, hd, o⟩ i - ⟨d, c1⟩
  refine Costs.free fun chs hc => Costs.pure ⟨d, setIdx_length' hc, ?_⟩
  dsimp only [workLeft] at c1 ⊢
  omega

theorem costs_rounds {α : Type} (F : AdhocCodec → α → Clocked AdhocCodec) (f : AdhocCodec → α → R AdhocCodec) (T m : Nat)
    (hf : ∀ c a, Dark T c.stream.stream → Costs (F c a) (f c a) fun c' k => Dark T c'.stream.stream ∧ c'.channelStateList.length = c.channelStateList.length ∧
      128 * k + workLeft T c' ≤ 128 * m + workLeft T c) : ∀ (l : List α) (c : AdhocCodec), Dark T c.stream.stream →
    Costs (l.foldlM F c) (l.foldlM f c) fun c' k => Dark T c'.stream.stream ∧ c'.channelStateList.length = c.channelStateList.length ∧
      128 * k + workLeft T c' ≤ 128 * (m * l.length) + workLeft T c
  | [], c, h => Costs.pure ⟨h, rfl, by omega⟩
  | a :: l, c, h => by
    rw [List.foldlM_cons, List.foldlM_cons]
    refine Costs.bind (hf c a h) fun c' i _ ⟨d, l1, k1⟩ => (costs_rounds F f T m hf l c' d).mono fun c'' k _ ⟨d', l2, k2⟩ => ⟨d', l2.trans l1, ?_⟩
    have : m * (a :: l).length = m * l.length + m := by rw [List.length_cons]; ring
    omega

theorem costs_decodeBlock (b : Build) (T n : Nat) (c : AdhocCodec) (h : Dark T c.stream.stream) :
    Costs (c.decodeBlockT b n) (c.decodeBlock b n) fun c' k => Dark T c'.stream.stream ∧ c'.channelStateList.length = c.channelStateList.length ∧
      128 * k + workLeft T c' ≤ 128 * (7 * n) + workLeft T c := by
  have := costs_rounds (fun c ch => c.decodeChannelT b ch) (fun c ch => c.decodeChannel b ch) T 7 (fun c a h => costs_decodeChannel b T c a h) (List.range n) c h
  rw [List.length_range] at this
  exact this

theorem costs_bufferAudio (b : Build) (T n N : Nat) : ∀ (left : Nat) (c : AdhocCodec), Dark T c.stream.stream → c.channelStateList.length = N →
    Costs (AdhocCodec.bufferAudioT b n left c) (AdhocCodec.bufferAudio b n left c) fun r k => Dark T r.1.stream.stream ∧ r.1.channelStateList.length = N ∧
      128 * k + workLeft T r.1 ≤ 128 * ((1 + N + 7 * n) * left) + workLeft T c
  | 0, c, h, hl => Costs.pure ⟨h, hl, by dsimp only; omega⟩
  | left + 1, c, h, hl => by
    unfold AdhocCodec.bufferAudioT AdhocCodec.bufferAudio
    refine Costs.ticks ?_
    have e : (1 + N + 7 * n) * (left + 1) = (1 + N + 7 * n) * left + (1 + N + 7 * n) := by ring
    split
    · refine Costs.bind (costs_decodeBlock b T n c h) fun c' i _ ⟨d, l1, k1⟩ => (costs_bufferAudio b T n N left c' d (l1.trans hl)).mono fun r k _ ⟨d', l2, k2⟩ => ⟨d', l2, ?_⟩
      omega
    · refine Costs.pure ⟨h, hl, ?_⟩
      dsimp only
      have : 0 ≤ (1 + N + 7 * n) * left := Nat.zero_le _
      omega

theorem costs_popBlock (legal : Nat) : ∀ (n ch : Nat) (c : AdhocCodec) (pcm : List F32) (cursor : Nat), cursor + n ≤ legal →
    Costs (AdhocCodec.popBlockT legal n ch c pcm cursor) (AdhocCodec.popBlock legal n ch c pcm cursor) fun r k =>
      r.1.stream = c.stream ∧ r.1.frameHeaderList = c.frameHeaderList ∧ r.1.channelStateList.length = c.channelStateList.length ∧ r.2.1.length = pcm.length ∧
      r.2.2 = cursor + n ∧ k = n
  | 0, _, c, pcm, cursor, _ => Costs.pure ⟨rfl, rfl, rfl, rfl, rfl, rfl⟩
  | n + 1, ch, c, pcm, cursor, h => by
    unfold AdhocCodec.popBlockT AdhocCodec.popBlock
    rw [if_pos (by omega), if_pos (by omega)]
    refine Costs.ticks (Costs.free fun fc _ => Costs.free fun chs hc => Costs.free fun pcm' hp => ?_)
    refine (costs_popBlock legal n (ch + 1) _ pcm' (cursor + 1) (by omega)).mono ?_
    rintro r k - ⟨h1, h2, h3, h4, h5, h6⟩
    exact ⟨h1, h2, h3.trans (setIdx_length' hc), h4.trans (setIdx_length' hp), by omega, by omega⟩

theorem costs_decodeLoop (b : Build) (T n N legal : Nat) : ∀ (fuel : Nat) (c : AdhocCodec) (pcm : List F32) (cursor j : Nat), Dark T c.stream.stream → c.channelStateList.length = N →
    cursor + n * j = legal →
    Costs (AdhocCodec.decodeLoopT b n legal fuel c pcm cursor) (AdhocCodec.decodeLoop b n legal fuel c pcm cursor) fun r k =>
      Dark T r.1.stream.stream ∧ r.1.channelStateList.length = N ∧ r.2.1.length = pcm.length ∧ 128 * k + workLeft T r.1 ≤ 128 * ((11 + 10 * N + 71 * n) * j) + workLeft T c
  | 0, _, _, _, _, _, _, _ => Costs.error
  | fuel + 1, c, pcm, cursor, j, h, hl, hj => by
    unfold AdhocCodec.decodeLoopT AdhocCodec.decodeLoop
    split
    · next hlt =>
      cases j with
      | zero => omega
      | succ j =>
        have e : (11 + 10 * N + 71 * n) * (j + 1) = (11 + 10 * N + 71 * n) * j + (11 + 10 * N + 71 * n) := by ring
        have e' : (1 + N + 7 * n) * MAX_DECODE_ATTEMPTS = 10 + 10 * N + 70 * n := by unfold MAX_DECODE_ATTEMPTS; ring
        have hj' : n * (j + 1) = n * j + n := by ring
        refine Costs.ticks (Costs.bind (costs_bufferAudio b T n N _ c h hl) ?_)
        rintro ⟨c1, left⟩ i - ⟨d1, l1, k1⟩
        dsimp only at d1 l1 k1 ⊢
        rw [e'] at k1
        split
        · refine Costs.pure ⟨d1, l1, rfl, ?_⟩
          dsimp only
          omega
        · refine Costs.bind (costs_popBlock legal n 0 c1 pcm cursor (by omega)) ?_
          rintro ⟨c2, pcm2, cur2⟩ i2 - ⟨p1, p2, p3, p4, p5, p6⟩
          dsimp only at p1 p2 p3 p4 p5 p6 ⊢
          refine (costs_decodeLoop b T n N legal fuel c2 pcm2 cur2 j (by rw [p1]; exact d1) (p3.trans l1) (by omega)).mono ?_
          rintro r k - ⟨d3, l3, p, k3⟩
          have ew : workLeft T c2 = workLeft T c1 := by unfold workLeft; rw [p1, p2]
          refine ⟨d3, l3, p.trans p4, ?_⟩
          omega
    · refine Costs.pure ⟨h, hl, rfl, ?_⟩
      dsimp only
      omega

theorem costs_decode (b : Build) (T : Nat) (c : AdhocCodec) (buf : List F32) {info : StreamInfo} (hi : c.stream.info = some info) (hl : c.channelStateList.length = info.channels)
    (h : Dark T c.stream.stream) :
    Costs (c.decodeT b buf) (c.decode b buf) fun r k => Dark T r.1.stream.stream ∧ r.1.channelStateList.length = info.channels ∧
      128 * k + workLeft T r.1 ≤ 128 * (93 * buf.length) + workLeft T c := by
  unfold AdhocCodec.decodeT AdhocCodec.decode AdhocCodec.decodeRaw
  simp only [bind_assoc]
  refine Costs.free fun i h' => ?_
  rw [hi] at h'
  obtain rfl := Except.ok.inj h'
  refine Costs.free fun m hm => ?_
  have hm' : m = buf.length / info.channels ∧ 0 < info.channels := by
    unfold udiv at hm
    split at hm
    · cases hm
    · exact ⟨(Except.ok.inj hm).symm, by omega⟩
  obtain ⟨hm1, hn⟩ := hm'
  refine Costs.bind (costs_decodeLoop b T info.channels info.channels (m * info.channels) _ c buf 0 m h hl (by ring)) ?_
  rintro ⟨c', pcm, cur⟩ i - ⟨d1, l1, p1, k1⟩
  dsimp only at d1 l1 p1 k1
  refine Costs.ticks (Costs.pure ⟨d1, l1, ?_⟩)
  dsimp only
  have h1 : m * info.channels ≤ buf.length := by rw [hm1]; exact Nat.div_mul_le_self _ _
  have h2 : m ≤ m * info.channels := Nat.le_mul_of_pos_right _ hn
  have h3 : (11 + 10 * info.channels + 71 * info.channels) * m = 11 * m + 81 * (m * info.channels) := by ring
  omega

/-! ## seeking -/

/-- the sizes are u16 -/
def Sized (h : FrameHeaders) : Prop := ∀ x ∈ h.frameSizeList, x < 2 ^ 16

/-- the same headers, wherever the cursor is -/
def SameList (h h' : FrameHeaders) : Prop := h'.frameSizeList = h.frameSizeList ∧ h'.divisorExpList = h.divisorExpList

theorem next_sameList {h h' : FrameHeaders} {o : Option FrameHeader} (e : h.next = .ok (h', o)) : SameList h h' ∧ ∀ hdr, o = some hdr → hdr.size ∈ h.frameSizeList := by
  unfold FrameHeaders.next at e
  dsimp only at e
  split at e
  · obtain ⟨size, h1, e⟩ := bind_eq_ok.1 e
    obtain ⟨cursor, -, e⟩ := bind_eq_ok.1 e
    obtain ⟨history, -, e⟩ := bind_eq_ok.1 e
    obtain ⟨rfl, rfl⟩ := Prod.mk.inj (Except.ok.inj e)
    rw [idx_eq_ok] at h1
    refine ⟨⟨rfl, rfl⟩, fun hdr e => ?_⟩
    rw [← Option.some.inj e]
    exact List.mem_of_getElem? h1
  · obtain ⟨rfl, rfl⟩ := Prod.mk.inj (Except.ok.inj e)
    exact ⟨⟨rfl, rfl⟩, fun _ h => by cases h⟩

theorem decodeFrame_same (b : Build) (c : FrameCodec) (st : AudioStream) (hd : FrameHeaders) (hz : Sized hd) :
    Ens (c.decodeFrame b st hd) fun r => SameList hd r.2.2.1 ∧ restOf hd ≤ 65535 + restOf r.2.2.1 := by
  unfold FrameCodec.decodeFrame
  intro r hr
  obtain ⟨⟨hd', o⟩, h1, hr⟩ := bind_eq_ok.1 hr
  obtain ⟨hs, ho⟩ := next_sameList h1
  obtain ⟨hrest, -⟩ := rest_next h1
  have key : r.2.2.1 = hd' := by
    revert hr
    cases o with
    | none => rintro hr; rw [← Except.ok.inj hr]
    | some hdr =>
      dsimp only
      cases c.state
      · dsimp only
        intro hr
        obtain ⟨_, -, hr⟩ := bind_eq_ok.1 hr
        obtain ⟨_, -, hr⟩ := bind_eq_ok.1 hr
        obtain ⟨_, -, hr⟩ := bind_eq_ok.1 hr
        obtain ⟨_, -, hr⟩ := bind_eq_ok.1 hr
        rw [← Except.ok.inj hr]
      · intro hr; cases hr
      · dsimp only
        intro hr
        obtain ⟨_, -, hr⟩ := bind_eq_ok.1 hr
        rw [← Except.ok.inj hr]
  rw [key]
  refine ⟨hs, ?_⟩
  cases o with
  | none => simp at hrest; omega
  | some hdr =>
    have := hz _ (ho hdr rfl)
    simp at hrest
    omega

theorem get_size {h : FrameHeaders} {i : Nat} {hdr : FrameHeader} (e : h.get i = .ok (some hdr)) : i < h.len ∧ hdr.size ∈ h.frameSizeList := by
  unfold FrameHeaders.get at e
  split at e
  · next hi =>
    obtain ⟨size, h1, e⟩ := bind_eq_ok.1 e
    obtain ⟨cursor, -, e⟩ := bind_eq_ok.1 e
    obtain ⟨history, -, e⟩ := bind_eq_ok.1 e
    rw [idx_eq_ok] at h1
    rw [← Option.some.inj (Except.ok.inj e)]
    exact ⟨hi, List.mem_of_getElem? h1⟩
  · cases e

theorem expect_some {α : Type} {o : Option α} {a : α} (e : expect o = .ok a) : o = some a := by
  cases o with
  | none => cases e
  | some x => rw [Except.ok.inj e]

theorem costs_seekChannel (b : Build) (T start : Nat) (base : FrameHeaders) (hz : Sized base) (c : AdhocCodec) (off : Nat) (h : Dark T c.stream.stream) (hs : SameList base c.frameHeaderList) :
    Costs (c.seekChannelT b start off) (c.seekChannel b start off) fun c' k => Dark T c'.stream.stream ∧ SameList base c'.frameHeaderList ∧ start + off < base.len ∧
      128 * k + (T - c'.stream.stream.bitCursor) ≤ 128 * (10 + 130 * 65535) + (T - c.stream.stream.bitCursor) := by
  unfold AdhocCodec.seekChannelT AdhocCodec.seekChannel
  have hz' : Sized c.frameHeaderList := by unfold Sized; rw [hs.1]; exact hz
  refine Costs.ticks (Costs.free fun o ho => Costs.free fun hdr hh => Costs.free fun fc _ => ?_)
  rw [expect_some hh] at ho
  have hlt : start + off < base.len := by
    have := (get_size ho).1
    unfold FrameHeaders.len at this ⊢
    rwa [hs.2] at this
  refine Costs.bind (costs_decodeFrame b T _ _ _ h) ?_
  rintro ⟨fc', st, hd, o⟩ i e ⟨d, c1⟩
  obtain ⟨s1, r1⟩ := decodeFrame_same b _ _ _ hz' _ e
  refine Costs.free fun chs hc => Costs.pure ⟨d, ⟨s1.1.trans hs.1, s1.2.trans hs.2⟩, hlt, ?_⟩
  dsimp only at c1 r1 ⊢
  omega

theorem costs_seekChannels (b : Build) (T start : Nat) (base : FrameHeaders) (hz : Sized base) : ∀ (l : List Nat) (c : AdhocCodec), Dark T c.stream.stream → SameList base c.frameHeaderList →
    Costs (l.foldlM (fun c off => c.seekChannelT b start off) c) (l.foldlM (fun c off => c.seekChannel b start off) c) fun c' k => (∀ off ∈ l, start + off < base.len) ∧
      128 * k + (T - c'.stream.stream.bitCursor) ≤ 128 * ((10 + 130 * 65535) * l.length) + (T - c.stream.stream.bitCursor)
  | [], c, h, hs => Costs.pure ⟨by simp, by simp⟩
  | off :: l, c, h, hs => by
    rw [List.foldlM_cons, List.foldlM_cons]
    refine Costs.bind (costs_seekChannel b T start base hz c off h hs) ?_
    rintro c' i - ⟨d, s1, h1, k1⟩
    refine (costs_seekChannels b T start base hz l c' d s1).mono ?_
    rintro c'' k - ⟨h2, k2⟩
    refine ⟨fun x hx => ?_, ?_⟩
    · rcases List.mem_cons.1 hx with rfl | hx
      · exact h1
      · exact h2 x hx
    · have : (10 + 130 * 65535) * (off :: l).length = (10 + 130 * 65535) * l.length + (10 + 130 * 65535) := by rw [List.length_cons]; ring
      omega

theorem costs_findBlock (b : Build) (h : FrameHeaders) (hz : Sized h) (n target blockLen : Nat) (hsmall : blockLen * (65535 * n) < 2 ^ 64) :
    ∀ (fuel skipped block : Nat), skipped ≤ block * (65535 * n) → block ≤ blockLen →
    Costs (AdhocCodec.findBlockT b h n target blockLen fuel skipped block) (AdhocCodec.findBlock b h n target blockLen fuel skipped block) fun r k =>
      block + k ≤ blockLen ∧ r.1 ≤ r.2 * (65535 * n) ∧ r.2 ≤ blockLen ∧ (r.2 < blockLen → target ≤ r.1 + 65535 * n)
  | 0, _, _, _, _ => Costs.error
  | fuel + 1, skipped, block, hs, hb => by
    unfold AdhocCodec.findBlockT AdhocCodec.findBlock
    split
    · next hc =>
      refine Costs.ticks (Costs.free fun o ho => Costs.free fun hdr hh => Costs.free fun hsz h1 => Costs.free fun sum h2 => ?_)
      rw [expect_some hh] at ho
      have hsize := hz _ (get_size ho).2
      have hle : hdr.size * n ≤ 65535 * n := Nat.mul_le_mul_right _ (by omega)
      have hrow : (block + 1) * (65535 * n) ≤ blockLen * (65535 * n) := Nat.mul_le_mul_right _ (by omega)
      have hrow' : (block + 1) * (65535 * n) = block * (65535 * n) + 65535 * n := by ring
      have e1 : hsz = hdr.size * n := by
        unfold chkU at h1
        rw [if_pos (by constructor <;> [exact Int.natCast_nonneg _; exact_mod_cast (by omega : hdr.size * n < 2 ^ 64)])] at h1
        have := Except.ok.inj h1
        omega
      have e2 : sum = skipped + hdr.size * n := by
        unfold chkU at h2
        rw [e1, if_pos (by constructor <;> [exact Int.natCast_nonneg _; exact_mod_cast (by omega : skipped + hdr.size * n < 2 ^ 64)])] at h2
        have := Except.ok.inj h2
        omega
      split
      · refine Costs.pure ⟨by omega, hs, hb, fun _ => ?_⟩
        dsimp only
        omega
      · refine (costs_findBlock b h hz n target blockLen hsmall fuel sum (block + 1) (by omega) (by omega)).mono ?_
        rintro r k - ⟨k1, k2, k3, k4⟩
        exact ⟨by omega, k2, k3, k4⟩
    · next hc =>
      refine Costs.pure ⟨by omega, hs, hb, fun hlt => ?_⟩
      dsimp only at hlt ⊢
      omega

theorem brief_prune (b : Build) (n target : Nat) : ∀ (j fuel x : Nat) (c : AdhocCodec), target ≤ x + n * j → target + n < 2 ^ 64 →
    Brief (AdhocCodec.pruneT b n target fuel x c) (AdhocCodec.prune b n target fuel x c) ((1 + n) * j)
  | _, 0, _, _, _, _ => Brief.error
  | j, fuel + 1, x, c, hj, ht => by
    unfold AdhocCodec.pruneT AdhocCodec.prune
    split
    · cases j with
      | zero => omega
      | succ j =>
        have e : (1 + n) * (j + 1) = (1 + n) + (1 + n) * j := by ring
        have e' : n * (j + 1) = n * j + n := by ring
        rw [e]
        refine Brief.ticks (Brief.free fun c' _ => Brief.free fun y hy => ?_)
        have ey : y = x + n := by
          unfold chkU at hy
          rw [if_pos (by constructor <;> [exact Int.natCast_nonneg _; exact_mod_cast (by omega : x + n < 2 ^ 64)])] at hy
          have := Except.ok.inj hy
          omega
        exact brief_prune b n target j fuel y c' (by omega) ht
    · exact Brief.pure

theorem costs_seek (b : Build) (c : AdhocCodec) (dt : SeekFrom) {info : StreamInfo} (hi : c.stream.info = some info) (hl : c.channelStateList.length = info.channels)
    (hz : Sized c.frameHeaderList) (hlen : c.frameHeaderList.len < 2 ^ 32) (hch : info.channels < 2 ^ 32) :
    Brief (c.seekT b dt) (c.seek b dt) (c.frameHeaderList.len / info.channels + c.stream.stream.binary.length + 8585096 * info.channels + 65535) := by
  unfold AdhocCodec.seekT AdhocCodec.seek
  refine Brief.free fun i h' => ?_
  rw [hi] at h'
  obtain rfl := Except.ok.inj h'
  refine (Brief.ticks (m := c.frameHeaderList.len / info.channels + c.stream.stream.binary.length + 8585095 * info.channels + 65535) ?_).le (by omega)
  cases dt with
  | current dt => exact Brief.error
  | «end» dt => exact Brief.error
  | start dt =>
    dsimp only
    split
    · exact Brief.pure
    · unfold AdhocCodec.seekToT AdhocCodec.seekTo
      refine Costs.free fun target ht => Costs.free fun blockLen hbl => ?_
      have hbl' : blockLen = c.frameHeaderList.len / info.channels ∧ 0 < info.channels := by
        unfold udiv at hbl
        split at hbl
        · cases hbl
        · exact ⟨(Except.ok.inj hbl).symm, by omega⟩
      obtain ⟨hbl1, hn⟩ := hbl'
      have hrows : blockLen * info.channels ≤ c.frameHeaderList.len := by rw [hbl1]; exact Nat.div_mul_le_self _ _
      have hnot : c.frameHeaderList.len < blockLen * info.channels + info.channels := by
        rw [hbl1]
        have h1 := Nat.div_add_mod c.frameHeaderList.len info.channels
        have h2 := Nat.mod_lt c.frameHeaderList.len hn
        rw [Nat.mul_comm] at h1
        omega
      have hsm : blockLen * (65535 * info.channels) = 65535 * (blockLen * info.channels) := by ring
      refine Costs.bind (costs_findBlock b c.init.frameHeaderList hz info.channels target blockLen (by omega) _ 0 0 (Nat.zero_le _) (Nat.zero_le _)) ?_
      rintro ⟨skipped, block⟩ i1 - ⟨f1, f2, f3, f4⟩
      dsimp only at f1 f2 f3 f4 ⊢
      refine Costs.free fun o ho => Costs.free fun hdr hh => ?_
      refine Costs.bind (costs_seekChannels b (128 * c.stream.stream.binary.length) (block * info.channels) c.frameHeaderList hz _ _
        (fun i hi => BitStream.bitAt_beyond _ _ hi) ⟨rfl, rfl⟩) ?_
      rintro c' i2 - ⟨s1, s2⟩
      have s3 := s1 (info.channels - 1) (List.mem_range.2 (by omega))
      have hlt : block < blockLen := by
        by_contra hge
        have : block = blockLen := by omega
        subst this
        omega
      have f5 := f4 hlt
      have hb64 : block * (65535 * info.channels) ≤ blockLen * (65535 * info.channels) := Nat.mul_le_mul_right _ (by omega)
      refine Costs.mono (brief_prune b info.channels target 65535 _ skipped c' (by omega) (by omega)) ?_
      intro r k _ hk
      rw [List.length_range] at s2
      dsimp only at s2
      omega

end Adhoc
