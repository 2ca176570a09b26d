import Verif.Proofs.Decoder
import Verif.Proofs.Refine

/-! The codec from the caller's side. -/

namespace Adhoc
open Spec

/-! ## level -/

theorem fresh_scale (info : StreamInfo) (level : Nat) :
    F32.Is (fresh info level).scale (2 ^ (min level 10)) ∧ F32.Is (fresh info level).invScale (1 / 2 ^ (min level 10)) := by
  have hp : ∀ l : Nat, l ≤ 10 → |(2 : ℤ) ^ l| ≤ 2 ^ 24 := by
    intro l hl
    rw [abs_of_pos (by positivity)]
    exact pow_le_pow_right₀ (by norm_num) (by omega)
  have hl : min level 10 ≤ 10 := Nat.min_le_right _ _
  have h1 : F32.Is (fresh info level).scale (2 ^ (min level 10)) := by
    have := F32.is_int (n := 2 ^ (min level 10)) (hp _ hl)
    push_cast at this
    exact this
  refine ⟨h1, ?_⟩
  have hd := F32.Is.div (F32.is_int (n := 1) (by norm_num)) h1 (by positivity) F32.rep_one (B := 1) (by
    rw [abs_of_pos (by positivity)]
    rw [div_le_one (by positivity)]
    push_cast
    exact one_le_pow₀ (by norm_num))
  rw [roundQ_grid] at hd
  · push_cast at hd
    exact hd
  · refine ⟨1, -(min level 10 : ℕ), by norm_num, by omega, ?_⟩
    rw [zpow_neg, zpow_natCast]
    push_cast
    ring

theorem fresh_zero (info : StreamInfo) : (fresh info 0).scale = F32.ofInt 1 ∧ (fresh info 0).invScale = F32.ofInt 1 := by
  obtain ⟨h1, h2⟩ := fresh_scale info 0
  have h : F32.Is (F32.ofInt 1) 1 := by simpa using F32.is_int (n := 1) (by norm_num)
  exact ⟨h1.eq (by simpa using h), h2.eq (by simpa using h)⟩

/-! ## columns and blocks -/

@[simp] theorem length_blocksOf (n : Nat) (xs : List F32) : (blocksOf n xs).length = xs.length / n := by simp [blocksOf]

theorem blocksOf_width {n : Nat} {xs : List F32} : ∀ blk ∈ blocksOf n xs, blk.length = n := by
  intro blk h
  obtain ⟨k, hk, rfl⟩ := List.mem_map.1 h
  have hk : k < xs.length / n := by simpa using hk
  have h1 : (k + 1) * n ≤ xs.length / n * n := Nat.mul_le_mul_right _ hk
  have h2 := Nat.div_mul_le_self xs.length n
  rw [Nat.add_mul] at h1
  simp
  omega

theorem column_eq {n ch : Nat} (hch : ch < n) (xs : List F32) :
    column n ch xs = (blocksOf n xs).map fun blk => blk.getD ch (F32.ofInt 0) := by
  unfold column blocksOf
  rw [List.map_map]
  apply List.map_congr_left
  intro k _
  simp only [Function.comp, List.getD_eq_getElem?_getD, List.getElem?_take, if_pos hch, List.getElem?_drop]

/-- the rows of the decoded signal -/
theorem rows_played {n : Nat} {blocks : List (Nat → Fr)} (HR : Rec n blocks) {m d : Nat} (h : m + d ≤ rowsIn blocks) :
    rows (outCols n blocks) m d = (((played n (rowsIn blocks) (codesOf blocks)).drop m).take d).flatten := by
  have e : ((played n (rowsIn blocks) (codesOf blocks)).drop m).take d =
      (List.range d).map fun k => (List.range n).map fun ch => out ((decoded (codesOf blocks ch)).getD (m + k) 0) := by
    apply List.ext_getElem
    · simp [played]; omega
    · intro i h1 h2
      simp [played]
  rw [e, ← List.flatMap_def]
  unfold rows outCols
  apply List.flatMap_congr
  intro k hk
  have hk : k < d := by simpa using hk
  rw [List.map_map]
  apply List.map_congr_left
  intro ch hch
  have hch : ch < n := by simpa using hch
  have hl : m + k < (decoded (codesOf blocks ch)).length := by rw [length_decoded, HR.length hch]; omega
  simp [Function.comp, List.getD_eq_getElem?_getD, List.getElem?_eq_getElem hl]

/-- successive decode calls -/
theorem decodeAll_ok {b : Build} {info : StreamInfo} (hn : 0 < info.channels) {blocks : List (Nat → Fr)}
    (HR : Rec info.channels blocks) (hsh : Short blocks) (hng : NoGap (sizesOf blocks)) :
    ∀ (bufs : List (List F32)) {c : AdhocCodec} {j m : Nat} (_ : DecSt c info blocks j m),
    ∃ c' j' m', decodeAll b c bufs = .ok (c',
        (readBlocks info.channels ((played info.channels (rowsIn blocks) (codesOf blocks)).drop m) bufs).map fun r => (r.1.map (· * c.scale), r.2)) ∧
      SameLevel c c' ∧ DecSt c' info blocks j' m'
  | [], c, j, m, H => ⟨c, j, m, rfl, .refl c, H⟩
  | buf :: bufs, c, j, m, H => by
    obtain ⟨c1, j1, d, e1, s1, H1, hd, hmd, hlaw⟩ := decode_ok (b := b) hn HR hsh H buf
    have hlaw := hlaw hng
    obtain ⟨c2, j2, m2, e2, s2, H2⟩ := decodeAll_ok (b := b) hn HR hsh hng bufs H1
    refine ⟨c2, j2, m2, ?_, s1.trans s2, H2⟩
    have hdd : d = min (buf.length / info.channels) ((played info.channels (rowsIn blocks) (codesOf blocks)).drop m).length := by
      simp only [List.length_drop, played, List.length_map, List.length_range]
      omega
    unfold decodeAll
    rw [e1, bind_ok]
    dsimp only
    rw [e2, bind_ok, pure_eq_ok, s1.scale]
    simp only [readBlocks]
    rw [← hdd, rows_played HR hmd, List.drop_drop]
    simp only [List.map_cons]
    congr 4
    by_cases h0 : d = 0
    · subst h0; simp
    · rw [if_pos (by omega), if_neg h0]

/-! ## from calls to blocks -/

theorem Recorded.sizes {n : Nat} {inv : F32} {calls : List (List F32)} {blocks : List (Nat → Fr)} (H : Recorded n inv calls blocks)
    (hn : 0 < n) : sizesOf blocks = calls.map fun pcm => pcm.length / n := by
  have hl := H.len
  apply List.ext_getElem
  · simp [sizesOf, hl]
  · intro i h1 h2
    have h1' : i < blocks.length := by simpa [sizesOf] using h1
    have h2' : i < calls.length := by simpa using h2
    simp only [sizesOf, List.getElem_map]
    exact (H.made i h1' h2' 0 hn).length

theorem rowsIn_eq_sum (blocks : List (Nat → Fr)) : rowsIn blocks = (sizesOf blocks).sum := rfl

theorem Recorded.rows {n : Nat} {inv : F32} {calls : List (List F32)} {blocks : List (Nat → Fr)} (H : Recorded n inv calls blocks)
    (hn : 0 < n) : rowsIn blocks = (signal n calls).length := by
  rw [rowsIn_eq_sum, H.sizes hn, signal, List.length_flatMap]
  simp

/-- the codes of a channel are the truncated dithered samples of that channel -/
theorem Recorded.codes {n : Nat} {inv : F32} {calls : List (List F32)} {blocks : List (Nat → Fr)} (H : Recorded n inv calls blocks)
    {ch : Nat} (hch : ch < n) :
    ∃ ys, List.Forall₂ (Dithered inv) ((signal n calls).map fun blk => blk.getD ch (F32.ofInt 0)) ys ∧
      codesOf blocks ch = ys.map truncateSample := by
  suffices ∀ k, k ≤ blocks.length → ∃ ys, List.Forall₂ (Dithered inv) ((signal n (calls.take k)).map fun blk => blk.getD ch (F32.ofInt 0)) ys ∧
      codesOf (blocks.take k) ch = ys.map truncateSample by
    have := this blocks.length le_rfl
    rwa [List.take_of_length_le (l := calls) (by rw [H.len]), List.take_of_length_le (l := blocks) le_rfl] at this
  intro k
  induction k with
  | zero => intro _; exact ⟨[], by simp [signal], by simp⟩
  | succ k ih =>
    intro hk
    have hk' : k < calls.length := by rw [← H.len]; omega
    obtain ⟨ys, h1, h2⟩ := ih (by omega)
    obtain ⟨zs, g1, g2⟩ := (H.made k (by omega) hk' ch hch).codes
    refine ⟨ys ++ zs, ?_, ?_⟩
    · rw [List.take_succ_eq_append_getElem hk']
      unfold signal at h1 ⊢
      rw [List.flatMap_append, List.map_append]
      rw [column_eq hch] at g1
      exact List.rel_append h1 (by simpa using g1)
    · rw [codesOf_take_succ (by omega), h2, g2, List.map_append]

/-- the samples of a recording, counted -/
theorem Recorded.total {n : Nat} {inv : F32} {calls : List (List F32)} {blocks : List (Nat → Fr)} (H : Recorded n inv calls blocks) :
    ∀ j, j < calls.length → total (flat n (blocks.take (j + 1))) = total (flat n (blocks.take j)) + n * ((calls.getD j []).length / n) := by
  intro j hj
  have hj' : j < blocks.length := by rw [H.len]; exact hj
  rw [List.take_succ_eq_append_getElem hj', flat_append, total_append]
  congr 1
  rw [flat, List.flatMap_singleton, total_range n (fun ch hch => (H.made j hj' hj ch hch).length)]
  simp [List.getD_eq_getElem?_getD, hj]

/-- the codes of a channel, exactly -/
theorem Recorded.exact {n : Nat} {inv : F32} {calls : List (List F32)} {blocks : List (Nat → Fr)} (H : Recorded n inv calls blocks)
    {ch : Nat} (hch : ch < n) : codesOf blocks ch = stored inv n ch 0 calls := by
  suffices ∀ m k, k + m = blocks.length → codesOf (blocks.drop k) ch = stored inv n ch (Adhoc.total (flat n (blocks.take k))) (calls.drop k) by
    simpa using this blocks.length 0 (by omega)
  intro m
  induction m with
  | zero =>
    intro k hk
    rw [List.drop_eq_nil_of_le (by omega), List.drop_eq_nil_of_le (by rw [← H.len]; omega)]
    rfl
  | succ m ih =>
    intro k hk
    have h1 : k < blocks.length := by omega
    have h2 : k < calls.length := by rw [← H.len]; exact h1
    have := ih (k + 1) (by omega)
    rw [H.total k h2] at this
    rw [List.drop_eq_getElem_cons h1, List.drop_eq_getElem_cons h2, stored, ← List.singleton_append, codesOf_append, codesOf_singleton,
      (H.made k h1 h2 ch hch).exact, this]
    simp [List.getD_eq_getElem?_getD, h2]

theorem forall₂_dithered_one {xs ys : List F32} (h : List.Forall₂ (Dithered (F32.ofInt 1)) xs ys) : ys = xs := by
  induction h with
  | nil => rfl
  | cons h _ ih => rw [ih, dithered_one h]

theorem Recorded.codes_zero {n : Nat} {calls : List (List F32)} {blocks : List (Nat → Fr)} (H : Recorded n (F32.ofInt 1) calls blocks)
    {ch : Nat} (hch : ch < n) : codesOf blocks ch = Spec.codes ch (signal n calls) := by
  obtain ⟨ys, h1, h2⟩ := H.codes hch
  rw [h2, forall₂_dithered_one h1, Spec.codes, List.map_map]
  rfl

/-- at level 0 the codes are those of the samples -/
theorem stored_one {n ch : Nat} (hch : ch < n) : ∀ (calls : List (List F32)) (k : Nat),
    stored (F32.ofInt 1) n ch k calls = Spec.codes ch (signal n calls)
  | [], _ => rfl
  | pcm :: rest, k => by
    rw [stored, stored_one hch rest, forall₂_dithered_one (dithered_ditherAt _ _ _), column_eq hch]
    simp [Spec.codes, signal]

/-- a frame is as long as its call -/
theorem Recorded.size_le {n m : Nat} {inv : F32} {calls : List (List F32)} {blocks : List (Nat → Fr)} (H : Recorded n inv calls blocks)
    (hs : ∀ pcm ∈ calls, pcm.length / n ≤ m) {j : Nat} (hj : j < blocks.length) {ch : Nat} (hch : ch < n) :
    (blocks[j] ch).codes.length ≤ m := by
  have hj' : j < calls.length := by rw [← H.len]; exact hj
  rw [(H.made j hj hj' ch hch).length]
  exact hs _ (List.getElem_mem hj')

/-- short calls make short frames -/
theorem Recorded.short {n : Nat} {inv : F32} {calls : List (List F32)} {blocks : List (Nat → Fr)} (H : Recorded n inv calls blocks)
    (hn : 0 < n) (hs : ∀ pcm ∈ calls, pcm.length / n < 65536) : Short blocks := by
  intro blk hb
  obtain ⟨j, hj, rfl⟩ := List.getElem_of_mem hb
  have hj' : j < calls.length := by rw [← H.len]; exact hj
  rw [(H.made j hj hj' 0 hn).length]
  exact hs _ (List.getElem_mem hj')

/-! ## success of encoding -/

theorem gaps_mem : ∀ (qs P : List Int), ∀ g ∈ gaps P qs, ∃ k, k < qs.length ∧ g = (qs.getD k 0 - guess (P ++ qs.take k)).natAbs
  | [], _, g, h => by simp [gaps] at h
  | q :: qs, P, g, h => by
    simp only [gaps, List.mem_cons] at h
    rcases h with rfl | h
    · exact ⟨0, by simp, by simp⟩
    · obtain ⟨k, hk, e⟩ := gaps_mem qs _ g h
      exact ⟨k + 1, by simpa using hk, by simpa using e⟩

theorem quiet_append {A B : List Int} (h : Quiet (A ++ B)) : Quiet A := by
  intro n h3 hn
  have := h n h3 (by simp; omega)
  rwa [List.take_append_of_le_length (by omega), show (A ++ B).getD n 0 = A.getD n 0 by
    simp [List.getD_eq_getElem?_getD, List.getElem?_append_left hn]] at this

theorem quiet_calm {b : Build} {P qs : List Int} (h : Quiet (P ++ qs)) (hl : qs.length < 65536) (hP : P ≠ [] → 3 ≤ P.length) :
    Fr.calm b P qs := by
  have key : ∀ (A B : List Int), 3 ≤ A.length → A ++ B = P ++ qs → ∀ g ∈ gaps A B, g < 49152 := by
    intro A B hA e g hg
    obtain ⟨k, hk, rfl⟩ := gaps_mem B A g hg
    have := h (A.length + k) (by omega) (by rw [← e]; simp; omega)
    rw [← e, List.take_length_add_append] at this
    rwa [show (A ++ B).getD (A.length + k) 0 = B.getD k 0 by
      rw [List.getD_eq_getElem?_getD, List.getElem?_append_right (by omega), Nat.add_sub_cancel_left, List.getD_eq_getElem?_getD]] at this
  have mild : ∀ l : List Nat, (∀ g ∈ l, g < 49152) → Mild l := by
    intro l hl
    have : l.countP (49152 ≤ ·) = 0 := by
      rw [List.countP_eq_zero]
      intro g hg
      have := hl g hg
      simp; omega
    unfold Mild
    omega
  unfold Fr.calm Calm
  split
  · next hp =>
    subst hp
    by_cases h3 : 3 ≤ qs.length
    · exact .inr ⟨by simp; omega, mild _ (key _ _ (by simp; omega) (by simp))⟩
    · rw [List.drop_eq_nil_of_le (by omega)]
      exact .inr ⟨by simp, by simp [gaps, Mild]⟩
  · next hp => exact .inr ⟨by omega, mild _ (key P qs (hP hp) rfl)⟩

/-- no exponent-15 frame: in a debug build such a frame overflows -/
def QuietCalls (b : Build) (n : Nat) (inv : F32) (calls : List (List F32)) : Prop :=
  b = .release ∨ ((∀ pcm ∈ calls, pcm.length / n < 65536) ∧ ∀ ch < n, Quiet (stored inv n ch 0 calls))

/-- encoding succeeds -/
theorem encodeAll_calls {b : Build} {info : StreamInfo} (hn : 0 < info.channels) (level : Nat) (calls : List (List F32))
    (h3 : ∀ first ∈ calls.head?, 3 ≤ first.length / info.channels)
    (hq : QuietCalls b info.channels (fresh info level).invScale calls) :
    ∃ c blocks, encodeAll b (fresh info level) calls = .ok c ∧ EncSt c info (flat info.channels blocks) (codesOf blocks) ∧
      Recorded info.channels (fresh info level).invScale calls blocks ∧ SameLevel (fresh info level) c := by
  obtain ⟨inv, hinv⟩ : ∃ inv, inv = (fresh info level).invScale := ⟨_, rfl⟩
  obtain ⟨n, hnn⟩ : ∃ n, n = info.channels := ⟨_, rfl⟩
  rw [← hinv] at hq ⊢
  obtain ⟨c, blocks, e, H, HR, s, -⟩ := encodeAll_ok (b := b) hn (inv := inv)
    (fun blocks rest => ((blocks = [] ∧ ∀ first ∈ rest.head?, 3 ≤ first.length / info.channels) ∨ ∀ ch < info.channels, 3 ≤ (codesOf blocks ch).length) ∧
      (b = .release ∨ ((∀ pcm ∈ rest, pcm.length / info.channels < 65536) ∧
        ∀ ch < info.channels, Quiet (codesOf blocks ch ++ stored inv info.channels ch (total (flat info.channels blocks)) rest))))
    (by
      intro blocks pcm rest hI
      obtain ⟨hb, hc⟩ := hI
      have hne : ∀ ch < info.channels, codesOf blocks ch ≠ [] → 3 ≤ (codesOf blocks ch).length := by
        intro ch hch h
        rcases hb with ⟨rfl, -⟩ | hb
        · simp at h
        · exact hb ch hch
      refine ⟨?_, ?_, ?_⟩
      · intro ch hch h0
        rcases hb with ⟨-, h⟩ | hb
        · exact h pcm (by simp)
        · have := hb ch hch
          rw [h0] at this
          simp at this
      · intro ch hch
        rcases hc with rfl | ⟨hs, hc⟩
        · unfold Fr.calm Calm; split <;> exact .inl rfl
        · have := hc ch hch
          rw [stored, ← List.append_assoc] at this
          refine quiet_calm (quiet_append this) ?_ (hne ch hch)
          rw [List.length_map, length_ditherAt]
          have := hs pcm (by simp)
          simpa [column] using this
      · intro blk hm
        refine ⟨.inr ?_, ?_⟩
        · intro ch hch
          rw [codesOf_append, codesOf_singleton, List.length_append]
          rcases hb with ⟨rfl, h⟩ | hb
          · have := (hm ch hch).length
            have := h pcm (by simp)
            omega
          · have := hb ch hch
            omega
        · rcases hc with rfl | ⟨hs, hc⟩
          · exact .inl rfl
          · right
            refine ⟨fun x hx => hs x (by simp [hx]), ?_⟩
            intro ch hch
            have := hc ch hch
            rw [stored, ← List.append_assoc] at this
            rw [codesOf_append, codesOf_singleton, (hm ch hch).exact, flat_append, total_append, flat, flat, List.flatMap_singleton,
              total_range info.channels (fun ch hch => (hm ch hch).length)]
            exact this)
    calls (c := fresh info level) (calls := []) (blocks := []) hinv.symm (encSt_new info level) (recorded_nil _ _)
    ⟨.inl ⟨rfl, h3⟩, by
      rcases hq with h | h
      · exact .inl h
      · right; simpa using h⟩
  exact ⟨c, blocks, e, H, by simpa using HR, s⟩

/-- the first call needs three blocks -/
theorem encode_first_panics {b : Build} {info : StreamInfo} (hn : 0 < info.channels) (level : Nat) (pcm : List F32)
    (h : pcm.length / info.channels < 3) : (fresh info level).encode b pcm = .error .index := by
  have H := encSt_new info level
  obtain ⟨seq', ys, e1, hseq, hd⟩ := dither_ok (b := b) (inv := (fresh info level).invScale) (column info.channels 0 pcm) (by rw [H.seq]; exact draw_lt _)
  have hl : ys.length = pcm.length / info.channels := by rw [← hd.length_eq]; simp [column]
  have hst : (fresh info level).channelStateList = List.replicate info.channels FrameCodec.new := by
    simp [fresh, AdhocCodec.withCompressionLevel, AdhocCodec.setInfo, AdhocCodec.resize, AdhocCodec.new]
  have hw : ∀ (s : BitStream) bits (q : Int), Holds s bits → ∃ s', s.writeU16 (BitVec.ofInt 16 q) = .ok s' ∧ ∃ bits', Holds s' bits' := by
    intro s bits q hs
    obtain ⟨s', e, h'⟩ := holds_writeU16 hs q
    exact ⟨s', e, _, h'⟩
  have hfr : FrameCodec.new.encodeFrame b (fresh info level).stream (fresh info level).frameHeaderList ys = .error .index := by
    unfold FrameCodec.encodeFrame FrameCodec.new
    dsimp only
    match ys, hl with
    | [], _ => rfl
    | [y0], _ =>
      rw [idx_of_lt (by simp), bind_ok]
      obtain ⟨s1, e1, _, h1⟩ := hw _ _ (truncateSample y0) H.bits
      simp only [List.getElem_cons_zero]
      erw [e1]
      rfl
    | [y0, y1], _ =>
      rw [idx_of_lt (by simp), bind_ok]
      obtain ⟨s1, e1, _, h1⟩ := hw _ _ (truncateSample y0) H.bits
      simp only [List.getElem_cons_zero]
      erw [e1]
      rw [bind_ok, idx_of_lt (by simp), bind_ok]
      obtain ⟨s2, e2, _, h2⟩ := hw _ _ (truncateSample y1) h1
      simp only [List.getElem_cons_succ, List.getElem_cons_zero]
      rw [e2]
      rfl
    | _ :: _ :: _ :: _, hl => simp at hl; omega
  unfold AdhocCodec.encode AdhocCodec.encodeRaw
  rw [show (fresh info level).stream.info = some info from rfl]
  simp only [expect, bind_ok]
  rw [udiv_of_pos hn, bind_ok]
  obtain ⟨n, hnn⟩ : ∃ n, info.channels = n + 1 := ⟨info.channels - 1, by omega⟩
  rw [show List.range info.channels = 0 :: (List.range n).map (· + 1) by rw [hnn, List.range_succ_eq_map]]
  rw [List.foldlM_cons]
  have : (fresh info level).encodeChannel b pcm info.channels (pcm.length / info.channels) 0 = .error .index := by
    unfold AdhocCodec.encodeChannel
    rw [deinterleave_ok hn, bind_ok]
    have e1' : AdhocCodec.dither b (fresh info level).invScale (fresh info level).seq (column info.channels 0 pcm) = .ok (seq', ys) := e1
    rw [e1', bind_ok]
    dsimp only
    rw [hst, idx_of_lt (by simpa using hn), bind_ok, List.getElem_replicate, hfr]
    rfl
  rw [this]
  rfl

/-- a successful recording, in whatever build, is a recording -/
theorem recorded_of_ok {b : Build} {info : StreamInfo} {level : Nat} {calls : List (List F32)} {c : AdhocCodec}
    (hn : 0 < info.channels) (h : encodeAll b (fresh info level) calls = .ok c) :
    (∀ first ∈ calls.head?, 3 ≤ first.length / info.channels) ∧
    ∃ blocks, EncSt c info (flat info.channels blocks) (codesOf blocks) ∧
      Recorded info.channels (fresh info level).invScale calls blocks ∧ SameLevel (fresh info level) c := by
  have hrel : encodeAll .release (fresh info level) calls = .ok c := by
    refine Ref.build (f := fun b => encodeAll b (fresh info level) calls) ?_ h
    exact Ref.foldlM (fun c pcm => (ref_encode c pcm).bind fun _ => Ref.rfl) _ _
  have h3 : ∀ first ∈ calls.head?, 3 ≤ first.length / info.channels := by
    intro first hf
    cases calls with
    | nil => simp at hf
    | cons x rest =>
      simp at hf
      subst hf
      by_contra hc
      unfold encodeAll at hrel
      rw [List.foldlM_cons, encode_first_panics hn level x (by omega)] at hrel
      cases hrel
  refine ⟨h3, ?_⟩
  obtain ⟨c', blocks, e, H, HR, s⟩ := encodeAll_calls (b := .release) hn level calls h3 (.inl rfl)
  rw [e] at hrel
  cases hrel
  exact ⟨blocks, H, HR, s⟩

end Adhoc
