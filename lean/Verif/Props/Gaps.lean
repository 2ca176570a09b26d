import Verif.Props.AnyFile
import Verif.Props.Playback

/-!
# C07 and C128 without the condition on gaps

When none of the samples decoded so far is left, `decode` decodes the next frames up to the first one that is not empty, but at most ten, and gives up if it needed all ten.
What this does to the counts is said here by the sizes of the frames alone.
-/

namespace Adhoc
open Spec

namespace Spec

/-- How many of `q` blocks a call delivers, and the state it leaves: `have_` are the blocks decoded but not delivered, `sizes` the sizes of the frames still to be decoded.
With none at hand, the first frame that is not empty is taken if it is among the next nine; otherwise the call ends there and ten frames are passed, the last of which
is kept for the next call. -/
def serve : (q : Nat) → (have_ : Nat) → (sizes : List Nat) → Nat × Nat × List Nat
  | 0, a, sizes => (0, a, sizes)
  | q + 1, a + 1, sizes => ((serve q a sizes).1 + 1, (serve q a sizes).2)
  | q + 1, 0, sizes =>
    let z := (sizes.takeWhile (· = 0)).length
    if z < 9 ∧ z < sizes.length then ((serve q (sizes.getD z 0 - 1) (sizes.drop (z + 1))).1 + 1, (serve q (sizes.getD z 0 - 1) (sizes.drop (z + 1))).2)
    else (0, sizes.getD 9 0, sizes.drop 10)

/-- the calls one after the other -/
def readGaps (n : Nat) : (sig : List (List F32)) → (have_ : Nat) → (sizes : List Nat) → List (List F32) → List (List F32 × Option Nat)
  | _, _, _, [] => []
  | sig, a, sizes, buf :: bufs =>
    let d := (serve (buf.length / n) a sizes).1
    ((sig.take d).flatten ++ buf.drop (d * n), if d = 0 then none else some (d * n)) ::
      readGaps n (sig.drop d) (serve (buf.length / n) a sizes).2.1 (serve (buf.length / n) a sizes).2.2 bufs

end Spec

/-! ## the decoder -/

/-- the search for a frame that is not empty -/
def hunt : (left : Nat) → (have_ : Nat) → (sizes : List Nat) → Nat × Nat × List Nat
  | 0, a, sizes => (0, a, sizes)
  | left + 1, 0, sizes => hunt left (sizes.headD 0) sizes.tail
  | left + 1, a + 1, sizes => (left + 1, a + 1, sizes)

theorem hunt_eq : ∀ (l : Nat) (sizes : List Nat), hunt (l + 1) 0 sizes =
    if (sizes.takeWhile (· = 0)).length < l ∧ (sizes.takeWhile (· = 0)).length < sizes.length then
      (l - (sizes.takeWhile (· = 0)).length, sizes.getD (sizes.takeWhile (· = 0)).length 0, sizes.drop ((sizes.takeWhile (· = 0)).length + 1))
    else (0, sizes.getD l 0, sizes.drop (l + 1))
  | 0, sizes => by
    cases sizes <;> simp [hunt]
  | l + 1, [] => by
    have : ∀ k, hunt k 0 [] = (0, 0, []) := by
      intro k
      induction k with
      | zero => rfl
      | succ k ih => simp [hunt, ih]
    simp [this]
  | l + 1, 0 :: sizes => by
    show hunt (l + 1) 0 sizes = _
    rw [hunt_eq l sizes]
    simp only [List.takeWhile_cons, decide_true, if_true, List.length_cons, Nat.add_lt_add_iff_right]
    split
    · simp
    · simp
  | l + 1, (s + 1) :: sizes => by
    show hunt (l + 1) (s + 1) sizes = _
    simp [hunt]

/-- what the proofs on the decoder have in common for recordings and for files -/
structure Steps (b : Build) (n : Nat) (sizes : List Nat) (cols : List (List F32)) (St : AdhocCodec → Nat → Nat → Prop) : Prop where
  pos : 0 < n
  width : cols.length = n
  info : ∀ {c j m}, St c j m → ∃ info, c.stream.info = some info ∧ info.channels = n
  le : ∀ {c j m}, St c j m → m ≤ (sizes.take j).sum
  empty : ∀ {c j m}, St c j m → (c.isBuffersEmpty = true ↔ m = (sizes.take j).sum)
  block : ∀ {c j m}, St c j m → ∃ c' j', c.decodeBlock b n = .ok c' ∧ SameLevel c c' ∧ St c' j' m ∧
    (sizes.take j').sum = (sizes.take j).sum + (sizes.drop j).headD 0 ∧ sizes.drop j' = (sizes.drop j).tail
  pop : ∀ {c j m}, St c j m → m < (sizes.take j).sum → ∀ {legal cursor : Nat} {pcm : List F32}, cursor + n ≤ legal → legal ≤ pcm.length →
    ∃ c', AdhocCodec.popBlock legal n 0 c pcm cursor = .ok (c', pcm.take cursor ++ rows cols m 1 ++ pcm.drop (cursor + n), cursor + n) ∧
      SameLevel c c' ∧ St c' j (m + 1)

section
variable {b : Build} {n : Nat} {sizes : List Nat} {cols : List (List F32)} {St : AdhocCodec → Nat → Nat → Prop}

theorem Steps.buffer (T : Steps b n sizes cols St) : ∀ (left : Nat) {c : AdhocCodec} {j m : Nat}, St c j m →
    ∃ c' j', AdhocCodec.bufferAudio b n left c = .ok (c', (hunt left ((sizes.take j).sum - m) (sizes.drop j)).1) ∧ SameLevel c c' ∧ St c' j' m ∧
      (sizes.take j').sum - m = (hunt left ((sizes.take j).sum - m) (sizes.drop j)).2.1 ∧ sizes.drop j' = (hunt left ((sizes.take j).sum - m) (sizes.drop j)).2.2
  | 0, c, j, m, H => ⟨c, j, rfl, .refl c, H, rfl, rfl⟩
  | left + 1, c, j, m, H => by
    have hle := T.le H
    unfold AdhocCodec.bufferAudio
    by_cases he : c.isBuffersEmpty = true
    · have hm := (T.empty H).1 he
      rw [if_pos he]
      obtain ⟨c1, j1, e1, s1, H1, hs, hd⟩ := T.block H
      obtain ⟨c2, j2, e2, s2, H2, ha, hr⟩ := T.buffer left H1
      have h1 : (sizes.take j1).sum - m = (sizes.drop j).headD 0 := by omega
      rw [h1, hd] at e2 ha hr
      have h0 : (sizes.take j).sum - m = 0 := by omega
      rw [h0]
      exact ⟨c2, j2, by rw [e1, bind_ok]; exact e2, s1.trans s2, H2, ha, hr⟩
    · rw [if_neg he]
      have hne : m ≠ (sizes.take j).sum := fun h => he ((T.empty H).2 h)
      obtain ⟨a, ha⟩ : ∃ a, (sizes.take j).sum - m = a + 1 := ⟨(sizes.take j).sum - m - 1, by omega⟩
      rw [ha]
      exact ⟨c, j, rfl, .refl c, H, ha, rfl⟩

theorem hunt_pos (left a : Nat) (sizes : List Nat) (h : 0 < (hunt left a sizes).1) : 0 < (hunt left a sizes).2.1 := by
  induction left generalizing a sizes with
  | zero => simp [hunt] at h
  | succ left ih =>
    cases a with
    | zero => exact ih _ _ h
    | succ a => simp [hunt]

/-- `serve` in terms of the search -/
theorem serve_hunt (q a : Nat) (sizes : List Nat) : serve (q + 1) a sizes =
    if (hunt MAX_DECODE_ATTEMPTS a sizes).1 = 0 then (0, (hunt MAX_DECODE_ATTEMPTS a sizes).2)
    else ((serve q ((hunt MAX_DECODE_ATTEMPTS a sizes).2.1 - 1) (hunt MAX_DECODE_ATTEMPTS a sizes).2.2).1 + 1,
      (serve q ((hunt MAX_DECODE_ATTEMPTS a sizes).2.1 - 1) (hunt MAX_DECODE_ATTEMPTS a sizes).2.2).2) := by
  unfold MAX_DECODE_ATTEMPTS
  cases a with
  | succ a => simp [serve, hunt]
  | zero =>
    rw [hunt_eq 9]
    conv_lhs => unfold serve
    dsimp only
    split
    · next h => rw [if_neg (by dsimp only; omega)]
    · rw [if_pos rfl]

theorem Steps.loop (T : Steps b n sizes cols St) (q : Nat) : ∀ (fuel : Nat) {c : AdhocCodec} {j m r : Nat} {pcm : List F32} (_ : St c j m) (_ : r ≤ q) (_ : q - r < fuel)
      (_ : q * n ≤ pcm.length), ∃ c' j' d, AdhocCodec.decodeLoop b n (q * n) fuel c pcm (r * n) =
        .ok (c', pcm.take (r * n) ++ rows cols m d ++ pcm.drop ((r + d) * n), (r + d) * n) ∧
      SameLevel c c' ∧ St c' j' (m + d) ∧
      serve (q - r) ((sizes.take j).sum - m) (sizes.drop j) = (d, (sizes.take j').sum - (m + d), sizes.drop j')
  | 0, _, _, _, _, _, _, _, h, _ => absurd h (by omega)
  | fuel + 1, c, j, m, r, pcm, H, hr, hf, hl => by
    have hn := T.pos
    unfold AdhocCodec.decodeLoop
    by_cases hlt : r < q
    · have hle : (r + 1) * n ≤ q * n := Nat.mul_le_mul_right _ hlt
      rw [Nat.add_mul, Nat.one_mul] at hle
      rw [if_pos (by omega)]
      obtain ⟨c1, j1, e1, s1, H1, ha, hd⟩ := T.buffer MAX_DECODE_ATTEMPTS H
      rw [e1, bind_ok]
      dsimp only
      have hq : q - r = (q - (r + 1)) + 1 := by omega
      rw [hq, serve_hunt]
      by_cases h0 : (hunt MAX_DECODE_ATTEMPTS ((sizes.take j).sum - m) (sizes.drop j)).1 = 0
      · rw [if_pos h0, if_pos h0]
        exact ⟨c1, j1, 0, by simp [rows], s1, H1, by rw [Nat.add_zero, ha, hd]⟩
      · rw [if_neg h0, if_neg h0, ← ha, ← hd]
        have hp := hunt_pos _ _ _ (Nat.pos_of_ne_zero h0)
        rw [← ha] at hp
        obtain ⟨c2, e2, s2, H2⟩ := T.pop H1 (by omega) (pcm := pcm) (cursor := r * n) (legal := q * n) hle hl
        rw [e2, bind_ok]
        dsimp only
        obtain ⟨row, hrow⟩ : ∃ row, row = rows cols m 1 := ⟨_, rfl⟩
        have hrl : row.length = n := by rw [hrow, length_rows, T.width]; simp
        rw [← hrow]
        have hmul : r * n + n = (r + 1) * n := by rw [Nat.add_mul, Nat.one_mul]
        rw [hmul]
        have hlen : q * n ≤ (pcm.take (r * n) ++ row ++ pcm.drop ((r + 1) * n)).length := by
          simp only [List.length_append, List.length_take, List.length_drop, hrl]
          omega
        obtain ⟨c3, j3, d, e3, s3, H3, hs⟩ := T.loop q fuel H2 (show r + 1 ≤ q by omega) (by omega) hlen
        refine ⟨c3, j3, d + 1, ?_, s1.trans (s2.trans s3), by rw [← Nat.add_assoc, Nat.add_right_comm]; exact H3, ?_⟩
        · rw [e3]
          have ea : (pcm.take (r * n) ++ row ++ pcm.drop ((r + 1) * n)).take ((r + 1) * n) = pcm.take (r * n) ++ row := by
            rw [List.take_append_of_le_length (by simp [hrl]; omega), List.take_of_length_le (by simp [hrl]; omega)]
          have eb : (pcm.take (r * n) ++ row ++ pcm.drop ((r + 1) * n)).drop ((r + 1 + d) * n) = pcm.drop ((r + (d + 1)) * n) := by
            have hx : (r + 1 + d) * n = (r + 1) * n + d * n := by rw [Nat.add_mul]
            have hy : (r + (d + 1)) * n = (r + 1) * n + d * n := by rw [← Nat.add_mul]; congr 1; omega
            have hz : (pcm.take (r * n) ++ row).length = (r + 1) * n := by simp [hrl]; omega
            rw [hx, hy, ← List.drop_drop, List.drop_left' hz, List.drop_drop]
          rw [ea, eb, rows_succ, ← hrow]
          have ec : (r + 1 + d) * n = (r + (d + 1)) * n := by congr 1; omega
          rw [ec]
          simp [List.append_assoc]
        · rw [Nat.sub_sub, hs, show m + (d + 1) = m + 1 + d by omega]
    · have hrq : r = q := by omega
      subst hrq
      rw [if_neg (by omega), Nat.sub_self]
      exact ⟨c, j, 0, by simp [rows], .refl c, H, rfl⟩

theorem Steps.decode (T : Steps b n sizes cols St) {c : AdhocCodec} {j m : Nat} (H : St c j m) (buf : List F32) :
    ∃ c' j' d, c.decode b buf = .ok (c', (rows cols m d ++ buf.drop (d * n)).map (· * c.scale), if d = 0 then none else some (d * n)) ∧
      SameLevel c c' ∧ St c' j' (m + d) ∧
      serve (buf.length / n) ((sizes.take j).sum - m) (sizes.drop j) = (d, (sizes.take j').sum - (m + d), sizes.drop j') := by
  have hn := T.pos
  obtain ⟨c', j', d, e, s, H', hd⟩ := T.loop (buf.length / n) (buf.length / n * n + 1) (r := 0) (pcm := buf) H (Nat.zero_le _)
    (by have := Nat.le_mul_of_pos_right (buf.length / n) hn; omega) (Nat.div_mul_le_self _ _)
  refine ⟨c', j', d, ?_, s, H', hd⟩
  obtain ⟨info, hi, hch⟩ := T.info H
  unfold AdhocCodec.decode AdhocCodec.decodeRaw
  rw [hi]
  simp only [expect, bind_ok]
  rw [hch, udiv_of_pos hn, bind_ok]
  rw [Nat.zero_mul] at e
  rw [e, bind_ok]
  simp only [Nat.zero_add, List.take_zero, List.nil_append, pure_eq_ok, bind_ok, s.scale]
  congr 3
  by_cases h : d = 0
  · subst h; simp
  · rw [if_neg h, if_pos (Nat.mul_pos (Nat.pos_of_ne_zero h) hn)]

theorem Steps.all (T : Steps b n sizes cols St) (sig : List (List F32)) (hsig : ∀ m d, m + d ≤ sizes.sum → rows cols m d = ((sig.drop m).take d).flatten) :
    ∀ (bufs : List (List F32)) {c : AdhocCodec} {j m : Nat} (_ : St c j m),
    ∃ c' j' m', decodeAll b c bufs = .ok (c', (readGaps n (sig.drop m) ((sizes.take j).sum - m) (sizes.drop j) bufs).map fun r => (r.1.map (· * c.scale), r.2)) ∧
      SameLevel c c' ∧ St c' j' m'
  | [], c, j, m, H => ⟨c, j, m, rfl, .refl c, H⟩
  | buf :: bufs, c, j, m, H => by
    obtain ⟨c1, j1, d, e1, s1, H1, hs⟩ := T.decode H buf
    obtain ⟨c2, j2, m2, e2, s2, H2⟩ := T.all sig hsig bufs H1
    refine ⟨c2, j2, m2, ?_, s1.trans s2, H2⟩
    have hle := T.le H1
    have hsum : (sizes.take j1).sum ≤ sizes.sum := by
      conv_rhs => rw [← List.take_append_drop j1 sizes, List.sum_append]
      omega
    unfold decodeAll
    rw [e1, bind_ok]
    dsimp only
    rw [e2, bind_ok, pure_eq_ok, s1.scale]
    simp only [readGaps]
    rw [hs, hsig m d (by omega), List.drop_drop]
    simp only [List.map_cons]

end

theorem sizesOf_sum (blocks : List (Nat → Fr)) (j : Nat) : ((sizesOf blocks).take j).sum = rowsIn (blocks.take j) := by
  unfold sizesOf rowsIn
  rw [List.map_take]

/-- recordings -/
theorem steps_rec {b : Build} {info : StreamInfo} (hn : 0 < info.channels) {blocks : List (Nat → Fr)} (HR : Rec info.channels blocks) (hsh : Short blocks) :
    Steps b info.channels (sizesOf blocks) (outCols info.channels blocks) (fun c j m => DecSt c info blocks j m) where
  pos := hn
  width := by simp [outCols]
  info H := ⟨info, H.fl.hinfo, rfl⟩
  le H := by rw [sizesOf_sum]; exact H.m_le
  empty H := by rw [sizesOf_sum]; exact isBuffersEmpty_iff hn HR H
  block {c j m} H := by
    by_cases hj : j < blocks.length
    · obtain ⟨c1, e1, s1, H1⟩ := decodeBlock_ok (b := b) HR hsh H hj
      have hj' : j < (sizesOf blocks).length := by simpa [sizesOf] using hj
      refine ⟨c1, j + 1, e1, s1, H1, ?_, by rw [List.tail_drop]⟩
      rw [sizesOf_sum, sizesOf_sum, rowsIn_take_succ hj, List.drop_eq_getElem_cons hj']
      simp [sizesOf]
    · have hjl : j = blocks.length := by have := H.j_le; omega
      subst hjl
      obtain ⟨c1, e1, s1, H1⟩ := decodeBlock_end (b := b) H
      have hd : (sizesOf blocks).drop blocks.length = [] := by simp [sizesOf]
      exact ⟨c1, blocks.length, e1, s1, H1, by rw [hd]; rfl, by rw [hd]; rfl⟩
  pop H hm _ _ _ h1 h2 := popRow_ok HR hn H (by rw [sizesOf_sum] at hm; exact hm) h1 h2

theorem rowSizes_sum (rows : List (Nat → Clip)) (j : Nat) : ((rowSizes rows).take j).sum = rowSum (rows.take j) := by
  unfold rowSizes rowSum
  rw [List.map_take]

/-- files -/
theorem steps_clip {b : Build} {info : StreamInfo} (hn : 0 < info.channels) {rows : List (Nat → Clip)} (HR : Laid info.channels rows) :
    Steps b info.channels (rowSizes rows) (grownCols info.channels rows) (fun c j m => ClipSt c info rows j m) where
  pos := hn
  width := by simp [grownCols]
  info H := ⟨info, H.fl.hinfo, rfl⟩
  le H := by rw [rowSizes_sum]; exact H.m_le
  empty H := by rw [rowSizes_sum]; exact buffersEmpty_clip hn HR H
  block {c j m} H := by
    by_cases hj : j < rows.length
    · obtain ⟨c1, e1, s1, H1⟩ := decodeBlock_clip (b := b) HR H hj
      have hj' : j < (rowSizes rows).length := by simpa [rowSizes] using hj
      refine ⟨c1, j + 1, e1, s1, H1, ?_, by rw [List.tail_drop]⟩
      rw [rowSizes_sum, rowSizes_sum, rowSum_take_succ hj, List.drop_eq_getElem_cons hj']
      simp [rowSizes]
    · have hjl : j = rows.length := by have := H.j_le; omega
      subst hjl
      obtain ⟨c1, e1, s1, H1⟩ := decodeBlock_clipEnd (b := b) H
      have hd : (rowSizes rows).drop rows.length = [] := by simp [rowSizes]
      exact ⟨c1, rows.length, e1, s1, H1, by rw [hd]; rfl, by rw [hd]; rfl⟩
  pop H hm _ _ _ h1 h2 := popRow_clip HR H (by rw [rowSizes_sum] at hm; exact hm) h1 h2

/-! ## C07 -/

/-- C07, exactly. What any calls of `decode` on a rewound recording return is what `readGaps` says of the sizes of its frames: the samples are those of the recording, in order,
with every buffer, level and build, whatever empty frames there are. -/
theorem C07_counts_partial (b b' : Build) (info : StreamInfo) (level : Nat) (hn : 0 < info.channels) (calls : List (List F32)) (c : AdhocCodec)
    (h : encodeAll b (fresh info level) calls = .ok c) (hs : ∀ pcm ∈ calls, pcm.length / info.channels < 65536) (bufs : List (List F32)) :
    ∃ Q : Nat → List Int, (∀ ch < info.channels, Q ch = stored (fresh info level).invScale info.channels ch 0 calls) ∧
      ∃ c', decodeAll b' c.init bufs = .ok (c', (readGaps info.channels (played info.channels (signal info.channels calls).length Q) 0
        (calls.map fun pcm => pcm.length / info.channels) bufs).map fun r => (r.1.map (· * (fresh info level).scale), r.2)) := by
  obtain ⟨-, blocks, H, HR, s⟩ := recorded_of_ok hn h
  have hrec := HR.toRec hn
  have hsh := HR.short hn hs
  refine ⟨codesOf blocks, fun ch hch => HR.exact hch, ?_⟩
  obtain ⟨c', j', m', e, -, -⟩ := (steps_rec (b := b') hn hrec hsh).all (played info.channels (signal info.channels calls).length (codesOf blocks)) (by
    intro m d hmd
    rw [← HR.rows hn]
    exact rows_played hrec hmd) bufs (decSt_init H)
  have hsc : c.init.scale = (fresh info level).scale := s.scale
  rw [hsc, HR.sizes hn] at e
  exact ⟨c', e⟩

theorem first_pos : ∀ (sizes : List Nat), (sizes.takeWhile (· = 0)).length < sizes.length → 0 < sizes.getD (sizes.takeWhile (· = 0)).length 0
  | [], h => by simp at h
  | 0 :: sizes, h => by
    simp only [List.takeWhile_cons, decide_true, if_true, List.length_cons, Nat.add_lt_add_iff_right] at h ⊢
    simpa using first_pos sizes h
  | (s + 1) :: sizes, _ => by simp

theorem serve_sum : ∀ (q a : Nat) (sizes : List Nat), (serve q a sizes).1 + (serve q a sizes).2.1 + (serve q a sizes).2.2.sum = a + sizes.sum ∧
    (serve q a sizes).1 ≤ q ∧ (serve q a sizes).2.2.length ≤ sizes.length ∧
    (0 < q → 0 < (serve q a sizes).1 ∨ a = 0 ∧ (serve q a sizes).2.2 = sizes.drop 10)
  | 0, a, sizes => by simp [serve]
  | q + 1, a + 1, sizes => by
    have := serve_sum q a sizes
    simp only [serve]
    omega
  | q + 1, 0, sizes => by
    have hz : ∀ z, z ≤ (sizes.takeWhile (· = 0)).length → (sizes.take z).sum = 0 := by
      intro z hz
      rw [List.sum_eq_zero_iff]
      intro x hx
      have h1 : sizes.take z = (sizes.takeWhile (· = 0)).take z := by
        conv_lhs => rw [← List.takeWhile_append_dropWhile (p := fun x : Nat => decide (x = 0)) (l := sizes)]
        rw [List.take_append_of_le_length hz]
      rw [h1] at hx
      simpa using List.mem_takeWhile_imp (List.mem_of_mem_take hx)
    unfold serve
    dsimp only
    split
    · next h =>
      have := serve_sum q (sizes.getD (sizes.takeWhile (· = 0)).length 0 - 1) (sizes.drop ((sizes.takeWhile (· = 0)).length + 1))
      have hp : 0 < sizes.getD (sizes.takeWhile (· = 0)).length 0 := by
        exact first_pos sizes h.2
      have hs := hz _ (le_refl _)
      have hsum : sizes.sum = sizes.getD (sizes.takeWhile (· = 0)).length 0 + (sizes.drop ((sizes.takeWhile (· = 0)).length + 1)).sum := by
        conv_lhs => rw [← List.take_append_drop (sizes.takeWhile (· = 0)).length sizes, List.sum_append, hs, List.drop_eq_getElem_cons h.2, List.sum_cons]
        rw [List.getD_eq_getElem?_getD, List.getElem?_eq_getElem h.2]
        simp
      simp only [List.length_drop] at this
      dsimp only
      omega
    · next h =>
      have h9 : (sizes.take 9).sum = 0 := by
        by_cases h1 : (sizes.takeWhile (· = 0)).length < 9
        · have h2 : sizes.length ≤ (sizes.takeWhile (· = 0)).length := by omega
          have := hz sizes.length h2
          rw [List.take_length] at this
          rw [List.sum_eq_zero_iff] at this ⊢
          exact fun x hx => this x (List.mem_of_mem_take hx)
        · exact hz 9 (by omega)
      have hsum : sizes.sum = sizes.getD 9 0 + (sizes.drop 10).sum := by
        conv_lhs => rw [← List.take_append_drop 9 sizes, List.sum_append, h9]
        by_cases hl : 9 < sizes.length
        · rw [List.drop_eq_getElem_cons hl, List.sum_cons, List.getD_eq_getElem?_getD, List.getElem?_eq_getElem hl]
          simp
        · rw [List.drop_eq_nil_of_le (by omega), List.drop_eq_nil_of_le (by omega), List.getD_eq_getElem?_getD, List.getElem?_eq_none (by omega)]
          simp
      exact ⟨by dsimp only; omega, by omega, by simp, fun _ => .inr ⟨rfl, rfl⟩⟩

/-- any calls deliver, and enough calls deliver everything -/
theorem Steps.walk {b : Build} {n : Nat} {sizes : List Nat} {cols : List (List F32)} {St : AdhocCodec → Nat → Nat → Prop} (T : Steps b n sizes cols St) :
    ∀ (bufs : List (List F32)) {c : AdhocCodec} {j m : Nat} (_ : St c j m),
    ∃ c' outs j' m', decodeAll b c bufs = .ok (c', outs) ∧ St c' j' m' ∧ m ≤ m' ∧ (delivered outs).length = (m' - m) * n ∧
      ((∀ buf ∈ bufs, n ≤ buf.length) → sizes.sum - m + ((sizes.drop j).length + 9) / 10 ≤ bufs.length → sizes.sum ≤ m')
  | [], c, j, m, H => ⟨c, [], j, m, rfl, H, le_rfl, by simp [delivered], fun _ h => by simp at h; omega⟩
  | buf :: bufs, c, j, m, H => by
    obtain ⟨c1, j1, d, e1, s1, H1, hs⟩ := T.decode H buf
    obtain ⟨c2, outs, j2, m2, e2, H2, hm, hl, hend⟩ := T.walk bufs H1
    have h1 := T.le H
    have h2 := T.le H1
    have hsv := serve_sum (buf.length / n) ((sizes.take j).sum - m) (sizes.drop j)
    rw [hs] at hsv
    dsimp only at hsv
    obtain ⟨hsum, hdq, hlen, hprog⟩ := hsv
    have hsplit : ∀ i, (sizes.take i).sum + (sizes.drop i).sum = sizes.sum := fun i => by rw [← List.sum_append, List.take_append_drop]
    refine ⟨c2, _, j2, m2, by unfold decodeAll; rw [e1, bind_ok]; dsimp only; rw [e2, bind_ok]; rfl, H2, by omega, ?_, ?_⟩
    · unfold delivered at hl ⊢
      rw [List.flatMap_cons, List.length_append, hl]
      have : m2 - m = d + (m2 - (m + d)) := by omega
      rw [this, Nat.add_mul]
      congr 1
      have hr : (rows cols m d).length = d * n := by rw [length_rows, T.width]
      have hle : d * n ≤ buf.length := (Nat.mul_le_mul_right _ hdq).trans (Nat.div_mul_le_self _ _)
      by_cases h0 : d = 0
      · subst h0; simp
      · rw [if_neg h0, Option.getD_some, List.length_take, List.length_map, List.length_append, hr]
        omega
    · intro hroom hN
      have hq : 0 < buf.length / n := Nat.div_pos (hroom buf (by simp)) T.pos
      rw [List.length_cons] at hN
      apply hend (fun x hx => hroom x (by simp [hx]))
      rcases hprog hq with hd | ⟨h0, hd⟩
      · have := hsplit j1
        omega
      · rw [hd]
        have := hsplit j
        by_cases hz : (sizes.drop j).length = 0
        · have hnil := List.length_eq_zero_iff.1 hz
          rw [hnil] at this
          simp at this
          simp [hnil]
          omega
        · simp only [List.length_drop] at hN hz ⊢
          omega

/-- C07: nothing is lost. `None` in the middle is not the end: whatever empty frames there are, as many calls with room for a block as there are blocks, and one more for every ten
frames, deliver every encoded sample. -/
theorem C07_go_on_partial (b b' : Build) (info : StreamInfo) (level : Nat) (hn : 0 < info.channels) (calls : List (List F32)) (c : AdhocCodec)
    (h : encodeAll b (fresh info level) calls = .ok c) (hs : ∀ pcm ∈ calls, pcm.length / info.channels < 65536) (bufs : List (List F32))
    (hroom : ∀ buf ∈ bufs, info.channels ≤ buf.length) (hlen : (signal info.channels calls).length + (calls.length + 9) / 10 ≤ bufs.length) :
    ∃ c' outs, decodeAll b' c.init bufs = .ok (c', outs) ∧ (delivered outs).length = (signal info.channels calls).length * info.channels := by
  obtain ⟨-, blocks, H, HR, s⟩ := recorded_of_ok hn h
  have T := steps_rec (b := b') hn (HR.toRec hn) (HR.short hn hs)
  obtain ⟨c', outs, j', m', e, H', -, hl, hend⟩ := T.walk bufs (decSt_init H)
  have hsum : (sizesOf blocks).sum = (signal info.channels calls).length := by rw [← rowsIn_eq_sum, HR.rows hn]
  have hle := T.le H'
  have htake : ((sizesOf blocks).take j').sum ≤ (sizesOf blocks).sum := by
    conv_rhs => rw [← List.take_append_drop j' (sizesOf blocks), List.sum_append]
    omega
  have hlen' : (sizesOf blocks).length = calls.length := by rw [HR.sizes hn, List.length_map]
  have := hend hroom (by simp only [List.drop_zero, Nat.sub_zero, hlen', hsum]; exact hlen)
  refine ⟨c', outs, e, ?_⟩
  rw [hl]
  congr 1
  omega

/-! ### when `None` comes too early -/

/-- one block asked for -/
theorem serve_one (a : Nat) (sizes : List Nat) : (serve 1 a sizes).1 = 0 ∨
    (∃ a0, a = a0 + 1 ∧ serve 1 a sizes = (1, a0, sizes)) ∨
    ∃ z, a = 0 ∧ z < sizes.length ∧ 0 < sizes.getD z 0 ∧ (sizes.take z).sum = 0 ∧ serve 1 a sizes = (1, sizes.getD z 0 - 1, sizes.drop (z + 1)) := by
  cases a with
  | succ a0 => exact .inr (.inl ⟨a0, rfl, rfl⟩)
  | zero =>
    unfold serve
    dsimp only
    split
    · next h =>
      refine .inr (.inr ⟨_, rfl, h.2, first_pos sizes h.2, ?_, rfl⟩)
      rw [List.sum_eq_zero_iff]
      intro x hx
      have h1 : sizes.take (sizes.takeWhile (· = 0)).length = sizes.takeWhile (· = 0) := by
        rw [← List.prefix_iff_eq_take.1 (List.takeWhile_prefix _)]
      rw [h1] at hx
      simpa using List.mem_takeWhile_imp hx
    · exact .inl rfl

/-- nine empty frames ahead: nothing is served -/
theorem serve_gap {sizes : List Nat} (h : ∀ t, t ≤ 8 → sizes.getD t 0 = 0) : (serve 1 0 sizes).1 = 0 := by
  unfold serve
  dsimp only
  rw [if_neg]
  rintro ⟨h1, h2⟩
  have := first_pos sizes h2
  rw [h _ (by omega)] at this
  omega

/-- where the reader is after `k` blocks, one by one: in the frame of the last of them -/
def At (sizes : List Nat) (k a : Nat) (rest : List Nat) : Prop :=
  (a = 0 ∧ rest = sizes ∧ k = 0) ∨ ∃ pre last, sizes = pre ++ last :: rest ∧ a < last ∧ k + a = pre.sum + last

theorem decodeAll_snoc {b : Build} : ∀ (bufs : List (List F32)) (buf : List F32) {c c1 c2 : AdhocCodec} {outs : List (List F32 × Option Nat)} {o : List F32} {r : Option Nat},
    decodeAll b c bufs = .ok (c1, outs) → c1.decode b buf = .ok (c2, o, r) → decodeAll b c (bufs ++ [buf]) = .ok (c2, outs ++ [(o, r)])
  | [], buf, c, c1, c2, outs, o, r, h, e => by
    unfold decodeAll at h
    simp at h
    obtain ⟨rfl, rfl⟩ := h
    simp [decodeAll, e]
  | x :: bufs, buf, c, c1, c2, outs, o, r, h, e => by
    unfold decodeAll at h
    obtain ⟨⟨c3, o3, r3⟩, e3, h⟩ := bind_eq_ok.1 h
    obtain ⟨⟨c4, outs4⟩, e4, h⟩ := bind_eq_ok.1 h
    simp at h
    obtain ⟨rfl, rfl⟩ := h
    have := decodeAll_snoc bufs buf e4 e
    rw [List.cons_append]
    unfold decodeAll
    rw [e3, bind_ok]
    dsimp only
    rw [this, bind_ok]
    rfl

theorem sum_take_succ' (sizes : List Nat) (i : Nat) : (sizes.take (i + 1)).sum = (sizes.take i).sum + sizes.getD i 0 := by
  rw [List.take_add_one, List.sum_append, List.getD_eq_getElem?_getD]
  cases sizes[i]? <;> simp

theorem sum_take_mono (sizes : List Nat) {i k : Nat} (h : i ≤ k) : (sizes.take i).sum ≤ (sizes.take k).sum := by
  induction k, h using Nat.le_induction with
  | base => exact le_rfl
  | succ k _ ih => rw [sum_take_succ']; omega

theorem zero_between {sizes : List Nat} {i k x : Nat} (h : (sizes.take k).sum = (sizes.take i).sum) (hi : i ≤ x) (hk : x < k) : sizes.getD x 0 = 0 := by
  have h1 := sum_take_mono sizes hi
  have h2 := sum_take_mono sizes (show x + 1 ≤ k from hk)
  rw [sum_take_succ'] at h2
  omega

/-- when all before the gap has been read one block at a time, the gap is what comes next -/
theorem at_gap {sizes rest : List Nat} {J a : Nat} (hzero : ∀ t, t ≤ 8 → sizes.getD (J + t) 0 = 0) (h : At sizes (sizes.take J).sum a rest) :
    a = 0 ∧ ∀ t, t ≤ 8 → rest.getD t 0 = 0 := by
  have hz : ∀ p, (sizes.take J).sum = (sizes.take p).sum → ∀ t, t ≤ 8 → p ≤ J → sizes.getD (p + t) 0 = 0 := by
    intro p hp t ht hpJ
    by_cases hx : p + t < J
    · exact zero_between hp (by omega) hx
    · have := hzero (p + t - J) (by omega)
      rwa [show J + (p + t - J) = p + t by omega] at this
  rcases h with ⟨h1, h2, h3⟩ | ⟨pre, last, h1, h2, h3⟩
  · refine ⟨h1, fun t ht => ?_⟩
    rw [h2]
    have := hz 0 (by simpa using h3) t ht (by omega)
    rwa [Nat.zero_add] at this
  · have hp : (sizes.take (pre.length + 1)).sum = pre.sum + last := by
      rw [sum_take_succ', h1]
      simp
    have hp0 : (sizes.take pre.length).sum = pre.sum := by
      rw [h1]
      simp
    by_cases hJ : J ≤ pre.length
    · have := sum_take_mono sizes hJ
      omega
    · have := sum_take_mono sizes (show pre.length + 1 ≤ J by omega)
      refine ⟨by omega, fun t ht => ?_⟩
      have := hz (pre.length + 1) (by omega) t ht (by omega)
      rw [h1] at this
      rw [List.getD_eq_getElem?_getD, List.getElem?_append_right (by omega), show pre.length + 1 + t - pre.length = t + 1 by omega, List.getElem?_cons_succ] at this
      rw [List.getD_eq_getElem?_getD, this]

/-- C07, exactly when it holds: `decode` with room for a block returns `None` only after every encoded sample, for all sequences of buffers, exactly if there are never nine
empty frames in a row before one that is not empty. -/
theorem C07_exact_partial (b b' : Build) (info : StreamInfo) (level : Nat) (hn : 0 < info.channels) (calls : List (List F32)) (c : AdhocCodec)
    (h : encodeAll b (fresh info level) calls = .ok c) (hs : ∀ pcm ∈ calls, pcm.length / info.channels < 65536) :
    (∀ (bufs : List (List F32)) (buf : List F32) (c' : AdhocCodec) (outs : List (List F32 × Option Nat)) (o : List F32), info.channels ≤ buf.length →
      decodeAll b' c.init (bufs ++ [buf]) = .ok (c', outs ++ [(o, none)]) → (delivered outs).length = (signal info.channels calls).length * info.channels) ↔
    NoGap (calls.map fun pcm => pcm.length / info.channels) := by
  constructor
  swap
  · intro hg bufs buf c' outs o hroom hd
    exact C07_none_partial b b' info level hn calls c c' h hs hg bufs buf hroom outs o hd
  · intro P
    obtain ⟨-, blocks, H, HR, s⟩ := recorded_of_ok hn h
    have T := steps_rec (b := b') hn (HR.toRec hn) (HR.short hn hs)
    have hsum : (sizesOf blocks).sum = (signal info.channels calls).length := by rw [← rowsIn_eq_sum, HR.rows hn]
    rw [← HR.sizes hn]
    by_contra hng
    unfold NoGap at hng
    push Not at hng
    obtain ⟨J, hzero, tx, htx⟩ := hng
    have hzero : ∀ t, t ≤ 8 → (sizesOf blocks).getD (J + t) 0 = 0 := fun t ht => by have := hzero t ht; omega
    obtain ⟨sizes, hsz⟩ : ∃ sizes, sizes = sizesOf blocks := ⟨_, rfl⟩
    rw [← hsz] at hzero htx hsum T
    have hmore : (sizes.take J).sum < sizes.sum := by
      conv_rhs => rw [← List.take_append_drop J sizes, List.sum_append]
      have : 0 < (sizes.drop J).sum := by
        rw [Nat.pos_iff_ne_zero, ne_eq, List.sum_eq_zero_iff]
        intro hz
        have hl : J + tx < sizes.length := by
          by_contra hc
          rw [List.getD_eq_getElem?_getD, List.getElem?_eq_none (by omega)] at htx
          simp at htx
        have := hz (sizes[J + tx]) (by
          rw [List.mem_iff_getElem]
          exact ⟨tx, by simp; omega, by simp⟩)
        rw [List.getD_eq_getElem?_getD, List.getElem?_eq_getElem hl] at htx
        simp [this] at htx
      omega
    have hone : (List.replicate info.channels (F32.ofInt 0)).length / info.channels = 1 := by
      rw [List.length_replicate, Nat.div_self hn]
    have key : ∀ k, k ≤ (sizes.take J).sum → ∃ ck outs j, decodeAll b' c.init (List.replicate k (List.replicate info.channels (F32.ofInt 0))) = .ok (ck, outs) ∧
        (delivered outs).length = k * info.channels ∧ DecSt ck info blocks j k ∧ At sizes k ((sizes.take j).sum - k) (sizes.drop j) := by
      intro k
      induction k with
      | zero => exact fun _ => ⟨c.init, [], 0, rfl, by simp [delivered], decSt_init H, .inl ⟨by simp, by simp, rfl⟩⟩
      | succ k ih =>
        intro hk
        obtain ⟨ck, outs, j, e, hl, Hk, hat⟩ := ih (by omega)
        obtain ⟨c1, j1, d, e1, s1, H1, hsv⟩ := T.decode Hk (List.replicate info.channels (F32.ofInt 0))
        rw [hone] at hsv
        have hsn := decodeAll_snoc _ _ e e1
        rw [← List.replicate_succ'] at hsn
        have hd0 : d ≠ 0 := by
          intro h0
          subst h0
          rw [if_pos rfl, List.replicate_succ'] at hsn
          have := P _ _ _ _ _ (by simp) hsn
          rw [hl] at this
          have := Nat.eq_of_mul_eq_mul_right hn this
          omega
        rcases serve_one ((sizes.take j).sum - k) (sizes.drop j) with h0 | ⟨a0, ha, hv⟩ | ⟨z, ha, hz, hzp, hzs, hv⟩
        · rw [hsv] at h0
          exact absurd h0 hd0
        all_goals
          rw [hv] at hsv
          simp only [Prod.mk.injEq] at hsv
          obtain ⟨hd1, hs1, hs2⟩ := hsv
          subst hd1
          have hdel : ∀ o : List F32, o.length = info.channels → (delivered (outs ++ [(o, some (1 * info.channels))])).length = (k + 1) * info.channels := by
            intro o ho
            unfold delivered at hl ⊢
            rw [List.flatMap_append, List.length_append, hl, Nat.add_mul, Nat.one_mul]
            simp [ho]
        · refine ⟨c1, _, j1, hsn, ?_, H1, ?_⟩
          · exact hdel _ (by simp [length_rows, T.width])
          · rw [← hs1, ← hs2]
            rcases hat with ⟨h1, -, -⟩ | ⟨pre, last, h1, h2, h3⟩
            · omega
            · exact .inr ⟨pre, last, h1, by omega, by omega⟩
        · refine ⟨c1, _, j1, hsn, ?_, H1, ?_⟩
          · exact hdel _ (by simp [length_rows, T.width])
          · rw [← hs1, ← hs2]
            have hcut : sizes.drop j = (sizes.drop j).take z ++ (sizes.drop j).getD z 0 :: (sizes.drop j).drop (z + 1) := by
              conv_lhs => rw [← List.take_append_drop z (sizes.drop j), List.drop_eq_getElem_cons hz]
              rw [List.getD_eq_getElem?_getD, List.getElem?_eq_getElem hz]
              rfl
            rcases hat with ⟨h1, h2, h3⟩ | ⟨pre, last, h1, h2, h3⟩
            · refine .inr ⟨(sizes.drop j).take z, (sizes.drop j).getD z 0, ?_, by omega, by omega⟩
              conv_lhs => rw [← h2]
              exact hcut
            · refine .inr ⟨pre ++ last :: (sizes.drop j).take z, (sizes.drop j).getD z 0, ?_, by omega, ?_⟩
              · conv_lhs => rw [h1, hcut]
                simp
              · simp only [List.sum_append, List.sum_cons, hzs]
                omega
    obtain ⟨ck, outs, j, e, hl, Hk, hat⟩ := key _ (Nat.le_refl _)
    have hgap : ((sizes.take j).sum - (sizes.take J).sum = 0) ∧ ∀ t, t ≤ 8 → (sizes.drop j).getD t 0 = 0 := at_gap hzero hat
    obtain ⟨c1, j1, d, e1, s1, H1, hsv⟩ := T.decode Hk (List.replicate info.channels (F32.ofInt 0))
    rw [hone, hgap.1] at hsv
    have h0 := serve_gap hgap.2
    rw [hsv] at h0
    dsimp only at h0
    subst h0
    have hsn := decodeAll_snoc _ _ e e1
    rw [if_pos rfl] at hsn
    have := P _ _ _ _ _ (by simp) hsn
    rw [hl] at this
    have := Nat.eq_of_mul_eq_mul_right hn this
    omega

/-- `gappy` says three samples, nothing nine times, one sample; the sizes alone tell the counts `Some(3)`, `None`, `Some(1)` of `C07_false` -/
example : (readGaps 1 [[F32.ofInt 0], [F32.ofInt 0], [F32.ofInt 0], [F32.ofInt 0]] 0 (gappy.map fun pcm => pcm.length / 1)
    [List.replicate 3 (F32.ofInt 0), [F32.ofInt 0], [F32.ofInt 0]]).map (·.2) = [some 3, none, some 1] := by
  decide +kernel

/-- with eight empty frames in a row there is no such gap, with nine there is -/
example : NoGap [3, 0, 0, 0, 0, 0, 0, 0, 0, 1] ∧ ¬ NoGap [3, 0, 0, 0, 0, 0, 0, 0, 0, 0, 1] := by
  constructor
  · intro j
    by_cases hj : j ≤ 9
    · refine .inl ⟨if j = 0 then 0 else if j = 1 then 8 else 9 - j, ?_⟩
      interval_cases j <;> simp
    · refine .inr fun t => ?_
      rw [List.getD_eq_getElem?_getD, List.getElem?_eq_none (by simp; omega)]
      rfl
  · intro h
    rcases h 1 with ⟨t, ht, h⟩ | h
    · interval_cases t <;> simp at h
    · simpa using h 9

/-- six calls with room for a sample get all four samples of `gappy`; `C07_go_on_partial` asks for `4 + (11 + 9) / 10 = 6` -/
example : (session .release { sampleRate := 8000, channels := 1 } 0 gappy (List.replicate 6 [F32.ofInt 0])).map
    (fun outs => (outs.map (·.2), (delivered outs).length)) = .ok ([some 1, some 1, some 1, none, some 1, none], 4) := by
  decide +kernel

/-! ## C128 -/

theorem readGaps_map (n : Nat) (f : F32 → F32) : ∀ (bufs : List (List F32)) (sig : List (List F32)) (a : Nat) (sizes : List Nat),
    (readGaps n sig a sizes bufs).map (fun r => (r.1.map f, r.2)) = readGaps n (sig.map (·.map f)) a sizes (bufs.map (·.map f))
  | [], sig, a, sizes => rfl
  | buf :: bufs, sig, a, sizes => by
    simp only [List.map_cons, readGaps, readGaps_map n f bufs, List.length_map]
    simp [List.map_flatten]

/-- C128 with any empty rows. As `C128_foreign`, and also when nine rows or more in a row are empty: what every call returns is then given by the sizes of the rows, and the samples
are still those of the player, in order. -/
theorem C128_gaps (b b' : Build) (bytes : List Byte) (c : AdhocCodec) (h : AdhocCodec.load b bytes = .ok (some c)) (rows : List (Nat → Clip))
    (H : Stores bytes rows) (hn : 0 < (contents bytes).info.channels) (hl : (contents bytes).level ≤ 30) (bufs : List (List F32)) :
    (decodeAll b' c bufs).map (·.2) =
      .ok (readGaps (contents bytes).info.channels (playFile bytes) 0 (rows.map fun r => (r 0).size) (bufs.map (·.map (· * F32.ofInt (2 ^ (contents bytes).level))))) := by
  obtain ⟨R, -, hx⟩ := ready_to_play h H
  have hsc := scale_ready hl hx
  obtain ⟨c1, j1, m1, ed, -⟩ := (steps_clip (b := b') hn H.laid).all (sung (contents bytes).info.channels rows) (fun m d hmd => rows_sung H.laid hmd) bufs R
  rw [ed]
  simp only [List.take_zero, List.drop_zero, List.sum_nil, Nat.sub_zero]
  rw [hsc, readGaps_map, sung_played H hn]
  rfl

/-- C128: whatever rows are empty, as many calls with room for a block as there are blocks, and one more for every ten rows, deliver every sample of the file. -/
theorem C128_go_on (b b' : Build) (bytes : List Byte) (c : AdhocCodec) (h : AdhocCodec.load b bytes = .ok (some c)) (rows : List (Nat → Clip))
    (H : Stores bytes rows) (hn : 0 < (contents bytes).info.channels) (bufs : List (List F32)) (hroom : ∀ buf ∈ bufs, (contents bytes).info.channels ≤ buf.length)
    (hlen : (playFile bytes).length + (rows.length + 9) / 10 ≤ bufs.length) :
    ∃ c' outs, decodeAll b' c bufs = .ok (c', outs) ∧ (delivered outs).length = (playFile bytes).length * (contents bytes).info.channels := by
  obtain ⟨R, -, -⟩ := ready_to_play h H
  have T := steps_clip (b := b') hn H.laid
  obtain ⟨c', outs, j', m', e, H', -, hl, hend⟩ := T.walk bufs R
  have hsum : (rowSizes rows).sum = (playFile bytes).length := by
    rw [← sung_played H hn]
    simp [sung, rowSum, rowSizes]
  have hle := T.le H'
  have htake : ((rowSizes rows).take j').sum ≤ (rowSizes rows).sum := by
    conv_rhs => rw [← List.take_append_drop j' (rowSizes rows), List.sum_append]
    omega
  have hlen' : (rowSizes rows).length = rows.length := by simp [rowSizes]
  have := hend hroom (by simp only [List.drop_zero, Nat.sub_zero, hlen', hsum]; exact hlen)
  refine ⟨c', outs, e, ?_⟩
  rw [hl]
  congr 1
  omega

/-- the file of `C128_foreign` has six samples in two rows: seven calls get them all -/
example : (playFile foreignFile).length + (2 + 9) / 10 = 7 ∧
    (match AdhocCodec.load .debug foreignFile with
     | .ok (some c) => (decodeAll .debug c (List.replicate 7 [F32.ofInt 0])).map fun r : AdhocCodec × List (List F32 × Option Nat) => r.2.map Prod.snd
     | _ => .ok []) = .ok [some 1, some 1, some 1, some 1, some 1, some 1, none] := by
  decide +kernel

end Adhoc
