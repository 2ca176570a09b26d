import Verif.Proofs.Clip
import Verif.Props.Endings

/-! # C128: the library plays the files of any encoder like the player -/

namespace Adhoc
open Spec

/-! ## the player -/

theorem groups_range {α : Type} (w : Nat) : ∀ (n : Nat) (l : List α), groups w n l = (List.range n).map fun j => (l.drop (w * j)).take w
  | 0, _ => rfl
  | n + 1, l => by
    rw [groups, groups_range w n, List.range_succ_eq_map, List.map_cons, List.map_map]
    congr 1
    apply List.map_congr_left
    intro j _
    rw [List.drop_drop, Function.comp_apply, Nat.mul_succ, Nat.add_comm]

theorem extend_clip {f : Clip} {D : List Int} (hst : (D = [] ∧ f.first.length = 3) ∨ (3 ≤ D.length ∧ f.first = []))
    (hq : ∀ q ∈ f.first, -32767 ≤ q ∧ q ≤ 32767) (rest : List Bool) :
    extend D f.parameter f.size (f.bits ++ rest) = (grow D f, rest) := by
  unfold extend Clip.bits Clip.size grow
  have hrs := ricesAt_ok f.parameter f.steps rest
  rcases hst with ⟨rfl, h3⟩ | ⟨h3, h0⟩
  · have hraw : ∀ q ∈ f.first, (Fr.rawBits q).length = 16 := by intro q _; simp [Fr.rawBits]
    rw [if_pos rfl, List.nil_append, List.append_assoc]
    simp only [natBits_raw]
    have hg : ∀ (m : Nat) (rest : List Bool), m = f.first.length → (groups 16 m (f.first.flatMap Fr.rawBits ++ rest)).map signedOf = f.first := by
      rintro m rest rfl
      rw [groups_flatMap (f := Fr.rawBits) f.first hraw, List.map_map]
      conv_rhs => rw [← List.map_id f.first]
      apply List.map_congr_left
      intro q hq'
      rw [Function.comp_apply, id_eq]
      exact signedOf_raw (hq q hq')
    have hdrop : ∀ (m : Nat) (rest : List Bool), m = 16 * f.first.length → (f.first.flatMap Fr.rawBits ++ rest).drop m = rest := by
      rintro m rest rfl
      exact List.drop_left' (length_flatMap_width (f := Fr.rawBits) f.first hraw)
    have hs : f.first.length + f.steps.length - 3 = f.steps.length := by omega
    rw [hg 3 _ h3.symm, hdrop 48 _ (by rw [h3]), hs, hrs]
  · have hd : D ≠ [] := by rintro rfl; simp at h3
    rw [if_neg hd, h0, List.append_nil, List.flatMap_nil, List.nil_append, List.length_nil, Nat.zero_add]
    dsimp only
    rw [hrs]

theorem extendAll_row {r : Nat → Clip} (old : Nat → List Int) : ∀ (l : List Nat)
    (_ : ∀ ch ∈ l, ((old ch = [] ∧ (r ch).first.length = 3) ∨ (3 ≤ (old ch).length ∧ (r ch).first = [])) ∧ ∀ q ∈ (r ch).first, -32767 ≤ q ∧ q ≤ 32767)
    (acc : List (List Int)) (ps : List (Nat × Nat)) (rest : List Bool),
    extendAll (l.map (fun ch => (r ch).entry) ++ ps) (l.map old ++ acc) (l.flatMap (fun ch => (r ch).bits) ++ rest) =
    extendAll ps (acc ++ l.map fun ch => grow (old ch) (r ch)) rest
  | [], _, acc, ps, rest => by simp
  | ch :: l, h, acc, ps, rest => by
    obtain ⟨h1, h2⟩ := h ch (by simp)
    rw [List.map_cons, List.map_cons, List.flatMap_cons, List.cons_append, List.cons_append, Clip.entry, extendAll, List.append_assoc, List.append_assoc,
      extend_clip h1 h2]
    dsimp only
    rw [extendAll_row old l (fun c hc => h c (by simp [hc])), List.map_cons, List.append_assoc, List.singleton_append]

theorem extendAll_rows {n : Nat} {rows : List (Nat → Clip)} (HR : Laid n rows) (rest : List Bool) : ∀ (d j : Nat) (_ : j + d = rows.length),
    extendAll ((inOrder n (rows.drop j)).map Clip.entry) ((List.range n).map fun ch => grown (rows.take j) ch)
      (soundOf (inOrder n (rows.drop j)) ++ rest) = (List.range n).map fun ch => grown rows ch
  | 0, j, h => by
    rw [List.drop_of_length_le (by omega), List.take_of_length_le (by omega)]
    cases n <;> rfl
  | d + 1, j, h => by
    have hj : j < rows.length := by omega
    have hc : rows.drop j = rows[j] :: rows.drop (j + 1) := List.drop_eq_getElem_cons hj
    have ih := extendAll_rows HR rest d (j + 1) (by omega)
    rw [hc, show inOrder n (rows[j] :: rows.drop (j + 1)) = (List.range n).map rows[j] ++ inOrder n (rows.drop (j + 1)) from rfl, List.map_append, soundOf_append,
      List.append_assoc, List.map_map]
    have := extendAll_row (r := rows[j]) (fun ch => grown (rows.take j) ch) (List.range n) (fun ch hch => by
      have hch : ch < n := by simpa using hch
      exact ⟨HR.three hj hch, HR.first _ (List.getElem_mem hj) ch hch⟩) [] ((inOrder n (rows.drop (j + 1))).map Clip.entry)
        (soundOf (inOrder n (rows.drop (j + 1))) ++ rest)
    rw [List.append_nil, List.nil_append] at this
    have hb : soundOf ((List.range n).map rows[j]) = (List.range n).flatMap fun ch => (rows[j] ch).bits := by
      rw [soundOf, List.flatMap_map]
    rw [hb]
    refine Eq.trans this ?_
    rw [← ih]
    congr 1
    apply List.map_congr_left
    intro ch _
    rw [grown_take_succ hj]

/-! ## the tables of a file the library loads -/

theorem bitsIn_bytesOf (m : Nat) (f : Nat → Bool) : bitsIn (bytesOf m f) = (List.range (8 * m)).map f := by
  have : bytesOf m f = packed m ((List.range (8 * m)).map f) := by
    rw [packed_eq]
    apply bytesOf_congr
    intro p hp
    simp [List.getD_eq_getElem?_getD, hp]
  rw [this, bitsIn_packed]
  apply List.map_congr_left
  intro p hp
  have hp : p < 8 * m := by simpa using hp
  simp [List.getD_eq_getElem?_getD, hp]

/-- a loaded file piece by piece -/
theorem file_slim {s : AdhocCodec.Slim} {info : StreamInfo} (hi : s.stream.info = some info) (rest : List Byte) :
    savedBytes (ofSlim s) ++ rest =
      little 4 s.compressionLevel ++ (little 8 s.frameHeaderList.divisorExpList.data.length ++
        ((s.frameHeaderList.divisorExpList.data.flatMap fun b => little 1 b.toNat) ++ (little 4 s.frameHeaderList.divisorExpList.nibbleCount ++
        (little 8 s.frameHeaderList.isInitFrameList.binary.length ++ ((s.frameHeaderList.isInitFrameList.binary.flatMap fun b => little 8 b.toNat) ++
        (little 16 s.frameHeaderList.isInitFrameList.bitCursor ++
        (little 8 s.frameHeaderList.frameSizeList.length ++ (s.frameHeaderList.frameSizeList.flatMap (little 2) ++
        (little 8 s.frameHeaderList.bitCursorList.length ++ (s.frameHeaderList.bitCursorList.flatMap (little 8) ++
        (little 8 s.frameHeaderList.stackHistoryList.length ++
          ((s.frameHeaderList.stackHistoryList.flatMap fun t => littleI16 t.1 ++ littleI16 t.2.1 ++ littleI16 t.2.2) ++
        (little 4 s.frameHeaderList.headerCursor ++ ([1#8] ++ (little 4 info.sampleRate ++ (little 4 info.channels ++
        (little 8 s.stream.stream.binary.length ++ ((s.stream.stream.binary.flatMap fun b => little 16 b.toNat) ++
        (little 16 s.stream.stream.bitCursor ++ (little 16 s.stream.stream.capacity ++ rest)))))))))))))))))))) := by
  unfold savedBytes AdhocCodec.encPieces ofSlim
  dsimp only
  simp only [List.flatten_append, Bincode.flatten_encU, Bincode.flatten_encVec, Bincode.encI16, hi, Bincode.encOpt, leBytes_little, List.append_assoc,
    List.flatten_cons]
  rfl

/-- what the library finds in the tables -/
theorem contents_slim {s : AdhocCodec.Slim} {info : StreamInfo} (hc : Counted (ofSlim s)) (hl : s.compressionLevel < 2 ^ 32) (hi : s.stream.info = some info)
    (rest : List Byte) :
    contents (savedBytes (ofSlim s) ++ rest) =
      { level := s.compressionLevel
        parameters := (groups 4 s.frameHeaderList.divisorExpList.nibbleCount
          ((List.range (8 * (1 * s.frameHeaderList.divisorExpList.data.length))).map fun p => bitW s.frameHeaderList.divisorExpList.data p)).map valueOf
        sizes := (groups 2 s.frameHeaderList.divisorExpList.nibbleCount (s.frameHeaderList.frameSizeList.flatMap (little 2))).map numberOf
        info := info
        sound := (List.range (8 * (16 * s.stream.stream.binary.length))).map fun p => bitW s.stream.stream.binary p } ∧
    counts (savedBytes (ofSlim s) ++ rest) =
      [s.frameHeaderList.frameSizeList.length, s.frameHeaderList.bitCursorList.length, s.frameHeaderList.stackHistoryList.length] := by
  obtain ⟨hr, hch⟩ := hc.rate info hi
  have c1 := hc.nibbles
  have c2 := hc.count
  have c3 := hc.bits
  have c5 := hc.sizes
  have c6 := hc.cursors
  have c7 := hc.hist
  have c9 := hc.binary
  simp only [ofSlim] at c1 c2 c3 c5 c6 c7 c9
  norm_num at hl hr hch c2
  rw [file_slim hi rest]
  unfold contents counts
  dsimp only
  have l4 : ∀ (w n : Nat) (l : List Byte), (little w n ++ l).drop w = l := fun w n l => List.drop_left' (length_little w n)
  have t4 : ∀ (w n : Nat) (l : List Byte), (little w n ++ l).take w = little w n := fun w n l => List.take_left' (length_little w n)
  have n8 : ∀ m : Nat, m < 2 ^ 64 → numberOf (little 8 m) = m := fun m hm => by
    rw [numberOf_little]; exact Nat.mod_eq_of_lt (lt_of_lt_of_le hm (by norm_num))
  rw [l4 4, t4 4, table_ok (w := 1) c1 (length_flatMap_width _ fun b _ => length_little 1 b.toNat)]
  dsimp only
  rw [l4 4, t4 4, table_ok (w := 8) c3 (length_flatMap_width _ fun b _ => length_little 8 b.toNat)]
  dsimp only
  rw [l4 16, table_ok (w := 2) c5 (length_flatMap_width _ fun b _ => length_little 2 b)]
  dsimp only
  rw [table_ok (w := 8) c6 (length_flatMap_width _ fun b _ => length_little 8 b)]
  dsimp only
  rw [table_ok (w := 6) c7 (length_flatMap_width _ fun t _ => by simp [littleI16, length_little])]
  dsimp only
  have d5 : ∀ l : List Byte, (little 4 s.frameHeaderList.headerCursor ++ ([1#8] ++ l)).drop 5 = l := fun l => by
    rw [← List.append_assoc]; exact List.drop_left' (by simp [length_little])
  have d8 : ∀ l : List Byte, (little 4 info.sampleRate ++ (little 4 info.channels ++ l)).drop 8 = l := fun l => by
    rw [← List.append_assoc]; exact List.drop_left' (by simp [length_little])
  rw [d5, d8, t4 4, l4 4, t4 4, table_ok (w := 16) c9 (length_flatMap_width _ fun b _ => length_little 16 b.toNat)]
  dsimp only
  rw [t4 8, t4 8, t4 8, n8 _ c5, n8 _ c6, n8 _ c7, numberOf_little, numberOf_little, numberOf_little, numberOf_little, Nat.mod_eq_of_lt (by norm_num; exact hl),
    Nat.mod_eq_of_lt (by norm_num; exact c2), Nat.mod_eq_of_lt (by norm_num; exact hr), Nat.mod_eq_of_lt (by norm_num; exact hch),
    little_words (w := 1) rfl, little_words (w := 16) rfl, bitsIn_bytesOf, bitsIn_bytesOf]
  exact ⟨rfl, rfl⟩

/-- a parameter of the table is the one the library reads -/
theorem nibble_get (l : NibbleList) (j : Nat) :
    valueOf (((((List.range (8 * (1 * l.data.length))).map fun p => bitW l.data p).drop (4 * j)).take 4)) = (l.get j).toNat := by
  unfold NibbleList.get
  rcases Nat.lt_or_ge (j / 2) l.data.length with h | h
  · rw [List.getElem?_eq_getElem h]
    dsimp only
    have : ((((List.range (8 * (1 * l.data.length))).map fun p => bitW l.data p).drop (4 * j)).take 4) =
        natBits 4 ((l.data[j / 2] >>> (4 * (j % 2))) &&& 0x0f#8).toNat := by
      apply List.ext_getElem
      · simp [natBits]; omega
      · intro i h1 h2
        have hi : i < 4 := by simpa [natBits] using h2
        simp only [List.getElem_take, List.getElem_drop, List.getElem_map, List.getElem_range, natBits]
        have e1 : (4 * j + i) / 8 = j / 2 := by omega
        have e2 : (4 * j + i) % 8 = 4 * (j % 2) + i := by omega
        unfold bitW
        rw [e1, e2, List.getElem?_eq_getElem h, Option.getD_some]
        rw [← BitVec.getLsbD, BitVec.getLsbD_and, BitVec.getLsbD_ushiftRight]
        have : (0x0f#8).getLsbD i = true := by
          match i, hi with
          | 0, _ => rfl
          | 1, _ => rfl
          | 2, _ => rfl
          | 3, _ => rfl
        rw [this, Bool.and_true]
    rw [this, valueOf_natBits]
    apply Nat.mod_eq_of_lt
    rw [BitVec.toNat_and]
    have := Nat.and_le_right (n := (l.data[j / 2] >>> (4 * (j % 2))).toNat) (m := (0x0f#8).toNat)
    have h15 : (0x0f#8).toNat = 15 := rfl
    rw [h15] at this ⊢
    omega
  · rw [List.getElem?_eq_none h, List.drop_of_length_le (by simp; omega)]
    rfl

theorem size_get {l : List Nat} (hl : ∀ x ∈ l, x < 2 ^ 16) {j : Nat} (h : j < l.length) :
    numberOf (((l.flatMap (little 2)).drop (2 * j)).take 2) = l[j] := by
  have e : l.flatMap (little 2) = (l.take j).flatMap (little 2) ++ (little 2 l[j] ++ (l.drop (j + 1)).flatMap (little 2)) := by
    conv_lhs => rw [← List.take_append_drop j l, List.flatMap_append, List.drop_eq_getElem_cons h, List.flatMap_cons]
  have hlen : ((l.take j).flatMap (little 2)).length = 2 * j := by
    rw [length_flatMap_width (w := 2) _ fun b _ => length_little 2 b, List.length_take, Nat.min_eq_left (by omega)]
  rw [e, List.drop_left' hlen, List.take_left' (length_little 2 _), numberOf_little]
  exact Nat.mod_eq_of_lt (hl _ (List.getElem_mem h))

/-! ## C128 -/

/-- a loaded file that stores some rows is ready to play them -/
theorem ready_to_play {b : Build} {bytes : List Byte} {c : AdhocCodec} (h : AdhocCodec.load b bytes = .ok (some c)) {rows : List (Nat → Clip)}
    (H : Stores bytes rows) :
    ClipSt c (contents bytes).info rows 0 0 ∧ c.compressionLevel = (contents bytes).level ∧
      ∃ x, AdhocCodec.shl1 b (contents bytes).level = .ok x ∧ c.scale = F32.ofInt x := by
  obtain ⟨s, rest, info, hs, hi, h1, h2, h3, h4, h5, x, hx, h6, h7⟩ := load_holds h
  obtain ⟨k1, k2, k3, k4⟩ := back_slim hs
  obtain ⟨q1, q2⟩ := contents_slim k2 k4 hi rest
  rw [← k1] at q1 q2
  have hinfo : (contents bytes).info = info := by rw [q1]
  have hlev : (contents bytes).level = s.compressionLevel := by rw [q1]
  obtain ⟨laid, hp, hz, hsnd, htab⟩ := H
  rw [hinfo] at laid hp hz hsnd htab ⊢
  rw [hlev]
  have hpar : (contents bytes).parameters = (List.range s.frameHeaderList.divisorExpList.nibbleCount).map
      fun j => (s.frameHeaderList.divisorExpList.get j).toNat := by
    rw [q1]
    dsimp only
    rw [groups_range, List.map_map]
    apply List.map_congr_left
    intro j _
    exact nibble_get _ j
  have hcount : s.frameHeaderList.divisorExpList.nibbleCount = (inOrder info.channels rows).length := by
    have := congrArg List.length (hpar.symm.trans hp)
    simpa using this
  have htab' := htab
  rw [q2] at htab'
  have t1 := htab' s.frameHeaderList.frameSizeList.length (by simp)
  have t2 := htab' s.frameHeaderList.bitCursorList.length (by simp)
  have t3 := htab' s.frameHeaderList.stackHistoryList.length (by simp)
  rw [← length_inOrder] at t1 t2 t3
  have hsz : (contents bytes).sizes = (List.range (inOrder info.channels rows).length).map fun j => s.frameHeaderList.frameSizeList.getD j 0 := by
    rw [q1]
    dsimp only
    rw [groups_range, List.map_map, hcount]
    apply List.map_congr_left
    intro j hj
    have hj : j < s.frameHeaderList.frameSizeList.length := by
      have : j < (inOrder info.channels rows).length := by simpa using hj
      omega
    rw [Function.comp_apply, size_get k3.sizes hj, List.getD_eq_getElem?_getD, List.getElem?_eq_getElem hj, Option.getD_some]
  refine ⟨⟨⟨by rw [h3]; exact hi, by rw [h4]; simp, ?_, ?_, ?_⟩, Nat.zero_le _, Nat.zero_le _⟩, h1, x, hx, h6⟩
  · intro k hk
    simp only [h4, List.getElem_replicate]
    refine ⟨?_, ?_, ?_⟩
    · rw [List.take_zero]; rfl
    · rw [List.take_zero]; exact last_new
    · rw [List.take_zero]; rfl
  · rw [h3]
    rw [q1] at hsnd
    dsimp only at hsnd
    have hle := hsnd.length_le
    rw [List.length_map, List.length_range] at hle
    refine ⟨by simp [BitStream.seekStart, soundOf], by simp only [BitStream.seekStart, soundOf]; omega, by simp [soundOf], ?_⟩
    intro i hi'
    have := hsnd.getElem hi'
    rw [List.getElem_map, List.getElem_range] at this
    exact this.symm
  · rw [h2]
    refine ⟨by simp [FrameHeaders.reset], ?_, ?_, ?_, ?_, ?_⟩
    · rw [List.length_map]; exact hcount
    · intro j hj
      rw [List.length_map] at hj
      have := congrArg (·[j]?) (hpar.symm.trans hp)
      simp only [List.getElem?_map, List.getElem?_eq_getElem hj, List.getElem?_range (show j < s.frameHeaderList.divisorExpList.nibbleCount by omega), Option.map_some,
        Option.some.injEq] at this
      rw [List.getElem_map]
      exact this
    · intro j hj
      rw [List.length_map] at hj
      have := congrArg (·[j]?) (hsz.symm.trans hz)
      have hj2 : j < s.frameHeaderList.frameSizeList.length := by omega
      simp only [List.getElem?_map, List.getElem?_eq_getElem hj, List.getElem?_range hj, Option.map_some, List.getD_eq_getElem?_getD,
        List.getElem?_eq_getElem hj2, Option.getD_some, Option.some.injEq] at this
      rw [List.getElem_map]
      show s.frameHeaderList.frameSizeList[j]? = _
      rw [List.getElem?_eq_getElem hj2, this]
      rfl
    · rw [List.length_map]; exact t2
    · rw [List.length_map]; exact t3

/-- the player takes the same codes out of it -/
theorem channels_clip {bytes : List Byte} {rows : List (Nat → Clip)} (H : Stores bytes rows) :
    channelsIn (contents bytes) = (List.range (contents bytes).info.channels).map fun ch => grown rows ch := by
  obtain ⟨laid, hp, hz, ⟨z, hs⟩, -⟩ := H
  unfold channelsIn
  rw [hp, hz, ← hs, List.zip_map']
  have key := extendAll_rows laid z rows.length 0 (by omega)
  rw [List.drop_zero, List.take_zero] at key
  have e1 : ((List.range (contents bytes).info.channels).map fun ch => grown [] ch) = List.replicate (contents bytes).info.channels [] := by
    simp [List.map_const', grown]
  rw [e1] at key
  exact key

/-- the sound of the rows is what the player plays -/
theorem sung_played {bytes : List Byte} {rows : List (Nat → Clip)} (H : Stores bytes rows) (hn : 0 < (contents bytes).info.channels) :
    (sung (contents bytes).info.channels rows).map (·.map (· * F32.ofInt (2 ^ (contents bytes).level))) = playFile bytes := by
  unfold playFile sung
  dsimp only
  rw [channels_clip H, List.map_map]
  have hh : (((List.range (contents bytes).info.channels).map fun ch => grown rows ch).headD []).length = rowSum rows := by
    obtain ⟨m, hm⟩ : ∃ m, (contents bytes).info.channels = m + 1 := ⟨(contents bytes).info.channels - 1, by omega⟩
    rw [← grown_length H.laid hn, hm, List.range_succ_eq_map]
    simp
  rw [hh]
  apply List.map_congr_left
  intro i _
  simp only [Function.comp, List.map_map]
  rfl

/-- the factor of a file with a level up to 30 -/
theorem scale_ready {b : Build} {bytes : List Byte} {c : AdhocCodec} (hl : (contents bytes).level ≤ 30)
    (h : ∃ x, AdhocCodec.shl1 b (contents bytes).level = .ok x ∧ c.scale = F32.ofInt x) : c.scale = F32.ofInt (2 ^ (contents bytes).level) := by
  obtain ⟨x, hx, hsc⟩ := h
  have hx2 : x = 2 ^ (contents bytes).level := by
    unfold AdhocCodec.shl1 at hx
    rw [if_pos (by omega)] at hx
    rw [← Except.ok.inj hx]
    have h0 : (0 : Int) ≤ 2 ^ (contents bytes).level := by positivity
    have h1 : (2 : Int) ^ (contents bytes).level ≤ 2 ^ 30 := pow_le_pow_right₀ (by norm_num) hl
    generalize (2 : Int) ^ (contents bytes).level = y at h0 h1
    norm_num at h1
    unfold asI
    simp only [Int.bmod]
    norm_num
    omega
  rw [hsc, hx2]

/-- C128. Take any file the library loads, whoever wrote it, whose level is at most 30 and that stores rows of pieces in the format: any Rice
parameters, any sizes below 65536, any steps and first codes of 16 bits, but never nine rows without a sample in a row before one with samples.
Whatever it says in the tables the player does not read, and whatever comes after it, the library plays what the player of
`Verif/Spec/Player.lean` takes out of it: with any buffers, every call returns the next blocks (and multiplies the rest of the buffer like the
samples, see C23). -/
theorem C128_foreign (b b' : Build) (bytes : List Byte) (c : AdhocCodec) (h : AdhocCodec.load b bytes = .ok (some c)) (rows : List (Nat → Clip))
    (H : Stores bytes rows) (hn : 0 < (contents bytes).info.channels) (hl : (contents bytes).level ≤ 30)
    (hg : NoGap (rows.map fun r => (r 0).size)) (bufs : List (List F32)) :
    c.stream.info = some (contents bytes).info ∧
    (decodeAll b' c bufs).map (·.2) =
      .ok (readBlocks (contents bytes).info.channels (playFile bytes) (bufs.map (·.map (· * F32.ofInt (2 ^ (contents bytes).level))))) := by
  obtain ⟨R, -, hx⟩ := ready_to_play h H
  have hsc := scale_ready hl hx
  refine ⟨R.fl.hinfo, ?_⟩
  obtain ⟨c1, j1, m1, ed, -⟩ := decodeAll_clip (b := b') hn H.laid hg bufs R
  rw [ed, List.drop_zero, hsc, readBlocks_map, sung_played H hn]
  rfl

/-- a file no encoder of the library writes: level 12, Rice parameters 3 and 0, no flags, and nonsense for positions, histories and cursors -/
def foreignFile : List Byte :=
  ([12, 0, 0, 0] ++ ([1, 0, 0, 0, 0, 0, 0, 0] ++ [3] ++ [2, 0, 0, 0]) ++ ([0, 0, 0, 0, 0, 0, 0, 0] ++ List.replicate 16 77) ++
    ([2, 0, 0, 0, 0, 0, 0, 0] ++ [5, 0, 1, 0]) ++ ([2, 0, 0, 0, 0, 0, 0, 0] ++ List.replicate 16 9) ++
    ([2, 0, 0, 0, 0, 0, 0, 0] ++ List.replicate 12 255) ++ [8, 8, 8, 8] ++ [1, 64, 31, 0, 0, 1, 0, 0, 0] ++
    ([1, 0, 0, 0, 0, 0, 0, 0] ++ [5, 0, 254, 255, 7, 0, 100, 49, 0, 0, 0, 0, 0, 0, 0, 0]) ++ List.replicate 16 200 ++ List.replicate 16 1 ++
    [42]).map (BitVec.ofNat 8)

/-- it stores two rows: the codes 5, -2, 7 as they are, then the steps 1 and -9, then the step 2 -/
example : Stores foreignFile [fun _ => ⟨3, [5, -2, 7], [1, -9]⟩, fun _ => ⟨0, [], [2]⟩] := by
  have e : (contents foreignFile).info.channels = 1 := by decide +kernel
  refine ⟨⟨?_, ?_, ?_, ?_, ?_, ?_⟩, ?_, ?_, ?_, ?_⟩
  · simp
  · intro j hj ch _
    match j, hj with
    | 0, _ => rfl
    | 1, _ => rfl
  · simp
  · simp
  · simp
  · simp [Clip.size]
  · rw [e]; decide +kernel
  · rw [e]; decide +kernel
  · rw [e]; decide +kernel
  · rw [e]; decide +kernel

/-- the library loads it, the player finds the codes 5, -2, 7, 33, 67, 111 in it -/
example : (∃ c, AdhocCodec.load .debug foreignFile = .ok (some c)) ∧ channelsIn (contents foreignFile) = [[5, -2, 7, 33, 67, 111]] := by
  constructor
  · have : ((AdhocCodec.load .debug foreignFile).toOption.bind id).isSome = true := by decide +kernel
    generalize AdhocCodec.load .debug foreignFile = r at this
    match r, this with
    | .ok (some c), _ => exact ⟨c, rfl⟩
  · decide +kernel

end Adhoc
