import Verif.Spec.Player
import Verif.Props.FileSize
import Verif.Props.Levels
import Verif.Props.Files

/-! # C127: a player written from the format plays recordings like the library -/

namespace Adhoc
open Spec F32

/-! ## numbers -/

theorem numberOf_little : ∀ (w n : Nat), numberOf (little w n) = n % 256 ^ w := by
  intro w n
  rw [← leBytes_little]
  induction w generalizing n with
  | zero => simp [numberOf, Bincode.leBytes, Nat.mod_one]
  | succ w ih =>
    have := ih (n / 256)
    unfold numberOf at this ⊢
    rw [Bincode.leBytes, List.foldr_cons, this, BitVec.toNat_ofNat, pow_succ' 256 w, Nat.mod_mul, show 2 ^ 8 = 256 from rfl]

theorem valueOf_natBits : ∀ (w n : Nat), valueOf (natBits w n) = n % 2 ^ w := by
  intro w
  induction w with
  | zero => intro n; simp [valueOf, natBits, Nat.mod_one]
  | succ w ih =>
    intro n
    have := ih (n / 2)
    unfold valueOf natBits at this ⊢
    rw [List.range_succ_eq_map, List.map_cons, List.map_map, List.foldr_cons]
    have e : ((fun j => n.testBit j) ∘ Nat.succ) = fun j => (n / 2).testBit j := by
      funext j
      simp [Function.comp, Nat.testBit_succ]
    rw [e, this, Nat.pow_succ, Nat.mul_comm (2 ^ w) 2, Nat.mod_mul, Nat.testBit_zero]
    rcases Nat.mod_two_eq_zero_or_one n with h | h <;> simp [h]

theorem length_natBits (w n : Nat) : (natBits w n).length = w := by simp [natBits]

theorem bitsIn_packed (m : Nat) (bits : List Bool) : bitsIn (packed m bits) = (List.range (8 * m)).map fun p => bits.getD p false := by
  induction m generalizing bits with
  | zero => rfl
  | succ m ih =>
    rw [packed_eq, Nat.add_comm m 1, bytesOf_add, Nat.mul_add, List.range_add]
    unfold bitsIn
    rw [List.flatMap_append, List.map_append]
    congr 1
    · show natBits 8 _ ++ [] = _
      rw [List.append_nil]
      unfold natBits
      apply List.map_congr_left
      intro j hj
      have hj : j < 8 := by simpa using hj
      have := byteOf_bit (fun j => bits.getD (8 * 0 + j) false) hj
      rw [BitVec.getLsbD] at this
      rw [this, Nat.mul_zero, Nat.zero_add]
    · have := ih (bits.drop 8)
      unfold bitsIn at this
      rw [packed_eq] at this
      have e : (fun p => bits.getD (8 * 1 + p) false) = fun p => (bits.drop 8).getD p false := by
        funext p
        simp [List.getD_eq_getElem?_getD]
      rw [e, this, List.map_map]
      apply List.map_congr_left
      intro p _
      simp [List.getD_eq_getElem?_getD]

theorem bitsIn_packed' {m : Nat} {bits : List Bool} (h : bits.length ≤ 8 * m) : ∃ z, bitsIn (packed m bits) = bits ++ z := by
  refine ⟨((List.range (8 * m)).map fun p => bits.getD p false).drop bits.length, ?_⟩
  rw [bitsIn_packed]
  conv_lhs => rw [← List.take_append_drop bits.length ((List.range (8 * m)).map fun p => bits.getD p false)]
  congr 1
  apply List.ext_getElem
  · simp; omega
  · intro i h1 h2
    simp [List.getD_eq_getElem?_getD, List.getElem?_eq_getElem h2]

theorem length_flatMap_width {α β : Type} {w : Nat} {f : α → List β} : ∀ (l : List α) (_ : ∀ a ∈ l, (f a).length = w), (l.flatMap f).length = w * l.length
  | [], _ => rfl
  | a :: l, h => by
    rw [List.flatMap_cons, List.length_append, h a (by simp), length_flatMap_width l (fun x hx => h x (by simp [hx])), List.length_cons, Nat.mul_add]
    omega

theorem groups_flatMap {α β : Type} {w : Nat} {f : α → List β} : ∀ (l : List α) (_ : ∀ a ∈ l, (f a).length = w) (rest : List β),
    groups w l.length (l.flatMap f ++ rest) = l.map f
  | [], _, _ => rfl
  | a :: l, h, rest => by
    rw [List.length_cons, groups, List.flatMap_cons, List.append_assoc, List.take_left' (h a (by simp)), List.drop_left' (h a (by simp)),
      groups_flatMap l (fun x hx => h x (by simp [hx])), List.map_cons]

theorem table_ok {w m : Nat} {bs : List Byte} (hm : m < 2 ^ 64) (hl : bs.length = w * m) (rest : List Byte) :
    table w (little 8 m ++ (bs ++ rest)) = (bs, rest) := by
  unfold table
  dsimp only
  rw [List.take_left' (length_little 8 m), List.drop_left' (length_little 8 m), numberOf_little, Nat.mod_eq_of_lt (lt_of_lt_of_le hm (by norm_num)),
    List.take_left' hl, List.drop_left' hl]

/-! ## codes -/

theorem riceAt_ok (k : Nat) (v : Int) (rest : List Bool) : riceAt k (riceBits k v ++ rest) = (v, rest) := by
  unfold riceAt riceBits
  dsimp only
  rw [List.cons_append, List.tail_cons, List.append_assoc]
  have hq : ((List.replicate (v.natAbs / 2 ^ k) true ++ (false :: natBits k v.natAbs ++ rest)).takeWhile id).length = v.natAbs / 2 ^ k := by
    rw [List.takeWhile_append_of_pos (by intro a ha; rw [List.eq_of_mem_replicate ha]; rfl)]
    simp
  rw [hq]
  have hd : (List.replicate (v.natAbs / 2 ^ k) true ++ (false :: natBits k v.natAbs ++ rest)).drop (v.natAbs / 2 ^ k + 1) = natBits k v.natAbs ++ rest := by
    rw [List.drop_append, List.drop_of_length_le (by simp), List.nil_append, List.length_replicate, Nat.add_sub_cancel_left]
    rfl
  rw [hd, List.take_left' (length_natBits k _), List.drop_left' (length_natBits k _), valueOf_natBits, Nat.div_add_mod, List.headD_cons]
  congr 1
  by_cases h : v < 0
  · rw [if_pos (by simpa using h)]; omega
  · rw [if_neg (by simpa using h)]; omega

theorem ricesAt_ok (k : Nat) : ∀ (vs : List Int) (rest : List Bool), ricesAt k vs.length (vs.flatMap (riceBits k) ++ rest) = (vs, rest)
  | [], _ => rfl
  | v :: vs, rest => by
    rw [List.length_cons, ricesAt, List.flatMap_cons, List.append_assoc, riceAt_ok]
    dsimp only
    rw [ricesAt_ok k vs rest]

theorem signedOf_raw {q : Int} (h : -32767 ≤ q ∧ q ≤ 32767) : signedOf (Fr.rawBits q) = q := by
  rw [← natBits_raw]
  unfold signedOf
  rw [valueOf_natBits, Nat.mod_eq_of_lt (by norm_num; omega)]
  split <;> omega

/-- a piece adds to the channel what the codec decodes -/
theorem extend_ok {f : Fr} (h : f.WF) (rest : List Bool) :
    extend (decoded f.pre) f.exp f.codes.length (f.bits ++ rest) = (decoded (f.pre ++ f.codes), rest) := by
  rw [← h.decoded]
  unfold extend Fr.bits
  by_cases hp : f.pre = []
  · have h3 := h.first hp
    have hr : f.raw = f.codes.take 3 := by simp [Fr.raw, hp]
    have hb : f.body.length = f.codes.length - 3 := by simp [Fr.body, hp]
    have hr3 : f.raw.length = 3 := by rw [hr]; simp; omega
    have hraw : ∀ q ∈ f.raw, (Fr.rawBits q).length = 16 := by intro q _; simp [Fr.rawBits]
    rw [hp, decoded_nil, if_pos rfl, List.nil_append, List.append_assoc]
    dsimp only
    have hg : ∀ (m : Nat) (rest : List Bool), m = f.raw.length → (groups 16 m (f.raw.flatMap Fr.rawBits ++ rest)).map signedOf = f.raw := by
      rintro m rest rfl
      rw [groups_flatMap (f := Fr.rawBits) f.raw hraw, List.map_map]
      conv_rhs => rw [← List.map_id f.raw]
      apply List.map_congr_left
      intro q hq
      rw [Function.comp_apply, id_eq]
      exact signedOf_raw (h.range q (by rw [hr] at hq; exact List.mem_of_mem_take hq))
    have hdrop : ∀ (m : Nat) (rest : List Bool), m = 16 * f.raw.length → (f.raw.flatMap Fr.rawBits ++ rest).drop m = rest := by
      rintro m rest rfl
      exact List.drop_left' (length_flatMap_width (f := Fr.rawBits) f.raw hraw)
    have hrs := ricesAt_ok f.exp (residuals f.raw f.body) rest
    rw [length_residuals, hb] at hrs
    rw [hg 3 _ hr3.symm, hdrop 48 _ (by rw [hr3]), hrs]
  · have hd : decoded f.pre ≠ [] := by
      intro he
      have := congrArg List.length he
      rw [length_decoded] at this
      exact hp (List.eq_nil_of_length_eq_zero this)
    have hr : f.raw = [] := by simp [Fr.raw, hp]
    have hb : f.body = f.codes := by simp [Fr.body, hp]
    rw [if_neg hd, hr, hb, List.append_nil, List.append_nil, List.flatMap_nil, List.nil_append]
    dsimp only
    have hrs := ricesAt_ok f.exp (residuals f.pre f.codes) rest
    rw [length_residuals] at hrs
    rw [hrs]

theorem extendAll_block {blk : Nat → Fr} (old : Nat → List Int) : ∀ (l : List Nat) (_ : ∀ ch ∈ l, (blk ch).WF ∧ (blk ch).pre = old ch)
    (acc : List (List Int)) (ps : List (Nat × Nat)) (rest : List Bool),
    extendAll (l.map (fun ch => ((blk ch).exp, (blk ch).codes.length)) ++ ps) (l.map (fun ch => decoded (old ch)) ++ acc)
      (l.flatMap (fun ch => (blk ch).bits) ++ rest) =
    extendAll ps (acc ++ l.map fun ch => decoded (old ch ++ (blk ch).codes)) rest
  | [], _, acc, ps, rest => by simp
  | ch :: l, h, acc, ps, rest => by
    obtain ⟨h1, h3⟩ := h ch (by simp)
    rw [List.map_cons, List.map_cons, List.flatMap_cons, List.cons_append, List.cons_append, extendAll, List.append_assoc, List.append_assoc, ← h3, extend_ok h1]
    dsimp only
    rw [ extendAll_block old l (fun c hc => h c (by simp [hc])), List.map_cons, h3, List.append_assoc, List.singleton_append]

theorem extendAll_rec {n : Nat} {blocks : List (Nat → Fr)} (HR : Rec n blocks) (rest : List Bool) : ∀ (d j : Nat) (_ : j + d = blocks.length),
    extendAll ((flat n (blocks.drop j)).map fun f => (f.exp, f.codes.length)) ((List.range n).map fun ch => decoded (codesOf (blocks.take j) ch))
      (bitsOf (flat n (blocks.drop j)) ++ rest) = (List.range n).map fun ch => decoded (codesOf blocks ch)
  | 0, j, h => by
    rw [List.drop_of_length_le (by omega), List.take_of_length_le (by omega), flat_nil, List.map_nil]
    cases n <;> rfl
  | d + 1, j, h => by
    have hj : j < blocks.length := by omega
    have hc : blocks.drop j = blocks[j] :: blocks.drop (j + 1) := List.drop_eq_getElem_cons hj
    have ih := extendAll_rec HR rest d (j + 1) (by omega)
    rw [hc, show flat n (blocks[j] :: blocks.drop (j + 1)) = (List.range n).map blocks[j] ++ flat n (blocks.drop (j + 1)) from rfl, List.map_append, bitsOf_append,
      List.append_assoc, List.map_map]
    have := extendAll_block (blk := blocks[j]) (codesOf (blocks.take j)) (List.range n) (fun ch hch => by
      have hch : ch < n := by simpa using hch
      exact ⟨HR.wf j hj ch hch, HR.pre j hj ch hch⟩) [] ((flat n (blocks.drop (j + 1))).map fun f => (f.exp, f.codes.length))
        (bitsOf (flat n (blocks.drop (j + 1))) ++ rest)
    rw [List.append_nil, List.nil_append] at this
    have hb : bitsOf ((List.range n).map blocks[j]) = (List.range n).flatMap fun ch => (blocks[j] ch).bits := by
      rw [bitsOf, List.flatMap_map]
    rw [hb]
    refine Eq.trans this ?_
    rw [← ih]
    congr 1
    apply List.map_congr_left
    intro ch _
    rw [codesOf_take_succ hj]

/-! ## the tables -/

theorem contents_ok {info : StreamInfo} {level : Nat} {ps : List Piece} (hlv : level < 2 ^ 32) (hn : ps.length < 2 ^ 32) (hr : info.sampleRate < 2 ^ 32)
    (hc : info.channels < 2 ^ 32) (hsz : ∀ p ∈ ps, p.codes.length < 65536) (hk : ∀ p ∈ ps, p.parameter < 16) (hch : chunks ps < 2 ^ 64)
    (hs : (soundBits ps).length ≤ 128 * chunks ps) (rest : List Byte) :
    ∃ z, contents (fileOf info level ps ++ rest) =
      { level := level, parameters := ps.map Piece.parameter, sizes := ps.map (·.codes.length), info := info, sound := soundBits ps ++ z } := by
  obtain ⟨z, hz⟩ := bitsIn_packed' (m := 16 * chunks ps) (bits := soundBits ps) (by omega)
  obtain ⟨y, hy⟩ := bitsIn_packed' (m := (ps.length + 1) / 2) (bits := ps.flatMap fun p => natBits 4 p.parameter) (by
    rw [length_flatMap_width ps fun p _ => length_natBits 4 p.parameter]; omega)
  refine ⟨z, ?_⟩
  unfold contents fileOf
  dsimp only
  norm_num at hn hch hlv hr hc
  simp only [List.append_assoc]
  have l4 : ∀ (w n : Nat) (l : List Byte), (little w n ++ l).drop w = l := fun w n l => List.drop_left' (length_little w n)
  have t4 : ∀ (w n : Nat) (l : List Byte), (little w n ++ l).take w = little w n := fun w n l => List.take_left' (length_little w n)
  rw [l4 4, t4 4]
  rw [table_ok (w := 1) (by norm_num; omega) (by simp [packed])]
  dsimp only
  rw [l4 4, t4 4]
  rw [table_ok (w := 8) (by norm_num; omega) (by simp [packed])]
  dsimp only
  rw [l4 16]
  rw [table_ok (w := 2) (by norm_num; omega) (by
    rw [length_flatMap_const (fun p : Piece => little 2 p.codes.length) 2 (fun p => length_little 2 _), Nat.mul_comm])]
  dsimp only
  rw [table_ok (w := 8) (by norm_num; omega) (by rw [length_flatMap_const (fun i => little 8 (soundBits (ps.take i)).length) 8 (fun p => length_little 8 _), List.length_range, Nat.mul_comm])]
  dsimp only
  rw [table_ok (w := 6) (by norm_num; omega) (by
    rw [length_flatMap_const (fun p : Piece => p.history.flatMap littleI16) 6 (fun p => by
      rw [length_flatMap_const littleI16 2 (fun x => length_little 2 _)]; simp [Piece.history]), Nat.mul_comm])]
  dsimp only
  have d5 : ∀ l : List Byte, (little 4 ps.length ++ ([1#8] ++ l)).drop 5 = l := fun l => by
    rw [← List.append_assoc]; exact List.drop_left' (by simp [length_little])
  rw [d5]
  have d8 : ∀ l : List Byte, (little 4 info.sampleRate ++ (little 4 info.channels ++ l)).drop 8 = l := fun l => by
    rw [← List.append_assoc]; exact List.drop_left' (by simp [length_little])
  rw [d8, t4 4, l4 4, t4 4, table_ok (w := 16) (by norm_num; exact hch) (by simp [packed])]
  dsimp only
  rw [hz, hy, numberOf_little, numberOf_little, numberOf_little, numberOf_little, Nat.mod_eq_of_lt (by norm_num; exact hlv),
    Nat.mod_eq_of_lt (by norm_num; exact hn), Nat.mod_eq_of_lt (by norm_num; exact hr), Nat.mod_eq_of_lt (by norm_num; exact hc)]
  have g1 := groups_flatMap ps (fun p _ => length_natBits 4 p.parameter) y
  have g2 := groups_flatMap ps (fun p _ => length_little 2 p.codes.length) []
  rw [List.append_nil] at g2
  rw [g1, g2, List.map_map, List.map_map]
  congr 1
  · apply List.map_congr_left
    intro p hp
    simp only [Function.comp, valueOf_natBits]
    exact Nat.mod_eq_of_lt (hk p hp)
  · apply List.map_congr_left
    intro p hp
    simp only [Function.comp, numberOf_little]
    exact Nat.mod_eq_of_lt (hsz p hp)

/-- what the player takes out of the file of a recording -/
theorem playFile_recording {b : Build} {info : StreamInfo} {level : Nat} (hn : 0 < info.channels) {calls : List (List F32)} {c : AdhocCodec}
    (e : encodeAll b (fresh info level) calls = .ok c) (hs : ∀ pcm ∈ calls, pcm.length / info.channels < 65536) (hr : info.sampleRate < 2 ^ 32)
    (hc : info.channels < 2 ^ 32) (hf : calls.length * info.channels < 2 ^ 32) (hb : c.stream.stream.bitCursor < 2 ^ 64) (rest : List Byte) :
    (contents (file c ++ rest)).info = info ∧
    ∀ Q : Nat → List Int, (∀ ch < info.channels, Q ch = stored (fresh info level).invScale info.channels ch 0 calls) →
      playFile (file c ++ rest) = (played info.channels (signal info.channels calls).length Q).map (·.map (· * F32.ofInt (2 ^ min level 10))) := by
  obtain ⟨-, blocks, H, HR, sl⟩ := recorded_of_ok hn e
  have hrec := HR.toRec hn
  have hps := pieces_flat hn HR
  have hwf := H.wf
  have hfile := C122_file b info level hn calls c e
  unfold adhocFile at hfile
  rw [← show (fresh info level).invScale = loss level from loss_eq _ level, hps] at hfile
  have hcb := chunksOf_bounds hwf
  have hlen : (bitsOf (flat info.channels blocks)).length < 2 ^ 64 := by rw [← H.bits.cursor]; exact hb
  have hfl : (flat info.channels blocks).length = calls.length * info.channels := by
    unfold flat
    rw [length_flatMap_width (w := info.channels) blocks (fun blk _ => by simp), HR.len, Nat.mul_comm]
  have hshort := HR.short hn hs
  obtain ⟨z, hcon⟩ := contents_ok (info := info) (level := min level 10) (ps := (flat info.channels blocks).map Fr.piece) (by omega)
    (by rw [List.length_map, hfl]; exact hf) hr hc (by
      intro p hp
      obtain ⟨f, hf', rfl⟩ := List.mem_map.1 hp
      unfold flat at hf'
      obtain ⟨blk, hblk, hf'⟩ := List.mem_flatMap.1 hf'
      obtain ⟨ch, hch, rfl⟩ := List.mem_map.1 hf'
      obtain ⟨j, hj, rfl⟩ := List.getElem_of_mem hblk
      show (blocks[j] ch).codes.length < 65536
      rw [hrec.size j hj ch (by simpa using hch)]
      exact hshort _ hblk) (by
      intro p hp
      obtain ⟨f, hf', rfl⟩ := List.mem_map.1 hp
      rw [piece_parameter (hwf f hf')]
      have := (hwf f hf').exp15
      omega) (by rw [piece_chunks hwf]; norm_num at hlen ⊢; omega) (by rw [piece_chunks hwf, piece_sound hwf]; exact hcb.1) rest
  rw [← hfile] at hcon
  refine ⟨by rw [hcon], fun Q hQ => ?_⟩
  have hch : channelsIn (contents (file c ++ rest)) = (List.range info.channels).map fun ch => decoded (Q ch) := by
    rw [hcon]
    unfold channelsIn
    dsimp only
    rw [piece_sound hwf, List.map_map, List.map_map, List.zip_map']
    have key := extendAll_rec hrec z blocks.length 0 (by omega)
    rw [List.drop_zero, List.take_zero] at key
    have e1 : ((List.range info.channels).map fun ch => decoded (codesOf [] ch)) = List.replicate info.channels [] := by
      simp [List.map_const']
    rw [e1] at key
    have e2 : ((flat info.channels blocks).map fun f => (f.exp, f.codes.length)) =
        (flat info.channels blocks).map fun f => ((Piece.parameter ∘ Fr.piece) f, ((fun p : Piece => p.codes.length) ∘ Fr.piece) f) := by
      apply List.map_congr_left
      intro f hf'
      simp only [Function.comp]
      rw [piece_parameter (hwf f hf')]
      rfl
    rw [← e2, key]
    apply List.map_congr_left
    intro ch hch
    rw [hQ ch (by simpa using hch), HR.exact (by simpa using hch)]
  unfold playFile played
  dsimp only
  rw [hch, hcon]
  dsimp only
  rw [List.map_map]
  have hh : (((List.range info.channels).map fun ch => decoded (Q ch)).headD []).length = (signal info.channels calls).length := by
    obtain ⟨m, hm⟩ : ∃ m, info.channels = m + 1 := ⟨info.channels - 1, by omega⟩
    have hq : (Q 0).length = (signal info.channels calls).length := by rw [hQ 0 hn, ← HR.exact hn, hrec.length hn, HR.rows hn]
    rw [← hq, hm, List.range_succ_eq_map]
    simp
  rw [hh]
  apply List.map_congr_left
  intro i _
  simp only [Function.comp, List.map_map]
  rfl

/-! ## C127 -/

/-- C127. Take any recording whose calls have fewer than 65536 blocks and never nine without a block in a row, and whose counters fit the file.
The library loads its file, whatever comes after it, and plays what the player of `Verif/Spec/Player.lean` takes out of it: with any buffers, every
call returns the next blocks (and multiplies the rest of the buffer like the samples, see C23). -/
theorem C127_player (b b' : Build) (info : StreamInfo) (level : Nat) (hn : 0 < info.channels) (calls : List (List F32)) (c : AdhocCodec)
    (e : encodeAll b (fresh info level) calls = .ok c) (hs : ∀ pcm ∈ calls, pcm.length / info.channels < 65536)
    (hg : NoGap (calls.map fun pcm => pcm.length / info.channels)) (hr : info.sampleRate < 2 ^ 32) (hc : info.channels < 2 ^ 32)
    (hf : calls.length * info.channels < 2 ^ 32) (hb : c.stream.stream.bitCursor < 2 ^ 64) (rest : List Byte) :
    (contents (file c ++ rest)).info = info ∧
    ∃ c', AdhocCodec.load b' (file c ++ rest) = .ok (some c') ∧ c'.stream.info = some info ∧
      ∀ bufs, (decodeAll b' c' bufs).map (·.2) =
        .ok (readBlocks info.channels (playFile (file c ++ rest)) (bufs.map (·.map (· * F32.ofInt (2 ^ min level 10))))) := by
  obtain ⟨Q, hQ, -, hdec⟩ := playback hn e hs hg
  obtain ⟨h1, h2⟩ := playFile_recording hn e hs hr hc hf hb rest
  refine ⟨h1, ?_⟩
  have V := valued_run (calls.map Use.encode) (valued_fresh info level) c (by rw [encodeAll_uses]; exact e)
  refine ⟨reloaded c info.channels, by rw [file_eq]; exact load_saved (counted_recording hn hr hc hf e hb) V rest, V.hinfo, ?_⟩
  intro bufs
  obtain ⟨c1, ed, -⟩ := hdec b' bufs
  have hsc : (fresh info level).scale = F32.ofInt (2 ^ min level 10) := (fresh_scale info level).1.eq (is_up (Nat.min_le_right _ _))
  rw [hsc, readBlocks_map] at ed
  have hpf := h2 Q fun ch hch => (hQ ch hch).2
  rw [hpf]
  rcases same_decodeAll (b := b') bufs (alike_reloaded V) with ⟨er, h1, h2⟩ | ⟨r, r', h1, h2, -, h3⟩
  · rw [h1] at ed; cases ed
  · rw [h2]
    show Except.ok r'.2 = _
    rw [← h3]
    rw [h1] at ed
    rw [Except.ok.inj ed]

/-- the file of C122: five samples at level 3 (1/2, 1/4, 0, -1/4 in one call, then 1) -/
def fiveSamples : List Byte :=
  ([3, 0, 0, 0] ++ ([1, 0, 0, 0, 0, 0, 0, 0] ++ [177] ++ [2, 0, 0, 0]) ++
    ([1, 0, 0, 0, 0, 0, 0, 0] ++ [1, 0, 0, 0, 0, 0, 0, 0] ++ [2, 0, 0, 0, 0, 0, 0, 0, 0, 0, 0, 0, 0, 0, 0, 0]) ++
    ([2, 0, 0, 0, 0, 0, 0, 0] ++ [4, 0, 1, 0]) ++
    ([2, 0, 0, 0, 0, 0, 0, 0] ++ [0, 0, 0, 0, 0, 0, 0, 0, 53, 0, 0, 0, 0, 0, 0, 0]) ++
    ([2, 0, 0, 0, 0, 0, 0, 0] ++ [1, 8, 1, 4, 255, 255, 1, 4, 255, 255, 0, 252]) ++ [2, 0, 0, 0] ++
    [1, 64, 31, 0, 0, 1, 0, 0, 0] ++
    ([2, 0, 0, 0, 0, 0, 0, 0] ++ [1, 8, 1, 4, 255, 255, 198, 246, 15, 0, 0, 0, 0, 0, 0, 0, 0, 0, 0, 0, 0, 0, 0, 0, 0, 0, 0, 0, 0, 0, 0, 0]) ++
    [68, 0, 0, 0, 0, 0, 0, 0, 0, 0, 0, 0, 0, 0, 0, 0] ++ [68, 0, 0, 0, 0, 0, 0, 0, 0, 0, 0, 0, 0, 0, 0, 0]).map (BitVec.ofNat 8)

/-- the player finds the codes in it: about 32767 / 8 of the samples, with noise -/
example : (contents fiveSamples).parameters = [1, 11] ∧ (contents fiveSamples).sizes = [4, 1] ∧ (contents fiveSamples).level = 3 ∧
    channelsIn (contents fiveSamples) = [[2049, 1025, -1, -1024, 4095]] := by decide +kernel

/-- the hypotheses hold for its recording -/
example : ∃ c, encodeAll .release (fresh { sampleRate := 8000, channels := 1 } 3)
      [[F32.ofRat (1 / 2), F32.ofRat (1 / 4), F32.ofInt 0, F32.ofRat (-1 / 4)], [F32.ofInt 1]] = .ok c ∧ c.stream.stream.bitCursor < 2 ^ 64 ∧ file c = fiveSamples := by
  obtain ⟨c, -, h, -⟩ := encodeAll_calls (b := .release) (info := { sampleRate := 8000, channels := 1 }) (by simp) 3
    [[F32.ofRat (1 / 2), F32.ofRat (1 / 4), F32.ofInt 0, F32.ofRat (-1 / 4)], [F32.ofInt 1]] (by simp) (.inl rfl)
  refine ⟨c, h, ?_, ?_⟩
  · have := (C19_expansion_partial _ _ _ (by simp) _ c h (by decide +kernel)).1
    have h2 : c.stream.stream.len = c.stream.stream.bitCursor := rfl
    rw [← h2]
    refine lt_of_le_of_lt this ?_
    decide +kernel
  · rw [C122_file _ _ _ (by simp) _ _ h]
    decide +kernel

end Adhoc
