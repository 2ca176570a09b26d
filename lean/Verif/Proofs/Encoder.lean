import Verif.Proofs.Frame
import Verif.Spec.Session

/-! The encoder as a function on lists of codes. -/

namespace Adhoc
open Spec

/-- the bits of a list of frames -/
def bitsOf (fs : List Fr) : List Bool := fs.flatMap Fr.bits

theorem bitsOf_append (a b : List Fr) : bitsOf (a ++ b) = bitsOf a ++ bitsOf b := List.flatMap_append
theorem bitsOf_cons (f : Fr) (b : List Fr) : bitsOf (f :: b) = f.bits ++ bitsOf b := List.flatMap_cons
theorem bitsOf_singleton (f : Fr) : bitsOf [f] = f.bits := by simp [bitsOf]

/-- the headers of a list of frames, the first one starting at bit `p` -/
def hdrs : Nat → List Fr → List FrameHeader
  | _, [] => []
  | p, f :: fs => f.hdr p :: hdrs (p + f.bits.length) fs

theorem hdrs_append : ∀ (fs gs : List Fr) (p : Nat), hdrs p (fs ++ gs) = hdrs p fs ++ hdrs (p + (bitsOf fs).length) gs
  | [], gs, p => by simp [hdrs, bitsOf]
  | f :: fs, gs, p => by
    simp only [List.cons_append, hdrs, hdrs_append fs gs, bitsOf, List.flatMap_cons, List.length_append, Nat.add_assoc]

@[simp] theorem length_hdrs : ∀ (fs : List Fr) (p : Nat), (hdrs p fs).length = fs.length
  | [], _ => rfl
  | f :: fs, p => by simp [hdrs, length_hdrs fs]

theorem hdrs_getElem? : ∀ (fs : List Fr) (p i : Nat), (hdrs p fs)[i]? = fs[i]?.map fun f => f.hdr (p + (bitsOf (fs.take i)).length)
  | [], p, i => by simp [hdrs]
  | f :: fs, p, 0 => by simp [hdrs, bitsOf]
  | f :: fs, p, i + 1 => by
    simp only [hdrs, List.getElem?_cons_succ, hdrs_getElem? fs, List.take_succ_cons, bitsOf, List.flatMap_cons, List.length_append,
      Nat.add_assoc]

/-- the number of samples in a list of frames -/
def total (fs : List Fr) : Nat := (fs.map fun f => f.codes.length).sum

@[simp] theorem total_nil : total [] = 0 := rfl
@[simp] theorem total_append (a b : List Fr) : total (a ++ b) = total a + total b := by simp [total]
@[simp] theorem total_singleton (f : Fr) : total [f] = f.codes.length := by simp [total]

/-- with `n` chunks there is one behind every chunk in which the last bits of a frame start -/
def Roomy (fs : List Fr) (n : Nat) : Prop :=
  ∀ i (h : i < fs.length), fs[i].codes ≠ [] → ((bitsOf (fs.take (i + 1))).length - fs[i].lastWidth) / 128 + 2 ≤ n

/-- how many chunks there are: two more than before the last bits of the last frame that is not empty -/
def chunksOf (fs : List Fr) : Nat :=
  match (fs.filter fun f => !f.codes.isEmpty).getLast? with
  | none => 0
  | some f => ((bitsOf fs).length - f.lastWidth) / 128 + 2

theorem Fr.bits_nil {f : Fr} (h : f.codes = []) : f.bits = [] := by
  have hr : f.raw = [] := by unfold Fr.raw; split <;> simp [h]
  have hb : f.body = [] := by unfold Fr.body; split <;> simp [h]
  unfold Fr.bits
  rw [hr, hb]
  rfl

theorem chunksOf_snoc (fs : List Fr) (f : Fr) :
    chunksOf (fs ++ [f]) = if f.codes = [] then chunksOf fs else ((bitsOf (fs ++ [f])).length - f.lastWidth) / 128 + 2 := by
  unfold chunksOf
  by_cases h : f.codes = []
  · rw [if_pos h, List.filter_append, bitsOf_append, bitsOf_singleton, Fr.bits_nil h]
    simp [h]
  · rw [if_neg h, List.filter_append]
    simp [h]

/-- nothing is left over behind the recording, and the memory has just the size needed -/
structure Neat (c : AdhocCodec) (fs : List Fr) : Prop where
  tidy : Tidy c.stream.stream
  count : c.stream.stream.binary.length = chunksOf fs
  flags : Unflagged c.frameHeaderList

/-- the encoder has made the frames `fs`; channel `i` has consumed the codes `Qs i` -/
structure EncSt (c : AdhocCodec) (info : StreamInfo) (fs : List Fr) (Qs : Nat → List Int) : Prop where
  hinfo : c.stream.info = some info
  chans : c.channelStateList.length = info.channels
  chan : ∀ i (h : i < c.channelStateList.length), EncChan c.channelStateList[i] (Qs i)
  bits : Holds c.stream.stream (bitsOf fs)
  log : IsLog c.frameHeaderList (hdrs 0 fs) fs.length
  wf : ∀ f ∈ fs, f.WF
  seq : c.seq.sequence = draw (2 * total fs)
  room : Roomy fs c.stream.stream.binary.length
  neat : Neat c fs

theorem encChan_new : EncChan FrameCodec.new [] := ⟨by simp [FrameCodec.new], last_new, by simp, rfl⟩

theorem encSt_new (info : StreamInfo) (level : Nat) :
    EncSt ((AdhocCodec.new.setInfo info).withCompressionLevel level) info [] (fun _ => []) where
  hinfo := rfl
  chans := by simp [AdhocCodec.withCompressionLevel, AdhocCodec.setInfo, AdhocCodec.resize, AdhocCodec.new]
  chan := by
    intro i h
    have : ((AdhocCodec.new.setInfo info).withCompressionLevel level).channelStateList[i] = FrameCodec.new := by
      simp [AdhocCodec.withCompressionLevel, AdhocCodec.setInfo, AdhocCodec.resize, AdhocCodec.new]
    rw [this]; exact encChan_new
  bits := holds_new
  log := isLog_new
  wf := by simp
  seq := rfl
  room := fun i h => by simp at h
  neat := ⟨tidy_new, rfl, fun p _ => by simp [bitW, AdhocCodec.withCompressionLevel, AdhocCodec.setInfo, AdhocCodec.resize, AdhocCodec.new, FrameHeaders.new, BitVecU64.new]⟩

theorem mapM_ok {α β : Type} {g : α → R β} {f : α → β} : ∀ (l : List α) (_ : ∀ x ∈ l, g x = .ok (f x)), l.mapM g = .ok (l.map f)
  | [], _ => rfl
  | x :: l, h => by
    rw [List.mapM_cons, h x (by simp), bind_ok, mapM_ok l (fun y hy => h y (by simp [hy])), bind_ok]
    rfl

theorem deinterleave_ok {pcm : List F32} {n ch : Nat} (hch : ch < n) :
    AdhocCodec.deinterleave pcm n (pcm.length / n) ch = .ok (column n ch pcm) := by
  unfold AdhocCodec.deinterleave column
  apply mapM_ok
  intro k hk
  have hk : k < pcm.length / n := by simpa using hk
  have h1 : (k + 1) * n ≤ pcm.length / n * n := Nat.mul_le_mul_right _ hk
  have h2 := Nat.div_mul_le_self pcm.length n
  have h3 : k * n + ch < pcm.length := by
    rw [Nat.add_mul] at h1; omega
  rw [idx_of_lt h3, List.getD_eq_getElem?_getD, List.getElem?_eq_getElem h3]
  rfl

/-- the fields no encode or decode call changes -/
structure SameLevel (c c' : AdhocCodec) : Prop where
  level : c'.compressionLevel = c.compressionLevel
  scale : c'.scale = c.scale
  inv : c'.invScale = c.invScale

theorem SameLevel.refl (c : AdhocCodec) : SameLevel c c := ⟨rfl, rfl, rfl⟩
theorem SameLevel.trans {a b c : AdhocCodec} (h : SameLevel a b) (h' : SameLevel b c) : SameLevel a c :=
  ⟨h'.level.trans h.level, h'.scale.trans h.scale, h'.inv.trans h.inv⟩

/-- one channel of one call -/
theorem encodeChannel_ok {b : Build} {c : AdhocCodec} {info : StreamInfo} {fs : List Fr} {Qs : Nat → List Int} (H : EncSt c info fs Qs)
    (pcm : List F32) {ch : Nat} (hch : ch < info.channels) (h3 : Qs ch = [] → 3 ≤ pcm.length / info.channels)
    (hcalm : Fr.calm b (Qs ch) ((ditherAt c.invScale (total fs) (column info.channels ch pcm)).map truncateSample)) :
    ∃ c' f, c.encodeChannel b pcm info.channels (pcm.length / info.channels) ch = .ok c' ∧
      EncSt c' info (fs ++ [f]) (fun i => if i = ch then Qs ch ++ f.codes else Qs i) ∧ SameLevel c c' ∧ f.pre = Qs ch ∧
      f.codes = (ditherAt c.invScale (total fs) (column info.channels ch pcm)).map truncateSample := by
  have e1 := dither_exact (b := b) (inv := c.invScale) (column info.channels ch pcm) H.seq
  obtain ⟨ys, hys⟩ : ∃ ys, ys = ditherAt c.invScale (total fs) (column info.channels ch pcm) := ⟨_, rfl⟩
  rw [← hys] at hcalm e1 ⊢
  have hl : ys.length = pcm.length / info.channels := by
    rw [hys]; simp [column]
  have hch' : ch < c.channelStateList.length := by rw [H.chans]; exact hch
  obtain ⟨fc', st', hd', f, e2, hwf, hpre, hcodes, hec, hst, hinf, hlog, hmono, hroom, htidy, hflag⟩ :=
    encodeFrame_ok (b := b) (H.chan ch hch') H.bits (hd := c.frameHeaderList) (log := hdrs 0 fs) (by simpa using H.log) ys
      (fun h => by rw [hl]; exact h3 h) hcalm
  unfold AdhocCodec.encodeChannel
  rw [deinterleave_ok hch, bind_ok, e1, bind_ok]
  dsimp only
  rw [idx_of_lt hch', bind_ok, e2, bind_ok]
  dsimp only
  rw [setIdx_of_lt hch', bind_ok]
  refine ⟨_, f, rfl, ⟨?_, ?_, ?_, ?_, ?_, ?_, ?_, ?_, ?_⟩, ⟨rfl, rfl, rfl⟩, hpre, hcodes⟩
  · exact hinf.trans H.hinfo
  · simpa using H.chans
  · intro i hi
    simp only [List.getElem_set]
    by_cases hic : ch = i
    · subst hic; simpa using hec
    · rw [if_neg hic, if_neg (fun h => hic h.symm)]
      exact H.chan i (by simpa using hi)
  · simpa [bitsOf] using hst
  · rw [hdrs_append]
    simpa [hdrs] using hlog
  · intro g hg
    rcases List.mem_append.1 hg with hg | hg
    · exact H.wf g hg
    · rw [List.mem_singleton.1 hg]; exact hwf
  · dsimp only
    rw [total_append, total_singleton, hcodes, List.length_map, hl]
    simp [column]
  · intro i hi hne
    rcases Nat.lt_or_ge i fs.length with hlt | hge
    · rw [List.getElem_append_left hlt] at hne ⊢
      rw [List.take_append_of_le_length (by omega)]
      exact (H.room i hlt hne).trans hmono
    · have hie : i = fs.length := by simp at hi; omega
      subst hie
      simp only [List.getElem_concat_length] at hne ⊢
      have := hroom hne
      rw [hst.cursor] at this
      rw [List.take_of_length_le (by simp), bitsOf_append, bitsOf_singleton]
      exact this
  · obtain ⟨t1, t2, t3⟩ := htidy H.neat.tidy
    refine ⟨t1, ?_, hflag H.neat.flags⟩
    rw [chunksOf_snoc]
    dsimp only
    split
    · next h => rw [t3 h]; exact H.neat.count
    · next h =>
      rw [t2 h, hst.cursor, bitsOf_append, bitsOf_singleton]

/-- what one call makes of one channel when `k` samples came before: a frame of the dithered, truncated samples -/
structure Made (n : Nat) (inv : F32) (k : Nat) (pcm : List F32) (Qs : Nat → List Int) (blk : Nat → Fr) (ch : Nat) : Prop where
  wf : (blk ch).WF
  pre : (blk ch).pre = Qs ch
  exact : (blk ch).codes = (ditherAt inv (k + ch * (pcm.length / n)) (column n ch pcm)).map truncateSample

theorem Made.codes {n : Nat} {inv : F32} {k : Nat} {pcm : List F32} {Qs : Nat → List Int} {blk : Nat → Fr} {ch : Nat}
    (h : Made n inv k pcm Qs blk ch) :
    ∃ ys, List.Forall₂ (Dithered inv) (column n ch pcm) ys ∧ (blk ch).codes = ys.map truncateSample :=
  ⟨_, dithered_ditherAt _ _ _, h.exact⟩

theorem Made.length {n : Nat} {inv : F32} {k : Nat} {pcm : List F32} {Qs : Nat → List Int} {blk : Nat → Fr} {ch : Nat}
    (h : Made n inv k pcm Qs blk ch) : (blk ch).codes.length = pcm.length / n := by
  obtain ⟨ys, h1, h2⟩ := h.codes
  rw [h2, List.length_map, ← h1.length_eq]; simp [column]

theorem foldlM_append' {α β : Type} (f : β → α → R β) (l l' : List α) (x : β) :
    (l ++ l').foldlM f x = (l.foldlM f x >>= fun y => l'.foldlM f y) := by
  rw [List.foldlM_append]

theorem total_range {blk : Nat → Fr} {d : Nat} : ∀ k, (∀ ch < k, (blk ch).codes.length = d) → total ((List.range k).map blk) = k * d
  | 0, _ => by simp
  | k + 1, h => by
    rw [List.range_succ, List.map_append, total_append, total_range k (fun ch hch => h ch (by omega)), List.map_singleton, total_singleton,
      h k (by omega), Nat.succ_mul]

/-- the channel loop -/
theorem encodeChannels_ok {b : Build} {c : AdhocCodec} {info : StreamInfo} {fs : List Fr} {Qs : Nat → List Int} (H : EncSt c info fs Qs)
    (pcm : List F32) (h3 : ∀ ch < info.channels, Qs ch = [] → 3 ≤ pcm.length / info.channels)
    (hcalm : ∀ ch < info.channels, Fr.calm b (Qs ch)
      ((ditherAt c.invScale (total fs + ch * (pcm.length / info.channels)) (column info.channels ch pcm)).map truncateSample)) :
    ∀ k, k ≤ info.channels → ∃ c' blk,
      (List.range k).foldlM (fun c ch => c.encodeChannel b pcm info.channels (pcm.length / info.channels) ch) c = .ok c' ∧
      EncSt c' info (fs ++ (List.range k).map blk) (fun i => if i < k then Qs i ++ (blk i).codes else Qs i) ∧ SameLevel c c' ∧
      ∀ ch < k, Made info.channels c.invScale (total fs) pcm Qs blk ch
  | 0, _ => ⟨c, fun _ => ⟨[], 0, []⟩, rfl, by simpa using H, .refl c, by simp⟩
  | k + 1, hk => by
    obtain ⟨c1, blk, e1, H1, hs1, hm1⟩ := encodeChannels_ok H pcm h3 hcalm k (by omega)
    have htot : total (fs ++ (List.range k).map blk) = total fs + k * (pcm.length / info.channels) := by
      rw [total_append, total_range k (fun ch hch => (hm1 ch hch).length)]
    obtain ⟨c2, f, e2, H2, hs2, hpre, hcodes⟩ := encodeChannel_ok (b := b) H1 pcm (ch := k) (by omega)
      (by simpa using h3 k (by omega)) (by
        rw [hs1.inv, htot]
        simpa using hcalm k (by omega))
    simp only [lt_irrefl, if_false] at hpre
    rw [hs1.inv, htot] at hcodes
    have hwf : f.WF := H2.wf f (by simp)
    refine ⟨c2, fun i => if i = k then f else blk i, ?_, ?_, hs1.trans hs2, ?_⟩
    · rw [List.range_succ, foldlM_append', e1, bind_ok]
      simp only [List.foldlM_cons, List.foldlM_nil]
      rw [e2, bind_ok]
      rfl
    · have ef : fs ++ (List.range (k + 1)).map (fun i => if i = k then f else blk i) = fs ++ (List.range k).map blk ++ [f] := by
        rw [List.range_succ, List.map_append, ← List.append_assoc]
        congr 1
        · congr 1
          apply List.map_congr_left
          intro i hi
          have : i < k := by simpa using hi
          rw [if_neg (by omega)]
        · simp
      have eQ : (fun i => if i < k + 1 then Qs i ++ (if i = k then f else blk i).codes else Qs i) =
          (fun i => if i = k then (if k < k then Qs k ++ (blk k).codes else Qs k) ++ f.codes else if i < k then Qs i ++ (blk i).codes else Qs i) := by
        funext i
        by_cases hik : i = k
        · subst hik; simp
        · by_cases hlt : i < k
          · simp [hik, hlt, Nat.lt_succ_of_lt hlt]
          · simp [hik, hlt, show ¬ i < k + 1 by omega]
      rw [ef, eQ]
      exact H2
    · intro ch hch
      by_cases hck : ch = k
      · subst hck
        exact ⟨by simpa using hwf, by simpa using hpre, by simpa using hcodes⟩
      · obtain ⟨a, bb, cc⟩ := hm1 ch (by omega)
        exact ⟨by simpa [hck] using a, by simpa [hck] using bb, by simpa [hck] using cc⟩

/-- the frames of a list of blocks, one frame per channel in each block -/
def flat (n : Nat) (blocks : List (Nat → Fr)) : List Fr := blocks.flatMap fun blk => (List.range n).map blk

/-- all codes of a channel -/
def codesOf (blocks : List (Nat → Fr)) (ch : Nat) : List Int := blocks.flatMap fun blk => (blk ch).codes

@[simp] theorem flat_append (n : Nat) (a b : List (Nat → Fr)) : flat n (a ++ b) = flat n a ++ flat n b := by simp [flat]
@[simp] theorem codesOf_append (a b : List (Nat → Fr)) (ch : Nat) : codesOf (a ++ b) ch = codesOf a ch ++ codesOf b ch := by
  simp [codesOf]
@[simp] theorem codesOf_nil (ch : Nat) : codesOf [] ch = [] := rfl
@[simp] theorem flat_nil (n : Nat) : flat n [] = [] := rfl
theorem flat_cons (n : Nat) (a : Nat → Fr) (b : List (Nat → Fr)) : flat n (a :: b) = (List.range n).map a ++ flat n b := List.flatMap_cons
theorem codesOf_singleton (a : Nat → Fr) (ch : Nat) : codesOf [a] ch = (a ch).codes := by simp [codesOf]
theorem length_flat (n : Nat) (blocks : List (Nat → Fr)) : (flat n blocks).length = blocks.length * n := by
  induction blocks with
  | nil => simp
  | cons a l ih =>
    rw [show a :: l = [a] ++ l from rfl, flat_append, List.length_append, ih]
    simp [flat, Nat.add_mul, Nat.add_comm]

/-- the codes after the call, extensionally -/
theorem EncSt.congr {c : AdhocCodec} {info : StreamInfo} {fs : List Fr} {Qs Qs' : Nat → List Int} (H : EncSt c info fs Qs)
    (h : ∀ i < info.channels, Qs i = Qs' i) : EncSt c info fs Qs' :=
  ⟨H.hinfo, H.chans, fun i hi => by rw [← h i (by rw [← H.chans]; exact hi)]; exact H.chan i hi, H.bits, H.log, H.wf, H.seq, H.room, H.neat⟩

/-- one call -/
theorem encode_ok {b : Build} {c : AdhocCodec} {info : StreamInfo} (hn : 0 < info.channels) {blocks : List (Nat → Fr)}
    (H : EncSt c info (flat info.channels blocks) (codesOf blocks))
    (pcm : List F32) (h3 : ∀ ch < info.channels, codesOf blocks ch = [] → 3 ≤ pcm.length / info.channels)
    (hcalm : ∀ ch < info.channels, Fr.calm b (codesOf blocks ch) ((ditherAt c.invScale
      (total (flat info.channels blocks) + ch * (pcm.length / info.channels)) (column info.channels ch pcm)).map truncateSample)) :
    ∃ c' blk, c.encode b pcm = .ok (c', some pcm.length) ∧
      EncSt c' info (flat info.channels (blocks ++ [blk])) (codesOf (blocks ++ [blk])) ∧ SameLevel c c' ∧
      ∀ ch < info.channels, Made info.channels c.invScale (total (flat info.channels blocks)) pcm (codesOf blocks) blk ch := by
  obtain ⟨c', blk, e, H', hs, hm⟩ := encodeChannels_ok (b := b) H pcm h3 hcalm info.channels le_rfl
  refine ⟨c', blk, ?_, ?_, hs, hm⟩
  · unfold AdhocCodec.encode AdhocCodec.encodeRaw
    rw [H.hinfo]
    simp only [expect, bind_ok]
    rw [udiv_of_pos hn, bind_ok, e, bind_ok]
    rfl
  · have := H'.congr (Qs' := codesOf (blocks ++ [blk])) (by
      intro i hi
      simp [hi, codesOf])
    simpa [flat] using this

/-- a recording: block `j` continues what blocks before it hold -/
structure Rec (n : Nat) (blocks : List (Nat → Fr)) : Prop where
  wf : ∀ j (h : j < blocks.length), ∀ ch < n, (blocks[j] ch).WF
  pre : ∀ j (h : j < blocks.length), ∀ ch < n, (blocks[j] ch).pre = codesOf (blocks.take j) ch
  size : ∀ j (h : j < blocks.length), ∀ ch < n, (blocks[j] ch).codes.length = (blocks[j] 0).codes.length

theorem rec_nil (n : Nat) : Rec n [] := ⟨by simp, by simp, by simp⟩

theorem Rec.snoc {n : Nat} {blocks : List (Nat → Fr)} (H : Rec n blocks) {blk : Nat → Fr}
    (h1 : ∀ ch < n, (blk ch).WF) (h2 : ∀ ch < n, (blk ch).pre = codesOf blocks ch)
    (h3 : ∀ ch < n, (blk ch).codes.length = (blk 0).codes.length) : Rec n (blocks ++ [blk]) := by
  have key : ∀ j (h : j < (blocks ++ [blk]).length), (∃ h' : j < blocks.length, (blocks ++ [blk])[j] = blocks[j] ∧ (blocks ++ [blk]).take j = blocks.take j) ∨
      ((blocks ++ [blk])[j] = blk ∧ (blocks ++ [blk]).take j = blocks) := by
    intro j h
    by_cases hj : j < blocks.length
    · left
      exact ⟨hj, List.getElem_append_left hj, List.take_append_of_le_length (by omega)⟩
    · right
      have hj' : j = blocks.length := by simp at h; omega
      subst hj'
      exact ⟨by simp, by simp⟩
  refine ⟨?_, ?_, ?_⟩ <;> intro j h ch hch <;> rcases key j h with ⟨h', e1, e2⟩ | ⟨e1, e2⟩ <;> rw [e1]
  · exact H.wf j h' ch hch
  · exact h1 ch hch
  · rw [e2]; exact H.pre j h' ch hch
  · rw [e2]; exact h2 ch hch
  · exact H.size j h' ch hch
  · exact h3 ch hch

/-- blocks made by calls -/
structure Recorded (n : Nat) (inv : F32) (calls : List (List F32)) (blocks : List (Nat → Fr)) : Prop where
  len : blocks.length = calls.length
  made : ∀ j (h : j < blocks.length) (h' : j < calls.length), ∀ ch < n,
    Made n inv (total (flat n (blocks.take j))) calls[j] (codesOf (blocks.take j)) blocks[j] ch

theorem recorded_nil (n : Nat) (inv : F32) : Recorded n inv [] [] := ⟨rfl, by simp⟩

theorem Recorded.snoc {n : Nat} {inv : F32} {calls : List (List F32)} {blocks : List (Nat → Fr)} (H : Recorded n inv calls blocks)
    {pcm : List F32} {blk : Nat → Fr} (h : ∀ ch < n, Made n inv (total (flat n blocks)) pcm (codesOf blocks) blk ch) :
    Recorded n inv (calls ++ [pcm]) (blocks ++ [blk]) := by
  have hl := H.len
  refine ⟨by simp [hl], ?_⟩
  intro j h1 h2 ch hch
  by_cases hj : j < blocks.length
  · rw [List.getElem_append_left hj, List.getElem_append_left (by omega), List.take_append_of_le_length (by omega)]
    exact H.made j hj (by omega) ch hch
  · have hj' : j = blocks.length := by simp at h1; omega
    subst hj'
    have e : (calls ++ [pcm])[blocks.length]'h2 = pcm := by
      rw [List.getElem_append_right (by omega)]; simp
    rw [e]
    simpa using h ch hch

theorem Recorded.toRec {n : Nat} {inv : F32} {calls : List (List F32)} {blocks : List (Nat → Fr)} (H : Recorded n inv calls blocks)
    (hn : 0 < n) : Rec n blocks := by
  have hl := H.len
  refine ⟨?_, ?_, ?_⟩ <;> intro j h ch hch <;> have h' := H.made j h (by omega) ch hch
  · exact h'.wf
  · exact h'.pre
  · rw [h'.length, (H.made j h (by omega) 0 hn).length]

/-- all calls: `I` is an invariant of the codes so far and the calls to come that implies that a call does not panic -/
theorem encodeAll_ok {b : Build} {info : StreamInfo} (hn : 0 < info.channels) {inv : F32}
    (I : List (Nat → Fr) → List (List F32) → Prop)
    (hI : ∀ blocks pcm rest, I blocks (pcm :: rest) →
      (∀ ch < info.channels, codesOf blocks ch = [] → 3 ≤ pcm.length / info.channels) ∧
      (∀ ch < info.channels, Fr.calm b (codesOf blocks ch) ((ditherAt inv
        (total (flat info.channels blocks) + ch * (pcm.length / info.channels)) (column info.channels ch pcm)).map truncateSample)) ∧
      ∀ blk, (∀ ch < info.channels, Made info.channels inv (total (flat info.channels blocks)) pcm (codesOf blocks) blk ch) → I (blocks ++ [blk]) rest) :
    ∀ (rest : List (List F32)) {c : AdhocCodec} {calls : List (List F32)} {blocks : List (Nat → Fr)} (_ : c.invScale = inv)
      (_ : EncSt c info (flat info.channels blocks) (codesOf blocks)) (_ : Recorded info.channels inv calls blocks)
      (_ : I blocks rest),
    ∃ c' blocks', encodeAll b c rest = .ok c' ∧ EncSt c' info (flat info.channels blocks') (codesOf blocks') ∧
      Recorded info.channels inv (calls ++ rest) blocks' ∧ SameLevel c c' ∧ blocks <+: blocks'
  | [], c, calls, blocks, _, H, HR, _ => ⟨c, blocks, rfl, H, by simpa using HR, .refl c, List.prefix_refl _⟩
  | pcm :: rest, c, calls, blocks, hinv, H, HR, h => by
    obtain ⟨h3, hcalm, hnext⟩ := hI blocks pcm rest h
    obtain ⟨c1, blk, e1, H1, hs1, hm⟩ := encode_ok (b := b) hn H pcm h3 (by rw [hinv]; exact hcalm)
    rw [hinv] at hm
    obtain ⟨c2, blocks', e2, H2, HR2, hs2, hp⟩ := encodeAll_ok hn I hI rest (hs1.inv.trans hinv) H1 (HR.snoc hm) (hnext blk hm)
    refine ⟨c2, blocks', ?_, H2, by simpa using HR2, hs1.trans hs2, (List.prefix_append _ _).trans hp⟩
    unfold encodeAll at e2 ⊢
    rw [List.foldlM_cons, e1]
    exact e2

end Adhoc
