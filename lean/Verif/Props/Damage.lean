import Verif.Proofs.Damage
import Verif.Proofs.Prefix
import Verif.Props.Append
import Verif.Proofs.Terminate

/-!
# C77: damage stays local

Overwriting payload bits of a recording spoils what those bits encode. What was recorded before plays as ever, and after a seek to something that
was recorded later everything is as ever too.
-/

namespace Adhoc
open Spec

/-- `c'` is `c` with some payload bits overwritten, all of them among the bits `p` to `q - 1` -/
structure Spec.Damaged (c c' : AdhocCodec) (p q : Nat) : Prop where
  rest : c' = { c with stream := { c.stream with stream := { c.stream.stream with binary := c'.stream.stream.binary } } }
  chunks : c'.stream.stream.binary.length = c.stream.stream.binary.length
  bits : ∀ i, payloadBit c' i ≠ payloadBit c i → p ≤ i ∧ i < q

/-- bit `i` of a file, the low bit of the first byte first -/
def Spec.fileBit (f : List Byte) (i : Nat) : Bool := ((f[i / 8]?).getD 0#8).getLsbD (i % 8)

/-- the byte of a saved file where the payload starts: it is followed by the bit cursor and the capacity, 16 bytes each -/
def Spec.payloadStart (c : AdhocCodec) : Nat := (file c).length - 32 - 16 * c.stream.stream.blocksAllocated

theorem Spec.Damaged.init {c c' : AdhocCodec} {p q : Nat} (H : Damaged c c' p q) : Damaged c.init c'.init p q := by
  refine ⟨?_, H.chunks, H.bits⟩
  have h := H.rest
  generalize c'.stream.stream.binary = bin at h
  subst h
  rfl

theorem Spec.Damaged.from {c c' : AdhocCodec} {p q : Nat} (H : Damaged c c' p q) : FromC q c.stream.info c.frameHeaderList c c' := by
  have h := H.rest
  have hc := H.chunks
  have hb := H.bits
  generalize c'.stream.stream.binary = bin at h hc
  subst h
  refine ⟨rfl, .refl _, ⟨rfl, rfl, ⟨rfl, rfl, hc.symm, ?_⟩⟩, rfl, rfl, rfl⟩
  intro i hi
  by_contra hne
  exact absurd (hb i (fun h => hne h.symm)).2 (by omega)

/-- the first blocks of a damaged recording -/
theorem before_damage {b : Build} {info : StreamInfo} (hn : 0 < info.channels) {blocks new : List (Nat → Fr)} {hd : FrameHeaders} {i : Nat}
    (HR : Rec info.channels blocks) (hsh : Short blocks) (hng : NoGap (sizesOf blocks)) (hl : IsLog hd (hdrs 0 (flat info.channels blocks)) i)
    {X X' : AdhocCodec} {q : Nat} (HX : DecSt X info (blocks ++ new) 0 0) (D : Damaged X X' (bitsOf (flat info.channels blocks)).length q)
    (bufs : List (List F32)) (hm : (bufs.map fun buf => buf.length / info.channels).sum ≤ rowsIn blocks) :
    (decodeAll b X' bufs).map (·.2) = .ok
      ((readBlocks info.channels (played info.channels (rowsIn blocks) (codesOf blocks)) bufs).map fun r => (r.1.map (· * X.scale), r.2)) := by
  have h := D.rest
  have hc := D.chunks
  have hb := D.bits
  generalize hbin : X'.stream.stream.binary = bin at h hc
  subst h
  let T : AdhocCodec := { X with
    stream := { X.stream with stream := { X.stream.stream with binary := bin } }
    frameHeaderList := hd.reset }
  have hfl := HX.fl
  have hR : Reads X.stream.stream (bitsOf (flat info.channels (blocks ++ new))) 0 := by
    have := hfl.bits
    simpa [bitsOf] using this
  have HT : DecSt T info blocks 0 0 := by
    refine ⟨⟨hfl.hinfo, hfl.chans, ?_, ?_, ?_⟩, by omega, by simp⟩
    · intro k hk
      simpa using hfl.chan k hk
    · rw [Nat.zero_mul, List.take_zero]
      refine ⟨hR.cursor, ?_, by simp [bitsOf], ?_⟩
      · show _ ≤ 128 * bin.length
        have := hR.chunks
        rw [flat_append, bitsOf_append, List.length_append] at this
        rw [hc]
        omega
      · intro k hk
        have h2 := hR.bit k (by rw [flat_append, bitsOf_append, List.length_append]; omega)
        have h3 : (bitsOf (flat info.channels (blocks ++ new)))[k]'(by rw [flat_append, bitsOf_append, List.length_append]; omega)
            = (bitsOf (flat info.channels blocks))[k] := by
          simp only [flat_append, bitsOf_append]
          exact List.getElem_append_left hk
        rw [← h3, ← h2]
        by_contra hne
        exact absurd (hb k hne).1 (by omega)
    · rw [Nat.zero_mul]
      exact isLog_reset hl
  have L : Longer info.channels (hdrs 0 (flat info.channels blocks)) (hdrs (0 + (bitsOf (flat info.channels blocks)).length) (flat info.channels new))
      (0 * info.channels) T { X with stream := { X.stream with stream := { X.stream.stream with binary := bin } } } := by
    refine ⟨rfl, rfl, rfl, rfl, ?_, ?_, ?_⟩
    · show _ ≤ X.channelStateList.length
      rw [hfl.chans]
    · rw [Nat.zero_mul]
      exact isLog_reset hl
    · have := hfl.log
      rw [flat_append, hdrs_append] at this
      exact this
  have := longer_decodeAll (b := b) hn HR hsh hng bufs HT L (by omega) (by omega)
  rw [List.drop_zero] at this
  exact this

theorem Spec.Damaged.same {c : AdhocCodec} (p : Nat) : Damaged c c p p := ⟨rfl, rfl, fun _ h => absurd rfl h⟩

/-- a recording in three parts, and a codec that plays it -/
theorem damage_core {b b' : Build} {info : StreamInfo} {level : Nat} (hn : 0 < info.channels) {before hit behind : List (List F32)} {c : AdhocCodec}
    (h : encodeAll b (fresh info level) (before ++ hit ++ behind) = .ok c) (hp : Proper info.channels (before ++ hit ++ behind))
    (hb : c.stream.stream.len < 2 ^ 64) :
    ∃ cp cq, encodeAll b (fresh info level) before = .ok cp ∧ encodeAll b (fresh info level) (before ++ hit) = .ok cq ∧
      ∀ X X', (X = c.init ∨ X = reloaded c info.channels) → Damaged X X' cp.stream.stream.len cq.stream.stream.len →
        (∀ bufs, (bufs.map fun buf => buf.length / info.channels).sum ≤ (signal info.channels before).length →
          (decodeAll b' X' bufs).map (·.2) = (decodeAll b' X bufs).map (·.2)) ∧
        ∀ ms acts, (∀ ms', Act.seek ms' ∈ Act.seek ms :: acts → (signal info.channels (before ++ hit)).length < AdhocCodec.seekOffset info ms' ∧
            AdhocCodec.seekOffset info ms' ≤ (signal info.channels (before ++ hit ++ behind)).length) →
          winds b' X' (.seek ms :: acts) = winds b' X (.seek ms :: acts) := by
  obtain ⟨cq, Bq, newq, hq0, -, Hq, HRq, Hq', HRq', -, -⟩ := recorded_split hn h
  have h' := h
  rw [List.append_assoc] at h'
  obtain ⟨cp, Bp, newp, hp0, -, Hp, HRp, Hp', HRp', -, -⟩ := recorded_split hn h'
  refine ⟨cp, cq, hp0, hq0, ?_⟩
  intro X X' hX D
  have hlp : cp.stream.stream.len = (bitsOf (flat info.channels Bp)).length := Hp.bits.cursor
  have hlq : cq.stream.stream.len = (bitsOf (flat info.channels Bq)).length := Hq.bits.cursor
  have hXp : DecSt X info (Bp ++ newp) 0 0 := by
    rcases hX with rfl | rfl
    · exact decSt_init Hp'
    · exact decSt_reloaded (decSt_init Hp')
  have hXq : DecSt X info (Bq ++ newq) 0 0 := by
    rcases hX with rfl | rfl
    · exact decSt_init Hq'
    · exact decSt_reloaded (decSt_init Hq')
  constructor
  · intro bufs hm
    have hsb : ∀ pcm ∈ before, pcm.length / info.channels < 65536 := fun pcm hm => hp.short pcm (by simp [hm])
    have hgb : NoGap (before.map fun pcm => pcm.length / info.channels) := by
      have := hp.gap
      rw [List.append_assoc, List.map_append] at this
      exact noGap_prefix this
    have hm' : (bufs.map fun buf => buf.length / info.channels).sum ≤ rowsIn Bp := by rw [HRp.rows hn]; exact hm
    rw [hlp] at D
    rw [before_damage hn (HRp.toRec hn) (HRp.short hn hsb) (recorded_made HRp hn hgb) Hp.log hXp D bufs hm',
      before_damage hn (HRp.toRec hn) (HRp.short hn hsb) (recorded_made HRp hn hgb) Hp.log hXp (.same _) bufs hm']
  · intro ms acts hs
    have hall : rowsIn (Bq ++ newq) = (signal info.channels (before ++ hit ++ behind)).length := HRq'.rows hn
    have htake : (Bq ++ newq).take Bq.length = Bq := by simp
    have hrow : rowsIn ((Bq ++ newq).take Bq.length) = (signal info.channels (before ++ hit)).length := by rw [htake]; exact HRq.rows hn
    have hbits : (bitsOf (flat info.channels (Bq ++ newq))).length < 2 ^ 64 := by rw [← Hq'.bits.cursor]; exact hb
    have h64 := rows_le_bits (HRq'.toRec hn)
    have F := D.from
    rw [hXq.fl.hinfo, hlq] at F
    have := from_winds (b := b') (k := Bq.length) hn hXq.fl.log (HRq'.short hn hp.short) hbits (by omega) (.seek ms :: acts)
      (by rw [hrow, hall]; exact hs) (c := X) (c' := X') (by rw [htake]; exact F) (.inl ⟨ms, rfl⟩)
    rcases this with ⟨e, e1, e2⟩ | ⟨a, a', e1, e2, rfl⟩
    · rw [e1, e2]
    · rw [e1, e2]

/-- C77. A recording is made of three lots of calls, and payload bits of the middle lot `hit` are overwritten (`cp` and `cq` are the recordings up to
where it starts and ends). Rewound, what was recorded before the damage plays as it did; and whatever reads and seeks follow a
seek, all seeks going behind the damaged part, give the same as without damage. -/
theorem C77_damage (b b' : Build) (info : StreamInfo) (level : Nat) (hn : 0 < info.channels) (before hit behind : List (List F32)) (c : AdhocCodec)
    (h : encodeAll b (fresh info level) (before ++ hit ++ behind) = .ok c) (hp : Proper info.channels (before ++ hit ++ behind))
    (hb : c.stream.stream.len < 2 ^ 64) :
    ∃ cp cq, encodeAll b (fresh info level) before = .ok cp ∧ encodeAll b (fresh info level) (before ++ hit) = .ok cq ∧
      ∀ c', Damaged c c' cp.stream.stream.len cq.stream.stream.len →
        (∀ bufs, (bufs.map fun buf => buf.length / info.channels).sum ≤ (signal info.channels before).length →
          (decodeAll b' c'.init bufs).map (·.2) = (decodeAll b' c.init bufs).map (·.2)) ∧
        ∀ ms acts, (∀ ms', Act.seek ms' ∈ Act.seek ms :: acts → (signal info.channels (before ++ hit)).length < AdhocCodec.seekOffset info ms' ∧
            AdhocCodec.seekOffset info ms' ≤ (signal info.channels (before ++ hit ++ behind)).length) →
          winds b' c' (.seek ms :: acts) = winds b' c (.seek ms :: acts) := by
  obtain ⟨cp, cq, h1, h2, core⟩ := damage_core (b' := b') hn h hp hb
  refine ⟨cp, cq, h1, h2, fun c' D => ?_⟩
  obtain ⟨k1, k2⟩ := core c.init c'.init (.inl rfl) D.init
  refine ⟨k1, fun ms acts hs => ?_⟩
  have := k2 ms acts hs
  simp only [winds, rewound_init] at this ⊢
  exact this

/-! ## files -/

theorem leBytes_leNat : ∀ (bs : List Byte), Bincode.leBytes bs.length (Bincode.leNat bs) = bs
  | [] => rfl
  | x :: bs => by
    have hx := x.isLt
    simp only [Bincode.leNat, List.length_cons, Bincode.leBytes]
    congr 1
    · apply BitVec.eq_of_toNat_eq
      rw [BitVec.toNat_ofNat]
      omega
    · rw [show (x.toNat + 256 * Bincode.leNat bs) / 256 = Bincode.leNat bs by omega]
      exact leBytes_leNat bs

theorem leNat_lt : ∀ (bs : List Byte), Bincode.leNat bs < 2 ^ (8 * bs.length)
  | [] => by simp [Bincode.leNat]
  | x :: bs => by
    have hx := x.isLt
    have := leNat_lt bs
    simp only [Bincode.leNat, List.length_cons]
    rw [show 8 * (bs.length + 1) = 8 * bs.length + 8 by ring, pow_add]
    generalize (2 : Nat) ^ (8 * bs.length) = k at *
    omega

theorem testBit_leNat : ∀ (bs : List Byte) (i : Nat), (Bincode.leNat bs).testBit i = fileBit bs i
  | [], i => by simp [Bincode.leNat, fileBit]
  | x :: bs, i => by
    simp only [Bincode.leNat]
    rw [Nat.add_comm, show (256 : Nat) = 2 ^ 8 by norm_num, Nat.testBit_two_pow_mul_add _ x.isLt]
    split
    · next h =>
      unfold fileBit
      rw [show i / 8 = 0 by omega, Nat.mod_eq_of_lt h]
      rfl
    · next h =>
      rw [testBit_leNat bs]
      unfold fileBit
      rw [show i / 8 = (i - 8) / 8 + 1 by omega, show (i - 8) % 8 = i % 8 by omega]
      rfl

/-- bit `i` of the chunks is bit `i` of their bytes -/
theorem bitAt_bytes : ∀ (bin : List (BitVec 128)) (i : Nat), bitAt bin i = fileBit (bin.flatMap fun v => Bincode.leBytes 16 v.toNat) i
  | [], i => by simp [bitAt, fileBit]
  | v :: bin, i => by
    have hl := Bincode.length_leBytes 16 v.toNat
    rw [List.flatMap_cons]
    by_cases hi : i < 128
    · have h2 : fileBit (Bincode.leBytes 16 v.toNat ++ bin.flatMap fun v => Bincode.leBytes 16 v.toNat) i = fileBit (Bincode.leBytes 16 v.toNat) i := by
        unfold fileBit
        rw [List.getElem?_append_left (by omega)]
      rw [h2, ← testBit_leNat, Bincode.leNat_leBytes _ _ (by have := v.isLt; simpa using this)]
      unfold bitAt
      rw [show i / 128 = 0 by omega, Nat.mod_eq_of_lt hi]
      rfl
    · have h2 : fileBit (Bincode.leBytes 16 v.toNat ++ bin.flatMap fun v => Bincode.leBytes 16 v.toNat) i
          = fileBit (bin.flatMap fun v => Bincode.leBytes 16 v.toNat) (i - 128) := by
        unfold fileBit
        rw [List.getElem?_append_right (by omega), hl, show i / 8 - 16 = (i - 128) / 8 by omega, show (i - 128) % 8 = i % 8 by omega]
      rw [h2, ← bitAt_bytes bin]
      unfold bitAt
      rw [show i / 128 = (i - 128) / 128 + 1 by omega, show i % 128 = (i - 128) % 128 by omega, List.getElem?_cons_succ]

/-- any bytes are the bytes of some chunks -/
theorem chunks_of_bytes : ∀ (k : Nat) (mid : List Byte) (_ : mid.length = 16 * k), ∃ bin : List (BitVec 128), bin.length = k ∧
    (bin.flatMap fun v => Bincode.leBytes 16 v.toNat) = mid
  | 0, mid, h => by
    have : mid = [] := List.eq_nil_of_length_eq_zero (by omega)
    subst this
    exact ⟨[], rfl, rfl⟩
  | k + 1, mid, h => by
    obtain ⟨bin, h1, h2⟩ := chunks_of_bytes k (mid.drop 16) (by rw [List.length_drop]; omega)
    have hl : (mid.take 16).length = 16 := by rw [List.length_take]; omega
    have hlt := leNat_lt (mid.take 16)
    rw [hl] at hlt
    refine ⟨BitVec.ofNat 128 (Bincode.leNat (mid.take 16)) :: bin, by simp [h1], ?_⟩
    rw [List.flatMap_cons, h2, BitVec.toNat_ofNat, Nat.mod_eq_of_lt hlt]
    have := leBytes_leNat (mid.take 16)
    rw [hl] at this
    rw [this, List.take_append_drop]

/-- where the payload is in a saved file -/
theorem savedBytes_split (c : AdhocCodec) : ∃ pre post : List Byte, post.length = 32 ∧ ∀ bin : List (BitVec 128), bin.length = c.stream.stream.binary.length →
    savedBytes { c with stream := { c.stream with stream := { c.stream.stream with binary := bin } } } =
      pre ++ (bin.flatMap fun v => Bincode.leBytes 16 v.toNat) ++ post := by
  have key : ∃ A : List (List Byte), ∀ bin : List (BitVec 128),
      AdhocCodec.encPieces { c with stream := { c.stream with stream := { c.stream.stream with binary := bin } } } =
        A ++ Bincode.encVec (fun b => Bincode.encU 16 b.toNat) bin ++ Bincode.encU 16 c.stream.stream.bitCursor ++ Bincode.encU 16 c.stream.stream.capacity :=
    ⟨Bincode.encU 4 c.compressionLevel
      ++ Bincode.encVec (fun b => Bincode.encU 1 b.toNat) c.frameHeaderList.divisorExpList.data
      ++ Bincode.encU 4 c.frameHeaderList.divisorExpList.nibbleCount
      ++ Bincode.encVec (fun b => Bincode.encU 8 b.toNat) c.frameHeaderList.isInitFrameList.binary
      ++ Bincode.encU 16 c.frameHeaderList.isInitFrameList.bitCursor
      ++ Bincode.encVec (Bincode.encU 2) c.frameHeaderList.frameSizeList
      ++ Bincode.encVec (Bincode.encU 8) c.frameHeaderList.bitCursorList
      ++ Bincode.encVec (fun t => Bincode.encI16 t.1 ++ Bincode.encI16 t.2.1 ++ Bincode.encI16 t.2.2) c.frameHeaderList.stackHistoryList
      ++ Bincode.encU 4 c.frameHeaderList.headerCursor
      ++ Bincode.encOpt (fun i => Bincode.encU 4 i.sampleRate ++ Bincode.encU 4 i.channels) c.stream.info, fun bin => by
        unfold AdhocCodec.encPieces; rfl⟩
  obtain ⟨A, hA⟩ := key
  refine ⟨A.flatten ++ Bincode.leBytes 8 c.stream.stream.binary.length,
    Bincode.leBytes 16 c.stream.stream.bitCursor ++ Bincode.leBytes 16 c.stream.stream.capacity, by simp [Bincode.length_leBytes], ?_⟩
  intro bin hbin
  unfold savedBytes
  rw [hA]
  simp only [List.flatten_append, Bincode.flatten_encU, Bincode.flatten_encVec, hbin, List.append_assoc]

theorem length_flatMap_chunks (bin : List (BitVec 128)) : (bin.flatMap fun v => Bincode.leBytes 16 v.toNat).length = 16 * bin.length := by
  induction bin with
  | nil => rfl
  | cons v bin ih => rw [List.flatMap_cons, List.length_append, ih, Bincode.length_leBytes, List.length_cons]; ring

theorem byte_of_bits {f f' : List Byte} (hl : f'.length = f.length) {k : Nat} (h : ∀ i < 8, fileBit f' (8 * k + i) = fileBit f (8 * k + i)) : f'[k]? = f[k]? := by
  by_cases hk : k < f.length
  · rw [List.getElem?_eq_getElem hk, List.getElem?_eq_getElem (by omega)]
    congr 1
    apply BitVec.eq_of_getLsbD_eq
    intro i hi
    have := h i hi
    unfold fileBit at this
    rw [show (8 * k + i) / 8 = k by omega, show (8 * k + i) % 8 = i by omega, List.getElem?_eq_getElem hk, List.getElem?_eq_getElem (by omega)] at this
    exact this
  · rw [List.getElem?_eq_none (by omega), List.getElem?_eq_none (by omega)]

theorem patched {f g pre mid post : List Byte} (hg : g = pre ++ mid ++ post) (hl : f.length = g.length)
    (hb : ∀ k, (k < pre.length ∨ pre.length + mid.length ≤ k) → f[k]? = g[k]?) : f = pre ++ (f.drop pre.length).take mid.length ++ post := by
  have hgl : g.length = pre.length + mid.length + post.length := by rw [hg, List.length_append, List.length_append]
  have hmid : ((f.drop pre.length).take mid.length).length = mid.length := by
    rw [List.length_take, List.length_drop]; omega
  apply List.ext_getElem?
  intro k
  by_cases hk : k < pre.length
  · rw [hb k (.inl hk), hg, List.append_assoc, List.append_assoc, List.getElem?_append_left hk, List.getElem?_append_left hk]
  · by_cases hk2 : k < pre.length + mid.length
    · rw [List.append_assoc, List.getElem?_append_right (by omega), List.getElem?_append_left (by omega), List.getElem?_take, if_pos (by omega),
        List.getElem?_drop]
      congr 1
      omega
    · rw [hb k (.inr (by omega)), hg, List.getElem?_append_right (by rw [List.length_append]; omega),
        List.getElem?_append_right (by rw [List.length_append]; omega), List.length_append, List.length_append, hmid]

/-- C77 for files: `f` is the saved file with bits overwritten, all of them payload bits of the calls `hit`. It loads, plays what was recorded before
the damage like the intact file, and after a seek behind the damage gives the same as the intact file. -/
theorem C77_file (b b' : Build) (info : StreamInfo) (level : Nat) (hn : 0 < info.channels) (before hit behind : List (List F32)) (c : AdhocCodec)
    (h : encodeAll b (fresh info level) (before ++ hit ++ behind) = .ok c) (hp : Proper info.channels (before ++ hit ++ behind))
    (hb : c.stream.stream.len < 2 ^ 64) (hr : info.sampleRate < 2 ^ 32) (hc : info.channels < 2 ^ 32)
    (hf : (before ++ hit ++ behind).length * info.channels < 2 ^ 32) :
    ∃ cp cq c1, encodeAll b (fresh info level) before = .ok cp ∧ encodeAll b (fresh info level) (before ++ hit) = .ok cq ∧
      AdhocCodec.load b (file c) = .ok (some c1) ∧
      ∀ f : List Byte, f.length = (file c).length →
        (∀ i, fileBit f i ≠ fileBit (file c) i → 8 * payloadStart c + cp.stream.stream.len ≤ i ∧ i < 8 * payloadStart c + cq.stream.stream.len) →
        ∃ c2, AdhocCodec.load b f = .ok (some c2) ∧ c2.stream.info = some info ∧
          (∀ bufs, (bufs.map fun buf => buf.length / info.channels).sum ≤ (signal info.channels before).length →
            (decodeAll b' c2 bufs).map (·.2) = (decodeAll b' c1 bufs).map (·.2)) ∧
          ∀ ms acts, (∀ ms', Act.seek ms' ∈ Act.seek ms :: acts → (signal info.channels (before ++ hit)).length < AdhocCodec.seekOffset info ms' ∧
              AdhocCodec.seekOffset info ms' ≤ (signal info.channels (before ++ hit ++ behind)).length) →
            winds b' c2 (.seek ms :: acts) = winds b' c1 (.seek ms :: acts) := by
  obtain ⟨cp, cq, h1, h2, core⟩ := damage_core (b' := b') hn h hp hb
  have V := valued_run (b := b) ((before ++ hit ++ behind).map Use.encode) (valued_fresh info level) c (by rw [encodeAll_uses]; exact h)
  have HC := counted_recording hn hr hc hf h hb
  have hl := load_saved (b := b) HC V []
  rw [List.append_nil, ← file_eq] at hl
  refine ⟨cp, cq, reloaded c info.channels, h1, h2, hl, ?_⟩
  intro f hlen hbits
  obtain ⟨pre, post, hpost, hsplit⟩ := savedBytes_split c
  have h0 : file c = pre ++ (c.stream.stream.binary.flatMap fun v => Bincode.leBytes 16 v.toNat) ++ post := by
    rw [file_eq]
    exact hsplit c.stream.stream.binary rfl
  have hlen0 : (file c).length = pre.length + 16 * c.stream.stream.binary.length + 32 := by
    rw [h0, List.length_append, List.length_append, length_flatMap_chunks, hpost]
  have hstart : payloadStart c = pre.length := by
    unfold payloadStart BitStream.blocksAllocated
    omega
  rw [hstart] at hbits
  -- the payload ends before the counters
  have hqlen : cq.stream.stream.len ≤ 128 * c.stream.stream.binary.length := by
    obtain ⟨cq', Bq, newq, hq0, -, Hq, -, Hq', -, -, -⟩ := recorded_split hn h
    rw [h2] at hq0
    cases hq0
    have e1 : cq.stream.stream.len = (bitsOf (flat info.channels Bq)).length := Hq.bits.cursor
    have e2 := Hq'.bits.chunks
    rw [Hq'.bits.cursor, flat_append, bitsOf_append, List.length_append] at e2
    omega
  have hbyte : ∀ k, (k < pre.length ∨ pre.length + 16 * c.stream.stream.binary.length ≤ k) → f[k]? = (file c)[k]? := by
    intro k hk
    refine byte_of_bits hlen fun i hi => ?_
    by_contra hne
    have := hbits _ hne
    omega
  obtain ⟨bin, hb1, hb2⟩ := chunks_of_bytes c.stream.stream.binary.length ((f.drop pre.length).take (16 * c.stream.stream.binary.length))
    (by rw [List.length_take, List.length_drop]; omega)
  obtain ⟨c', hc'⟩ : ∃ c' : AdhocCodec, c' = { c with stream := { c.stream with stream := { c.stream.stream with binary := bin } } } := ⟨_, rfl⟩
  have hfile : f = savedBytes c' := by
    rw [hc', hsplit bin hb1, hb2]
    have := patched h0 hlen (by rw [length_flatMap_chunks]; exact hbyte)
    rw [length_flatMap_chunks] at this
    exact this
  have HC' : Counted c' := by
    rw [hc']
    exact ⟨HC.rate, HC.nibbles, HC.count, HC.bits, HC.bitsCursor, HC.sizes, HC.cursors, HC.hist, HC.header, by show bin.length < _; rw [hb1]; exact HC.binary,
      HC.cursor, HC.capacity⟩
  have V' : Valued c' info level := by
    rw [hc']
    exact ⟨V.hinfo, V.chans, V.sound, V.headers, V.lev, V.scale, V.inv⟩
  have hl' := load_saved (b := b) HC' V' []
  rw [List.append_nil, ← hfile] at hl'
  refine ⟨_, hl', V'.hinfo, ?_⟩
  refine core _ _ (.inr rfl) ⟨?_, ?_, ?_⟩
  · rw [hc']
    rfl
  · rw [hc']
    exact hb1
  · intro i hi
    have hi' : bitAt bin i ≠ bitAt c.stream.stream.binary i := by
      rw [hc'] at hi
      exact hi
    by_cases hlt : i < 128 * c.stream.stream.binary.length
    · have e1 : bitAt bin i = fileBit f (8 * pre.length + i) := by
        rw [bitAt_bytes, hb2]
        unfold fileBit
        rw [List.getElem?_take, if_pos (by omega), List.getElem?_drop, show (8 * pre.length + i) / 8 = pre.length + i / 8 by omega,
          show (8 * pre.length + i) % 8 = i % 8 by omega]
      have e2 : bitAt c.stream.stream.binary i = fileBit (file c) (8 * pre.length + i) := by
        rw [bitAt_bytes]
        unfold fileBit
        rw [h0, List.append_assoc, show (8 * pre.length + i) / 8 = pre.length + i / 8 by omega, show (8 * pre.length + i) % 8 = i % 8 by omega,
          List.getElem?_append_right (by omega), show pre.length + i / 8 - pre.length = i / 8 by omega,
          List.getElem?_append_left (by rw [length_flatMap_chunks]; omega)]
      rw [e1, e2] at hi'
      have := hbits _ hi'
      omega
    · rw [BitStream.bitAt_beyond _ _ (by omega), BitStream.bitAt_beyond _ _ (by omega)] at hi'
      exact absurd rfl hi'

/-! ## a case: three calls, and the sign bit of the second overwritten -/

/-- overwrite bit 48 -/
def flip48 (c : AdhocCodec) : AdhocCodec :=
  { c with stream := { c.stream with stream := { c.stream.stream with
      binary := c.stream.stream.binary.set 0 ((c.stream.stream.binary[0]?).getD 0#128 ^^^ (1#128 <<< 48)) } } }

theorem flip48_damaged (c : AdhocCodec) (h : c.stream.stream.binary ≠ []) : Damaged c (flip48 c) 48 65 := by
  refine ⟨rfl, by simp [flip48], ?_⟩
  intro i hi
  have hpos : 0 < c.stream.stream.binary.length := List.length_pos_of_ne_nil h
  have h2 : bitAt (c.stream.stream.binary.set 0 ((c.stream.stream.binary[0]?).getD 0#128 ^^^ (1#128 <<< 48))) i ≠ bitAt c.stream.stream.binary i := hi
  rw [bitAt_set hpos] at h2
  split at h2
  · next h0 =>
    by_contra hc
    apply h2
    have hi : i < 128 := by omega
    unfold bitAt
    rw [h0, BitVec.getLsbD_xor, BitVec.getLsbD_shiftLeft, BitVec.getLsbD_one]
    have : i % 128 ≠ 48 := by omega
    by_cases h3 : i % 128 < 48
    · simp [h3]
    · simp [show ¬ i % 128 - 48 = 0 by omega]
  · exact absurd rfl h2

/-- the calls: silence, a click, silence -/
def click : List (List F32) := [[F32.ofInt 0, F32.ofInt 0, F32.ofInt 0]] ++ [[F32.ofInt 1]] ++ [[F32.ofInt 0]]

/-- the hypotheses hold: the click takes bits 48 to 64, and there is something to seek to behind it -/
example : Proper 1 click ∧
    (encodeAll .debug (fresh { sampleRate := 1000, channels := 1 } 0) click).map (fun c => c.stream.stream.len) = .ok 82 ∧
    (encodeAll .debug (fresh { sampleRate := 1000, channels := 1 } 0) [[F32.ofInt 0, F32.ofInt 0, F32.ofInt 0]]).map (fun c => c.stream.stream.len) = .ok 48 ∧
    (encodeAll .debug (fresh { sampleRate := 1000, channels := 1 } 0) ([[F32.ofInt 0, F32.ofInt 0, F32.ofInt 0]] ++ [[F32.ofInt 1]])).map
      (fun c => c.stream.stream.len) = .ok 65 ∧
    AdhocCodec.seekOffset { sampleRate := 1000, channels := 1 } 5 = 5 := by
  refine ⟨⟨by simp [click], by simp [click], ?_⟩, by decide +kernel, by decide +kernel, by decide +kernel, by decide +kernel⟩
  intro j
  match j with
  | 0 => exact .inl ⟨0, by omega, by simp [click]⟩
  | 1 => exact .inl ⟨0, by omega, by simp [click]⟩
  | 2 => exact .inl ⟨0, by omega, by simp [click]⟩
  | j + 3 => right; intro t; simp [click, List.getD_eq_getElem?_getD, show j + 3 + t = j + t + 3 by omega]

/-- and the damage is heard where it is: the fourth sample is another one -/
example : (encodeAll .debug (fresh { sampleRate := 1000, channels := 1 } 0) click).map (fun c =>
    decide ((decodeAll .debug (flip48 c).init [[F32.ofInt 0, F32.ofInt 0, F32.ofInt 0]]).map (·.2) =
      (decodeAll .debug c.init [[F32.ofInt 0, F32.ofInt 0, F32.ofInt 0]]).map (·.2)) &&
    !decide ((decodeAll .debug (flip48 c).init [[F32.ofInt 0, F32.ofInt 0, F32.ofInt 0, F32.ofInt 0]]).map (·.2) =
      (decodeAll .debug c.init [[F32.ofInt 0, F32.ofInt 0, F32.ofInt 0, F32.ofInt 0]]).map (·.2))) = .ok true := by decide +kernel

end Adhoc
