import Verif.Proofs.Usize
import Verif.Proofs.UsizeLoad
import Verif.Spec.Usize
import Verif.Props.Unchanged
import Verif.Props.Compression
import Verif.Props.Apart

/-! # C131, C132: targets with a `usize` of 32 bits -/

namespace Adhoc
open Spec F32

/-! ## C131: recording and playing -/

/-- the chunk at the cursor and the one behind it have indices of `w` bits -/
def Spec.Indexable (w : Nat) (c : AdhocCodec) : Prop := c.stream.stream.bitCursor / 128 + 1 < 2 ^ w

theorem reach_iff {w n : Nat} : Reach w n ↔ n / 128 + 1 < 2 ^ w := by
  unfold Reach
  omega

/-- samples far apart, which take many bits -/
def wide131 : List (List F32) := [(List.range 30).map fun k => F32.ofRat (if k % 2 = 0 then 1 / 2 else -1 / 2)]

/-- C131 for every codec whatsoever: with `w` bits a sequence of calls gives the codecs and answers it gives on 64 bits, as long as the
cursor stays where `w` bits can index. -/
theorem C131_alike (b : Build) (w : Nat) : ∀ (asks : List Ask) (c : AdhocCodec) (results : List (AdhocCodec × Answer))
    (_ : ∀ r ∈ results, Indexable w r.1), askedW b w c asks = .ok results ↔ asked b c asks = .ok results
  | [], c, results, _ => Iff.rfl
  | .encode pcm :: asks, c, results, h => by
    unfold askedW asked
    simp only [bind_eq_ok, Prod.exists, pure_eq_ok, Except.ok.injEq]
    refine exists_congr fun d => exists_congr fun n => ?_
    constructor
    · rintro ⟨e, rest, e', rfl⟩
      have hd : Reach w d.cur := reach_iff.mpr (h _ (List.mem_cons_self ..))
      exact ⟨((abreast_encode b w c pcm).same (d, n) hd).mpr e, rest,
        (C131_alike b w asks d rest fun r hr => h r (List.mem_cons_of_mem _ hr)).mp e', rfl⟩
    · rintro ⟨e, rest, e', rfl⟩
      have hd : Reach w d.cur := reach_iff.mpr (h _ (List.mem_cons_self ..))
      exact ⟨((abreast_encode b w c pcm).same (d, n) hd).mp e, rest,
        (C131_alike b w asks d rest fun r hr => h r (List.mem_cons_of_mem _ hr)).mpr e', rfl⟩
  | .decode buf :: asks, c, results, h => by
    unfold askedW asked
    simp only [bind_eq_ok, Prod.exists, pure_eq_ok, Except.ok.injEq]
    refine exists_congr fun d => exists_congr fun out => exists_congr fun n => ?_
    constructor
    · rintro ⟨e, rest, e', rfl⟩
      have hd : Reach w d.cur := reach_iff.mpr (h _ (List.mem_cons_self ..))
      exact ⟨((abreast_decode b w c buf).same (d, out, n) hd).mpr e, rest,
        (C131_alike b w asks d rest fun r hr => h r (List.mem_cons_of_mem _ hr)).mp e', rfl⟩
    · rintro ⟨e, rest, e', rfl⟩
      have hd : Reach w d.cur := reach_iff.mpr (h _ (List.mem_cons_self ..))
      exact ⟨((abreast_decode b w c buf).same (d, out, n) hd).mp e, rest,
        (C131_alike b w asks d rest fun r hr => h r (List.mem_cons_of_mem _ hr)).mpr e', rfl⟩
  | .seek dt :: asks, c, results, h => by
    unfold askedW asked
    simp only [bind_eq_ok, pure_eq_ok, Except.ok.injEq]
    refine exists_congr fun d => ?_
    constructor
    · rintro ⟨e, rest, e', rfl⟩
      have hd : Reach w d.cur := reach_iff.mpr (h _ (List.mem_cons_self ..))
      exact ⟨((abreast_seek b w c dt).same d hd).mpr e, rest,
        (C131_alike b w asks d rest fun r hr => h r (List.mem_cons_of_mem _ hr)).mp e', rfl⟩
    · rintro ⟨e, rest, e', rfl⟩
      have hd : Reach w d.cur := reach_iff.mpr (h _ (List.mem_cons_self ..))
      exact ⟨((abreast_seek b w c dt).same d hd).mp e, rest,
        (C131_alike b w asks d rest fun r hr => h r (List.mem_cons_of_mem _ hr)).mpr e', rfl⟩

theorem abreast_encodeAll (b : Build) (w : Nat) (c : AdhocCodec) (calls : List (List F32)) :
    Abreast w c.cur AdhocCodec.cur (encodeAll b c calls) (encodeAllW b w c calls) :=
  abreast_foldlM (fun c pcm => (abreast_encode b w c pcm).bind fun _ => .ok (Nat.le_refl _)) calls c

theorem winds_alike {b : Build} {w : Nat} {info : StreamInfo} (hn : 0 < info.channels) {blocks : List (Nat → Fr)}
    (HR : Rec info.channels blocks) (hsh : Short blocks)
    (hbits : (bitsOf (flat info.channels blocks)).length < 2 ^ 64) (hw : Reach w (bitsOf (flat info.channels blocks)).length) (hne : blocks ≠ []) :
    ∀ (acts : List Act) (_ : ∀ ms, Act.seek ms ∈ acts → AdhocCodec.seekOffset info ms ≤ rowsIn blocks)
      {c : AdhocCodec} {σ j m : Nat} (_ : Resync.DecAt σ c info blocks j m),
    ∃ outs, winds b c acts = .ok outs ∧ windsW b w c acts = .ok outs
  | [], _, c, σ, j, m, H => ⟨[], rfl, rfl⟩
  | .read buf :: acts, hs, c, σ, j, m, H => by
    obtain ⟨c1, j1, d, e0, -, H1, -⟩ := Resync.decode_ok (b := b) hn HR hsh H buf
    obtain ⟨out, n, e1⟩ : ∃ out n, c.decode b buf = .ok (c1, out, n) := ⟨_, _, e0⟩
    have hr : Reach w c1.cur := hw.mono (H1.fl.bits.cursor.trans_le H1.fl.bits.inside)
    have e1' := ((abreast_decode b w c buf).same _ hr).mp e1
    obtain ⟨outs, e2, e2'⟩ := winds_alike hn HR hsh hbits hw hne acts (fun ms h => hs ms (by simp [h])) H1 (b := b)
    refine ⟨(out, n) :: outs, ?_, ?_⟩
    · unfold winds
      rw [e1, bind_ok]
      dsimp only
      rw [e2]
      rfl
    · unfold windsW
      rw [e1', bind_ok]
      dsimp only
      rw [e2']
      rfl
  | .seek ms :: acts, hs, c, σ, j, m, H => by
    obtain ⟨c1, e1, -, j1, H1⟩ := Resync.seek_at (b := b) hn HR hsh hbits H hne ms (hs ms (by simp))
    have hr : Reach w c1.cur := hw.mono (H1.fl.bits.cursor.trans_le H1.fl.bits.inside)
    have e1' := ((abreast_seek b w c (.start ms)).same _ hr).mp e1
    obtain ⟨outs, e2, e2'⟩ := winds_alike hn HR hsh hbits hw hne acts (fun ms h => hs ms (by simp [h])) H1 (b := b)
    refine ⟨outs, ?_, ?_⟩
    · unfold winds
      rw [e1, bind_ok]
      exact e2
    · unfold windsW
      rw [e1', bind_ok]
      exact e2'

/-- C131 for recordings: whatever is recorded, if its bits fit the four gigabytes of a 32-bit target, a 32-bit build makes the very
recording a 64-bit build makes, and playing it with any reads and any seeks inside the signal gives the same on both, directly or after
saving and loading. -/
theorem C131_recording (b b' : Build) (info : StreamInfo) (level : Nat) (calls : List (List F32)) (c : AdhocCodec)
    (hn : 0 < info.channels) (h : encodeAll b (fresh info level) calls = .ok c) (hm : 16 * c.stream.stream.binary.length ≤ 2 ^ 32) :
    encodeAllW b 32 (fresh info level) calls = .ok c ∧
    (Proper info.channels calls → calls ≠ [] → ∀ acts : List Act,
      (∀ ms, Act.seek ms ∈ acts → AdhocCodec.seekOffset info ms ≤ (signal info.channels calls).length) →
      (∃ outs, winds b' c.init acts = .ok outs ∧ windsW b' 32 c.init acts = .ok outs) ∧
      (info.sampleRate < 2 ^ 32 → info.channels < 2 ^ 32 → calls.length * info.channels < 2 ^ 32 →
        ∃ c0, AdhocCodec.load b (file c) = .ok (some c0) ∧ ∃ outs, winds b' c0 acts = .ok outs ∧ windsW b' 32 c0 acts = .ok outs)) := by
  obtain ⟨-, blocks, H, HR, s⟩ := recorded_of_ok hn h
  have hcur : c.cur ≤ 2 ^ 35 := by
    have := H.bits.chunks
    show c.stream.stream.bitCursor ≤ _
    norm_num at hm ⊢
    omega
  have hr : Reach 32 c.cur := by
    unfold Reach
    norm_num at hcur ⊢
    omega
  refine ⟨((abreast_encodeAll b 32 _ calls).same c hr).mp h, ?_⟩
  intro hp hne acts hs
  have hrec := HR.toRec hn
  have hsh := HR.short hn hp.short
  have hw : Reach 32 (bitsOf (flat info.channels blocks)).length := by
    rw [← H.bits.cursor]; exact hr
  have hbits : (bitsOf (flat info.channels blocks)).length < 2 ^ 64 := by
    rw [← H.bits.cursor]
    exact lt_of_le_of_lt hcur (by norm_num)
  have hbne : blocks ≠ [] := by
    rintro rfl
    exact hne (List.eq_nil_of_length_eq_zero (by rw [← HR.len]; rfl))
  have hs' : ∀ ms, Act.seek ms ∈ acts → AdhocCodec.seekOffset info ms ≤ rowsIn blocks := by rw [HR.rows hn]; exact hs
  have hinit := decSt_init H
  refine ⟨winds_alike hn hrec hsh hbits hw hbne acts hs' (Resync.decAt_zero hinit), ?_⟩
  intro hr hc hf
  have V := valued_run (b := b) (calls.map Use.encode) (valued_fresh info level) c (by rw [encodeAll_uses]; exact h)
  have hl := load_saved (b := b) (counted_recording hn hr hc hf h (by rw [H.bits.cursor]; exact hbits)) V []
  rw [List.append_nil, ← file_eq] at hl
  exact ⟨_, hl, winds_alike hn hrec hsh hbits hw hbne acts hs' (Resync.decAt_zero (decSt_reloaded hinit))⟩

/-- C131 for loading: every file whatsoever with fewer than 2^w bytes gives the codec, the refusal or the panic that it gives on 64 bits. -/
theorem C131_loading (b : Build) (w : Nat) (bytes : List Byte) (h : bytes.length < 2 ^ w) : AdhocCodec.loadW b w bytes = AdhocCodec.load b bytes :=
  AdhocCodec.loadW_eq h

/-- `demo` in a file of 239 bytes: loaded with eight bits, but refused with two, because some vectors have more than three elements -/
example : (match encodeAll .debug (fresh { sampleRate := 44100, channels := 2 } 0) demo with
    | .ok c => decide ((file c).length = 239) && (match AdhocCodec.loadW .debug 8 (file c), AdhocCodec.load .debug (file c) with
        | .ok (some c1), .ok (some c2) => decide (c1.stream = c2.stream ∧ c1.frameHeaderList = c2.frameHeaderList)
        | _, _ => false)
      && (match AdhocCodec.loadW .debug 2 (file c) with
        | .ok none => true
        | _ => false)
    | .error _ => false) = true := by decide +kernel

/-- two calls recorded with 32 bits, read, wound back and forth, and read again with 32 bits -/
example : Proper 1 loudThenQuiet ∧ (match encodeAll .release (fresh { sampleRate := 1000, channels := 1 } 0) loudThenQuiet with
    | .ok c => match windsW .release 32 c.init [.read (List.replicate 8 (F32.ofInt 0)), .seek 2, .read (List.replicate 3 (F32.ofInt 0)), .seek 8, .read (List.replicate 4 (F32.ofInt 0))] with
      | .ok outs => decide (16 * c.stream.stream.binary.length ≤ 2 ^ 32 ∧ outs.map (·.2) = [some 8, some 3, some 2])
      | .error _ => false
    | .error _ => false) = true :=
  ⟨loudThenQuiet_proper, by decide +kernel⟩

/-- the width does matter: with one bit, the third chunk is written over the first (in a release build), and a codec of 5 chunks differs -/
example : (match encodeAll .release (fresh { sampleRate := 1000, channels := 1 } 0) wide131, encodeAllW .release 1 (fresh { sampleRate := 1000, channels := 1 } 0) wide131 with
    | .ok c, .ok c' => decide (c.stream.stream.binary.length = 5 ∧ c'.stream.stream.binary.length = 2)
    | _, _ => false) = true := by decide +kernel

/-- calls in any order, on a codec that was recorded into, rewound, played and recorded into again -/
example : (match askedW .release 2 (fresh { sampleRate := 1000, channels := 1 } 0)
      [.encode (List.replicate 5 (F32.ofInt 0)), .seek (.start 0), .decode (List.replicate 4 (F32.ofInt 0)), .seek (.start 0), .encode (List.replicate 4 (F32.ofInt 0))] with
    | .ok rs => decide (rs.length = 5 ∧ ∀ r ∈ rs, r.1.stream.stream.bitCursor / 128 + 1 < 2 ^ 2)
    | .error _ => false) = true := by decide +kernel

/-! ## C132: sizes -/

/-- the full claim: the sizes are those of a 64-bit target -/
def C132_statement : Prop :=
  ∀ (b : Build) (info : StreamInfo) (level : Nat) (calls : List (List F32)) (c : AdhocCodec) (nibCap : Nat), 0 < info.channels →
    encodeAll b (fresh info level) calls = .ok c → 16 * c.stream.stream.binary.length ≤ 2 ^ 32 →
    c.filesizeUpperboundW b 32 nibCap = .ok (c.filesizeUpperbound nibCap)

/-- C132, exactly: below 2^25 chunks (512 megabytes) the size is that of a 64-bit target. From there on a debug build panics, and a
release build reports it without a multiple of 2^32 bits, so that it may be almost anything. -/
theorem C132_exactly_partial (c : AdhocCodec) (nibCap : Nat) :
    (∀ b, c.stream.stream.binary.length < 2 ^ 25 → c.filesizeUpperboundW b 32 nibCap = .ok (c.filesizeUpperbound nibCap)) ∧
    (2 ^ 25 ≤ c.stream.stream.binary.length → c.filesizeUpperboundW .debug 32 nibCap = .error .overflow ∧
      ∃ n, c.filesizeUpperboundW .release 32 nibCap = .ok n ∧
        n + 2 ^ 32 * (c.stream.stream.binary.length / 2 ^ 25) = c.filesizeUpperbound nibCap) := by
  unfold AdhocCodec.filesizeUpperboundW AdhocCodec.filesizeUpperbound BitStream.capacityUpperboundW BitStream.capacityUpperbound chkU
  generalize c.stream.stream.binary.length = k
  generalize c.frameHeaderList.calculateWeightUpperbound nibCap = m
  constructor
  · intro b hk
    rw [if_pos (⟨by omega, by norm_num at hk ⊢; omega⟩), bind_ok, Int.toNat_natCast]
    rfl
  · intro hk
    have hn : ¬ ((0 : ℤ) ≤ ((k * 128 : ℕ) : ℤ) ∧ ((k * 128 : ℕ) : ℤ) < 2 ^ 32) := by
      norm_num at hk ⊢
      omega
    rw [if_neg hn, if_neg hn]
    refine ⟨rfl, _, rfl, ?_⟩
    norm_num
    omega

/-- the same for the other sizes: `with_capacity_in_megabytes` asks for what it is told up to 536 megabytes; `len` and `capacity` are
right up to 2^32 bits -/
theorem C132_others_partial (b : Build) (s : BitStream) (mb : Nat) :
    (mb ≤ 536 → BitStream.reservedW b 32 mb = .ok (mb * 8000000 / 128)) ∧
    (536 < mb → BitStream.reservedW .debug 32 mb = .error .overflow ∧ BitStream.reservedW .release 32 mb = .ok (mb * 8000000 % 2 ^ 32 / 128)) ∧
    (s.lenW 32 = s.len ↔ s.len < 2 ^ 32) ∧ (s.capacityW 32 = s.capacity ↔ s.capacity < 2 ^ 32) := by
  have hlt : ∀ n : ℕ, n % 2 ^ 32 = n ↔ n < 2 ^ 32 := fun n =>
    ⟨fun h => h ▸ Nat.mod_lt _ (by norm_num), Nat.mod_eq_of_lt⟩
  have hx : (mb ≤ 536 → mb * 8000000 < 2 ^ 32) ∧ (536 < mb → 2 ^ 32 ≤ mb * 8000000) := by norm_num; omega
  unfold BitStream.reservedW chkU
  rw [show mb * (8 * 1000000) = mb * 8000000 from rfl]
  generalize mb * 8000000 = x at hx
  refine ⟨fun h => ?_, fun h => ?_, hlt _, hlt _⟩
  · have h1 := hx.1 h
    rw [if_pos ⟨by omega, by exact_mod_cast h1⟩, bind_ok, Int.toNat_natCast]
    rfl
  · have h1 := hx.2 h
    have hn : ¬ ((0 : ℤ) ≤ (x : ℤ) ∧ (x : ℤ) < 2 ^ 32) := by
      rintro ⟨-, h2⟩
      have h2 : x < 2 ^ 32 := by exact_mod_cast h2
      omega
    rw [if_neg hn, if_neg hn]
    refine ⟨rfl, ?_⟩
    have : ((x : ℤ) % 2 ^ 32).toNat = x % 2 ^ 32 := by
      rw [show (2 : ℤ) ^ 32 = ((2 ^ 32 : ℕ) : ℤ) by norm_num, ← Int.natCast_mod, Int.toNat_natCast]
    show Except.ok (((x : ℤ) % 2 ^ 32).toNat / 128) = _
    rw [this]

/-- nine hours of silence in calls of 60000 samples at 44100 Hz -/
def night : List (List F32) := List.replicate 24000 (List.replicate 60000 (F32.ofInt 0))

/-- C132 is false: nine hours of silence take 540 megabytes; a release build reports 536 megabytes less. -/
theorem C132_false : ¬ C132_statement := by
  intro h
  have hn : (0 : Nat) < 1 := by norm_num
  let info : StreamInfo := { sampleRate := 44100, channels := 1 }
  obtain ⟨c, hc⟩ : ∃ c, encodeAll .release (fresh info 0) night = .ok c := by
    obtain ⟨c, hc⟩ := (C25_no_panic info hn 0).1 (List.replicate 60000 (F32.ofInt 0)) (List.replicate 23999 (List.replicate 60000 (F32.ofInt 0))) []
      (by rw [List.length_replicate]; norm_num [info])
    refine ⟨c, ?_⟩
    rw [List.flatMap_nil, List.append_nil, encodeAll_uses, ← List.replicate_succ] at hc
    exact hc
  have hne : night ≠ [] := by rw [night, ne_eq, List.replicate_eq_nil_iff]; norm_num
  have hlen : (signal 1 night).length = 1440000000 := by
    rw [length_signal_mono, night, List.length_flatten, List.map_replicate, List.sum_replicate, List.length_replicate]
    rfl
  have hsig : ∀ blk ∈ signal 1 night, blk = [F32.ofInt 0] := by
    intro blk hb
    obtain ⟨pcm, hp, hb⟩ := List.mem_flatMap.mp hb
    rw [night] at hp
    rw [List.eq_of_mem_replicate hp] at hb
    obtain ⟨k, hk, rfl⟩ := List.mem_map.mp hb
    rw [List.length_replicate, Nat.div_one, List.mem_range] at hk
    rw [List.drop_replicate, List.take_replicate, Nat.mul_one, Nat.min_eq_left (by omega)]
    rfl
  have hl := C72_constant .release info hn night hne c hc (fun pcm hp => by
    rw [night] at hp
    rw [List.eq_of_mem_replicate hp, List.length_replicate]
    norm_num [info]) (fun _ => F32.ofInt 0) (by
      intro ch hch x hx
      obtain ⟨blk, hb, rfl⟩ := List.mem_map.mp hx
      rw [hsig blk hb]
      have : ch = 0 := by simp only [info] at hch; omega
      rw [this]
      rfl)
  rw [show info.channels = 1 from rfl, hlen] at hl
  obtain ⟨-, blocks, H, HR, s⟩ := recorded_of_ok hn hc
  have h1 := H.bits.chunks
  have h2 := H.bits.bound
  have h3 : c.stream.stream.bitCursor = 4320000039 := hl
  rw [h3] at h1 h2
  obtain ⟨n, e, hn'⟩ := ((C132_exactly_partial c 0).2 (by norm_num; omega)).2
  have := Except.ok.inj (e.symm.trans (h .release info 0 night c 0 hn hc (by norm_num; omega)))
  rw [this] at hn'
  have : 0 < c.stream.stream.binary.length / 2 ^ 25 := Nat.div_pos (by norm_num; omega) (by norm_num)
  norm_num at hn'
  omega

end Adhoc
