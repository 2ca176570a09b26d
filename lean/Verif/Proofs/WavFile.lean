import Verif.Proofs.Wav

/-! WAV files. -/

namespace Adhoc
open Spec WavCodec

/-- `i` is the first place where the letters `data` stand -/
def FirstData (l : List Byte) (i : Nat) : Prop :=
  (l.drop i).take 4 = ascii ['d', 'a', 't', 'a'] ∧ ∀ j < i, (l.drop j).take 4 ≠ ascii ['d', 'a', 't', 'a']

theorem findData_some : ∀ {l : List Byte} {i : Nat}, findData l = some i → FirstData l i ∧ i + 4 ≤ l.length
  | [], i, h => by simp [findData] at h
  | [_], i, h => by simp [findData] at h
  | [_, _], i, h => by simp [findData] at h
  | [_, _, _], i, h => by simp [findData] at h
  | a :: b :: c :: d :: rest, i, h => by
    unfold findData at h
    by_cases hd : [a, b, c, d] = ascii ['d', 'a', 't', 'a']
    · rw [if_pos hd] at h
      cases h
      exact ⟨⟨by simpa using hd, by simp⟩, by simp⟩
    · rw [if_neg hd] at h
      obtain ⟨j, hj, rfl⟩ := Option.map_eq_some_iff.1 h
      obtain ⟨⟨h1, h2⟩, h3⟩ := findData_some hj
      refine ⟨⟨by simpa using h1, ?_⟩, by simp at h3 ⊢; omega⟩
      intro k hk
      cases k with
      | zero => simpa using hd
      | succ k => simpa using h2 k (by omega)

theorem findData_none : ∀ {l : List Byte}, findData l = none → ∀ i, (l.drop i).take 4 ≠ ascii ['d', 'a', 't', 'a'] := by
  intro l
  induction l with
  | nil => intro _ i h; have := congrArg List.length h; simp [ascii] at this
  | cons a l ih =>
    intro h i
    match l, ih, h with
    | [], _, _ => intro h'; have := congrArg List.length h'; simp [ascii] at this; omega
    | [_], _, _ => intro h'; have := congrArg List.length h'; simp [ascii] at this; omega
    | [_, _], _, _ => intro h'; have := congrArg List.length h'; simp [ascii] at this; omega
    | b :: c :: d :: rest, ih, h =>
      unfold findData at h
      by_cases hd : [a, b, c, d] = ascii ['d', 'a', 't', 'a']
      · rw [if_pos hd] at h; cases h
      · rw [if_neg hd] at h
        have h := Option.map_eq_none_iff.1 h
        cases i with
        | zero => simpa using hd
        | succ i => simpa using ih h i

theorem FirstData.unique {l : List Byte} {i j : Nat} (h : FirstData l i) (h' : FirstData l j) : i = j := by
  rcases Nat.lt_trichotomy i j with hl | hl | hl
  · exact absurd h.1 (h'.2 i hl)
  · exact hl
  · exact absurd h'.1 (h.2 j hl)

/-- the 44 bytes of a header -/
def hdr44 (f0 f1 f2 f3 c0 c1 q0 q1 q2 q3 s0 s1 s2 s3 a0 a1 d0 d1 d2 d3 : Byte) : List Byte :=
  [0x52#8, 0x49#8, 0x46#8, 0x46#8, f0, f1, f2, f3, 0x57#8, 0x41#8, 0x56#8, 0x45#8, 0x66#8, 0x6d#8, 0x74#8, 0x20#8, 16#8, 0#8, 0#8, 0#8,
   1#8, 0#8, c0, c1, q0, q1, q2, q3, s0, s1, s2, s3, a0, a1, 16#8, 0#8, 0x64#8, 0x61#8, 0x74#8, 0x61#8, d0, d1, d2, d3]

theorem ascii_data : ascii ['d', 'a', 't', 'a'] = [0x64#8, 0x61#8, 0x74#8, 0x61#8] := by decide +kernel

theorem step_data {a b c d : Byte} {rest : List Byte} (h : [a, b, c, d] ≠ [0x64#8, 0x61#8, 0x74#8, 0x61#8]) :
    findData (a :: b :: c :: d :: rest) = (findData (b :: c :: d :: rest)).map (· + 1) := by
  conv_lhs => unfold findData
  rw [ascii_data, if_neg h]

theorem hit_data (rest : List Byte) : findData (0x64#8 :: 0x61#8 :: 0x74#8 :: 0x61#8 :: rest) = some 0 := by
  conv_lhs => unfold findData
  rw [ascii_data, if_pos rfl]

/-- a byte that is none of the letters -/
def NoLetter (x : Byte) : Prop := x ≠ 0x64#8 ∧ x ≠ 0x61#8 ∧ x ≠ 0x74#8

theorem find36 {f0 f1 f2 f3 c0 c1 q0 q1 q2 q3 s0 s1 s2 s3 a0 a1 d0 d1 d2 d3 : Byte} (rest : List Byte)
    (hf : ¬ [f0, f1, f2, f3] = [0x64#8, 0x61#8, 0x74#8, 0x61#8]) (hc : NoLetter c1) (hq : NoLetter q3) (hs : NoLetter s3) (ha : NoLetter a1) :
    findData (hdr44 f0 f1 f2 f3 c0 c1 q0 q1 q2 q3 s0 s1 s2 s3 a0 a1 d0 d1 d2 d3 ++ rest) = some 36 := by
  obtain ⟨hc1, hc2, hc3⟩ := hc
  obtain ⟨hq1, hq2, hq3⟩ := hq
  obtain ⟨hs1, hs2, hs3⟩ := hs
  obtain ⟨ha1, ha2, ha3⟩ := ha
  unfold hdr44
  simp only [List.cons_append, List.nil_append]
  rw [step_data (by simp), step_data (by simp), step_data (by simp), step_data (by simp)]
  rw [step_data hf, step_data (by simp), step_data (by simp), step_data (by simp)]
  iterate 14 rw [step_data (by simp)]
  iterate 14 rw [step_data (by simp [*])]
  rw [hit_data]
  rfl

theorem find4 {f0 f1 f2 f3 : Byte} (rest : List Byte) (hf : [f0, f1, f2, f3] = [0x64#8, 0x61#8, 0x74#8, 0x61#8]) :
    findData (0x52#8 :: 0x49#8 :: 0x46#8 :: 0x46#8 :: f0 :: f1 :: f2 :: f3 :: rest) = some 4 := by
  simp only [List.cons.injEq, and_true] at hf
  obtain ⟨rfl, rfl, rfl, rfl⟩ := hf
  rw [step_data (by simp), step_data (by simp), step_data (by simp), step_data (by simp), hit_data]
  rfl

/-! ## loading -/

theorem loadAt_of_find {bytes : List Byte} {i : Nat} (hl : 256 ≤ bytes.length) (h : findData (bytes.take 256) = some i) (hi : i ≤ 248) :
    WavCodec.load bytes =
      if i16At (bytes.take 256) 34 ≠ 16 ∧ i16At (bytes.take 256) 34 ≠ 8 then .ok (.error .badBits)
      else if i16At (bytes.take 256) 20 ≠ 1 then .ok (.error .badFormat)
      else (if i16At (bytes.take 256) 34 = 8 then
          widen (bytes.drop (i + 8)).length (bytes.drop (i + 8) ++ List.replicate (bytes.drop (i + 8)).length 0#8)
        else .ok (bytes.drop (i + 8))) >>= fun pcm => .ok (.ok
          { info := { sampleRate := Bincode.leNat (((bytes.take 256).drop 24).take 4), channels := asU 32 (i16At (bytes.take 256) 22) },
            pcm := pcm, shortCursor := 0 }) := by
  unfold WavCodec.load WavCodec.loadAt
  rw [List.drop_zero]
  dsimp only
  have hl' : (bytes.take 256).length = 256 := by simp; omega
  rw [if_neg (by omega), h]
  dsimp only
  have hr : ((bytes.take 256).drop (i + 4)).length = 252 - i := by rw [List.length_drop, hl']; omega
  rw [idx_of_lt (show 0 < ((bytes.take 256).drop (i + 4)).length by omega), bind_ok,
    idx_of_lt (show 1 < ((bytes.take 256).drop (i + 4)).length by omega), bind_ok,
    idx_of_lt (show 2 < ((bytes.take 256).drop (i + 4)).length by omega), bind_ok,
    idx_of_lt (show 3 < ((bytes.take 256).drop (i + 4)).length by omega), bind_ok]
  simp only [pure_eq_ok]
  by_cases h8 : i16At (bytes.take 256) 34 = 8
  · rw [if_pos h8, if_pos h8]
  · rw [if_neg h8, if_neg h8]

theorem loadAt_panic {bytes : List Byte} {i : Nat} (hl : 256 ≤ bytes.length) (h : findData (bytes.take 256) = some i) (hi : 248 < i) :
    WavCodec.load bytes = .error .index := by
  unfold WavCodec.load WavCodec.loadAt
  rw [List.drop_zero]
  dsimp only
  have hl' : (bytes.take 256).length = 256 := by simp; omega
  rw [if_neg (by omega), h]
  dsimp only
  have hr : ((bytes.take 256).drop (i + 4)).length = 252 - i := by rw [List.length_drop, hl']; omega
  generalize (bytes.take 256).drop (i + 4) = rest at hr ⊢
  match rest, hr with
  | [], _ => rfl
  | [_], _ => rfl
  | [_, _], _ => rfl
  | [_, _, _], _ => rfl
  | _ :: _ :: _ :: _ :: _, hr => simp at hr; omega

theorem load36 {f0 f1 f2 f3 c0 c1 q0 q1 q2 q3 s0 s1 s2 s3 a0 a1 d0 d1 d2 d3 : Byte} (rest : List Byte) (hlen : 212 ≤ rest.length)
    (hf : ¬ [f0, f1, f2, f3] = [0x64#8, 0x61#8, 0x74#8, 0x61#8]) (hc : NoLetter c1) (hq : NoLetter q3) (hs : NoLetter s3) (ha : NoLetter a1) :
    WavCodec.load (hdr44 f0 f1 f2 f3 c0 c1 q0 q1 q2 q3 s0 s1 s2 s3 a0 a1 d0 d1 d2 d3 ++ rest) =
      .ok (.ok { info := { sampleRate := Bincode.leNat [q0, q1, q2, q3], channels := asU 32 (asI 16 (Bincode.leNat [c0, c1])) },
                 pcm := rest, shortCursor := 0 }) := by
  have ht : (hdr44 f0 f1 f2 f3 c0 c1 q0 q1 q2 q3 s0 s1 s2 s3 a0 a1 d0 d1 d2 d3 ++ rest).take 256 =
      hdr44 f0 f1 f2 f3 c0 c1 q0 q1 q2 q3 s0 s1 s2 s3 a0 a1 d0 d1 d2 d3 ++ rest.take 212 := by
    rw [List.take_append]; rfl
  have h1 := find36 (d0 := d0) (d1 := d1) (d2 := d2) (d3 := d3) (c0 := c0) (q0 := q0) (q1 := q1) (q2 := q2) (s0 := s0) (s1 := s1) (s2 := s2)
    (a0 := a0) (rest.take 212) hf hc hq hs ha
  rw [loadAt_of_find (i := 36) (by rw [List.length_append]; simp [hdr44]; omega) (by rw [ht]; exact h1) (by omega), ht]
  have b34 : i16At (hdr44 f0 f1 f2 f3 c0 c1 q0 q1 q2 q3 s0 s1 s2 s3 a0 a1 d0 d1 d2 d3 ++ rest.take 212) 34 = 16 := by
    unfold i16At hdr44; simp [Bincode.leNat]; decide +kernel
  have b20 : i16At (hdr44 f0 f1 f2 f3 c0 c1 q0 q1 q2 q3 s0 s1 s2 s3 a0 a1 d0 d1 d2 d3 ++ rest.take 212) 20 = 1 := by
    unfold i16At hdr44; simp [Bincode.leNat]; decide +kernel
  rw [b34, b20, if_neg (by omega), if_neg (by omega), if_neg (by omega), bind_ok]
  unfold i16At hdr44
  simp

theorem load4 {f0 f1 f2 f3 c0 c1 q0 q1 q2 q3 s0 s1 s2 s3 a0 a1 d0 d1 d2 d3 : Byte} (rest : List Byte) (hlen : 212 ≤ rest.length)
    (hf : [f0, f1, f2, f3] = [0x64#8, 0x61#8, 0x74#8, 0x61#8]) :
    WavCodec.load (hdr44 f0 f1 f2 f3 c0 c1 q0 q1 q2 q3 s0 s1 s2 s3 a0 a1 d0 d1 d2 d3 ++ rest) =
      .ok (.ok { info := { sampleRate := Bincode.leNat [q0, q1, q2, q3], channels := asU 32 (asI 16 (Bincode.leNat [c0, c1])) },
                 pcm := (hdr44 f0 f1 f2 f3 c0 c1 q0 q1 q2 q3 s0 s1 s2 s3 a0 a1 d0 d1 d2 d3).drop 12 ++ rest, shortCursor := 0 }) := by
  have ht : (hdr44 f0 f1 f2 f3 c0 c1 q0 q1 q2 q3 s0 s1 s2 s3 a0 a1 d0 d1 d2 d3 ++ rest).take 256 =
      hdr44 f0 f1 f2 f3 c0 c1 q0 q1 q2 q3 s0 s1 s2 s3 a0 a1 d0 d1 d2 d3 ++ rest.take 212 := by
    rw [List.take_append]; rfl
  have h1 : findData (hdr44 f0 f1 f2 f3 c0 c1 q0 q1 q2 q3 s0 s1 s2 s3 a0 a1 d0 d1 d2 d3 ++ rest.take 212) = some 4 := find4 _ hf
  rw [loadAt_of_find (i := 4) (by rw [List.length_append]; simp [hdr44]; omega) (by rw [ht]; exact h1) (by omega), ht]
  have b34 : i16At (hdr44 f0 f1 f2 f3 c0 c1 q0 q1 q2 q3 s0 s1 s2 s3 a0 a1 d0 d1 d2 d3 ++ rest.take 212) 34 = 16 := by
    unfold i16At hdr44; simp [Bincode.leNat]; decide +kernel
  have b20 : i16At (hdr44 f0 f1 f2 f3 c0 c1 q0 q1 q2 q3 s0 s1 s2 s3 a0 a1 d0 d1 d2 d3 ++ rest.take 212) 20 = 1 := by
    unfold i16At hdr44; simp [Bincode.leNat]; decide +kernel
  rw [b34, b20, if_neg (by omega), if_neg (by omega), if_neg (by omega), bind_ok]
  unfold i16At hdr44
  simp

/-! ## saving -/

@[simp] theorem length_asBytes (h : RawWavHeader) : h.asBytes.length = 44 := by
  simp [RawWavHeader.asBytes, Bincode.length_leBytes, ascii]

theorem saveTo_perfect {b : Build} {w : WavCodec} {h : RawWavHeader} (e : w.header b = .ok h) :
    w.saveTo b Writer.perfect = .ok ({ out := h.asBytes ++ w.pcm, script := [] }, true) := by
  unfold WavCodec.saveTo
  rw [e, bind_ok]
  simp only [Writer.write, Writer.perfect, Writer.writeAll, Writer.writeAllAux_perfect, List.nil_append, pure_eq_ok]

/-- the header arithmetic fits -/
structure Fits (w : WavCodec) : Prop where
  pos : 0 < w.info.channels
  chans : w.info.channels < 2048
  rate : w.info.sampleRate * w.info.channels * 16 < 2 ^ 31
  size : w.pcm.length + 36 < 2 ^ 32

theorem Fits.rate_lt {w : WavCodec} (H : Fits w) : w.info.sampleRate < 2 ^ 27 := by
  have h1 := H.rate
  have h2 : w.info.sampleRate * 1 ≤ w.info.sampleRate * w.info.channels := Nat.mul_le_mul_left _ H.pos
  omega

/-- the bytes of the header of such a codec -/
def headerOf (w : WavCodec) : List Byte :=
  let f := w.pcm.length + 36
  let c := w.info.channels
  let q := w.info.sampleRate
  let s := q * c * 2
  let a := c * 2
  let d := w.pcm.length
  hdr44 (.ofNat 8 f) (.ofNat 8 (f / 256)) (.ofNat 8 (f / 256 / 256)) (.ofNat 8 (f / 256 / 256 / 256)) (.ofNat 8 c) (.ofNat 8 (c / 256))
    (.ofNat 8 q) (.ofNat 8 (q / 256)) (.ofNat 8 (q / 256 / 256)) (.ofNat 8 (q / 256 / 256 / 256))
    (.ofNat 8 s) (.ofNat 8 (s / 256)) (.ofNat 8 (s / 256 / 256)) (.ofNat 8 (s / 256 / 256 / 256)) (.ofNat 8 a) (.ofNat 8 (a / 256))
    (.ofNat 8 d) (.ofNat 8 (d / 256)) (.ofNat 8 (d / 256 / 256)) (.ofNat 8 (d / 256 / 256 / 256))

theorem asU_nat {k n : Nat} (h : n < 2 ^ k) : asU k (n : Int) = n := by
  unfold asU
  rw [Int.emod_eq_of_lt (by positivity) (by exact_mod_cast h)]
  rfl

theorem asI_nat16 {n : Nat} (h : n < 32768) : asI 16 (n : Int) = n := by
  unfold asI
  rw [Int.bmod_eq_of_le (by norm_num) (by norm_num; omega)]

theorem asI_nat32 {n : Nat} (h : n < 2 ^ 31) : asI 32 (n : Int) = n := by
  unfold asI
  norm_num at h
  rw [Int.bmod_eq_of_le (by norm_num) (by norm_num; omega)]

theorem header_ok {b : Build} {w : WavCodec} (H : Fits w) : ∃ h, w.header b = .ok h ∧ h.asBytes = headerOf w := by
  have hr := H.rate_lt
  have hc := H.chans
  have hsz := H.size
  have hrr := H.rate
  obtain ⟨c, hcd⟩ : ∃ c, c = w.info.channels := ⟨_, rfl⟩
  obtain ⟨q, hqd⟩ : ∃ q, q = w.info.sampleRate := ⟨_, rfl⟩
  obtain ⟨d, hdd⟩ : ∃ d, d = w.pcm.length := ⟨_, rfl⟩
  obtain ⟨m, hm⟩ : ∃ m, m = q * c := ⟨_, rfl⟩
  unfold headerOf WavCodec.header
  dsimp only
  rw [← hqd] at hr hrr ⊢
  rw [← hcd] at hc hrr ⊢
  rw [← hdd] at hsz ⊢
  rw [← hm] at hrr ⊢
  norm_num at hr hsz hrr
  rw [Nat.mod_eq_of_lt (show d < 2 ^ 32 by norm_num; omega), chkU_nat (show 44 - 8 + d < 2 ^ 32 by norm_num; omega), bind_ok]
  rw [asI_nat32 (n := q) (by norm_num; omega), asI_nat16 (n := c) (by omega), ← Int.natCast_mul, ← hm,
    chkI_of (show InI 32 (m : Int) by unfold InI; norm_num; omega), bind_ok,
    chkI_of (show InI 32 ((m : Int) * 16) by unfold InI; norm_num; omega), bind_ok,
    chkI_of (show InI 16 ((c : Int) * 16) by unfold InI; norm_num; omega), bind_ok]
  have t1 : ((m : Int) * 16).tdiv 8 = ((m * 2 : Nat) : Int) := by
    rw [Int.tdiv_eq_ediv_of_nonneg (by positivity)]; push_cast; omega
  have t2 : ((c : Int) * 16).tdiv 8 = ((c * 2 : Nat) : Int) := by
    rw [Int.tdiv_eq_ediv_of_nonneg (by positivity)]; push_cast; omega
  refine ⟨_, rfl, ?_⟩
  unfold RawWavHeader.asBytes
  dsimp only
  rw [t1, t2, asU_nat (n := c) (by norm_num; omega), asU_nat (n := q) (by norm_num; omega), asU_nat (n := m * 2) (by norm_num; omega),
    asU_nat (n := c * 2) (by norm_num; omega)]
  have e1 : asU 16 1 = 1 := by decide +kernel
  have e2 : asU 16 16 = 16 := by decide +kernel
  rw [e1, e2, show 44 - 8 + d = d + 36 by omega]
  rfl

theorem noLetter_small {n : Nat} (h : n < 97) : NoLetter (BitVec.ofNat 8 n) := by
  refine ⟨?_, ?_, ?_⟩ <;>
  · intro e
    have := congrArg BitVec.toNat e
    simp at this
    omega

theorem noLetters {w : WavCodec} (H : Fits w) : NoLetter (.ofNat 8 (w.info.channels / 256)) ∧
    NoLetter (.ofNat 8 (w.info.sampleRate / 256 / 256 / 256)) ∧
    NoLetter (.ofNat 8 (w.info.sampleRate * w.info.channels * 2 / 256 / 256 / 256)) ∧ NoLetter (.ofNat 8 (w.info.channels * 2 / 256)) := by
  have h1 := H.rate_lt
  have h2 := H.chans
  have h3 := H.rate
  norm_num at h1 h3
  exact ⟨noLetter_small (by omega), noLetter_small (by omega), noLetter_small (by omega), noLetter_small (by omega)⟩

theorem leNat4 {n : Nat} (h : n < 2 ^ 32) :
    Bincode.leNat [.ofNat 8 n, .ofNat 8 (n / 256), .ofNat 8 (n / 256 / 256), .ofNat 8 (n / 256 / 256 / 256)] = n :=
  Bincode.leNat_leBytes 4 n (by norm_num at h ⊢; omega)

theorem leNat2 {n : Nat} (h : n < 2 ^ 16) : Bincode.leNat [.ofNat 8 n, .ofNat 8 (n / 256)] = n :=
  Bincode.leNat_leBytes 2 n (by norm_num at h ⊢; omega)

theorem size_letters {n : Nat} (h : n < 2 ^ 32) :
    ([.ofNat 8 n, .ofNat 8 (n / 256), .ofNat 8 (n / 256 / 256), .ofNat 8 (n / 256 / 256 / 256)] : List Byte) = [0x64#8, 0x61#8, 0x74#8, 0x61#8] ↔
      n = 1635017060 := by
  constructor
  · intro e
    have := congrArg Bincode.leNat e
    rw [leNat4 h] at this
    rw [this]
    decide +kernel
  · rintro rfl
    decide +kernel

theorem load_saved_wav {w : WavCodec} (H : Fits w) {rest : List Byte} (hlen : 212 ≤ rest.length) :
    WavCodec.load (headerOf w ++ rest) = .ok (.ok
      { info := w.info, pcm := if w.pcm.length = 1635017024 then (headerOf w).drop 12 ++ rest else rest, shortCursor := 0 }) := by
  obtain ⟨h1, h2, h3, h4⟩ := noLetters H
  have hr := H.rate_lt
  have hc := H.chans
  have hsz := H.size
  have hi : ∀ q c, q = w.info.sampleRate → c = w.info.channels → ({ sampleRate := q, channels := c } : StreamInfo) = w.info := by
    rintro q c rfl rfl; rfl
  have e1 := leNat4 (n := w.info.sampleRate) (by norm_num at hr ⊢; omega)
  have e2 := leNat2 (n := w.info.channels) (by norm_num; omega)
  have e3 : asU 32 (asI 16 (w.info.channels : Int)) = w.info.channels := by
    rw [asI_nat16 (by omega), asU_nat (by norm_num; omega)]
  by_cases hf : w.pcm.length = 1635017024
  · rw [if_pos hf]
    have := load4 (c0 := .ofNat 8 w.info.channels) (c1 := .ofNat 8 (w.info.channels / 256))
      (q0 := .ofNat 8 w.info.sampleRate) (q1 := .ofNat 8 (w.info.sampleRate / 256)) (q2 := .ofNat 8 (w.info.sampleRate / 256 / 256))
      (q3 := .ofNat 8 (w.info.sampleRate / 256 / 256 / 256))
      (s0 := .ofNat 8 (w.info.sampleRate * w.info.channels * 2)) (s1 := .ofNat 8 (w.info.sampleRate * w.info.channels * 2 / 256))
      (s2 := .ofNat 8 (w.info.sampleRate * w.info.channels * 2 / 256 / 256)) (s3 := .ofNat 8 (w.info.sampleRate * w.info.channels * 2 / 256 / 256 / 256))
      (a0 := .ofNat 8 (w.info.channels * 2)) (a1 := .ofNat 8 (w.info.channels * 2 / 256))
      (d0 := .ofNat 8 w.pcm.length) (d1 := .ofNat 8 (w.pcm.length / 256)) (d2 := .ofNat 8 (w.pcm.length / 256 / 256))
      (d3 := .ofNat 8 (w.pcm.length / 256 / 256 / 256)) rest hlen
      ((size_letters (n := w.pcm.length + 36) hsz).2 (by omega))
    rw [e1, e2, e3] at this
    unfold headerOf
    exact this
  · rw [if_neg hf]
    have := load36 (c0 := .ofNat 8 w.info.channels) (c1 := .ofNat 8 (w.info.channels / 256))
      (q0 := .ofNat 8 w.info.sampleRate) (q1 := .ofNat 8 (w.info.sampleRate / 256)) (q2 := .ofNat 8 (w.info.sampleRate / 256 / 256))
      (q3 := .ofNat 8 (w.info.sampleRate / 256 / 256 / 256))
      (s0 := .ofNat 8 (w.info.sampleRate * w.info.channels * 2)) (s1 := .ofNat 8 (w.info.sampleRate * w.info.channels * 2 / 256))
      (s2 := .ofNat 8 (w.info.sampleRate * w.info.channels * 2 / 256 / 256)) (s3 := .ofNat 8 (w.info.sampleRate * w.info.channels * 2 / 256 / 256 / 256))
      (a0 := .ofNat 8 (w.info.channels * 2)) (a1 := .ofNat 8 (w.info.channels * 2 / 256))
      (d0 := .ofNat 8 w.pcm.length) (d1 := .ofNat 8 (w.pcm.length / 256)) (d2 := .ofNat 8 (w.pcm.length / 256 / 256))
      (d3 := .ofNat 8 (w.pcm.length / 256 / 256 / 256)) rest hlen
      (fun h => hf (by have := (size_letters (n := w.pcm.length + 36) hsz).1 h; omega)) h1 h2 h3 h4
    rw [e1, e2, e3] at this
    unfold headerOf
    exact this

/-! ## 8-bit samples -/

theorem widen_ok : ∀ (k : Nat) (buf : List Byte), 2 * k ≤ buf.length →
    widen k buf = .ok ((buf.take k).flatMap (fun x => le16 (convert8 x)) ++ buf.drop (2 * k))
  | 0, buf, _ => by simp [widen, pure_eq_ok]
  | k + 1, buf, h => by
    unfold widen
    have hk : k < buf.length := by omega
    rw [idx_of_lt hk, bind_ok]
    dsimp only
    rw [ofNat_asU16, ofNat_asU16_hi]
    unfold setIdx
    rw [if_pos (by omega), bind_ok, if_pos (by rw [List.length_set]; omega), bind_ok,
      widen_ok k _ (by simp; omega)]
    congr 1
    obtain ⟨lo, hlo⟩ : ∃ lo, lo = BitVec.ofInt 8 (convert8 buf[k]) := ⟨_, rfl⟩
    obtain ⟨hi, hhi⟩ : ∃ hi, hi = BitVec.ofInt 8 (convert8 buf[k] / 256) := ⟨_, rfl⟩
    have e1 : ((buf.set (2 * k) lo).set (2 * k + 1) hi).take k = buf.take k := by
      rw [List.take_set_of_le (by omega), List.take_set_of_le (by omega)]
    have e2 : ((buf.set (2 * k) lo).set (2 * k + 1) hi).drop (2 * k) = lo :: hi :: buf.drop (2 * (k + 1)) := by
      rw [List.drop_eq_getElem_cons (by simp; omega), List.drop_eq_getElem_cons (by simp; omega)]
      rw [List.drop_set_of_lt (by omega), List.drop_set_of_lt (by omega)]
      simp
      rfl
    rw [← hlo, ← hhi, e1, e2, List.take_succ_eq_append_getElem hk, List.flatMap_append, List.append_assoc]
    simp [le16, hlo, hhi]

end Adhoc
