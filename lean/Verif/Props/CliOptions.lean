import Verif.Props.Disk
import Mathlib.Data.Nat.Digits.Defs

/-! # C83 (the compression level option) and C84 (which inputs are converted) -/

namespace Adhoc
open Disk

namespace Spec

/-- `s` is a number in decimal notation, with or without a plus sign; zeros may lead -/
def Decimal (s : List Char) (n : Nat) : Prop :=
  ∃ ds : List Nat, ds ≠ [] ∧ (∀ d ∈ ds, d < 10) ∧ (s = ds.map Nat.digitChar ∨ s = '+' :: ds.map Nat.digitChar) ∧ n = Nat.ofDigits 10 ds.reverse

/-- the level an option value stands for: a number below 2^32 counts as itself, but at most 10, anything else as 5 -/
def Level (s : List Char) (level : Nat) : Prop :=
  (∃ n, Decimal s n ∧ n < 2 ^ 32 ∧ level = min n 10) ∨ (¬ (∃ n, Decimal s n ∧ n < 2 ^ 32) ∧ level = 5)

end Spec
open Spec

theorem toDigit_some {c : Char} {d : Nat} : Cli.toDigit c = some d ↔ d < 10 ∧ c = Nat.digitChar d := by
  constructor
  · intro h
    unfold Cli.toDigit at h
    split at h
    · rename_i hc
      obtain ⟨h1, h2⟩ := hc
      have h1 : 48 ≤ c.toNat := h1
      have h2 : c.toNat ≤ 57 := h2
      have e : c.toNat - 48 = d := by simpa using h
      refine ⟨by omega, ?_⟩
      have hd : d < 10 := by omega
      have : c.toNat = d + 48 := by omega
      rw [← Char.ofNat_toNat c, this]
      interval_cases d <;> rfl
    · cases h
  · rintro ⟨h, rfl⟩
    interval_cases d <;> rfl

/-- reading on from the number `n` -/
theorem parseDigits_some : ∀ {cs : List Char} {n m : Nat}, n < 2 ^ 32 →
    (Cli.parseDigits cs n = some m ↔
      m < 2 ^ 32 ∧ ∃ ds : List Nat, (∀ d ∈ ds, d < 10) ∧ cs = ds.map Nat.digitChar ∧ m = n * 10 ^ ds.length + Nat.ofDigits 10 ds.reverse)
  | [], n, m, hn => by
    rw [Cli.parseDigits]
    constructor
    · intro h
      obtain rfl := Option.some.inj h
      exact ⟨hn, [], by simp, rfl, by simp⟩
    · rintro ⟨-, ds, -, h, rfl⟩
      obtain rfl := List.map_eq_nil_iff.1 h.symm
      simp
  | c :: cs, n, m, hn => by
    have val : ∀ (d : Nat) (ds : List Nat), n * 10 ^ (d :: ds).length + Nat.ofDigits 10 (d :: ds).reverse =
        (n * 10 + d) * 10 ^ ds.length + Nat.ofDigits 10 ds.reverse := by
      intro d ds
      rw [List.reverse_cons, Nat.ofDigits_append, Nat.ofDigits_singleton, List.length_reverse, List.length_cons, pow_succ]
      ring
    rw [Cli.parseDigits]
    constructor
    · intro h
      rcases hd : Cli.toDigit c with _ | d
      · rw [hd] at h; cases h
      · rw [hd] at h
        obtain ⟨h10, rfl⟩ := toDigit_some.1 hd
        change (if n * 10 < 2 ^ 32 then if n * 10 + d < 2 ^ 32 then Cli.parseDigits cs (n * 10 + d) else none else none) = some m at h
        split at h
        · split at h
          · rename_i h2
            obtain ⟨hm, ds, h3, rfl, rfl⟩ := (parseDigits_some h2).1 h
            exact ⟨hm, d :: ds, by simpa using ⟨h10, h3⟩, rfl, (val d ds).symm⟩
          · cases h
        · cases h
    · rintro ⟨hm, _ | ⟨d, ds⟩, h1, h2, h3⟩
      · cases h2
      · rw [List.map_cons, List.cons.injEq] at h2
        obtain ⟨rfl, rfl⟩ := h2
        rw [val] at h3
        have h10 := h1 d (by simp)
        have hle : n * 10 + d ≤ m := by
          rw [h3]
          have : 1 ≤ 10 ^ ds.length := Nat.one_le_pow _ _ (by norm_num)
          exact (Nat.le_mul_of_pos_right _ this).trans (Nat.le_add_right _ _)
        rw [toDigit_some.2 ⟨h10, rfl⟩]
        change (if n * 10 < 2 ^ 32 then if n * 10 + d < 2 ^ 32 then Cli.parseDigits (ds.map Nat.digitChar) (n * 10 + d) else none else none) = some m
        rw [if_pos (by omega), if_pos (by omega)]
        exact (parseDigits_some (by omega)).2 ⟨hm, ds, fun d h => h1 d (by simp [h]), rfl, h3⟩

theorem digitChar_ne (d : Nat) (h : d < 10) : Nat.digitChar d ≠ '+' ∧ Nat.digitChar d ≠ '-' := by
  interval_cases d <;> decide

/-- `parse::<u32>` accepts the decimal numbers below 2^32 -/
theorem parseU32_some {s : List Char} {n : Nat} : Cli.parseU32 s = some n ↔ Decimal s n ∧ n < 2 ^ 32 := by
  have key : ∀ cs : List Char, cs ≠ [] → (Cli.parseDigits cs 0 = some n ↔
      n < 2 ^ 32 ∧ ∃ ds : List Nat, ds ≠ [] ∧ (∀ d ∈ ds, d < 10) ∧ cs = ds.map Nat.digitChar ∧ n = Nat.ofDigits 10 ds.reverse) := by
    intro cs hcs
    rw [parseDigits_some (by norm_num)]
    simp only [Nat.zero_mul, Nat.zero_add]
    constructor
    · rintro ⟨h, ds, h1, h2, h3⟩
      exact ⟨h, ds, by rintro rfl; exact hcs h2, h1, h2, h3⟩
    · rintro ⟨h, ds, -, h1, h2, h3⟩
      exact ⟨h, ds, h1, h2, h3⟩
  unfold Cli.parseU32 Decimal
  split
  · constructor
    · intro h; cases h
    · rintro ⟨⟨ds, h0, -, h | h, -⟩, -⟩
      · exact absurd (List.map_eq_nil_iff.1 h.symm) h0
      · cases h
  · constructor
    · intro h; cases h
    · rintro ⟨⟨ds, h0, h10, h | h, -⟩, -⟩
      · rcases ds with _ | ⟨d, ds⟩
        · cases h
        · rw [List.map_cons, List.cons.injEq] at h
          exact absurd h.1.symm (digitChar_ne d (h10 d (by simp))).1
      · rw [List.cons.injEq] at h
        exact absurd (List.map_eq_nil_iff.1 h.2.symm) h0
  · constructor
    · intro h; cases h
    · rintro ⟨⟨ds, h0, h10, h | h, -⟩, -⟩
      · rcases ds with _ | ⟨d, ds⟩
        · cases h
        · rw [List.map_cons, List.cons.injEq] at h
          exact absurd h.1.symm (digitChar_ne d (h10 d (by simp))).2
      · rw [List.cons.injEq] at h
        exact absurd h.1 (by decide)
  · rename_i cs hne
    rw [key cs hne]
    constructor
    · rintro ⟨h, ds, h0, h1, h2, h3⟩
      exact ⟨⟨ds, h0, h1, .inr (by rw [h2]), h3⟩, h⟩
    · rintro ⟨⟨ds, h0, h1, h2 | h2, h3⟩, h⟩
      · rcases ds with _ | ⟨d, ds⟩
        · cases h2
        · rw [List.map_cons, List.cons.injEq] at h2
          exact absurd h2.1.symm (digitChar_ne d (h1 d (by simp))).1
      · rw [List.cons.injEq] at h2
        exact ⟨h, ds, h0, h1, h2.2, h3⟩
  · rename_i hne _ _ hplus
    rw [key s hne]
    constructor
    · rintro ⟨h, ds, h0, h1, h2, h3⟩
      exact ⟨⟨ds, h0, h1, .inl h2, h3⟩, h⟩
    · rintro ⟨⟨ds, h0, h1, h2 | h2, h3⟩, h⟩
      · exact ⟨h, ds, h0, h1, h2, h3⟩
      · exact absurd h2 (hplus _)

theorem levelOption_level (s : List Char) : Level s (min (Cli.levelOption s) 10) := by
  unfold Cli.levelOption Level
  rcases h : Cli.parseU32 s with _ | n
  · right
    refine ⟨?_, rfl⟩
    rintro ⟨n, hn⟩
    rw [parseU32_some.2 hn] at h
    cases h
  · left
    obtain ⟨h1, h2⟩ := parseU32_some.1 h
    exact ⟨n, h1, h2, rfl⟩

/-! ## C83 -/

theorem convertFile_wav (b : Build) (fuel level : Nat) (outDir dir : List Char) {stem : List Char} (hp : Plain stem) :
    convertFile b fuel level outDir (dir, stem ++ ".wav".toList) =
      [{ input := (dir, stem ++ ".wav".toList), output := (outDir, stem ++ ".adhoc".toList)
         run := fun bytes => content (Cli.convertWavToAdhoc b bytes level (some .perfect)), lenient := true }] := by
  obtain ⟨-, -, h⟩ := C61_partial stem ['x'] ['x'] (by decide)
  obtain ⟨h1, h2, -⟩ := h hp
  unfold convertFile
  dsimp only
  rw [h1, List.map_cons, List.map_nil, if_pos rfl, show ['a', 'd', 'h', 'o', 'c'] = "adhoc".toList from rfl, h2]
  rfl

/-- C83 is false: 4294967296 is a number above 10 and the level is 5, not 10. -/
theorem C83_false : ¬ ∀ (s : List Char) (n : Nat), Decimal s n → min (Cli.levelOption s) 10 = min n 10 := by
  intro h
  have := h "4294967296".toList 4294967296 ⟨[4, 2, 9, 4, 9, 6, 7, 2, 9, 6], by decide, by decide, .inl (by decide), by decide⟩
  revert this
  decide

/-- C83, what holds. Whatever the value of the level option, a WAV file that is converted becomes an .adhoc file of the level that the value
stands for: a number below 2^32 counts as itself, but at most 10; everything else (no number, a negative one, one from 2^32) as 5. -/
theorem C83_level_partial (b : Build) (fuel : Nat) (isDir : List Char → Bool) (outDir value dir stem : List Char) (hd : isDir outDir = true) (hp : Plain stem)
    (bytes : List Byte) (info : StreamInfo) (cells : List ℤ) (hr : ∀ x ∈ cells, -32768 ≤ x ∧ x ≤ 32767)
    (hl : WavCodec.load bytes = .ok (.ok { info := info, pcm := cells.flatMap le16, shortCursor := 0 }))
    (H : Fits { info := info, pcm := cells.flatMap le16, shortCursor := 0 }) (hn : info.channels ≤ 1024) :
    ∃ t, cli b fuel isDir outDir value [(dir, stem ++ ".wav".toList)] = [[t]] ∧ t.output = (outDir, stem ++ ".adhoc".toList) ∧
      ∀ out, t.run bytes = .ok (some out) →
        ∃ c level, AdhocCodec.load b out = .ok (some c) ∧ c.stream.info = some info ∧ c.compressionLevel = level ∧ Level value level := by
  unfold cli
  rw [hd, if_neg (by decide), List.map_cons, List.map_nil, convertFile_wav b fuel _ outDir dir hp]
  refine ⟨_, rfl, rfl, fun out h => ?_⟩
  dsimp only at h
  rw [wav_to_adhoc H.pos hn hr hl] at h
  rcases e : encodeAll b (fresh info (Cli.levelOption value)) (cliCalls info.channels cells) with p | c
  · rw [e] at h; cases h
  rw [e] at h
  obtain rfl : file c = out := Option.some.inj (Except.ok.inj h)
  obtain ⟨hf, hb⟩ := cli_counts H.pos hn (by have := H.size; dsimp only at this; rw [length_le16] at this; norm_num at this ⊢; omega) e
  obtain ⟨c', h1, h2, h3, -⟩ := C09_recordings b info _ _ c e H.pos (lt_trans H.rate_lt (by norm_num)) (by have := H.chans; dsimp only at this; omega) hf hb []
  rw [List.append_nil] at h1
  exact ⟨c', _, h1, h2, h3, levelOption_level value⟩

/-- numbers, and what stands for 5 -/
example : Cli.levelOption "7".toList = 7 ∧ Cli.levelOption "+007".toList = 7 ∧ Cli.levelOption "300".toList = 300 ∧ Cli.levelOption "-1".toList = 5 ∧
    Cli.levelOption "4294967295".toList = 4294967295 ∧ Cli.levelOption "4294967296".toList = 5 ∧ Cli.levelOption "high".toList = 5 ∧
    Cli.levelOption "".toList = 5 ∧ Cli.levelOption "7 ".toList = 5 := by decide

/-- the hypotheses hold for a short file; with the option "3", its .adhoc file is of level 3 -/
example : (Cli.convertWavToAdhoc .debug shortWav (Cli.levelOption "3".toList) (some Writer.perfect)).bind
    (fun r => (AdhocCodec.load .debug (r.1.getD Writer.perfect).out).map (Option.map (·.compressionLevel))) = .ok (some 3) := by decide +kernel

/-! ## C84 -/

theorem containsStr_iff (needle : List Char) : ∀ s, Cli.containsStr needle s = true ↔ needle <:+: s
  | [] => by
    rw [Cli.containsStr, List.isEmpty_iff, List.infix_nil]
  | c :: cs => by
    rw [Cli.containsStr, Bool.or_eq_true, List.isPrefixOf_iff_prefix, containsStr_iff needle cs, List.infix_cons_iff]

/-- C84 is false: a file named in capitals is passed over, and `.wavpack` is taken for a WAV file. -/
theorem C84_false : (¬ ∀ name ext : List Char, (Cli.splitExt name).2 = some ext → ext.map Char.toLower = "wav".toList → Cli.conversions name ≠ []) ∧
    ¬ ∀ name ext : List Char, (Cli.splitExt name).2 = some ext → Cli.conversions name ≠ [] →
      ext.map Char.toLower = "wav".toList ∨ ext.map Char.toLower = "adhoc".toList := by
  refine ⟨fun h => ?_, fun h => ?_⟩
  · exact h "TRACK1.WAV".toList "WAV".toList (by decide) (by decide) (by decide)
  · have := h "song.wavpack".toList "wavpack".toList (by decide) (by decide)
    revert this
    decide

/-- C84, what holds. Without a directory to write to nothing is converted. Otherwise each input is dealt with, in the order given: one with no
extension is passed over; one whose extension contains `wav` in small letters is converted to .adhoc and one whose extension contains `adhoc` to
WAV, in the output directory and under its own stem. -/
theorem C84_dispatch_partial (b : Build) (fuel : Nat) (isDir : List Char → Bool) (outDir value : List Char) (inputs : List Path) :
    (isDir outDir = false → cli b fuel isDir outDir value inputs = []) ∧
    (isDir outDir = true → List.Forall₂ (fun (input : Path) (job : List Task) =>
      (∀ t ∈ job, t.input = input) ∧
      (Plain input.2 → job = []) ∧
      (∀ stem ext, Plain stem → '.' ∉ ext → input.2 = stem ++ '.' :: ext →
        job.map (·.output) = (if "wav".toList <:+: ext then [(outDir, stem ++ ".adhoc".toList)] else []) ++
          (if "adhoc".toList <:+: ext then [(outDir, stem ++ ".wav".toList)] else []))) inputs (cli b fuel isDir outDir value inputs)) := by
  unfold cli
  constructor
  · intro h
    rw [if_pos h]
  · intro h
    rw [if_neg (by rw [h]; decide), List.forall₂_map_right_iff, List.forall₂_same]
    rintro ⟨dir, name⟩ -
    refine ⟨?_, ?_, ?_⟩
    · intro t ht
      obtain ⟨c, -, rfl⟩ := List.mem_map.1 ht
      dsimp only
      split <;> rfl
    · intro hp
      unfold convertFile Cli.conversions
      dsimp only at hp ⊢
      rw [splitExt_plain hp]
      rfl
    · intro stem ext hp he hname
      dsimp only at hname
      subst hname
      have h2 : stem ++ '.' :: ext ≠ ['.', '.'] := by
        intro h
        obtain ⟨c, t, rfl⟩ := List.exists_cons_of_ne_nil hp.1
        rw [List.cons_append, List.cons.injEq] at h
        have hl := congrArg List.length h.2
        simp only [List.length_append, List.length_cons, List.length_nil] at hl
        have : t = [] := List.length_eq_zero_iff.1 (by omega)
        subst this
        exact hp.2.1 (by rw [h.1])
      have o := fun x => (C61_partial stem ext x he).1 hp
      unfold convertFile Cli.conversions
      dsimp only
      rw [splitExt_dot hp.1 he h2, o, o]
      dsimp only
      simp only [← containsStr_iff]
      rw [show ['w', 'a', 'v'] = "wav".toList from rfl, show ['a', 'd', 'h', 'o', 'c'] = "adhoc".toList from rfl]
      split <;> split <;> rfl

/-- a song, a file in capitals, one without extension and one with both words -/
example : (cli .debug 9 (fun d => d == "out".toList) "out".toList "5".toList
      [("in".toList, "a.wav".toList), ("in".toList, "B.WAV".toList), ("in".toList, "readme".toList), ("in".toList, "c.adhocwav".toList)]).map
        (fun job => job.map fun t => String.ofList t.output.2) = [["a.adhoc"], [], [], ["c.adhoc", "c.wav"]] := by decide

end Adhoc
