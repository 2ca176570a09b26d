import Verif.Props.Cli
import Verif.Props.Generations

/-!
# C95: converting there and back again

The first conversion of a WAV file to an .adhoc file and back may change samples (C38), further ones do not: the .adhoc file of the new WAV
file is the old .adhoc file.
-/

namespace Adhoc
open Spec F32

theorem cliCalls_again {n : Nat} {cells : List ℤ} (hr : ∀ x ∈ cells, -32768 ≤ x ∧ x ≤ 32767) :
    (cliCalls n (cells.map fun i => truncateSample (normalizeSample i))).map (·.map truncateSample) =
      (cliCalls n cells).map (·.map truncateSample) := by
  rw [cliCalls_eq, cliCalls_eq, pieces_map, pieces_map, List.map_map, List.map_map, List.map_map]
  congr 1
  apply List.map_congr_left
  intro i hi
  have := hr i hi
  exact again_again (by rw [abs_le]; omega)

/-- C95. Take a 16-bit WAV file as in C58, with whole blocks only and at least 212 bytes of samples. Convert it to an .adhoc file at level 0,
that to a WAV file, and that to an .adhoc file: the two .adhoc files are the same, byte for byte, and so is every later pair of files. -/
theorem C95_settles (b : Build) (bytes : List Byte) (info : StreamInfo) (cells : List ℤ) (hr : ∀ x ∈ cells, -32768 ≤ x ∧ x ≤ 32767)
    (hl : WavCodec.load bytes = .ok (.ok { info := info, pcm := cells.flatMap le16, shortCursor := 0 }))
    (H : Fits { info := info, pcm := cells.flatMap le16, shortCursor := 0 }) (hn : info.channels < 342) (h3 : 3 * info.channels ≤ cells.length)
    (hwhole : info.channels ∣ cells.length) (h106 : 106 ≤ cells.length) (hne : 2 * cells.length ≠ 1635017024)
    (hsync : ∀ ch < info.channels, InSync (track info.channels ch cells)) (fuel : Nat) (hfuel : cells.length < fuel) :
    ∃ adhoc wav, Cli.convertWavToAdhoc b bytes 0 (some Writer.perfect) = .ok (some adhoc, some ()) ∧
      Cli.convertAdhocToWav b fuel adhoc.out (some Writer.perfect) = .ok (some wav, some ()) ∧
      Cli.convertWavToAdhoc b wav.out 0 (some Writer.perfect) = .ok (some adhoc, some ()) := by
  have hpos : 0 < info.channels := H.pos
  have hn' : info.channels ≤ 1024 := by omega
  have hw : whole info.channels cells.length = cells.length := Nat.div_mul_cancel hwhole
  obtain ⟨adhoc, wav, e1, e2, -, e3⟩ := C58_round_trip b bytes info cells hr hl H hn h3 hsync fuel hfuel
  rw [hw, List.take_length] at e3
  refine ⟨adhoc, wav, e1, e2, ?_⟩
  have hr' : ∀ x ∈ cells.map (fun i => truncateSample (normalizeSample i)), -32768 ≤ x ∧ x ≤ 32767 := by
    intro x hx
    obtain ⟨i, -, rfl⟩ := List.mem_map.1 hx
    have := truncateSample_range (normalizeSample i)
    omega
  rw [wav_to_adhoc hpos hn' hr' (e3 h106 hne), C71_codes_only b info _ _ (cliCalls_again hr), ← wav_to_adhoc hpos hn' hr hl]
  exact e1

/-- a mono file with 110 samples, among them some that change -/
def longWav : List Byte :=
  ascii ['R', 'I', 'F', 'F'] ++ Bincode.leBytes 4 256 ++ ascii ['W', 'A', 'V', 'E'] ++ ascii ['f', 'm', 't', ' '] ++ Bincode.leBytes 4 16 ++
    Bincode.leBytes 2 1 ++ Bincode.leBytes 2 1 ++ Bincode.leBytes 4 8000 ++ Bincode.leBytes 4 16000 ++ Bincode.leBytes 2 2 ++ Bincode.leBytes 2 16 ++
    ascii ['d', 'a', 't', 'a'] ++ Bincode.leBytes 4 220 ++ longCells.flatMap le16
where
  longCells : List ℤ := [1000, -513, 517, 2000, -3276] ++ List.replicate 105 (-517)

theorem longWav_track : track 1 0 longWav.longCells = [1000, -512, 516, 2000, -3276] ++ List.replicate 105 (-516) := by decide +kernel

/-- the hypotheses hold for it -/
example : WavCodec.load longWav = .ok (.ok { info := { sampleRate := 8000, channels := 1 }, pcm := longWav.longCells.flatMap le16, shortCursor := 0 }) ∧
    Fits { info := { sampleRate := 8000, channels := 1 }, pcm := longWav.longCells.flatMap le16, shortCursor := 0 } ∧
    (∀ x ∈ longWav.longCells, -32768 ≤ x ∧ x ≤ 32767) ∧ longWav.longCells.length = 110 ∧ ∀ ch < 1, InSync (track 1 ch longWav.longCells) := by
  refine ⟨by decide +kernel, ⟨by decide, by decide, by decide, by decide +kernel⟩, by decide +kernel, by decide +kernel, ?_⟩
  intro ch hch
  obtain rfl : ch = 0 := by omega
  rw [longWav_track]
  exact inSync_of_all (by decide +kernel)

end Adhoc
