#!/usr/bin/env python3
"""Write MANIFEST.json from the claims below."""
import json, os
here = os.path.dirname(os.path.abspath(__file__))
C = []
def claim(p, status, theorems, note=""):
    C.append({"property": p, "status": status, "theorems": ["Adhoc." + t for t in theorems], "note": note})

claim("C28", "proved", ["C28_bitstream_roundtrip", "C28_bitstream_bits"])
claim("C29", "proved", ["C29_rice_roundtrip", "C29_param15_debug_panics"])
claim("C30", "proved", ["C30_capped_roundtrip"])
claim("C31", "proved", ["C31_read_terminates"])
claim("C46", "proved", ["C46_nibble_list", "C46_set_past_end_corrupts"], "the range condition on set is necessary (second theorem)")
claim("C47", "partial", ["C47_false", "C47_push_after_clear_partial", "C47_pushes_after_clear_partial", "C47_history_partial"], "false as stated: stale nibbles are merged by OR; refuted. Proved exactly: what any number of pushes after clear leave, when they are what was pushed, and what every history of push, set and clear with nibble values leaves")
claim("C48", "proved", ["C48_bitvec"])
claim("C49", "proved", ["C49_circular_stack", "C49_pushes", "C49_is_empty_inverted"], "also shows that is_empty answers true exactly when full")
claim("C50", "proved", ["C50_frame_headers"])
claim("C51", "proved", ["C51_ring_buffer", "C51_capacities"])
claim("C52", "proved", ["C52_linked_list"], "fewer than 2^32 - 1 live items; calls at stored pointers of live items")
claim("C53", "proved", ["C53_lru_cache", "C53_length"], "capacities 1 to 2^32 - 1; the HashMap is trusted to be a map; C53_length is the same with the length of the list as a u32")
claim("C54", "partial", ["C54_false", "C54_capacity_wraps", "C54_other_calls_partial"], "false as stated: put on capacity 0 indexes past the (empty) list memory; the other calls are harmless")
claim("C01", "proved", ["C01_round_trip", "C01_gaps"], "for every sequence of calls (first call at least 3 blocks, each below 65536), every buffer sequence and both builds. With nine empty calls in a row the samples are the same, but decode can return None early (C07); what every call returns then is C01_gaps")
claim("C02", "partial", ["C02_false", "C02_level0_partial", "C02_exact_partial"], "false as stated: full-scale alternation loses sync. C02_level0_partial gives what every signal decodes to exactly; it is the quantised signal exactly if every difference to the prediction fits into its limits (C02_exact_partial)")
claim("C05", "proved", ["C05_split"], "also for signals that are out of sync")
claim("C06", "proved", ["C06_buffers", "C06_gaps"], "all levels; calls below 65536 blocks (see C16). With nine empty calls in a row the counts differ (see C07), but what is delivered is still the same (C06_gaps)")
claim("C07", "partial", ["C07_false", "C07_none_partial", "C07_exact_partial", "C07_counts_partial", "C07_go_on_partial"], "false as stated: nine empty encode calls in a row make decode return None early. It holds exactly when there are never nine in a row before a call with a block (C07_exact_partial); what every call returns otherwise is C07_counts_partial, and calling on delivers everything (C07_go_on_partial)")
claim("C08", "proved", ["C08_sticky_end"], "no condition on empty calls")
claim("C23", "partial", ["C23_false", "C23_tail_partial"], "false above level 0: the whole buffer is multiplied by the scale. C23_tail_partial is the exact behaviour on every codec state; the claim holds at level 0")
claim("C24", "proved", ["C24_channels"], "also for signals that are out of sync")
claim("C15", "proved", ["C15_sample_count"], "calls below 65536 blocks (see C16)")
claim("C16", "partial", ["C16_false", "C16_long_calls_partial"], "false as stated: a frame header keeps the length modulo 65536; every call of exactly 65536 mono samples is counted as empty. The exact count for all calls is proved")
claim("C19", "partial", ["C19_false", "C19_expansion_partial", "C19_worst_partial", "C19_reached_partial", "C19_any_length_partial"], "false in release builds for very long calls: the 32-bit sums compared by the encoder wrap, so the worst parameter is picked (16383 bits per sample for 262164 alternating samples in one call). Proved for calls of at most 131064 blocks, with the least bound: 16 bits for the first three samples of a channel and 17 for each other one, reached for every length by a full-scale alternation; for calls of any length 16386 bits per sample are never exceeded")
claim("C20", "partial", ["C20_false", "C20_optimal_parameter_partial", "C20_wrapped_partial"], "false in release builds for very long calls (the 32-bit sums wrap). Proved for calls of at most 131064 blocks; for calls of any length the exact choice is proved: the first parameter with the least positive sum modulo 2^32")
claim("C22", "partial", ["C22_false", "C22_encode_return_partial", "C22_wav_partial"], "false for AdhocCodec: it returns the length of the buffer including an unfinished block; exact behaviour proved. True for WavCodec (whole samples in the codec)")
claim("C63", "proved", ["C63_builds_agree"])
claim("C25", "proved", ["C25_panics_exactly", "C25_no_panic"], "for every sequence of encode, decode and rewind calls on a fresh codec: says exactly which sequences panic in a release build")
claim("C26", "partial", ["C26_false", "C26_debug_partial", "C26_exact_partial", "C26_high_levels_partial"], "false as stated: a full-scale alternating signal overflows an i16 subtraction in debug builds. For calls of at most 131064 blocks a debug build overflows exactly when some call codes more differences of at least 49152 than differences below 16384 for a channel. Overflow is shown to be the only extra panic, and it does not happen at levels 2 to 10 with samples in [-1, 1]")
claim("C27", "partial", ["C27_false", "C27_order_partial"], "false for codecs recorded into twice: with a longer old recording in memory, decoding right after recording panics. The rest is proved, with the exact condition")
claim("C32", "partial", ["C32_false", "C32_exactly_partial", "C32_corrupt_files_partial"], "false as stated: a file whose header count exceeds its header data loads and panics on decode. C32_exactly_partial gives the exact condition for a loaded release-build codec to survive every sequence of decode calls and rewinds. Loading itself never panics in release, and files with consistent header lengths and at least one channel never panic on decode")
claim("C09", "proved", ["C09_save_load", "C09_recordings"], "for every state reached by encode, decode and rewind calls, not only recordings; counters within the limits of their Rust types")
claim("C10", "proved", ["C10_torn_save", "C10_recordings"], "same states and limits as C09")
claim("C11", "proved", ["C11_save_reports"], "for every codec and every writer, including short and interrupted writes")
claim("C17", "partial", ["C17_false", "C17_upperbound_partial"], "false as stated: the estimate misses 352 bits. The exact difference is proved; it is an upper bound exactly if the vector of header nibbles has 44 unused bytes or more")

claim("C12", "proved", ["C12_seek_is_skip", "C12_gaps"], "for every mixture of reads and seeks, after rewinding, without rewinding, and after loading; streams below 2^64 bits. C12_gaps allows any empty calls")
claim("C13", "partial", ["C13_false", "C13_beyond_partial"], "false as stated: seeking behind the end panics. C13_beyond_partial says for every recording which seeks panic")
claim("C14", "partial", ["C14_false", "C14_seek_time_partial", "C14_exact_partial"], "false for extreme values, where the integer conversion saturates; proved with the saturation for all sample rates and times, together with the exact block")

claim("C34", "partial", ["C34_false", "C34_tape_partial", "C34_codecs", "C34_half_partial", "C34_every_codec"], "false for a codec loaded from a file ending in half a sample, where encoding at the end is misaligned; proved for every codec with whole samples and every sequence of calls. With half a sample at the end the exact behaviour of every sequence of calls is that of a tape on which samples are appended one byte too late (C34_half_partial); every codec with its cursor inside is of one of the two kinds (C34_every_codec)")
claim("C40", "partial", ["C40_false", "C40_seek_partial", "C40_exact_partial"], "false for extreme times, where the i64 product overflows; proved for all others, and that the cursor always stays inside. The exact result for all times, modulo 2^64 in release builds and with the exact condition of the panic in debug builds, is C40_exact_partial")
claim("C41", "partial", ["C41_false", "C41_end_partial"], "false as stated: End(0) goes to the start. Proved that End is the same as Start")
claim("C42", "partial", ["C42_false", "C42_empty_partial"], "false as stated: every seek on an empty stream panics")
claim("C43", "partial", ["C43_false", "C43_blocks_partial", "C43_exact_partial"], "false after a seek behind the end, which goes to the last sample instead of a block; proved for all encode and decode calls, and for exactly the seeks that do not go to the last sample of several channels; after those the next decode reports 1 and is between blocks again")

claim("C18", "proved", ["C18_wav_filesize"],
      "For every recording: whatever save_to writes to a faultless writer has exactly filesize_upperbound bits, and in release builds it always writes (in debug builds "
      "the header arithmetic can overflow for absurd headers).")
claim("C33", "partial", ["C33_false", "C33_data_size", "C33_save_load_partial"],
      "False as stated: recordings of less than 212 bytes cannot be loaded (C33_false), and a recording of exactly 1635017024 bytes loads with 32 bytes of header in front "
      "(C33_data_size). For all other sizes saving and loading is proved exact, in both builds.")
claim("C35", "partial", ["C35_false", "C35_truncated_partial"],
      "False for the recording size whose size field spells 'data'. For all other sizes every prefix of the file is shown to load as the prefix of the recording, or to be rejected below 256 bytes.")
claim("C36", "partial", ["C36_false", "C36_load_panics_partial"],
      "False: the exact set of panicking byte strings is proved (first 'data' at byte 249 to 252 of at least 256 bytes).")
claim("C37", "partial", ["C37_false", "C37_loaded_partial"],
      "False: chunks after the data chunk are loaded as sound. Proved for every file that loads: the sound is everything after the chunk header to the end of the file.")
claim("C44", "partial", ["C44_false", "C44_short_writes_partial"],
      "False: the header goes through one write call whose count is ignored. Proved for every writer: the file is complete iff save_to succeeds and the first write takes all 44 bytes.")
claim("C45", "proved", ["C45_eight_bit"], "Exact value of every loaded byte, in order, for every 8-bit file that loads; strictly monotone with the claimed ends.")

claim("C03", "proved", ["C03_high_levels", "C03_gaps"], "levels 4 to 10, every signal in [-1, 1], every split into calls; with nine empty calls in a row C03_gaps")
claim("C04", "proved", ["C04_error_bound", "C04_gaps", "C04_exact", "C04_sharp"], "every level at which the decoder is in sync, which is exactly when it returns the stored codes (C04_exact); the bound is levelError L = 2^L * 1.01/32767 + 0.00101 (1 - 1/2^L), and at every level 0.94 of it are not enough (C04_sharp)")
claim("C38", "partial", ["C38_false", "C38_codes_partial"], "false for 1537 of the 65536 values; exactly which, and what they become, is proved, as is idempotence")
claim("C39", "proved", ["C39_conversion"], "all parts, for every f32")
claim("C56", "proved", ["C56_dither"], "any number of values, both builds; level 0 leaves every sample unchanged up to the sign of zero, which is not modelled")
claim("C57", "proved", ["C57_predictor"], "every three codes")

claim("C55", "proved", ["C55_branchless"], "every bit pattern, including NaN and infinities")
claim("C58", "proved", ["C58_round_trip"], "both builds. The header fields must fit (data below 4 GiB, sample rate * channels * 16 below 2^31), as in C33; with an odd number of data bytes "
      "the file is not a 16-bit WAV and not covered")
claim("C59", "partial", ["C59_false", "C59_partial"], "false: the result of save_to is dropped. Proved for every input and device what is returned and what the device has received")
claim("C60", "proved", ["C60_same_length"], "all lengths from 2 to 2^24")
claim("C61", "partial", ["C61_false", "C61_partial"], "false for stems with a dot, which lose what follows it, so that outputs collide; the exact output name is proved for all stems except . and .., which are in C148")
claim("C64", "proved", ["C64_same_shape"], "header fields in range as in C58")

claim("C62", "proved", ["C62_serialised_list"], "every history of C52; the items' own serialisation is only assumed to read back what it wrote; truncated serialisations are rejected")
claim("C21", "partial", ["C21_false", "C21_field_partial", "C21_again_partial", "C21_level0_partial"], "false in two ways: old frames stay behind a shorter recording, and old bits are mixed into fields crossing a 128-bit boundary. "
      "Proved: for one field over any memory exactly what is read back, and exactly when it survives; after any history of calls other than loads, a new recording panics as on a new codec, has the same headers up to its length and its bits lie between the new ones and the new ones joined with the old; at level 0 it plays the same if it is no shorter and the old bits are among its own")

claim("C65", "proved", ["C65_riff"], "for headers whose fields fit")
claim("C66", "proved", ["C66_accepted"], "together with C36, which covers strings shorter than a header")
claim("C67", "proved", ["C67_convolution", "C67_short_result"], "")
claim("C68", "partial", ["C68_false", "C68_resample_partial"], "false for d = 1: the code divides by zero and writes NaN; proved for every d from 2 to 2^24")
claim("C69", "partial", ["C69_false", "C69_schedule_partial", "C69_wav_inputs_partial"], "false when two inputs share an output name (x/a.wav and y/a.wav) or an output is an input; proved for all runs otherwise, "
      "and that WAV inputs with different names without further dots are such")
claim("C70", "proved", ["C70_interrupted", "C70_torn_adhoc"], "for inputs that do not share outputs (C69); in-order writes, no loss of written data at a power failure; torn .adhoc files for 16-bit WAV inputs of at most 1024 channels")
claim("C71", "proved", ["C71_codes_only", "C71_generations"], "buffers cut like the calls, calls of whole blocks")
claim("C72", "proved", ["C72_compression", "C72_constant"], "about the codes the encoder stores; at level 0 these are the 16-bit codes of the samples (C72_constant)")
claim("C73", "proved", ["C73_cli_error"], "header fields in range as in C58; level 0 is C58")
claim("C74", "partial", ["C74_false", "C74_cursor_partial", "C74_recording_partial"], "false: reads raise the capacity too; proved that it is the furthest position of the cursor after any call, reads included, and that it is the length after a recording")
claim("C75", "proved", ["C75_quiet", "C75_smooth", "C75_sharp"], "complements C01, C02 and C03")
claim("C76", "proved", ["C76_append", "C76_snapshot"], "")
claim("C77", "proved", ["C77_damage", "C77_file"], "targets strictly behind the damage and within the recording; streams below 2^64 bits, files of fewer than 2^32 frames")
claim("C78", "proved", ["C78_every_call_ends"], "every codec state and every input, both builds; the model's round limits are never reached, and more rounds change nothing")
claim("C79", "proved", ["C79_bounded_by_file"], "every byte string that loads; also with zero channels, where every read panics")
claim("C80", "partial", ["C80_false", "C80_vectors_partial"], "false: the channel count is a 32-bit field of the file, and 117 bytes make 4294967295 channel states. Everything else a loaded codec holds is bounded by the size of the file")
claim("C81", "proved", ["C81_canonical", "C81_injective"], "every byte string that loads, also corrupt ones; injective for all codecs with counters in the range of their Rust types")
claim("C82", "proved", ["C82_period", "C82_triangular"], "any number of values, both builds; the shares over one period are computed in the kernel and carried to all whole periods by the period")
claim("C83", "partial", ["C83_false", "C83_level_partial"], "false as stated: a number from 2^32 on counts as 5, silently, and so does any text that is not a number. Proved: exactly which values count as which level, and that the level reaches the file")
claim("C84", "partial", ["C84_false", "C84_dispatch_partial"], "false as stated: an extension in capitals is passed over (and convert_file returns Some), and any extension that contains wav or adhoc is taken. Proved: exactly what is converted, and where to. File names are valid Unicode; what clap does is not modelled")

claim("C85", "proved", ["C85_map"], "the decoders of the two values are parameters; the format delivers the entries of the map in some order")
claim("C86", "proved", ["C86_histogram"], "within 2^-20 of the bounds of a tenth the part is one of the two neighbours, by the rounding of the bounds; without values the division by zero panics")
claim("C87", "partial", ["C87_false", "C87_mse_partial"], "false for empty signals, whose error is NaN. Proved otherwise, for every squaring function that is 0 at 0 and even (Rust does not specify powf)")
claim("C88", "partial", ["C88_false", "C88_ends_partial", "C88_places_partial", "C88_bell_partial"], "false: N = 1 gives NaN, and of four coefficients the inner two are taken at places that are not mirror images. Proved: N values, and the first is the last; all places are in [-r, r], in order, within r / 2^21 of where they should be, mirrored ones within r / 2^20, and with odd N the middle one is 0. exp, powf and sqrt are parameters, so this holds for any values of theirs; if they are monotone (Platform), the coefficients are finite, not negative, rise to the middle and fall from there on (C88_bell_partial)")
claim("C89", "proved", ["C89_same_again"], "level 0, where no noise is added; any calls that a new codec accepts, both builds")

claim("C90", "proved", ["C90_seek_resync", "C90_repaired", "C90_gaps"], "targets within the recording; calls as in C01, streams below 2^64 bits. C90_gaps allows any empty calls")

claim("C91", "proved", ["C91_any_order", "C91_info_again", "C91_levels"], "before a recording the channel counts may change too; during it they stay the same. Calls as in C01")
claim("C92", "partial", ["C92_false", "C92_gain_partial"], "false: playing multiplies by 2 to the level set last, so a recording gets louder or quieter when its level is set. Proved: exactly this, for every codec state and every sequence of reads and seeks")

claim("C93", "partial", ["C93_false", "C93_mono_partial", "C93_close_partial"], "false with more than one channel at levels above 0, where the cut decides which sample gets which noise. Proved: it holds at every level for one channel (level 0 for any number of channels is C05), and for any number of channels no sample in [-1, 1] changes by more than twice the error of the level while the decoder is in sync")
claim("C94", "proved", ["C94_alone"], "calls as in C01; the channels alone are recorded by a release build, which cannot overflow (C26)")
claim("C95", "proved", ["C95_settles"], "shorter data and the one size 1635017024 make a WAV file that does not load or loads otherwise (C33)")
claim("C96", "proved", ["C96_size", "C96_sound"], "calls as in C01 for the sound; the model has no negative zero")

claim("C97", "partial", ["C97_false", "C97_modes_partial", "C97_then_partial"],
      "false: seeks relative to the position or the end panic (unimplemented!), and after a seek to a later time recording panics. Proved: what every way to seek does, in every codec state, and what recording after a seek does")
claim("C98", "partial", ["C98_false", "C98_over_partial", "C98_whole_partial", "C98_no_end_partial"],
      "false: recording into a loaded codec starts over on top of the file, and panics once something was played or sought. Proved: exactly what it writes, at every level; that it panics, for every file; and that recording everything again with more behind gives the uninterrupted recording bit by bit")
claim("C99", "partial", ["C99_false", "C99_corrected_partial"],
      "false: a count that is too small loses the state of the other channels. Proved: after a count that is large enough the codec is as before, and after one that is too small exactly which channels are new")
claim("C100", "partial", ["C100_false", "C100_hiss_partial", "C100_gate_partial"],
      "false at the levels 1 to 4, where the noise alone is stored as up to 8, 6, 3 and 1 steps. Proved: these bounds (an example shows that they are reached), that silence stays silent at the levels 0 and 5 to 10, and there also every silent or faint sample in any recording")

claim("C101", "partial", ["C101_false", "C101_values_partial", "C101_refused_partial", "C101_period_partial"],
      "false: with the seed 455685 (and all congruent to it modulo 507961) the generator stands still, so that all triangular values are 0, and with seeds from 18446688733644 on a debug build panics at the first value. Proved: exactly these seeds; every other seed gives the stated values without panic, with the exact periods 253980 (uniform) and 126990 (triangular).")
claim("C102", "proved", ["C102_loaded", "C102_recorded"],
      "for all byte strings that load accepts and all sequences of reads and seeks; for recordings under the bound 2^level, without the excess of 1/32768 that a raw -32768 in a made-up file gives.")
claim("C103", "partial", ["C103_false", "C103_level0_partial", "C103_headroom_partial"],
      "false above level 0: samples of 3/2 play as 3/2 at level 1. Proved: at level 0 the recording is bit for bit that of the clipped signal, for all samples; at every level, when in sync, every sample is played as the sample limited to [-2^L, 2^L] up to a stated error, so that level L clips at 2^L.")
claim("C104", "proved", ["C104_parabola", "C104_points"],
      "for samples of at most M <= 2^100 and places of at most X <= 1024 (X >= 1) the error is at most (2 + 28 X + 16 X^2) M / 2^24 + X^2 / 2^140; sharper at the three points.")
claim("C105", "partial", ["C105_false", "C105_compress_partial", "C105_decompress_partial", "C105_round_trip_partial"],
      "false: decompress ends normally after a device took only ten bytes of the 44-byte header (the header is written with one unchecked write, see C44). Proved: exactly when each program runs to its end, which for compress is when the device took the whole file; the round trip for every WAV file with at least 3 blocks and at most 341 channels, within 165 of 32768.")
claim("C106", "partial", ["C106_false", "C106_remove_partial", "C106_insert_partial"],
      "false: with one item left remove_at removes it whatever pointer is given, and insert_at to the right of a free slot that points to another one hangs the new item into the free slots, so that it is lost and the first item is iterated twice. Proved: exactly what both calls do with the pointer of a free slot, after every history.")
claim("C107", "proved", ["C107_iter_mut"],
      "the aliasing rules behind the transmute are not modelled; an unchecked access out of range is a panic in the model, which the theorem excludes.")
claim("C108", "proved", ["C108_cache", "C108_ring"],
      "the order of the HashMap is arbitrary; the serialisation of keys, values and items is only assumed to read back what it wrote.")

claim("C109", "partial", ["C109_false", "C109_range_partial", "C109_stale_partial"],
  "False: an insertion with a stale pointer makes iter_mut hand out one item twice, that is two mutable references to one place, without unsafe code of the caller. Proved: "
  "for every list whatsoever the accesses stay inside its memory; after any history with live pointers (where C107 holds) an insertion with a stale pointer other than NULL that does not "
  "panic always makes a duplicate.")
claim("C110", "partial", ["C110_false", "C110_exact_partial", "C110_survives_partial", "C110_capped_partial"],
  "False: 30976 written over ones with 256 as the divisor is read back as 31200, because the part of the remainder beyond a 128-bit boundary is or-ed into the old bits. Proved for every memory, "
  "place, divisor and number: what exactly is read back, with both functions; when the number survives; that it always does with the divisors 1 and 2 of the crate's tests.")
claim("C111", "partial", ["C111_false", "C111_exactly_partial", "C111_survives_partial"],
  "False: files without channels and files with fewer than three samples for each channel make the tool panic, and of files with more than 1024 channels it writes a recording without sound. Proved: "
  "for every accepted file what exactly happens, and in a release build which files are compressed.")

claim("C112", "partial", ["C112_false", "C112_worst_case_partial", "C112_all_levels_partial", "C112_smaller_partial"],
  "False: eight silent samples take 63 bits at level 0, but 75, 72, 70 and 65 at the levels 1 to 4, which store noise. Proved: at level L from 3 to 10 no recording of samples in [-1, 1] takes more than "
  "48 + (21 - L)(N - 3) bits for each channel of N samples (17 instead of 21 - L at the levels 0 to 4), and from level 6 on it takes fewer bits than 16 for each sample.")
claim("C113", "proved", ["C113_causal", "C113_pointwise"],
  "for two recordings whose calls have the same lengths (the noise restarts with each call).")
claim("C114", "proved", ["C114_label", "C114_seek", "C114_file"],
  "for every codec whatsoever, also one loaded from a made-up file.")
claim("C115", "partial", ["C115_false", "C115_adhoc_partial", "C115_wav_partial"],
  "False: even encoding or decoding nothing divides by zero. Proved for every codec of no channels in whatever state: which calls panic and which do not.")
claim("C116","partial",["C116_false","C116_recording_partial","C116_any_partial"],
  "False as stated: a file with a header and no data is accepted by load, and reading from it appends zero chunks, so the next save is longer (C116_false). Proved: for every recording, both from the encoder and reloaded, any reads and any seeks inside the signal leave the saved bytes exactly as they were; for every codec whatsoever, finished reads and seeks can only append zero chunks and raise the stated length.")
claim("C117","partial",["C117_false","C117_exact_partial","C117_calls_partial"],
  "False as stated: with the cursor set two chunks beyond the end a write is an index panic (C117_false). Proved: for every memory and position the exact condition under which write_bits, read_bits, write_bit and read_bit succeed, and what the reads return; and that sequences of any calls that do not set the cursor beyond the memory never fail except by debug overflow checks.")
claim("C118","partial",["C118_false","C118_cleared_partial","C118_zero_needed"],
  "False as stated: read_bit does not move beyond the memory of a new stream but does move in a cleared one (C118_false). Proved for all sequences of calls in which single bits and compressed numbers are read only where the new stream has memory; and that seek_start without zero is not enough.")
claim("C119","partial",["C119_false","C119_last_false","C119_range_partial","C119_polarity"],
  "False as stated: two samples 13/16 stretched to six give a sample one unit in the last place larger, and two samples stretched to 42 lose the last one by a unit. Proved: the first sample is exact, nothing leaves [-1, 1], no negative samples appear, the range is exceeded by at most 2^-21 whatever the lengths, and polarity does not matter.")
claim("C120","proved",["C120_shift","C120_identity","C120_response","C120_silence","C120_local","C120_polarity"],
  "For convolve_1d; by C55 the branchless version does the same. The shift, response and silence laws need finite numbers: zero times infinity is NaN (example).")
claim("C121","partial",["C121_false","C121_decompress_partial","C121_wide"],
  "False as stated: with more than 1024 channels one sample of each does not fit the tool's buffer and the tool writes a WAV file without any samples and reports success (C121_wide, C121_false). Proved for all recordings with up to 1024 channels.")
claim("C122","proved",["C122_file"],
  "The layout is described in Verif/Spec/Format.lean without reference to the codec's data structures. It includes the spare 16-byte block at the end of the sound, which depends on the width of the number written last.")
claim("C123","proved",["C123_length","C123_tool","C123_smaller"],
  "C123_tool bounds the file at levels 4 to 10 for up to 341 channels: 21 - level bits for a sample plus the headers.")
claim("C124","partial",["C124_false","C124_slots_partial","C124_queue_partial","C124_history_partial"],
  "False: q[i] reads the backing store, so after pop_front q[0] is still the removed item (C124_false). Proved: the i-th item is at (front + i) mod capacity and assigning there replaces exactly it; q[i] is the i-th item while items were only added at the rear; for the history, prev(k) is at (cursor - k) mod 4.")
claim("C125","proved",["C125_compressed","C125_capped","C125_aligned","C125_unaligned","C125_unaligned_sharp","C125_read_back","C125_sanity","C125_sanity_tests"],
  "The tests are written as programs on the model; the remaining tests with assertions are replayed as examples in the same file.")
claim("C126","proved",["C126_copy","C126_again","C126_exact","C126_file"],
  "The loop of the test is a program on the model. The theorems about cells are for codecs with whole samples; C126_file is for every accepted file, also one that ends with half a sample.")
claim("C127","proved",["C127_player","C127_gaps"],
  "For recordings whose calls have fewer than 65536 blocks and never nine without a block in a row (C127_gaps otherwise), and whose counters fit the fields of the file. The player shares with the model only the arithmetic of one sample: the prediction (C57) and the conversion of a code to a float (C38).")
claim("C128","proved",["C128_foreign","C128_gaps","C128_go_on"],
  "For levels up to 30 (31 gives a negative scale, more overflows), pieces of fewer than 65536 samples with as many in every channel, values of 16 bits without -32768, no table shorter than the number of pieces (otherwise indexing panics), and never nine rows without a sample before one with samples (what happens otherwise is C128_gaps and C128_go_on).")
claim("C129","proved",["C129_inverse","C129_close"],
  "Header fields in range as in C58. C129_inverse covers every level for which the tool's conversion does not panic (see C26 for debug builds at low levels); C129_close is level 4, without further conditions.")
claim("C130","proved",["C130_seek","C130_beyond","C130_gaps"],
  "Files as in C128 (level at most 30, no nine empty rows before one with samples; otherwise C130_gaps), of fewer than 2^64 samples. The place a seek goes to is seekOffset, whose accuracy is C14.")
claim("C131","proved",["C131_alike","C131_recording","C131_loading"],
  "The flags of the frame headers are taken as on 64 bits (there are fewer than 2^32 frames). C131_alike with 64 bits also shows what the unbounded cursors of the model leave out.")
claim("C132","partial",["C132_false","C132_exactly_partial","C132_others_partial"],
  "False: the number of bits is a usize product, which overflows from 512 megabytes on; nine hours of silence take 540 megabytes. Proved: exactly what is reported or panics, also for the other sizes of the bit stream.")
claim("C133","proved",["C133_adhoc","C133_wav"],
  "A reader that claims to be at its end too early is left out for WAV: the samples behind are lost without an error (example beside the theorem).")
claim("C134","proved",["C134_one_file"])
claim("C135","proved",["C135_codec","C135_programs"],
  "Encoding behind the half sample is not meant: it ends up in the new samples (example beside the theorem; C34).")
claim("C136","partial",["C136_false","C136_exactly_partial","C136_header_partial","C136_layout_partial"],
  "False: the bytes are seen as i16 without regard to alignment; decode of a codec just made (nothing allocated, dangling address 1) and of samples at an odd address is undefined, and aborts in debug builds since Rust 1.78. Proved: it is defined exactly if bytes are allocated at an even address, and then the view and all indices are inside; the views of the header are always valid.")
claim("C137","partial",["C137_false","C137_little_partial","C137_view_partial","C137_refused_partial","C137_saved_partial","C137_header_partial"],
  "False on big-endian machines: every sample is decoded with its bytes exchanged, every WAV file of another machine is refused, and so is theirs elsewhere. On little-endian machines everything is as modelled. The .adhoc format has no such dependence: bincode and the bit stream use arithmetic only.")
claim("C138","proved",["C138_allocations"],
  "Seven vectors, each allocated at most log2 N + 9 times, where N counts samples and frames. Assumes the doubling of Vec in the standard library; allocations of decode (VecDeque) and of the caller are not counted.")
claim("C139","proved",["C139_encode","C139_recording","C139_playing","C139_replaying"],
  "A tick for every round of every loop, in copies of the model's functions that are shown to give the same results and panics. 276 ticks for every sample or frame recorded; 93 for every sample asked for, 130 for every sample declared and one for every 16 bytes when playing. Runs that panic are not bounded.")
claim("C140","proved",["C140_seek"],
  "With the same clock. The constant is one frame of 65535 samples for every channel.")
claim("C141","proved",["C141_memory","C141_seeks"],
  "For runs that do not panic. C141_seeks adds seeks to any place, for files whose stored positions are inside their data. The waiting samples are bounded for each channel.")
claim("C142","partial",["C142_false","C142_below_partial","C142_push_partial","C142_next_partial","C142_full_partial","C142_behind_partial"],
  "False as stated: nibble_count and header_cursor are u32, so the 2^32nd push panics in a debug build (C142_false). Proved: below 2^32 frames the index is right in both builds and equal to the index of the model with unbounded counters; a push into any index, also one wound back, is that of the model with unbounded counters; reading never overflows; in a release build the index of 2^32 frames is empty, and the header pushed next is lost: read in its place is the first one, with the exponents merged.")
claim("C143","partial",["C143_false","C143_inside_partial","C143_both_partial","C143_recording_partial"],
  "False as stated: in a file whose stored position lies a chunk too far the seek panics, but not after a read, which has made the stream longer (C143_false). Proved for every codec in every state: equal, panics included, if the stored positions are inside the stored chunks or if it is only wound back to the start; for all files equal whenever both succeed; and for every recording, in memory or loaded.")
claim("C144","partial",["C144_false","C144_exact_partial","C144_threaded_partial","C144_long_partial"],
  "False as stated: 45 bytes with one node linking to itself and length 2 are read as a list of which iter_mut hands out the only item twice (C144_false). Proved for every list: it holds exactly if the right links lead through as many different full slots as the length says; then both iterators give the items in this order; and it never holds if the length exceeds the memory.")
claim("C145","proved",["C145_encode","C145_decode","C145_buffered","C145_made","C145_loaded","C145_rest","C145_wav_encode","C145_wav_decode","C145_convolve","C145_other","C145_signs"],
  "Proved with a second model of f32 that has two zeros (Z32) and a second copy of every function through which samples pass; also shows that the single zero of the model F32 loses nothing else.")
claim("C146","partial",["C146_false","C146_calls_partial","C146_fits_partial","C146_full_partial","C146_after_partial"],
  "False as stated: the 2^32nd item makes a debug build panic and empties the list in a release build (C146_false, C146_full_partial); the item pushed after that is not in the list either, which then holds the very first item (C146_after_partial). Proved: up to 2^32 - 1 items all calls do what they do with an unbounded length, in both builds, and so C52 holds for the list with 32 bits.")
claim("C147","partial",["C147_false","C147_exact_partial","C147_read_partial","C147_items_partial","C147_new_partial"],
  "False as stated: 26 bytes with capacity 3 are read although new rejects this capacity (C147_false). Proved with all u32 sums of both builds: a ring buffer acts as a bounded deque exactly if it is empty of capacity 0, or its capacity is a power of two not above the size of the store, both ends are inside and the rear is len behind the front (item types with at least two values); the items are then read off the store. A buffer made by new acts as a deque exactly if its store has room for the capacity.")
claim("C148","partial",["C148_false","C148_exact_partial"],
  "False: a file called ..wav has the stem '.', and converted into the directory out it is written to out.adhoc beside the directory (C148_false). Proved for all paths: exactly where the output goes; it is directly in the directory for every stem but . and ..; with .. no file can be created.")
claim("C149","proved",["C149_own_input"], "for all paths as written; links and file systems that ignore case are not modelled")
claim("C150","partial",["C150_false","C150_last_partial","C150_before_partial"],
  "False: of 65539 stereo blocks with silence on the left, the right channel is read from the left over bits of the left channel and is silent too (C150_false). Proved at every level: in mono with only the last call too long, exactly its end is lost and what every read returns is given; with any channels, what was recorded before the first call that is too long plays as ever. Not proved: what the rubbish read after it is.")
claim("C151","partial",["C151_false","C151_made_partial","C151_reached_partial","C151_lookup_partial"],
  "False: 44 bytes are read as a cache of which looking up 7 panics (C151_false). Proved: a condition on the table and the slots under which a cache, whoever made it, answers every sequence of calls like the recency-ordered list of its items (C151_made_partial), which every cache a program can reach fulfils (C151_reached_partial); and for any cache whatever, what lookup does and when it panics. Not proved: that no cache outside the condition behaves well.")
claim("C152","partial",["C152_false","C152_exactly_partial","C152_always_partial","C152_saved_partial"],
  "False: over a file that counts one header but holds none, nothing can be recorded (C152_false). Proved for every file: exactly how many headers, one per call and channel, can be written before an index is out of range (C152_exactly_partial), exactly which files every recording can be made over (C152_always_partial), and that all saved recordings are among them (C152_saved_partial).")
claim("C153","partial",["C153_false","C153_exactly_partial","C153_debug_partial"],
  "False: a file that is said to have a frame more than a chunk behind its data can be loaded and played, but a seek to that frame panics (C153_false). Proved for every file whose stored positions are in its chunks or at their end: a sequence of reads and seeks succeeds if and only if all the times are in the file, and otherwise panics because a header is missing (C153_exactly_partial); a debug build may also overflow (C153_debug_partial).")
claim("C154","proved",["C154_sessions","C154_wav","C154_tool","C154_stream","C154_containers","C154_signal"],
  "no hypotheses; which calls do overflow in a debug build is C26 for recordings")
claim("C155","proved",["C155_encode","C155_decode","C155_wav_encode","C155_wav_decode"],
  "for codecs whose stream info is set (all others panic); AdhocCodec::encode counts the samples dropped as well (C22), and AdhocCodec::decode multiplies the places it does not fill (C23), as the equations say")
claim("C156","partial",["C156_false","C156_exactly_partial","C156_modulo_partial","C156_debug_partial","C156_when_partial"],
  "False: the number of blocks is multiplied with the number of channels in 64 bits, so in a release build 2^63 ms at 1000 Hz in stereo are taken for the start (C156_false). Proved for every recording (fewer than 65536 blocks in a call, fewer than 2^32 frames) which times are refused in a release build: those whose number of samples modulo 2^64 is behind the end (C156_exactly_partial). Proved for every codec in every state: in a release build only the number modulo 2^64 matters (C156_modulo_partial), a debug build panics (C156_debug_partial). It takes two channels and a product of rate, milliseconds and channels of 2^73 or more (C156_when_partial), so one channel is never affected.")
claim("C157","partial",["C157_false","C157_same_partial","C157_files_partial","C157_end_partial"],
  "False at one time: at the end of the recording AdhocCodec has nothing to play while WavCodec plays its last sample, in stereo the one of the right channel on the left (C157_false). Proved: for times in front of the end both give the same results, in any builds, for all sequences that begin with a seek (C157_same_partial), and for all sequences on the two files loaded (C157_files_partial, at least 106 samples because of C33); what WavCodec gives at the end and behind it (C157_end_partial).")
claim("C158","partial",["C158_false","C158_exactly_partial","C158_safe_partial","C158_debug_partial"],
  "False: a seek on a codec without samples panics (C158_false). Proved for every sequence of calls: it does what it does on the tape (seeks as wav.rs has them, C40 and C41), and panics if and only if the head is moved on an empty tape (C158_exactly_partial); so no sequence panics once there is a sample (C158_safe_partial). A debug build adds overflow panics of seeks only (C158_debug_partial).")
claim("C159","proved",["C159_cuts"],
  "Level 0, in sync and proper calls as in C12, seeks up to the end, streams below 2^64 bits. Both recordings are the same tape of the quantised signal. With longer runs of empty calls reads stop early (C12_gaps).")

with open(os.path.join(here, "..", "MANIFEST.json"), "w") as f:
    json.dump({"claims": C}, f, indent=1, ensure_ascii=False)
    f.write("\n")
