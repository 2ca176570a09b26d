{
 "claims": [
  {
   "property": "C28",
   "status": "proved",
   "theorems": [
    "Adhoc.C28_bitstream_roundtrip",
    "Adhoc.C28_bitstream_bits"
   ],
   "note": ""
  },
  {
   "property": "C29",
   "status": "proved",
   "theorems": [
    "Adhoc.C29_rice_roundtrip",
    "Adhoc.C29_param15_debug_panics"
   ],
   "note": ""
  },
  {
   "property": "C30",
   "status": "proved",
   "theorems": [
    "Adhoc.C30_capped_roundtrip"
   ],
   "note": ""
  },
  {
   "property": "C31",
   "status": "proved",
   "theorems": [
    "Adhoc.C31_read_terminates"
   ],
   "note": ""
  },
  {
   "property": "C46",
   "status": "proved",
   "theorems": [
    "Adhoc.C46_nibble_list",
    "Adhoc.C46_set_past_end_corrupts"
   ],
   "note": "the range condition on set is necessary (second theorem)"
  },
  {
   "property": "C47",
   "status": "partial",
   "theorems": [
    "Adhoc.C47_false",
    "Adhoc.C47_push_after_clear_partial",
    "Adhoc.C47_pushes_after_clear_partial",
    "Adhoc.C47_history_partial"
   ],
   "note": "false as stated: stale nibbles are merged by OR; refuted. Proved exactly: what any number of pushes after clear leave, when they are what was pushed, and what every history of push, set and clear with nibble values leaves"
  },
  {
   "property": "C48",
   "status": "proved",
   "theorems": [
    "Adhoc.C48_bitvec"
   ],
   "note": ""
  },
  {
   "property": "C49",
   "status": "proved",
   "theorems": [
    "Adhoc.C49_circular_stack",
    "Adhoc.C49_pushes",
    "Adhoc.C49_is_empty_inverted"
   ],
   "note": "also shows that is_empty answers true exactly when full"
  },
  {
   "property": "C50",
   "status": "proved",
   "theorems": [
    "Adhoc.C50_frame_headers"
   ],
   "note": ""
  },
  {
   "property": "C51",
   "status": "proved",
   "theorems": [
    "Adhoc.C51_ring_buffer",
    "Adhoc.C51_capacities"
   ],
   "note": ""
  },
  {
   "property": "C52",
   "status": "proved",
   "theorems": [
    "Adhoc.C52_linked_list"
   ],
   "note": "fewer than 2^32 - 1 live items; calls at stored pointers of live items"
  },
  {
   "property": "C53",
   "status": "proved",
   "theorems": [
    "Adhoc.C53_lru_cache",
    "Adhoc.C53_length"
   ],
   "note": "capacities 1 to 2^32 - 1; the HashMap is trusted to be a map; C53_length is the same with the length of the list as a u32"
  },
  {
   "property": "C54",
   "status": "partial",
   "theorems": [
    "Adhoc.C54_false",
    "Adhoc.C54_capacity_wraps",
    "Adhoc.C54_other_calls_partial"
   ],
   "note": "false as stated: put on capacity 0 indexes past the (empty) list memory; the other calls are harmless"
  },
  {
   "property": "C01",
   "status": "proved",
   "theorems": [
    "Adhoc.C01_round_trip",
    "Adhoc.C01_gaps"
   ],
   "note": "for every sequence of calls (first call at least 3 blocks, each below 65536), every buffer sequence and both builds. With nine empty calls in a row the samples are the same, but decode can return None early (C07); what every call returns then is C01_gaps"
  },
  {
   "property": "C02",
   "status": "partial",
   "theorems": [
    "Adhoc.C02_false",
    "Adhoc.C02_level0_partial",
    "Adhoc.C02_exact_partial"
   ],
   "note": "false as stated: full-scale alternation loses sync. C02_level0_partial gives what every signal decodes to exactly; it is the quantised signal exactly if every difference to the prediction fits into its limits (C02_exact_partial)"
  },
  {
   "property": "C05",
   "status": "proved",
   "theorems": [
    "Adhoc.C05_split"
   ],
   "note": "also for signals that are out of sync"
  },
  {
   "property": "C06",
   "status": "proved",
   "theorems": [
    "Adhoc.C06_buffers",
    "Adhoc.C06_gaps"
   ],
   "note": "all levels; calls below 65536 blocks (see C16). With nine empty calls in a row the counts differ (see C07), but what is delivered is still the same (C06_gaps)"
  },
  {
   "property": "C07",
   "status": "partial",
   "theorems": [
    "Adhoc.C07_false",
    "Adhoc.C07_none_partial",
    "Adhoc.C07_exact_partial",
    "Adhoc.C07_counts_partial",
    "Adhoc.C07_go_on_partial"
   ],
   "note": "false as stated: nine empty encode calls in a row make decode return None early. It holds exactly when there are never nine in a row before a call with a block (C07_exact_partial); what every call returns otherwise is C07_counts_partial, and calling on delivers everything (C07_go_on_partial)"
  },
  {
   "property": "C08",
   "status": "proved",
   "theorems": [
    "Adhoc.C08_sticky_end"
   ],
   "note": "no condition on empty calls"
  },
  {
   "property": "C23",
   "status": "partial",
   "theorems": [
    "Adhoc.C23_false",
    "Adhoc.C23_tail_partial"
   ],
   "note": "false above level 0: the whole buffer is multiplied by the scale. C23_tail_partial is the exact behaviour on every codec state; the claim holds at level 0"
  },
  {
   "property": "C24",
   "status": "proved",
   "theorems": [
    "Adhoc.C24_channels"
   ],
   "note": "also for signals that are out of sync"
  },
  {
   "property": "C15",
   "status": "proved",
   "theorems": [
    "Adhoc.C15_sample_count"
   ],
   "note": "calls below 65536 blocks (see C16)"
  },
  {
   "property": "C16",
   "status": "partial",
   "theorems": [
    "Adhoc.C16_false",
    "Adhoc.C16_long_calls_partial"
   ],
   "note": "false as stated: a frame header keeps the length modulo 65536; every call of exactly 65536 mono samples is counted as empty. The exact count for all calls is proved"
  },
  {
   "property": "C19",
   "status": "partial",
   "theorems": [
    "Adhoc.C19_false",
    "Adhoc.C19_expansion_partial",
    "Adhoc.C19_worst_partial",
    "Adhoc.C19_reached_partial",
    "Adhoc.C19_any_length_partial"
   ],
   "note": "false in release builds for very long calls: the 32-bit sums compared by the encoder wrap, so the worst parameter is picked (16383 bits per sample for 262164 alternating samples in one call). Proved for calls of at most 131064 blocks, with the least bound: 16 bits for the first three samples of a channel and 17 for each other one, reached for every length by a full-scale alternation; for calls of any length 16386 bits per sample are never exceeded"
  },
  {
   "property": "C20",
   "status": "partial",
   "theorems": [
    "Adhoc.C20_false",
    "Adhoc.C20_optimal_parameter_partial",
    "Adhoc.C20_wrapped_partial"
   ],
   "note": "false in release builds for very long calls (the 32-bit sums wrap). Proved for calls of at most 131064 blocks; for calls of any length the exact choice is proved: the first parameter with the least positive sum modulo 2^32"
  },
  {
   "property": "C22",
   "status": "partial",
   "theorems": [
    "Adhoc.C22_false",
    "Adhoc.C22_encode_return_partial",
    "Adhoc.C22_wav_partial"
   ],
   "note": "false for AdhocCodec: it returns the length of the buffer including an unfinished block; exact behaviour proved. True for WavCodec (whole samples in the codec)"
  },
  {
   "property": "C63",
   "status": "proved",
   "theorems": [
    "Adhoc.C63_builds_agree"
   ],
   "note": ""
  },
  {
   "property": "C25",
   "status": "proved",
   "theorems": [
    "Adhoc.C25_panics_exactly",
    "Adhoc.C25_no_panic"
   ],
   "note": "for every sequence of encode, decode and rewind calls on a fresh codec: says exactly which sequences panic in a release build"
  },
  {
   "property": "C26",
   "status": "partial",
   "theorems": [
    "Adhoc.C26_false",
    "Adhoc.C26_debug_partial",
    "Adhoc.C26_exact_partial",
    "Adhoc.C26_high_levels_partial"
   ],
   "note": "false as stated: a full-scale alternating signal overflows an i16 subtraction in debug builds. For calls of at most 131064 blocks a debug build overflows exactly when some call codes more differences of at least 49152 than differences below 16384 for a channel. Overflow is shown to be the only extra panic, and it does not happen at levels 2 to 10 with samples in [-1, 1]"
  },
  {
   "property": "C27",
   "status": "partial",
   "theorems": [
    "Adhoc.C27_false",
    "Adhoc.C27_order_partial"
   ],
   "note": "false for codecs recorded into twice: with a longer old recording in memory, decoding right after recording panics. The rest is proved, with the exact condition"
  },
  {
   "property": "C32",
   "status": "partial",
   "theorems": [
    "Adhoc.C32_false",
    "Adhoc.C32_exactly_partial",
    "Adhoc.C32_corrupt_files_partial"
   ],
   "note": "false as stated: a file whose header count exceeds its header data loads and panics on decode. C32_exactly_partial gives the exact condition for a loaded release-build codec to survive every sequence of decode calls and rewinds. Loading itself never panics in release, and files with consistent header lengths and at least one channel never panic on decode"
  },
  {
   "property": "C09",
   "status": "proved",
   "theorems": [
    "Adhoc.C09_save_load",
    "Adhoc.C09_recordings"
   ],
   "note": "for every state reached by encode, decode and rewind calls, not only recordings; counters within the limits of their Rust types"
  },
  {
   "property": "C10",
   "status": "proved",
   "theorems": [
    "Adhoc.C10_torn_save",
    "Adhoc.C10_recordings"
   ],
   "note": "same states and limits as C09"
  },
  {
   "property": "C11",
   "status": "proved",
   "theorems": [
    "Adhoc.C11_save_reports"
   ],
   "note": "for every codec and every writer, including short and interrupted writes"
  },
  {
   "property": "C17",
   "status": "partial",
   "theorems": [
    "Adhoc.C17_false",
    "Adhoc.C17_upperbound_partial"
   ],
   "note": "false as stated: the estimate misses 352 bits. The exact difference is proved; it is an upper bound exactly if the vector of header nibbles has 44 unused bytes or more"
  },
  {
   "property": "C12",
   "status": "proved",
   "theorems": [
    "Adhoc.C12_seek_is_skip",
    "Adhoc.C12_gaps"
   ],
   "note": "for every mixture of reads and seeks, after rewinding, without rewinding, and after loading; streams below 2^64 bits. C12_gaps allows any empty calls"
  },
  {
   "property": "C13",
   "status": "partial",
   "theorems": [
    "Adhoc.C13_false",
    "Adhoc.C13_beyond_partial"
   ],
   "note": "false as stated: seeking behind the end panics. C13_beyond_partial says for every recording which seeks panic"
  },
  {
   "property": "C14",
   "status": "partial",
   "theorems": [
    "Adhoc.C14_false",
    "Adhoc.C14_seek_time_partial",
    "Adhoc.C14_exact_partial"
   ],
   "note": "false for extreme values, where the integer conversion saturates; proved with the saturation for all sample rates and times, together with the exact block"
  },
  {
   "property": "C34",
   "status": "partial",
   "theorems": [
    "Adhoc.C34_false",
    "Adhoc.C34_tape_partial",
    "Adhoc.C34_codecs",
    "Adhoc.C34_half_partial",
    "Adhoc.C34_every_codec"
   ],
   "note": "false for a codec loaded from a file ending in half a sample, where encoding at the end is misaligned; proved for every codec with whole samples and every sequence of calls. With half a sample at the end the exact behaviour of every sequence of calls is that of a tape on which samples are appended one byte too late (C34_half_partial); every codec with its cursor inside is of one of the two kinds (C34_every_codec)"
  },
  {
   "property": "C40",
   "status": "partial",
   "theorems": [
    "Adhoc.C40_false",
    "Adhoc.C40_seek_partial",
    "Adhoc.C40_exact_partial"
   ],
   "note": "false for extreme times, where the i64 product overflows; proved for all others, and that the cursor always stays inside. The exact result for all times, modulo 2^64 in release builds and with the exact condition of the panic in debug builds, is C40_exact_partial"
  },
  {
   "property": "C41",
   "status": "partial",
   "theorems": [
    "Adhoc.C41_false",
    "Adhoc.C41_end_partial"
   ],
   "note": "false as stated: End(0) goes to the start. Proved that End is the same as Start"
  },
  {
   "property": "C42",
   "status": "partial",
   "theorems": [
    "Adhoc.C42_false",
    "Adhoc.C42_empty_partial"
   ],
   "note": "false as stated: every seek on an empty stream panics"
  },
  {
   "property": "C43",
   "status": "partial",
   "theorems": [
    "Adhoc.C43_false",
    "Adhoc.C43_blocks_partial",
    "Adhoc.C43_exact_partial"
   ],
   "note": "false after a seek behind the end, which goes to the last sample instead of a block; proved for all encode and decode calls, and for exactly the seeks that do not go to the last sample of several channels; after those the next decode reports 1 and is between blocks again"
  },
  {
   "property": "C18",
   "status": "proved",
   "theorems": [
    "Adhoc.C18_wav_filesize"
   ],
   "note": "For every recording: whatever save_to writes to a faultless writer has exactly filesize_upperbound bits, and in release builds it always writes (in debug builds the header arithmetic can overflow for absurd headers)."
  },
  {
   "property": "C33",
   "status": "partial",
   "theorems": [
    "Adhoc.C33_false",
    "Adhoc.C33_data_size",
    "Adhoc.C33_save_load_partial"
   ],
   "note": "False as stated: recordings of less than 212 bytes cannot be loaded (C33_false), and a recording of exactly 1635017024 bytes loads with 32 bytes of header in front (C33_data_size). For all other sizes saving and loading is proved exact, in both builds."
  },
  {
   "property": "C35",
   "status": "partial",
   "theorems": [
    "Adhoc.C35_false",
    "Adhoc.C35_truncated_partial"
   ],
   "note": "False for the recording size whose size field spells 'data'. For all other sizes every prefix of the file is shown to load as the prefix of the recording, or to be rejected below 256 bytes."
  },
  {
   "property": "C36",
   "status": "partial",
   "theorems": [
    "Adhoc.C36_false",
    "Adhoc.C36_load_panics_partial"
   ],
   "note": "False: the exact set of panicking byte strings is proved (first 'data' at byte 249 to 252 of at least 256 bytes)."
  },
  {
   "property": "C37",
   "status": "partial",
   "theorems": [
    "Adhoc.C37_false",
    "Adhoc.C37_loaded_partial"
   ],
   "note": "False: chunks after the data chunk are loaded as sound. Proved for every file that loads: the sound is everything after the chunk header to the end of the file."
  },
  {
   "property": "C44",
   "status": "partial",
   "theorems": [
    "Adhoc.C44_false",
    "Adhoc.C44_short_writes_partial"
   ],
   "note": "False: the header goes through one write call whose count is ignored. Proved for every writer: the file is complete iff save_to succeeds and the first write takes all 44 bytes."
  },
  {
   "property": "C45",
   "status": "proved",
   "theorems": [
    "Adhoc.C45_eight_bit"
   ],
   "note": "Exact value of every loaded byte, in order, for every 8-bit file that loads; strictly monotone with the claimed ends."
  },
  {
   "property": "C03",
   "status": "proved",
   "theorems": [
    "Adhoc.C03_high_levels",
    "Adhoc.C03_gaps"
   ],
   "note": "levels 4 to 10, every signal in [-1, 1], every split into calls; with nine empty calls in a row C03_gaps"
  },
  {
   "property": "C04",
   "status": "proved",
   "theorems": [
    "Adhoc.C04_error_bound",
    "Adhoc.C04_gaps",
    "Adhoc.C04_exact",
    "Adhoc.C04_sharp"
   ],
   "note": "every level at which the decoder is in sync, which is exactly when it returns the stored codes (C04_exact); the bound is levelError L = 2^L * 1.01/32767 + 0.00101 (1 - 1/2^L), and at every level 0.94 of it are not enough (C04_sharp)"
  },
  {
   "property": "C38",
   "status": "partial",
   "theorems": [
    "Adhoc.C38_false",
    "Adhoc.C38_codes_partial"
   ],
   "note": "false for 1537 of the 65536 values; exactly which, and what they become, is proved, as is idempotence"
  },
  {
   "property": "C39",
   "status": "proved",
   "theorems": [
    "Adhoc.C39_conversion"
   ],
   "note": "all parts, for every f32"
  },
  {
   "property": "C56",
   "status": "proved",
   "theorems": [
    "Adhoc.C56_dither"
   ],
   "note": "any number of values, both builds; level 0 leaves every sample unchanged up to the sign of zero, which is not modelled"
  },
  {
   "property": "C57",
   "status": "proved",
   "theorems": [
    "Adhoc.C57_predictor"
   ],
   "note": "every three codes"
  },
  {
   "property": "C55",
   "status": "proved",
   "theorems": [
    "Adhoc.C55_branchless"
   ],
   "note": "every bit pattern, including NaN and infinities"
  },
  {
   "property": "C58",
   "status": "proved",
   "theorems": [
    "Adhoc.C58_round_trip"
   ],
   "note": "both builds. The header fields must fit (data below 4 GiB, sample rate * channels * 16 below 2^31), as in C33; with an odd number of data bytes the file is not a 16-bit WAV and not covered"
  },
  {
   "property": "C59",
   "status": "partial",
   "theorems": [
    "Adhoc.C59_false",
    "Adhoc.C59_partial"
   ],
   "note": "false: the result of save_to is dropped. Proved for every input and device what is returned and what the device has received"
  },
  {
   "property": "C60",
   "status": "proved",
   "theorems": [
    "Adhoc.C60_same_length"
   ],
   "note": "all lengths from 2 to 2^24"
  },
  {
   "property": "C61",
   "status": "partial",
   "theorems": [
    "Adhoc.C61_false",
    "Adhoc.C61_partial"
   ],
   "note": "false for stems with a dot, which lose what follows it, so that outputs collide; the exact output name is proved for all stems except . and .., which are in C148"
  },
  {
   "property": "C64",
   "status": "proved",
   "theorems": [
    "Adhoc.C64_same_shape"
   ],
   "note": "header fields in range as in C58"
  },
  {
   "property": "C62",
   "status": "proved",
   "theorems": [
    "Adhoc.C62_serialised_list"
   ],
   "note": "every history of C52; the items' own serialisation is only assumed to read back what it wrote; truncated serialisations are rejected"
  },
  {
   "property": "C21",
   "status": "partial",
   "theorems": [
    "Adhoc.C21_false",
    "Adhoc.C21_field_partial",
    "Adhoc.C21_again_partial",
    "Adhoc.C21_level0_partial"
   ],
   "note": "false in two ways: old frames stay behind a shorter recording, and old bits are mixed into fields crossing a 128-bit boundary. Proved: for one field over any memory exactly what is read back, and exactly when it survives; after any history of calls other than loads, a new recording panics as on a new codec, has the same headers up to its length and its bits lie between the new ones and the new ones joined with the old; at level 0 it plays the same if it is no shorter and the old bits are among its own"
  },
  {
   "property": "C65",
   "status": "proved",
   "theorems": [
    "Adhoc.C65_riff"
   ],
   "note": "for headers whose fields fit"
  },
  {
   "property": "C66",
   "status": "proved",
   "theorems": [
    "Adhoc.C66_accepted"
   ],
   "note": "together with C36, which covers strings shorter than a header"
  },
  {
   "property": "C67",
   "status": "proved",
   "theorems": [
    "Adhoc.C67_convolution",
    "Adhoc.C67_short_result"
   ],
   "note": ""
  },
  {
   "property": "C68",
   "status": "partial",
   "theorems": [
    "Adhoc.C68_false",
    "Adhoc.C68_resample_partial"
   ],
   "note": "false for d = 1: the code divides by zero and writes NaN; proved for every d from 2 to 2^24"
  },
  {
   "property": "C69",
   "status": "partial",
   "theorems": [
    "Adhoc.C69_false",
    "Adhoc.C69_schedule_partial",
    "Adhoc.C69_wav_inputs_partial"
   ],
   "note": "false when two inputs share an output name (x/a.wav and y/a.wav) or an output is an input; proved for all runs otherwise, and that WAV inputs with different names without further dots are such"
  },
  {
   "property": "C70",
   "status": "proved",
   "theorems": [
    "Adhoc.C70_interrupted",
    "Adhoc.C70_torn_adhoc"
   ],
   "note": "for inputs that do not share outputs (C69); in-order writes, no loss of written data at a power failure; torn .adhoc files for 16-bit WAV inputs of at most 1024 channels"
  },
  {
   "property": "C71",
   "status": "proved",
   "theorems": [
    "Adhoc.C71_codes_only",
    "Adhoc.C71_generations"
   ],
   "note": "buffers cut like the calls, calls of whole blocks"
  },
  {
   "property": "C72",
   "status": "proved",
   "theorems": [
    "Adhoc.C72_compression",
    "Adhoc.C72_constant"
   ],
   "note": "about the codes the encoder stores; at level 0 these are the 16-bit codes of the samples (C72_constant)"
  },
  {
   "property": "C73",
   "status": "proved",
   "theorems": [
    "Adhoc.C73_cli_error"
   ],
   "note": "header fields in range as in C58; level 0 is C58"
  },
  {
   "property": "C74",
   "status": "partial",
   "theorems": [
    "Adhoc.C74_false",
    "Adhoc.C74_cursor_partial",
    "Adhoc.C74_recording_partial"
   ],
   "note": "false: reads raise the capacity too; proved that it is the furthest position of the cursor after any call, reads included, and that it is the length after a recording"
  },
  {
   "property": "C75",
   "status": "proved",
   "theorems": [
    "Adhoc.C75_quiet",
    "Adhoc.C75_smooth",
    "Adhoc.C75_sharp"
   ],
   "note": "complements C01, C02 and C03"
  },
  {
   "property": "C76",
   "status": "proved",
   "theorems": [
    "Adhoc.C76_append",
    "Adhoc.C76_snapshot"
   ],
   "note": ""
  },
  {
   "property": "C77",
   "status": "proved",
   "theorems": [
    "Adhoc.C77_damage",
    "Adhoc.C77_file"
   ],
   "note": "targets strictly behind the damage and within the recording; streams below 2^64 bits, files of fewer than 2^32 frames"
  },
  {
   "property": "C78",
   "status": "proved",
   "theorems": [
    "Adhoc.C78_every_call_ends"
   ],
   "note": "every codec state and every input, both builds; the model's round limits are never reached, and more rounds change nothing"
  },
  {
   "property": "C79",
   "status": "proved",
   "theorems": [
    "Adhoc.C79_bounded_by_file"
   ],
   "note": "every byte string that loads; also with zero channels, where every read panics"
  },
  {
   "property": "C80",
   "status": "partial",
   "theorems": [
    "Adhoc.C80_false",
    "Adhoc.C80_vectors_partial"
   ],
   "note": "false: the channel count is a 32-bit field of the file, and 117 bytes make 4294967295 channel states. Everything else a loaded codec holds is bounded by the size of the file"
  },
  {
   "property": "C81",
   "status": "proved",
   "theorems": [
    "Adhoc.C81_canonical",
    "Adhoc.C81_injective"
   ],
   "note": "every byte string that loads, also corrupt ones; injective for all codecs with counters in the range of their Rust types"
  },
  {
   "property": "C82",
   "status": "proved",
   "theorems": [
    "Adhoc.C82_period",
    "Adhoc.C82_triangular"
   ],
   "note": "any number of values, both builds; the shares over one period are computed in the kernel and carried to all whole periods by the period"
  },
  {
   "property": "C83",
   "status": "partial",
   "theorems": [
    "Adhoc.C83_false",
    "Adhoc.C83_level_partial"
   ],
   "note": "false as stated: a number from 2^32 on counts as 5, silently, and so does any text that is not a number. Proved: exactly which values count as which level, and that the level reaches the file"
  },
  {
   "property": "C84",
   "status": "partial",
   "theorems": [
    "Adhoc.C84_false",
    "Adhoc.C84_dispatch_partial"
   ],
   "note": "false as stated: an extension in capitals is passed over (and convert_file returns Some), and any extension that contains wav or adhoc is taken. Proved: exactly what is converted, and where to. File names are valid Unicode; what clap does is not modelled"
  },
  {
   "property": "C85",
   "status": "proved",
   "theorems": [
    "Adhoc.C85_map"
   ],
   "note": "the decoders of the two values are parameters; the format delivers the entries of the map in some order"
  },
  {
   "property": "C86",
   "status": "proved",
   "theorems": [
    "Adhoc.C86_histogram"
   ],
   "note": "within 2^-20 of the bounds of a tenth the part is one of the two neighbours, by the rounding of the bounds; without values the division by zero panics"
  },
  {
   "property": "C87",
   "status": "partial",
   "theorems": [
    "Adhoc.C87_false",
    "Adhoc.C87_mse_partial"
   ],
   "note": "false for empty signals, whose error is NaN. Proved otherwise, for every squaring function that is 0 at 0 and even (Rust does not specify powf)"
  },
  {
   "property": "C88",
   "status": "partial",
   "theorems": [
    "Adhoc.C88_false",
    "Adhoc.C88_ends_partial",
    "Adhoc.C88_places_partial",
    "Adhoc.C88_bell_partial"
   ],
   "note": "false: N = 1 gives NaN, and of four coefficients the inner two are taken at places that are not mirror images. Proved: N values, and the first is the last; all places are in [-r, r], in order, within r / 2^21 of where they should be, mirrored ones within r / 2^20, and with odd N the middle one is 0. exp, powf and sqrt are parameters, so this holds for any values of theirs; if they are monotone (Platform), the coefficients are finite, not negative, rise to the middle and fall from there on (C88_bell_partial)"
  },
  {
   "property": "C89",
   "status": "proved",
   "theorems": [
    "Adhoc.C89_same_again"
   ],
   "note": "level 0, where no noise is added; any calls that a new codec accepts, both builds"
  },
  {
   "property": "C90",
   "status": "proved",
   "theorems": [
    "Adhoc.C90_seek_resync",
    "Adhoc.C90_repaired",
    "Adhoc.C90_gaps"
   ],
   "note": "targets within the recording; calls as in C01, streams below 2^64 bits. C90_gaps allows any empty calls"
  },
  {
   "property": "C91",
   "status": "proved",
   "theorems": [
    "Adhoc.C91_any_order",
    "Adhoc.C91_info_again",
    "Adhoc.C91_levels"
   ],
   "note": "before a recording the channel counts may change too; during it they stay the same. Calls as in C01"
  },
  {
   "property": "C92",
   "status": "partial",
   "theorems": [
    "Adhoc.C92_false",
    "Adhoc.C92_gain_partial"
   ],
   "note": "false: playing multiplies by 2 to the level set last, so a recording gets louder or quieter when its level is set. Proved: exactly this, for every codec state and every sequence of reads and seeks"
  },
  {
   "property": "C93",
   "status": "partial",
   "theorems": [
    "Adhoc.C93_false",
    "Adhoc.C93_mono_partial",
    "Adhoc.C93_close_partial"
   ],
   "note": "false with more than one channel at levels above 0, where the cut decides which sample gets which noise. Proved: it holds at every level for one channel (level 0 for any number of channels is C05), and for any number of channels no sample in [-1, 1] changes by more than twice the error of the level while the decoder is in sync"
  },
  {
   "property": "C94",
   "status": "proved",
   "theorems": [
    "Adhoc.C94_alone"
   ],
   "note": "calls as in C01; the channels alone are recorded by a release build, which cannot overflow (C26)"
  },
  {
   "property": "C95",
   "status": "proved",
   "theorems": [
    "Adhoc.C95_settles"
   ],
   "note": "shorter data and the one size 1635017024 make a WAV file that does not load or loads otherwise (C33)"
  },
  {
   "property": "C96",
   "status": "proved",
   "theorems": [
    "Adhoc.C96_size",
    "Adhoc.C96_sound"
   ],
   "note": "calls as in C01 for the sound; the model has no negative zero"
  },
  {
   "property": "C97",
   "status": "partial",
   "theorems": [
    "Adhoc.C97_false",
    "Adhoc.C97_modes_partial",
    "Adhoc.C97_then_partial"
   ],
   "note": "false: seeks relative to the position or the end panic (unimplemented!), and after a seek to a later time recording panics. Proved: what every way to seek does, in every codec state, and what recording after a seek does"
  },
  {
   "property": "C98",
   "status": "partial",
   "theorems": [
    "Adhoc.C98_false",
    "Adhoc.C98_over_partial",
    "Adhoc.C98_whole_partial",
    "Adhoc.C98_no_end_partial"
   ],
   "note": "false: recording into a loaded codec starts over on top of the file, and panics once something was played or sought. Proved: exactly what it writes, at every level; that it panics, for every file; and that recording everything again with more behind gives the uninterrupted recording bit by bit"
  },
  {
   "property": "C99",
   "status": "partial",
   "theorems": [
    "Adhoc.C99_false",
    "Adhoc.C99_corrected_partial"
   ],
   "note": "false: a count that is too small loses the state of the other channels. Proved: after a count that is large enough the codec is as before, and after one that is too small exactly which channels are new"
  },
  {
   "property": "C100",
   "status": "partial",
   "theorems": [
    "Adhoc.C100_false",
    "Adhoc.C100_hiss_partial",
    "Adhoc.C100_gate_partial"
   ],
   "note": "false at the levels 1 to 4, where the noise alone is stored as up to 8, 6, 3 and 1 steps. Proved: these bounds (an example shows that they are reached), that silence stays silent at the levels 0 and 5 to 10, and there also every silent or faint sample in any recording"
  },
  {
   "property": "C101",
   "status": "partial",
   "theorems": [
    "Adhoc.C101_false",
    "Adhoc.C101_values_partial",
    "Adhoc.C101_refused_partial",
    "Adhoc.C101_period_partial"
   ],
   "note": "false: with the seed 455685 (and all congruent to it modulo 507961) the generator stands still, so that all triangular values are 0, and with seeds from 18446688733644 on a debug build panics at the first value. Proved: exactly these seeds; every other seed gives the stated values without panic, with the exact periods 253980 (uniform) and 126990 (triangular)."
  },
  {
   "property": "C102",
   "status": "proved",
   "theorems": [
    "Adhoc.C102_loaded",
    "Adhoc.C102_recorded"
   ],
   "note": "for all byte strings that load accepts and all sequences of reads and seeks; for recordings under the bound 2^level, without the excess of 1/32768 that a raw -32768 in a made-up file gives."
  },
  {
   "property": "C103",
   "status": "partial",
   "theorems": [
    "Adhoc.C103_false",
    "Adhoc.C103_level0_partial",
    "Adhoc.C103_headroom_partial"
   ],
   "note": "false above level 0: samples of 3/2 play as 3/2 at level 1. Proved: at level 0 the recording is bit for bit that of the clipped signal, for all samples; at every level, when in sync, every sample is played as the sample limited to [-2^L, 2^L] up to a stated error, so that level L clips at 2^L."
  },
  {
   "property": "C104",
   "status": "proved",
   "theorems": [
    "Adhoc.C104_parabola",
    "Adhoc.C104_points"
   ],
   "note": "for samples of at most M <= 2^100 and places of at most X <= 1024 (X >= 1) the error is at most (2 + 28 X + 16 X^2) M / 2^24 + X^2 / 2^140; sharper at the three points."
  },
  {
   "property": "C105",
   "status": "partial",
   "theorems": [
    "Adhoc.C105_false",
    "Adhoc.C105_compress_partial",
    "Adhoc.C105_decompress_partial",
    "Adhoc.C105_round_trip_partial"
   ],
   "note": "false: decompress ends normally after a device took only ten bytes of the 44-byte header (the header is written with one unchecked write, see C44). Proved: exactly when each program runs to its end, which for compress is when the device took the whole file; the round trip for every WAV file with at least 3 blocks and at most 341 channels, within 165 of 32768."
  },
  {
   "property": "C106",
   "status": "partial",
   "theorems": [
    "Adhoc.C106_false",
    "Adhoc.C106_remove_partial",
    "Adhoc.C106_insert_partial"
   ],
   "note": "false: with one item left remove_at removes it whatever pointer is given, and insert_at to the right of a free slot that points to another one hangs the new item into the free slots, so that it is lost and the first item is iterated twice. Proved: exactly what both calls do with the pointer of a free slot, after every history."
  },
  {
   "property": "C107",
   "status": "proved",
   "theorems": [
    "Adhoc.C107_iter_mut"
   ],
   "note": "the aliasing rules behind the transmute are not modelled; an unchecked access out of range is a panic in the model, which the theorem excludes."
  },
  {
   "property": "C108",
   "status": "proved",
   "theorems": [
    "Adhoc.C108_cache",
    "Adhoc.C108_ring"
   ],
   "note": "the order of the HashMap is arbitrary; the serialisation of keys, values and items is only assumed to read back what it wrote."
  },
  {
   "property": "C109",
   "status": "partial",
   "theorems": [
    "Adhoc.C109_false",
    "Adhoc.C109_range_partial",
    "Adhoc.C109_stale_partial"
   ],
   "note": "False: an insertion with a stale pointer makes iter_mut hand out one item twice, that is two mutable references to one place, without unsafe code of the caller. Proved: for every list whatsoever the accesses stay inside its memory; after any history with live pointers (where C107 holds) an insertion with a stale pointer other than NULL that does not panic always makes a duplicate."
  },
  {
   "property": "C110",
   "status": "partial",
   "theorems": [
    "Adhoc.C110_false",
    "Adhoc.C110_exact_partial",
    "Adhoc.C110_survives_partial",
    "Adhoc.C110_capped_partial"
   ],
   "note": "False: 30976 written over ones with 256 as the divisor is read back as 31200, because the part of the remainder beyond a 128-bit boundary is or-ed into the old bits. Proved for every memory, place, divisor and number: what exactly is read back, with both functions; when the number survives; that it always does with the divisors 1 and 2 of the crate's tests."
  },
  {
   "property": "C111",
   "status": "partial",
   "theorems": [
    "Adhoc.C111_false",
    "Adhoc.C111_exactly_partial",
    "Adhoc.C111_survives_partial"
   ],
   "note": "False: files without channels and files with fewer than three samples for each channel make the tool panic, and of files with more than 1024 channels it writes a recording without sound. Proved: for every accepted file what exactly happens, and in a release build which files are compressed."
  },
  {
   "property": "C112",
   "status": "partial",
   "theorems": [
    "Adhoc.C112_false",
    "Adhoc.C112_worst_case_partial",
    "Adhoc.C112_all_levels_partial",
    "Adhoc.C112_smaller_partial"
   ],
   "note": "False: eight silent samples take 63 bits at level 0, but 75, 72, 70 and 65 at the levels 1 to 4, which store noise. Proved: at level L from 3 to 10 no recording of samples in [-1, 1] takes more than 48 + (21 - L)(N - 3) bits for each channel of N samples (17 instead of 21 - L at the levels 0 to 4), and from level 6 on it takes fewer bits than 16 for each sample."
  },
  {
   "property": "C113",
   "status": "proved",
   "theorems": [
    "Adhoc.C113_causal",
    "Adhoc.C113_pointwise"
   ],
   "note": "for two recordings whose calls have the same lengths (the noise restarts with each call)."
  },
  {
   "property": "C114",
   "status": "proved",
   "theorems": [
    "Adhoc.C114_label",
    "Adhoc.C114_seek",
    "Adhoc.C114_file"
   ],
   "note": "for every codec whatsoever, also one loaded from a made-up file."
  },
  {
   "property": "C115",
   "status": "partial",
   "theorems": [
    "Adhoc.C115_false",
    "Adhoc.C115_adhoc_partial",
    "Adhoc.C115_wav_partial"
   ],
   "note": "False: even encoding or decoding nothing divides by zero. Proved for every codec of no channels in whatever state: which calls panic and which do not."
  },
  {
   "property": "C116",
   "status": "partial",
   "theorems": [
    "Adhoc.C116_false",
    "Adhoc.C116_recording_partial",
    "Adhoc.C116_any_partial"
   ],
   "note": "False as stated: a file with a header and no data is accepted by load, and reading from it appends zero chunks, so the next save is longer (C116_false). Proved: for every recording, both from the encoder and reloaded, any reads and any seeks inside the signal leave the saved bytes exactly as they were; for every codec whatsoever, finished reads and seeks can only append zero chunks and raise the stated length."
  },
  {
   "property": "C117",
   "status": "partial",
   "theorems": [
    "Adhoc.C117_false",
    "Adhoc.C117_exact_partial",
    "Adhoc.C117_calls_partial"
   ],
   "note": "False as stated: with the cursor set two chunks beyond the end a write is an index panic (C117_false). Proved: for every memory and position the exact condition under which write_bits, read_bits, write_bit and read_bit succeed, and what the reads return; and that sequences of any calls that do not set the cursor beyond the memory never fail except by debug overflow checks."
  },
  {
   "property": "C118",
   "status": "partial",
   "theorems": [
    "Adhoc.C118_false",
    "Adhoc.C118_cleared_partial",
    "Adhoc.C118_zero_needed"
   ],
   "note": "False as stated: read_bit does not move beyond the memory of a new stream but does move in a cleared one (C118_false). Proved for all sequences of calls in which single bits and compressed numbers are read only where the new stream has memory; and that seek_start without zero is not enough."
  },
  {
   "property": "C119",
   "status": "partial",
   "theorems": [
    "Adhoc.C119_false",
    "Adhoc.C119_last_false",
    "Adhoc.C119_range_partial",
    "Adhoc.C119_polarity"
   ],
   "note": "False as stated: two samples 13/16 stretched to six give a sample one unit in the last place larger, and two samples stretched to 42 lose the last one by a unit. Proved: the first sample is exact, nothing leaves [-1, 1], no negative samples appear, the range is exceeded by at most 2^-21 whatever the lengths, and polarity does not matter."
  },
  {
   "property": "C120",
   "status": "proved",
   "theorems": [
    "Adhoc.C120_shift",
    "Adhoc.C120_identity",
    "Adhoc.C120_response",
    "Adhoc.C120_silence",
    "Adhoc.C120_local",
    "Adhoc.C120_polarity"
   ],
   "note": "For convolve_1d; by C55 the branchless version does the same. The shift, response and silence laws need finite numbers: zero times infinity is NaN (example)."
  },
  {
   "property": "C121",
   "status": "partial",
   "theorems": [
    "Adhoc.C121_false",
    "Adhoc.C121_decompress_partial",
    "Adhoc.C121_wide"
   ],
   "note": "False as stated: with more than 1024 channels one sample of each does not fit the tool's buffer and the tool writes a WAV file without any samples and reports success (C121_wide, C121_false). Proved for all recordings with up to 1024 channels."
  },
  {
   "property": "C122",
   "status": "proved",
   "theorems": [
    "Adhoc.C122_file"
   ],
   "note": "The layout is described in Verif/Spec/Format.lean without reference to the codec's data structures. It includes the spare 16-byte block at the end of the sound, which depends on the width of the number written last."
  },
  {
   "property": "C123",
   "status": "proved",
   "theorems": [
    "Adhoc.C123_length",
    "Adhoc.C123_tool",
    "Adhoc.C123_smaller"
   ],
   "note": "C123_tool bounds the file at levels 4 to 10 for up to 341 channels: 21 - level bits for a sample plus the headers."
  },
  {
   "property": "C124",
   "status": "partial",
   "theorems": [
    "Adhoc.C124_false",
    "Adhoc.C124_slots_partial",
    "Adhoc.C124_queue_partial",
    "Adhoc.C124_history_partial"
   ],
   "note": "False: q[i] reads the backing store, so after pop_front q[0] is still the removed item (C124_false). Proved: the i-th item is at (front + i) mod capacity and assigning there replaces exactly it; q[i] is the i-th item while items were only added at the rear; for the history, prev(k) is at (cursor - k) mod 4."
  },
  {
   "property": "C125",
   "status": "proved",
   "theorems": [
    "Adhoc.C125_compressed",
    "Adhoc.C125_capped",
    "Adhoc.C125_aligned",
    "Adhoc.C125_unaligned",
    "Adhoc.C125_unaligned_sharp",
    "Adhoc.C125_read_back",
    "Adhoc.C125_sanity",
    "Adhoc.C125_sanity_tests"
   ],
   "note": "The tests are written as programs on the model; the remaining tests with assertions are replayed as examples in the same file."
  },
  {
   "property": "C126",
   "status": "proved",
   "theorems": [
    "Adhoc.C126_copy",
    "Adhoc.C126_again",
    "Adhoc.C126_exact",
    "Adhoc.C126_file"
   ],
   "note": "The loop of the test is a program on the model. The theorems about cells are for codecs with whole samples; C126_file is for every accepted file, also one that ends with half a sample."
  },
  {
   "property": "C127",
   "status": "proved",
   "theorems": [
    "Adhoc.C127_player",
    "Adhoc.C127_gaps"
   ],
   "note": "For recordings whose calls have fewer than 65536 blocks and never nine without a block in a row (C127_gaps otherwise), and whose counters fit the fields of the file. The player shares with the model only the arithmetic of one sample: the prediction (C57) and the conversion of a code to a float (C38)."
  },
  {
   "property": "C128",
   "status": "proved",
   "theorems": [
    "Adhoc.C128_foreign",
    "Adhoc.C128_gaps",
    "Adhoc.C128_go_on"
   ],
   "note": "For levels up to 30 (31 gives a negative scale, more overflows), pieces of fewer than 65536 samples with as many in every channel, values of 16 bits without -32768, no table shorter than the number of pieces (otherwise indexing panics), and never nine rows without a sample before one with samples (what happens otherwise is C128_gaps and C128_go_on)."
  },
  {
   "property": "C129",
   "status": "proved",
   "theorems": [
    "Adhoc.C129_inverse",
    "Adhoc.C129_close"
   ],
   "note": "Header fields in range as in C58. C129_inverse covers every level for which the tool's conversion does not panic (see C26 for debug builds at low levels); C129_close is level 4, without further conditions."
  },
  {
   "property": "C130",
   "status": "proved",
   "theorems": [
    "Adhoc.C130_seek",
    "Adhoc.C130_beyond",
    "Adhoc.C130_gaps"
   ],
   "note": "Files as in C128 (level at most 30, no nine empty rows before one with samples; otherwise C130_gaps), of fewer than 2^64 samples. The place a seek goes to is seekOffset, whose accuracy is C14."
  },
  {
   "property": "C131",
   "status": "proved",
   "theorems": [
    "Adhoc.C131_alike",
    "Adhoc.C131_recording",
    "Adhoc.C131_loading"
   ],
   "note": "The flags of the frame headers are taken as on 64 bits (there are fewer than 2^32 frames). C131_alike with 64 bits also shows what the unbounded cursors of the model leave out."
  },
  {
   "property": "C132",
   "status": "partial",
   "theorems": [
    "Adhoc.C132_false",
    "Adhoc.C132_exactly_partial",
    "Adhoc.C132_others_partial"
   ],
   "note": "False: the number of bits is a usize product, which overflows from 512 megabytes on; nine hours of silence take 540 megabytes. Proved: exactly what is reported or panics, also for the other sizes of the bit stream."
  },
  {
   "property": "C133",
   "status": "proved",
   "theorems": [
    "Adhoc.C133_adhoc",
    "Adhoc.C133_wav"
   ],
   "note": "A reader that claims to be at its end too early is left out for WAV: the samples behind are lost without an error (example beside the theorem)."
  },
  {
   "property": "C134",
   "status": "proved",
   "theorems": [
    "Adhoc.C134_one_file"
   ],
   "note": ""
  },
  {
   "property": "C135",
   "status": "proved",
   "theorems": [
    "Adhoc.C135_codec",
    "Adhoc.C135_programs"
   ],
   "note": "Encoding behind the half sample is not meant: it ends up in the new samples (example beside the theorem; C34)."
  },
  {
   "property": "C136",
   "status": "partial",
   "theorems": [
    "Adhoc.C136_false",
    "Adhoc.C136_exactly_partial",
    "Adhoc.C136_header_partial",
    "Adhoc.C136_layout_partial"
   ],
   "note": "False: the bytes are seen as i16 without regard to alignment; decode of a codec just made (nothing allocated, dangling address 1) and of samples at an odd address is undefined, and aborts in debug builds since Rust 1.78. Proved: it is defined exactly if bytes are allocated at an even address, and then the view and all indices are inside; the views of the header are always valid."
  },
  {
   "property": "C137",
   "status": "partial",
   "theorems": [
    "Adhoc.C137_false",
    "Adhoc.C137_little_partial",
    "Adhoc.C137_view_partial",
    "Adhoc.C137_refused_partial",
    "Adhoc.C137_saved_partial",
    "Adhoc.C137_header_partial"
   ],
   "note": "False on big-endian machines: every sample is decoded with its bytes exchanged, every WAV file of another machine is refused, and so is theirs elsewhere. On little-endian machines everything is as modelled. The .adhoc format has no such dependence: bincode and the bit stream use arithmetic only."
  },
  {
   "property": "C138",
   "status": "proved",
   "theorems": [
    "Adhoc.C138_allocations"
   ],
   "note": "Seven vectors, each allocated at most log2 N + 9 times, where N counts samples and frames. Assumes the doubling of Vec in the standard library; allocations of decode (VecDeque) and of the caller are not counted."
  },
  {
   "property": "C139",
   "status": "proved",
   "theorems": [
    "Adhoc.C139_encode",
    "Adhoc.C139_recording",
    "Adhoc.C139_playing",
    "Adhoc.C139_replaying"
   ],
   "note": "A tick for every round of every loop, in copies of the model's functions that are shown to give the same results and panics. 276 ticks for every sample or frame recorded; 93 for every sample asked for, 130 for every sample declared and one for every 16 bytes when playing. Runs that panic are not bounded."
  },
  {
   "property": "C140",
   "status": "proved",
   "theorems": [
    "Adhoc.C140_seek"
   ],
   "note": "With the same clock. The constant is one frame of 65535 samples for every channel."
  },
  {
   "property": "C141",
   "status": "proved",
   "theorems": [
    "Adhoc.C141_memory",
    "Adhoc.C141_seeks"
   ],
   "note": "For runs that do not panic. C141_seeks adds seeks to any place, for files whose stored positions are inside their data. The waiting samples are bounded for each channel."
  },
  {
   "property": "C142",
   "status": "partial",
   "theorems": [
    "Adhoc.C142_false",
    "Adhoc.C142_below_partial",
    "Adhoc.C142_push_partial",
    "Adhoc.C142_next_partial",
    "Adhoc.C142_full_partial",
    "Adhoc.C142_behind_partial"
   ],
   "note": "False as stated: nibble_count and header_cursor are u32, so the 2^32nd push panics in a debug build (C142_false). Proved: below 2^32 frames the index is right in both builds and equal to the index of the model with unbounded counters; a push into any index, also one wound back, is that of the model with unbounded counters; reading never overflows; in a release build the index of 2^32 frames is empty, and the header pushed next is lost: read in its place is the first one, with the exponents merged."
  },
  {
   "property": "C143",
   "status": "partial",
   "theorems": [
    "Adhoc.C143_false",
    "Adhoc.C143_inside_partial",
    "Adhoc.C143_both_partial",
    "Adhoc.C143_recording_partial"
   ],
   "note": "False as stated: in a file whose stored position lies a chunk too far the seek panics, but not after a read, which has made the stream longer (C143_false). Proved for every codec in every state: equal, panics included, if the stored positions are inside the stored chunks or if it is only wound back to the start; for all files equal whenever both succeed; and for every recording, in memory or loaded."
  },
  {
   "property": "C144",
   "status": "partial",
   "theorems": [
    "Adhoc.C144_false",
    "Adhoc.C144_exact_partial",
    "Adhoc.C144_threaded_partial",
    "Adhoc.C144_long_partial"
   ],
   "note": "False as stated: 45 bytes with one node linking to itself and length 2 are read as a list of which iter_mut hands out the only item twice (C144_false). Proved for every list: it holds exactly if the right links lead through as many different full slots as the length says; then both iterators give the items in this order; and it never holds if the length exceeds the memory."
  },
  {
   "property": "C145",
   "status": "proved",
   "theorems": [
    "Adhoc.C145_encode",
    "Adhoc.C145_decode",
    "Adhoc.C145_buffered",
    "Adhoc.C145_made",
    "Adhoc.C145_loaded",
    "Adhoc.C145_rest",
    "Adhoc.C145_wav_encode",
    "Adhoc.C145_wav_decode",
    "Adhoc.C145_convolve",
    "Adhoc.C145_other",
    "Adhoc.C145_signs"
   ],
   "note": "Proved with a second model of f32 that has two zeros (Z32) and a second copy of every function through which samples pass; also shows that the single zero of the model F32 loses nothing else."
  },
  {
   "property": "C146",
   "status": "partial",
   "theorems": [
    "Adhoc.C146_false",
    "Adhoc.C146_calls_partial",
    "Adhoc.C146_fits_partial",
    "Adhoc.C146_full_partial",
    "Adhoc.C146_after_partial"
   ],
   "note": "False as stated: the 2^32nd item makes a debug build panic and empties the list in a release build (C146_false, C146_full_partial); the item pushed after that is not in the list either, which then holds the very first item (C146_after_partial). Proved: up to 2^32 - 1 items all calls do what they do with an unbounded length, in both builds, and so C52 holds for the list with 32 bits."
  },
  {
   "property": "C147",
   "status": "partial",
   "theorems": [
    "Adhoc.C147_false",
    "Adhoc.C147_exact_partial",
    "Adhoc.C147_read_partial",
    "Adhoc.C147_items_partial",
    "Adhoc.C147_new_partial"
   ],
   "note": "False as stated: 26 bytes with capacity 3 are read although new rejects this capacity (C147_false). Proved with all u32 sums of both builds: a ring buffer acts as a bounded deque exactly if it is empty of capacity 0, or its capacity is a power of two not above the size of the store, both ends are inside and the rear is len behind the front (item types with at least two values); the items are then read off the store. A buffer made by new acts as a deque exactly if its store has room for the capacity."
  },
  {
   "property": "C148",
   "status": "partial",
   "theorems": [
    "Adhoc.C148_false",
    "Adhoc.C148_exact_partial"
   ],
   "note": "False: a file called ..wav has the stem '.', and converted into the directory out it is written to out.adhoc beside the directory (C148_false). Proved for all paths: exactly where the output goes; it is directly in the directory for every stem but . and ..; with .. no file can be created."
  },
  {
   "property": "C149",
   "status": "proved",
   "theorems": [
    "Adhoc.C149_own_input"
   ],
   "note": "for all paths as written; links and file systems that ignore case are not modelled"
  },
  {
   "property": "C150",
   "status": "partial",
   "theorems": [
    "Adhoc.C150_false",
    "Adhoc.C150_last_partial",
    "Adhoc.C150_before_partial"
   ],
   "note": "False: of 65539 stereo blocks with silence on the left, the right channel is read from the left over bits of the left channel and is silent too (C150_false). Proved at every level: in mono with only the last call too long, exactly its end is lost and what every read returns is given; with any channels, what was recorded before the first call that is too long plays as ever. Not proved: what the rubbish read after it is."
  },
  {
   "property": "C151",
   "status": "partial",
   "theorems": [
    "Adhoc.C151_false",
    "Adhoc.C151_made_partial",
    "Adhoc.C151_reached_partial",
    "Adhoc.C151_lookup_partial"
   ],
   "note": "False: 44 bytes are read as a cache of which looking up 7 panics (C151_false). Proved: a condition on the table and the slots under which a cache, whoever made it, answers every sequence of calls like the recency-ordered list of its items (C151_made_partial), which every cache a program can reach fulfils (C151_reached_partial); and for any cache whatever, what lookup does and when it panics. Not proved: that no cache outside the condition behaves well."
  },
  {
   "property": "C152",
   "status": "partial",
   "theorems": [
    "Adhoc.C152_false",
    "Adhoc.C152_exactly_partial",
    "Adhoc.C152_always_partial",
    "Adhoc.C152_saved_partial"
   ],
   "note": "False: over a file that counts one header but holds none, nothing can be recorded (C152_false). Proved for every file: exactly how many headers, one per call and channel, can be written before an index is out of range (C152_exactly_partial), exactly which files every recording can be made over (C152_always_partial), and that all saved recordings are among them (C152_saved_partial)."
  },
  {
   "property": "C153",
   "status": "partial",
   "theorems": [
    "Adhoc.C153_false",
    "Adhoc.C153_exactly_partial",
    "Adhoc.C153_debug_partial"
   ],
   "note": "False: a file that is said to have a frame more than a chunk behind its data can be loaded and played, but a seek to that frame panics (C153_false). Proved for every file whose stored positions are in its chunks or at their end: a sequence of reads and seeks succeeds if and only if all the times are in the file, and otherwise panics because a header is missing (C153_exactly_partial); a debug build may also overflow (C153_debug_partial)."
  },
  {
   "property": "C154",
   "status": "proved",
   "theorems": [
    "Adhoc.C154_sessions",
    "Adhoc.C154_wav",
    "Adhoc.C154_tool",
    "Adhoc.C154_stream",
    "Adhoc.C154_containers",
    "Adhoc.C154_signal"
   ],
   "note": "no hypotheses; which calls do overflow in a debug build is C26 for recordings"
  },
  {
   "property": "C155",
   "status": "proved",
   "theorems": [
    "Adhoc.C155_encode",
    "Adhoc.C155_decode",
    "Adhoc.C155_wav_encode",
    "Adhoc.C155_wav_decode"
   ],
   "note": "for codecs whose stream info is set (all others panic); AdhocCodec::encode counts the samples dropped as well (C22), and AdhocCodec::decode multiplies the places it does not fill (C23), as the equations say"
  },
  {
   "property": "C156",
   "status": "partial",
   "theorems": [
    "Adhoc.C156_false",
    "Adhoc.C156_exactly_partial",
    "Adhoc.C156_modulo_partial",
    "Adhoc.C156_debug_partial",
    "Adhoc.C156_when_partial"
   ],
   "note": "False: the number of blocks is multiplied with the number of channels in 64 bits, so in a release build 2^63 ms at 1000 Hz in stereo are taken for the start (C156_false). Proved for every recording (fewer than 65536 blocks in a call, fewer than 2^32 frames) which times are refused in a release build: those whose number of samples modulo 2^64 is behind the end (C156_exactly_partial). Proved for every codec in every state: in a release build only the number modulo 2^64 matters (C156_modulo_partial), a debug build panics (C156_debug_partial). It takes two channels and a product of rate, milliseconds and channels of 2^73 or more (C156_when_partial), so one channel is never affected."
  },
  {
   "property": "C157",
   "status": "partial",
   "theorems": [
    "Adhoc.C157_false",
    "Adhoc.C157_same_partial",
    "Adhoc.C157_files_partial",
    "Adhoc.C157_end_partial"
   ],
   "note": "False at one time: at the end of the recording AdhocCodec has nothing to play while WavCodec plays its last sample, in stereo the one of the right channel on the left (C157_false). Proved: for times in front of the end both give the same results, in any builds, for all sequences that begin with a seek (C157_same_partial), and for all sequences on the two files loaded (C157_files_partial, at least 106 samples because of C33); what WavCodec gives at the end and behind it (C157_end_partial)."
  },
  {
   "property": "C158",
   "status": "partial",
   "theorems": [
    "Adhoc.C158_false",
    "Adhoc.C158_exactly_partial",
    "Adhoc.C158_safe_partial",
    "Adhoc.C158_debug_partial"
   ],
   "note": "False: a seek on a codec without samples panics (C158_false). Proved for every sequence of calls: it does what it does on the tape (seeks as wav.rs has them, C40 and C41), and panics if and only if the head is moved on an empty tape (C158_exactly_partial); so no sequence panics once there is a sample (C158_safe_partial). A debug build adds overflow panics of seeks only (C158_debug_partial)."
  },
  {
   "property": "C159",
   "status": "proved",
   "theorems": [
    "Adhoc.C159_cuts"
   ],
   "note": "Level 0, in sync and proper calls as in C12, seeks up to the end, streams below 2^64 bits. Both recordings are the same tape of the quantised signal. With longer runs of empty calls reads stop early (C12_gaps)."
  }
 ]
}
