# Axioms per theorem

Output of `#print axioms` for every theorem of MANIFEST.json, written by tools/axioms.py.

| theorem | axioms |
|---|---|
| Adhoc.C28_bitstream_roundtrip | propext, Classical.choice, Quot.sound |
| Adhoc.C28_bitstream_bits | propext, Classical.choice, Quot.sound |
| Adhoc.C29_rice_roundtrip | propext, Classical.choice, Quot.sound |
| Adhoc.C29_param15_debug_panics | propext, Classical.choice, Quot.sound |
| Adhoc.C30_capped_roundtrip | propext, Classical.choice, Quot.sound |
| Adhoc.C31_read_terminates | propext, Classical.choice, Quot.sound |
| Adhoc.C46_nibble_list | propext, Classical.choice, Quot.sound |
| Adhoc.C46_set_past_end_corrupts | propext, Quot.sound |
| Adhoc.C47_false | propext, Classical.choice, Quot.sound |
| Adhoc.C47_push_after_clear_partial | propext, Classical.choice, Quot.sound |
| Adhoc.C47_pushes_after_clear_partial | propext, Classical.choice, Quot.sound |
| Adhoc.C47_history_partial | propext, Classical.choice, Quot.sound |
| Adhoc.C48_bitvec | propext, Classical.choice, Quot.sound |
| Adhoc.C49_circular_stack | propext, Classical.choice, Quot.sound |
| Adhoc.C49_pushes | propext, Classical.choice, Quot.sound |
| Adhoc.C49_is_empty_inverted | propext, Classical.choice, Quot.sound |
| Adhoc.C50_frame_headers | propext, Classical.choice, Quot.sound |
| Adhoc.C51_ring_buffer | propext, Classical.choice, Quot.sound |
| Adhoc.C51_capacities | propext, Classical.choice, Quot.sound |
| Adhoc.C52_linked_list | propext, Classical.choice, Quot.sound |
| Adhoc.C53_lru_cache | propext, Classical.choice, Quot.sound |
| Adhoc.C53_length | propext, Classical.choice, Quot.sound |
| Adhoc.C54_false | propext |
| Adhoc.C54_capacity_wraps | propext |
| Adhoc.C54_other_calls_partial | propext |
| Adhoc.C01_round_trip | propext, Classical.choice, Quot.sound |
| Adhoc.C01_gaps | propext, Classical.choice, Quot.sound |
| Adhoc.C02_false | propext, Classical.choice, Quot.sound |
| Adhoc.C02_level0_partial | propext, Classical.choice, Quot.sound |
| Adhoc.C02_exact_partial | propext, Classical.choice, Quot.sound |
| Adhoc.C05_split | propext, Classical.choice, Quot.sound |
| Adhoc.C06_buffers | propext, Classical.choice, Quot.sound |
| Adhoc.C06_gaps | propext, Classical.choice, Quot.sound |
| Adhoc.C07_false | propext, Classical.choice, Quot.sound |
| Adhoc.C07_none_partial | propext, Classical.choice, Quot.sound |
| Adhoc.C07_exact_partial | propext, Classical.choice, Quot.sound |
| Adhoc.C07_counts_partial | propext, Classical.choice, Quot.sound |
| Adhoc.C07_go_on_partial | propext, Classical.choice, Quot.sound |
| Adhoc.C08_sticky_end | propext, Classical.choice, Quot.sound |
| Adhoc.C23_false | propext, Classical.choice, Quot.sound |
| Adhoc.C23_tail_partial | propext, Classical.choice, Quot.sound |
| Adhoc.C24_channels | propext, Classical.choice, Quot.sound |
| Adhoc.C15_sample_count | propext, Classical.choice, Quot.sound |
| Adhoc.C16_false | propext, Classical.choice, Quot.sound |
| Adhoc.C16_long_calls_partial | propext, Classical.choice, Quot.sound |
| Adhoc.C19_false | propext, Classical.choice, Quot.sound |
| Adhoc.C19_expansion_partial | propext, Classical.choice, Quot.sound |
| Adhoc.C19_worst_partial | propext, Classical.choice, Quot.sound |
| Adhoc.C19_reached_partial | propext, Classical.choice, Quot.sound |
| Adhoc.C19_any_length_partial | propext, Classical.choice, Quot.sound |
| Adhoc.C20_false | propext, Classical.choice, Quot.sound |
| Adhoc.C20_optimal_parameter_partial | propext, Classical.choice, Quot.sound |
| Adhoc.C20_wrapped_partial | propext, Classical.choice, Quot.sound |
| Adhoc.C22_false | propext, Classical.choice, Quot.sound |
| Adhoc.C22_encode_return_partial | propext, Classical.choice, Quot.sound |
| Adhoc.C22_wav_partial | propext, Classical.choice, Quot.sound |
| Adhoc.C63_builds_agree | propext, Classical.choice, Quot.sound |
| Adhoc.C25_panics_exactly | propext, Classical.choice, Quot.sound |
| Adhoc.C25_no_panic | propext, Classical.choice, Quot.sound |
| Adhoc.C26_false | propext, Classical.choice, Quot.sound |
| Adhoc.C26_debug_partial | propext, Classical.choice, Quot.sound |
| Adhoc.C26_exact_partial | propext, Classical.choice, Quot.sound |
| Adhoc.C26_high_levels_partial | propext, Classical.choice, Quot.sound |
| Adhoc.C27_false | propext, Classical.choice, Quot.sound |
| Adhoc.C27_order_partial | propext, Classical.choice, Quot.sound |
| Adhoc.C32_false | propext, Classical.choice, Quot.sound |
| Adhoc.C32_exactly_partial | propext, Classical.choice, Quot.sound |
| Adhoc.C32_corrupt_files_partial | propext, Classical.choice, Quot.sound |
| Adhoc.C09_save_load | propext, Classical.choice, Quot.sound |
| Adhoc.C09_recordings | propext, Classical.choice, Quot.sound |
| Adhoc.C10_torn_save | propext, Classical.choice, Quot.sound |
| Adhoc.C10_recordings | propext, Classical.choice, Quot.sound |
| Adhoc.C11_save_reports | propext, Classical.choice, Quot.sound |
| Adhoc.C17_false | propext, Classical.choice, Quot.sound |
| Adhoc.C17_upperbound_partial | propext, Classical.choice, Quot.sound |
| Adhoc.C12_seek_is_skip | propext, Classical.choice, Quot.sound |
| Adhoc.C12_gaps | propext, Classical.choice, Quot.sound |
| Adhoc.C13_false | propext, Classical.choice, Quot.sound |
| Adhoc.C13_beyond_partial | propext, Classical.choice, Quot.sound |
| Adhoc.C14_false | propext, Classical.choice, Quot.sound |
| Adhoc.C14_seek_time_partial | propext, Classical.choice, Quot.sound |
| Adhoc.C14_exact_partial | propext, Classical.choice, Quot.sound |
| Adhoc.C34_false | propext, Classical.choice, Quot.sound |
| Adhoc.C34_tape_partial | propext, Classical.choice, Quot.sound |
| Adhoc.C34_codecs | propext, Classical.choice, Quot.sound |
| Adhoc.C34_half_partial | propext, Classical.choice, Quot.sound |
| Adhoc.C34_every_codec | propext, Classical.choice, Quot.sound |
| Adhoc.C40_false | propext, Classical.choice, Quot.sound |
| Adhoc.C40_seek_partial | propext, Classical.choice, Quot.sound |
| Adhoc.C40_exact_partial | propext, Classical.choice, Quot.sound |
| Adhoc.C41_false | propext, Classical.choice, Quot.sound |
| Adhoc.C41_end_partial | propext, Classical.choice, Quot.sound |
| Adhoc.C42_false | propext, Classical.choice, Quot.sound |
| Adhoc.C42_empty_partial | propext, Classical.choice, Quot.sound |
| Adhoc.C43_false | propext, Classical.choice, Quot.sound |
| Adhoc.C43_blocks_partial | propext, Classical.choice, Quot.sound |
| Adhoc.C43_exact_partial | propext, Classical.choice, Quot.sound |
| Adhoc.C18_wav_filesize | propext, Quot.sound |
| Adhoc.C33_false | propext, Classical.choice, Quot.sound |
| Adhoc.C33_data_size | propext, Classical.choice, Quot.sound |
| Adhoc.C33_save_load_partial | propext, Classical.choice, Quot.sound |
| Adhoc.C35_false | propext, Classical.choice, Quot.sound |
| Adhoc.C35_truncated_partial | propext, Classical.choice, Quot.sound |
| Adhoc.C36_false | propext, Classical.choice, Quot.sound |
| Adhoc.C36_load_panics_partial | propext, Classical.choice, Quot.sound |
| Adhoc.C37_false | propext, Classical.choice, Quot.sound |
| Adhoc.C37_loaded_partial | propext, Classical.choice, Quot.sound |
| Adhoc.C44_false | propext, Quot.sound |
| Adhoc.C44_short_writes_partial | propext, Classical.choice, Quot.sound |
| Adhoc.C45_eight_bit | propext, Classical.choice, Quot.sound |
| Adhoc.C03_high_levels | propext, Classical.choice, Quot.sound |
| Adhoc.C03_gaps | propext, Classical.choice, Quot.sound |
| Adhoc.C04_error_bound | propext, Classical.choice, Quot.sound |
| Adhoc.C04_gaps | propext, Classical.choice, Quot.sound |
| Adhoc.C04_exact | propext, Classical.choice, Quot.sound |
| Adhoc.C04_sharp | propext, Classical.choice, Quot.sound |
| Adhoc.C38_false | propext, Classical.choice, Quot.sound |
| Adhoc.C38_codes_partial | propext, Classical.choice, Quot.sound |
| Adhoc.C39_conversion | propext, Classical.choice, Quot.sound |
| Adhoc.C56_dither | propext, Classical.choice, Quot.sound |
| Adhoc.C57_predictor | propext, Classical.choice, Quot.sound |
| Adhoc.C55_branchless | propext, Classical.choice, Quot.sound |
| Adhoc.C58_round_trip | propext, Classical.choice, Quot.sound |
| Adhoc.C59_false | propext, Classical.choice, Quot.sound |
| Adhoc.C59_partial | propext, Classical.choice, Quot.sound |
| Adhoc.C60_same_length | propext, Classical.choice, Quot.sound |
| Adhoc.C61_false | propext, Classical.choice, Quot.sound |
| Adhoc.C61_partial | propext, Classical.choice, Quot.sound |
| Adhoc.C64_same_shape | propext, Classical.choice, Quot.sound |
| Adhoc.C62_serialised_list | propext, Classical.choice, Quot.sound |
| Adhoc.C21_false | propext, Classical.choice, Quot.sound |
| Adhoc.C21_field_partial | propext, Classical.choice, Quot.sound |
| Adhoc.C21_again_partial | propext, Classical.choice, Quot.sound |
| Adhoc.C21_level0_partial | propext, Classical.choice, Quot.sound |
| Adhoc.C65_riff | propext, Classical.choice, Quot.sound |
| Adhoc.C66_accepted | propext, Classical.choice, Quot.sound |
| Adhoc.C67_convolution | propext, Classical.choice, Quot.sound |
| Adhoc.C67_short_result | propext, Classical.choice, Quot.sound |
| Adhoc.C68_false | propext, Classical.choice, Quot.sound |
| Adhoc.C68_resample_partial | propext, Classical.choice, Quot.sound |
| Adhoc.C69_false | propext, Classical.choice, Quot.sound |
| Adhoc.C69_schedule_partial | propext, Classical.choice, Quot.sound |
| Adhoc.C69_wav_inputs_partial | propext, Classical.choice, Quot.sound |
| Adhoc.C70_interrupted | propext, Classical.choice, Quot.sound |
| Adhoc.C70_torn_adhoc | propext, Classical.choice, Quot.sound |
| Adhoc.C71_codes_only | propext, Classical.choice, Quot.sound |
| Adhoc.C71_generations | propext, Classical.choice, Quot.sound |
| Adhoc.C72_compression | propext, Classical.choice, Quot.sound |
| Adhoc.C72_constant | propext, Classical.choice, Quot.sound |
| Adhoc.C73_cli_error | propext, Classical.choice, Quot.sound |
| Adhoc.C74_false | propext, Quot.sound |
| Adhoc.C74_cursor_partial | propext, Quot.sound |
| Adhoc.C74_recording_partial | propext, Classical.choice, Quot.sound |
| Adhoc.C75_quiet | propext, Classical.choice, Quot.sound |
| Adhoc.C75_smooth | propext, Classical.choice, Quot.sound |
| Adhoc.C75_sharp | propext, Classical.choice, Quot.sound |
| Adhoc.C76_append | propext, Classical.choice, Quot.sound |
| Adhoc.C76_snapshot | propext, Classical.choice, Quot.sound |
| Adhoc.C77_damage | propext, Classical.choice, Quot.sound |
| Adhoc.C77_file | propext, Classical.choice, Quot.sound |
| Adhoc.C78_every_call_ends | propext, Classical.choice, Quot.sound |
| Adhoc.C79_bounded_by_file | propext, Classical.choice, Quot.sound |
| Adhoc.C80_false | propext, Classical.choice, Quot.sound |
| Adhoc.C80_vectors_partial | propext, Classical.choice, Quot.sound |
| Adhoc.C81_canonical | propext, Classical.choice, Quot.sound |
| Adhoc.C81_injective | propext, Classical.choice, Quot.sound |
| Adhoc.C82_period | propext, Classical.choice, Quot.sound |
| Adhoc.C82_triangular | propext, Classical.choice, Quot.sound |
| Adhoc.C83_false | propext, Classical.choice, Quot.sound |
| Adhoc.C83_level_partial | propext, Classical.choice, Quot.sound |
| Adhoc.C84_false | propext, Classical.choice, Quot.sound |
| Adhoc.C84_dispatch_partial | propext, Classical.choice, Quot.sound |
| Adhoc.C85_map | propext, Classical.choice, Quot.sound |
| Adhoc.C86_histogram | propext, Classical.choice, Quot.sound |
| Adhoc.C87_false | propext, Classical.choice, Quot.sound |
| Adhoc.C87_mse_partial | propext, Classical.choice, Quot.sound |
| Adhoc.C88_false | propext, Classical.choice, Quot.sound |
| Adhoc.C88_ends_partial | propext, Classical.choice, Quot.sound |
| Adhoc.C88_places_partial | propext, Classical.choice, Quot.sound |
| Adhoc.C88_bell_partial | propext, Classical.choice, Quot.sound |
| Adhoc.C89_same_again | propext, Classical.choice, Quot.sound |
| Adhoc.C90_seek_resync | propext, Classical.choice, Quot.sound |
| Adhoc.C90_repaired | propext, Classical.choice, Quot.sound |
| Adhoc.C90_gaps | propext, Classical.choice, Quot.sound |
| Adhoc.C91_any_order | propext, Classical.choice, Quot.sound |
| Adhoc.C91_info_again | propext, Classical.choice, Quot.sound |
| Adhoc.C91_levels | propext, Classical.choice, Quot.sound |
| Adhoc.C92_false | propext, Classical.choice, Quot.sound |
| Adhoc.C92_gain_partial | propext, Classical.choice, Quot.sound |
| Adhoc.C93_false | propext, Classical.choice, Quot.sound |
| Adhoc.C93_mono_partial | propext, Classical.choice, Quot.sound |
| Adhoc.C93_close_partial | propext, Classical.choice, Quot.sound |
| Adhoc.C94_alone | propext, Classical.choice, Quot.sound |
| Adhoc.C95_settles | propext, Classical.choice, Quot.sound |
| Adhoc.C96_size | propext, Classical.choice, Quot.sound |
| Adhoc.C96_sound | propext, Classical.choice, Quot.sound |
| Adhoc.C97_false | propext, Classical.choice, Quot.sound |
| Adhoc.C97_modes_partial | propext, Classical.choice, Quot.sound |
| Adhoc.C97_then_partial | propext, Classical.choice, Quot.sound |
| Adhoc.C98_false | propext, Classical.choice, Quot.sound |
| Adhoc.C98_over_partial | propext, Classical.choice, Quot.sound |
| Adhoc.C98_whole_partial | propext, Classical.choice, Quot.sound |
| Adhoc.C98_no_end_partial | propext, Classical.choice, Quot.sound |
| Adhoc.C99_false | propext, Classical.choice, Quot.sound |
| Adhoc.C99_corrected_partial | propext, Classical.choice, Quot.sound |
| Adhoc.C100_false | propext, Classical.choice, Quot.sound |
| Adhoc.C100_hiss_partial | propext, Classical.choice, Quot.sound |
| Adhoc.C100_gate_partial | propext, Classical.choice, Quot.sound |
| Adhoc.C101_false | propext, Classical.choice, Quot.sound |
| Adhoc.C101_values_partial | propext, Classical.choice, Quot.sound |
| Adhoc.C101_refused_partial | propext, Classical.choice, Quot.sound |
| Adhoc.C101_period_partial | propext, Classical.choice, Quot.sound |
| Adhoc.C102_loaded | propext, Classical.choice, Quot.sound |
| Adhoc.C102_recorded | propext, Classical.choice, Quot.sound |
| Adhoc.C103_false | propext, Classical.choice, Quot.sound |
| Adhoc.C103_level0_partial | propext, Classical.choice, Quot.sound |
| Adhoc.C103_headroom_partial | propext, Classical.choice, Quot.sound |
| Adhoc.C104_parabola | propext, Classical.choice, Quot.sound |
| Adhoc.C104_points | propext, Classical.choice, Quot.sound |
| Adhoc.C105_false | propext, Classical.choice, Quot.sound |
| Adhoc.C105_compress_partial | propext, Classical.choice, Quot.sound |
| Adhoc.C105_decompress_partial | propext, Classical.choice, Quot.sound |
| Adhoc.C105_round_trip_partial | propext, Classical.choice, Quot.sound |
| Adhoc.C106_false | propext |
| Adhoc.C106_remove_partial | propext, Classical.choice, Quot.sound |
| Adhoc.C106_insert_partial | propext, Classical.choice, Quot.sound |
| Adhoc.C107_iter_mut | propext, Classical.choice, Quot.sound |
| Adhoc.C108_cache | propext, Classical.choice, Quot.sound |
| Adhoc.C108_ring | propext, Classical.choice, Quot.sound |
| Adhoc.C109_false | propext |
| Adhoc.C109_range_partial | propext, Quot.sound |
| Adhoc.C109_stale_partial | propext, Classical.choice, Quot.sound |
| Adhoc.C110_false | propext, Classical.choice, Quot.sound |
| Adhoc.C110_exact_partial | propext, Classical.choice, Quot.sound |
| Adhoc.C110_survives_partial | propext, Classical.choice, Quot.sound |
| Adhoc.C110_capped_partial | propext, Classical.choice, Quot.sound |
| Adhoc.C111_false | propext, Classical.choice, Quot.sound |
| Adhoc.C111_exactly_partial | propext, Classical.choice, Quot.sound |
| Adhoc.C111_survives_partial | propext, Classical.choice, Quot.sound |
| Adhoc.C112_false | propext, Classical.choice, Quot.sound |
| Adhoc.C112_worst_case_partial | propext, Classical.choice, Quot.sound |
| Adhoc.C112_all_levels_partial | propext, Classical.choice, Quot.sound |
| Adhoc.C112_smaller_partial | propext, Classical.choice, Quot.sound |
| Adhoc.C113_causal | propext, Classical.choice, Quot.sound |
| Adhoc.C113_pointwise | propext, Classical.choice, Quot.sound |
| Adhoc.C114_label | propext, Classical.choice, Quot.sound |
| Adhoc.C114_seek | propext, Classical.choice, Quot.sound |
| Adhoc.C114_file | propext, Classical.choice, Quot.sound |
| Adhoc.C115_false | propext, Classical.choice, Quot.sound |
| Adhoc.C115_adhoc_partial | propext, Classical.choice, Quot.sound |
| Adhoc.C115_wav_partial | propext, Classical.choice, Quot.sound |
| Adhoc.C116_false | propext, Classical.choice, Quot.sound |
| Adhoc.C116_recording_partial | propext, Classical.choice, Quot.sound |
| Adhoc.C116_any_partial | propext, Classical.choice, Quot.sound |
| Adhoc.C117_false | propext, Quot.sound |
| Adhoc.C117_exact_partial | propext, Classical.choice, Quot.sound |
| Adhoc.C117_calls_partial | propext, Classical.choice, Quot.sound |
| Adhoc.C118_false | propext, Quot.sound |
| Adhoc.C118_cleared_partial | propext, Classical.choice, Quot.sound |
| Adhoc.C118_zero_needed | propext, Quot.sound |
| Adhoc.C119_false | propext, Classical.choice, Quot.sound |
| Adhoc.C119_last_false | propext, Classical.choice, Quot.sound |
| Adhoc.C119_range_partial | propext, Classical.choice, Quot.sound |
| Adhoc.C119_polarity | propext, Classical.choice, Quot.sound |
| Adhoc.C120_shift | propext, Classical.choice, Quot.sound |
| Adhoc.C120_identity | propext, Classical.choice, Quot.sound |
| Adhoc.C120_response | propext, Classical.choice, Quot.sound |
| Adhoc.C120_silence | propext, Classical.choice, Quot.sound |
| Adhoc.C120_local | propext, Classical.choice, Quot.sound |
| Adhoc.C120_polarity | propext, Classical.choice, Quot.sound |
| Adhoc.C121_false | propext, Classical.choice, Quot.sound |
| Adhoc.C121_decompress_partial | propext, Classical.choice, Quot.sound |
| Adhoc.C121_wide | propext, Classical.choice, Quot.sound |
| Adhoc.C122_file | propext, Classical.choice, Quot.sound |
| Adhoc.C123_length | propext, Classical.choice, Quot.sound |
| Adhoc.C123_tool | propext, Classical.choice, Quot.sound |
| Adhoc.C123_smaller | propext, Classical.choice, Quot.sound |
| Adhoc.C124_false | propext, Classical.choice, Quot.sound |
| Adhoc.C124_slots_partial | propext, Classical.choice, Quot.sound |
| Adhoc.C124_queue_partial | propext, Classical.choice, Quot.sound |
| Adhoc.C124_history_partial | propext, Classical.choice, Quot.sound |
| Adhoc.C125_compressed | propext, Classical.choice, Quot.sound |
| Adhoc.C125_capped | propext, Classical.choice, Quot.sound |
| Adhoc.C125_aligned | propext, Classical.choice, Quot.sound |
| Adhoc.C125_unaligned | propext, Classical.choice, Quot.sound |
| Adhoc.C125_unaligned_sharp | propext, Quot.sound |
| Adhoc.C125_read_back | propext, Classical.choice, Quot.sound |
| Adhoc.C125_sanity | propext, Classical.choice, Quot.sound |
| Adhoc.C125_sanity_tests | propext, Classical.choice, Quot.sound |
| Adhoc.C126_copy | propext, Classical.choice, Quot.sound |
| Adhoc.C126_again | propext, Classical.choice, Quot.sound |
| Adhoc.C126_exact | propext, Classical.choice, Quot.sound |
| Adhoc.C126_file | propext, Classical.choice, Quot.sound |
| Adhoc.C127_player | propext, Classical.choice, Quot.sound |
| Adhoc.C127_gaps | propext, Classical.choice, Quot.sound |
| Adhoc.C128_foreign | propext, Classical.choice, Quot.sound |
| Adhoc.C128_gaps | propext, Classical.choice, Quot.sound |
| Adhoc.C128_go_on | propext, Classical.choice, Quot.sound |
| Adhoc.C129_inverse | propext, Classical.choice, Quot.sound |
| Adhoc.C129_close | propext, Classical.choice, Quot.sound |
| Adhoc.C130_seek | propext, Classical.choice, Quot.sound |
| Adhoc.C130_beyond | propext, Classical.choice, Quot.sound |
| Adhoc.C130_gaps | propext, Classical.choice, Quot.sound |
| Adhoc.C131_alike | propext, Classical.choice, Quot.sound |
| Adhoc.C131_recording | propext, Classical.choice, Quot.sound |
| Adhoc.C131_loading | propext, Classical.choice, Quot.sound |
| Adhoc.C132_false | propext, Classical.choice, Quot.sound |
| Adhoc.C132_exactly_partial | propext, Classical.choice, Quot.sound |
| Adhoc.C132_others_partial | propext, Classical.choice, Quot.sound |
| Adhoc.C133_adhoc | propext, Classical.choice, Quot.sound |
| Adhoc.C133_wav | propext, Classical.choice, Quot.sound |
| Adhoc.C134_one_file | propext, Classical.choice, Quot.sound |
| Adhoc.C135_codec | propext, Classical.choice, Quot.sound |
| Adhoc.C135_programs | propext, Classical.choice, Quot.sound |
| Adhoc.C136_false | propext, Classical.choice, Quot.sound |
| Adhoc.C136_exactly_partial | propext, Classical.choice, Quot.sound |
| Adhoc.C136_header_partial | propext |
| Adhoc.C136_layout_partial | propext, Classical.choice, Quot.sound |
| Adhoc.C137_false | propext, Classical.choice, Quot.sound |
| Adhoc.C137_little_partial | propext, Classical.choice, Quot.sound |
| Adhoc.C137_view_partial | propext, Quot.sound |
| Adhoc.C137_refused_partial | propext, Classical.choice, Quot.sound |
| Adhoc.C137_saved_partial | propext, Classical.choice, Quot.sound |
| Adhoc.C137_header_partial | propext, Quot.sound |
| Adhoc.C138_allocations | propext, Classical.choice, Quot.sound |
| Adhoc.C139_encode | propext, Classical.choice, Quot.sound |
| Adhoc.C139_recording | propext, Classical.choice, Quot.sound |
| Adhoc.C139_playing | propext, Classical.choice, Quot.sound |
| Adhoc.C139_replaying | propext, Classical.choice, Quot.sound |
| Adhoc.C140_seek | propext, Classical.choice, Quot.sound |
| Adhoc.C141_memory | propext, Classical.choice, Quot.sound |
| Adhoc.C141_seeks | propext, Classical.choice, Quot.sound |
| Adhoc.C142_false | propext, Classical.choice, Quot.sound |
| Adhoc.C142_below_partial | propext, Classical.choice, Quot.sound |
| Adhoc.C142_push_partial | propext, Classical.choice, Quot.sound |
| Adhoc.C142_next_partial | propext, Classical.choice, Quot.sound |
| Adhoc.C142_full_partial | propext, Classical.choice, Quot.sound |
| Adhoc.C142_behind_partial | propext, Classical.choice, Quot.sound |
| Adhoc.C143_false | propext, Classical.choice, Quot.sound |
| Adhoc.C143_inside_partial | propext, Classical.choice, Quot.sound |
| Adhoc.C143_both_partial | propext, Classical.choice, Quot.sound |
| Adhoc.C143_recording_partial | propext, Classical.choice, Quot.sound |
| Adhoc.C144_false | propext, Classical.choice, Quot.sound |
| Adhoc.C144_exact_partial | propext, Classical.choice, Quot.sound |
| Adhoc.C144_threaded_partial | propext, Classical.choice, Quot.sound |
| Adhoc.C144_long_partial | propext, Classical.choice, Quot.sound |
| Adhoc.C145_encode | propext, Classical.choice, Quot.sound |
| Adhoc.C145_decode | propext, Classical.choice, Quot.sound |
| Adhoc.C145_buffered | propext, Classical.choice, Quot.sound |
| Adhoc.C145_made | propext, Classical.choice, Quot.sound |
| Adhoc.C145_loaded | propext, Classical.choice, Quot.sound |
| Adhoc.C145_rest | propext, Classical.choice, Quot.sound |
| Adhoc.C145_wav_encode | propext, Classical.choice, Quot.sound |
| Adhoc.C145_wav_decode | propext, Classical.choice, Quot.sound |
| Adhoc.C145_convolve | propext, Classical.choice, Quot.sound |
| Adhoc.C145_other | propext, Classical.choice, Quot.sound |
| Adhoc.C145_signs | propext, Classical.choice, Quot.sound |
| Adhoc.C146_false | propext, Classical.choice, Quot.sound |
| Adhoc.C146_calls_partial | propext, Classical.choice, Quot.sound |
| Adhoc.C146_fits_partial | propext, Classical.choice, Quot.sound |
| Adhoc.C146_full_partial | propext, Classical.choice, Quot.sound |
| Adhoc.C146_after_partial | propext, Classical.choice, Quot.sound |
| Adhoc.C147_false | propext, Classical.choice, Quot.sound |
| Adhoc.C147_exact_partial | propext, Classical.choice, Quot.sound |
| Adhoc.C147_read_partial | propext, Classical.choice, Quot.sound |
| Adhoc.C147_items_partial | propext, Classical.choice, Quot.sound |
| Adhoc.C147_new_partial | propext, Classical.choice, Quot.sound |
| Adhoc.C148_false | propext, Classical.choice, Quot.sound |
| Adhoc.C148_exact_partial | propext, Classical.choice, Quot.sound |
| Adhoc.C149_own_input | propext, Classical.choice, Quot.sound |
| Adhoc.C150_false | propext, Classical.choice, Quot.sound |
| Adhoc.C150_last_partial | propext, Classical.choice, Quot.sound |
| Adhoc.C150_before_partial | propext, Classical.choice, Quot.sound |
| Adhoc.C151_false | propext, Quot.sound |
| Adhoc.C151_made_partial | propext, Classical.choice, Quot.sound |
| Adhoc.C151_reached_partial | propext, Classical.choice, Quot.sound |
| Adhoc.C151_lookup_partial | propext |
| Adhoc.C152_false | propext, Classical.choice, Quot.sound |
| Adhoc.C152_exactly_partial | propext, Classical.choice, Quot.sound |
| Adhoc.C152_always_partial | propext, Classical.choice, Quot.sound |
| Adhoc.C152_saved_partial | propext, Classical.choice, Quot.sound |
| Adhoc.C153_false | propext, Classical.choice, Quot.sound |
| Adhoc.C153_exactly_partial | propext, Classical.choice, Quot.sound |
| Adhoc.C153_debug_partial | propext, Classical.choice, Quot.sound |
| Adhoc.C154_sessions | propext, Classical.choice, Quot.sound |
| Adhoc.C154_wav | propext, Classical.choice, Quot.sound |
| Adhoc.C154_tool | propext, Classical.choice, Quot.sound |
| Adhoc.C154_stream | propext, Quot.sound |
| Adhoc.C154_containers | propext, Quot.sound |
| Adhoc.C154_signal | propext, Classical.choice, Quot.sound |
| Adhoc.C155_encode | propext, Classical.choice, Quot.sound |
| Adhoc.C155_decode | propext, Classical.choice, Quot.sound |
| Adhoc.C155_wav_encode | propext, Classical.choice, Quot.sound |
| Adhoc.C155_wav_decode | propext, Classical.choice, Quot.sound |
| Adhoc.C156_false | propext, Classical.choice, Quot.sound |
| Adhoc.C156_exactly_partial | propext, Classical.choice, Quot.sound |
| Adhoc.C156_modulo_partial | propext, Classical.choice, Quot.sound |
| Adhoc.C156_debug_partial | propext, Classical.choice, Quot.sound |
| Adhoc.C156_when_partial | propext, Classical.choice, Quot.sound |
| Adhoc.C157_false | propext, Classical.choice, Quot.sound |
| Adhoc.C157_same_partial | propext, Classical.choice, Quot.sound |
| Adhoc.C157_files_partial | propext, Classical.choice, Quot.sound |
| Adhoc.C157_end_partial | propext, Classical.choice, Quot.sound |
| Adhoc.C158_false | propext, Classical.choice, Quot.sound |
| Adhoc.C158_exactly_partial | propext, Classical.choice, Quot.sound |
| Adhoc.C158_safe_partial | propext, Classical.choice, Quot.sound |
| Adhoc.C158_debug_partial | propext, Classical.choice, Quot.sound |
| Adhoc.C159_cuts | propext, Classical.choice, Quot.sound |
