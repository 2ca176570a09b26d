{"id": "C01", "title": "Level-0 round trip", "statement": "At compression level 0, encoding a PCM signal with any sequence of AdhocCodec::encode calls, rewinding, and decoding returns, sample for sample and in order, the 16-bit quantisation of the input (truncate to i16, rescale to f32), provided every quadratic-prediction residual of the quantised signal lies in [-32767, 32766].", "quantifier": "every channel count >= 1, every sequence of encode calls that is admissible (first call at least 3 blocks, each call fewer than 65536 blocks, never nine calls without a block in a row; C25, C16 and C07 say what happens otherwise), every f32 sample including NaN/inf, every sequence of decode buffers", "why_tests_cant": "the state is adaptive and carried across frames and channels; a test samples a few signals, but the claim is over all signals, all call splits and all interleavings of channels", "anchors": ["src/codec/adhoc.rs: AdhocCodec::encode, AdhocCodec::decode, AdhocCodec::init", "src/codec/adhoc/frame.rs: FrameCodec::encode_frame, FrameCodec::decode_frame"]}
{"id": "C02", "title": "Level-0 round trip for every signal (as documented: 'level 0 is basically lossless')", "statement": "At compression level 0 every signal decodes to its own 16-bit quantisation, with no condition on the signal.", "quantifier": "every signal", "why_tests_cant": "the failing signals (full-scale alternation) are a thin set which sample files do not contain; only a proof or a counterexample settles it", "anchors": ["README.md: 'level 0 means no quantization ,so its basically lossless'", "src/codec/adhoc/frame.rs: FrameCodec::encode_frame (residual clamp)"]}
{"id": "C03", "title": "Loud, high-level signals never lose sync", "statement": "At compression levels 4 to 10, for every signal with samples in [-1, 1], the residual condition of C01 holds automatically, so encode/rewind/decode never loses sync: each decoded sample equals the rescaled 16-bit code of the dithered, scaled input.", "quantifier": "every signal in [-1,1], every level 4..10, every admissible call split (as in C01), every channel count", "why_tests_cant": "needs a rounding-error bound for the f32 predictor over all histories (2^48 of them)", "anchors": ["src/codec/adhoc.rs: AdhocCodec::encode (dither, inv_scale)", "src/codec/adhoc/frame.rs: FrameCodec::encode_frame", "src/math/parabola.rs: FixedParabola"]}
{"id": "C04", "title": "Quantisation error bound per level", "statement": "For every sample x in [-1,1] and level L, whenever the codec stays in sync the decoded sample differs from x by at most 2^L * 1.01/32767 + 0.00101*(1 - 2^-L).", "quantifier": "every f32 sample in [-1,1], every level 0..10, every dither value, every admissible call split (as in C01)", "why_tests_cant": "the bound is over every f32 and every state of the noise generator", "anchors": ["src/codec/adhoc.rs: AdhocCodec::encode, AdhocCodec::decode, with_compression_level", "src/codec.rs: truncate_sample, normalize_sample", "src/math/noise.rs: PseudoRandom::triangle"]}
{"id": "C05", "title": "Splitting the input over encode calls does not matter", "statement": "At level 0, two codecs fed the same whole-block signal split differently over encode calls decode to the same samples.", "quantifier": "every two admissible splits (as in C01) of every signal", "why_tests_cant": "there are exponentially many splits of each signal", "anchors": ["src/codec/adhoc.rs: AdhocCodec::encode", "src/codec/adhoc/frame.rs: FrameCodec::encode_frame"]}
{"id": "C06", "title": "Decode buffer sizes do not matter; decode delivers everything exactly once", "statement": "Draining a rewound codec with any sequence of decode buffers yields consecutive segments of one fixed sample sequence: each call returns Some(k) with k = min(whole blocks that fit, samples left), or None when that is 0, until every encoded sample has been delivered exactly once.", "quantifier": "every sequence of decode buffer lengths, every admissible stream (as in C01)", "why_tests_cant": "unbounded histories of calls with arbitrary buffer lengths", "anchors": ["src/codec/adhoc.rs: AdhocCodec::decode, MAX_DECODE_ATTEMPTS"]}
{"id": "C07", "title": "decode returns None only when nothing is left", "statement": "After rewinding, decode with a buffer of at least one block returns None only if every encoded sample has been delivered.", "quantifier": "every history of encode calls, including encode calls with less than one block of samples", "why_tests_cant": "the failure needs nine or more consecutive empty encode calls; tests never produce them", "anchors": ["src/codec/adhoc.rs: AdhocCodec::decode, MAX_DECODE_ATTEMPTS", "src/codec.rs: Streamable::decode"]}
{"id": "C08", "title": "End of stream is sticky", "statement": "Once a rewound codec has delivered all samples, every further decode call returns None and does not panic.", "quantifier": "every number of further decode calls with every buffer length, every stream recorded with calls of fewer than 65536 blocks (C16)", "why_tests_cant": "unbounded number of further calls", "anchors": ["src/codec/adhoc.rs: AdhocCodec::decode"]}
{"id": "C09", "title": "Save/load transparency", "statement": "Saving a codec and loading the bytes gives a codec with the same info and level that decodes to exactly the samples the original would decode after a rewind; trailing bytes after the saved data are ignored.", "quantifier": "every codec state reachable by encode calls with fewer than 2^32 frames and 2^64 bits, every suffix of trailing bytes, every decode-call sequence", "why_tests_cant": "byte-level round trip for every length and content of seven vectors and all cursors", "anchors": ["src/codec/adhoc.rs: AdhocCodec::save_to, AdhocCodec::load", "src/codec/adhoc/audio_stream.rs: AudioStream", "src/codec/adhoc/frame.rs: FrameHeaders", "src/collections/bitstream.rs: BitStream"]}
{"id": "C10", "title": "A torn save is never accepted", "statement": "If saving an .adhoc file is interrupted at any byte, loading the partial file returns None: no proper prefix of a saved file loads.", "quantifier": "every saved codec (as in C09) and every crash point (every proper prefix)", "why_tests_cant": "one file has as many crash points as bytes and there are unboundedly many files", "anchors": ["src/codec/adhoc.rs: AdhocCodec::save_to, AdhocCodec::load"]}
{"id": "C11", "title": "save_to reports exactly whether all bytes were accepted", "statement": "AdhocCodec::save_to returns Some(()) iff the writer accepted the whole file; on failure what was written is a proper prefix of the file.", "quantifier": "every codec, every writer that fails after n bytes", "why_tests_cant": "every failure point of the writer", "anchors": ["src/codec/adhoc.rs: AdhocCodec::save_to"]}
{"id": "C12", "title": "Seek equals skipping", "statement": "After encoding (or loading), seek(SeekFrom::Start(ms)) to a position inside the stream followed by decoding yields exactly the samples that a full decode yields from block floor_f32(rate/1000*ms) on.", "quantifier": "every in-sync admissible stream (as in C01) below 2^64 bits, every ms whose target block is <= the number of encoded blocks, every later decode-call sequence", "why_tests_cant": "every target position in every stream; state is restored from per-frame headers", "anchors": ["src/codec/adhoc.rs: Streamable::seek for AdhocCodec", "src/codec/adhoc/frame.rs: FrameHeaders::get, FrameHeaders::set_cursor"]}
{"id": "C13", "title": "Seek beyond the end is safe", "statement": "seek(SeekFrom::Start(ms)) with a target beyond the last block does not panic.", "quantifier": "every stream and every ms", "why_tests_cant": "depends on the relation of an arbitrary target to an arbitrary stream length", "anchors": ["src/codec/adhoc.rs: Streamable::seek for AdhocCodec ('start frame failed to fetch')"]}
{"id": "C14", "title": "Seek time is monotone and accurate", "statement": "For both codecs the block index computed for SeekFrom::Start(ms) is monotone in ms and lies within 1 + 2^-21 relative of sample_rate*ms/1000.", "quantifier": "every sample rate (u32) and every ms (u64)", "why_tests_cant": "2^96 pairs of inputs through three f32 roundings", "anchors": ["src/codec/adhoc.rs: Streamable::seek for AdhocCodec", "src/codec/wav.rs: Streamable::seek for WavCodec"]}
{"id": "C15", "title": "Sample count matches what was encoded", "statement": "calculate_sample_count_per_channel returns the number of whole blocks passed to encode, in total.", "quantifier": "every history of encode calls with fewer than 65536 blocks each", "why_tests_cant": "unbounded histories", "anchors": ["src/codec/adhoc.rs: AdhocCodec::calculate_sample_count_per_channel"]}
{"id": "C16", "title": "Long frames", "statement": "A single encode call may carry any number of blocks: the frame length is recorded faithfully (so that C01, C15 hold for calls of any length).", "quantifier": "every encode call length", "why_tests_cant": "fails only from 65536 blocks per call on, larger than any test buffer", "anchors": ["src/codec/adhoc/frame.rs: FrameCodec::encode_frame (size: pcm.len() as u16)"]}
{"id": "C17", "title": "filesize_upperbound is an upper bound (AdhocCodec)", "statement": "filesize_upperbound is at least the number of bits that save_to writes.", "quantifier": "every codec state", "why_tests_cant": "the estimate and the real format are different formulas over all vector lengths", "anchors": ["src/codec/adhoc.rs: AdhocCodec::filesize_upperbound", "src/codec/adhoc/frame.rs: FrameHeaders::calculate_weight_upperbound"]}
{"id": "C18", "title": "filesize_upperbound is exact (WavCodec)", "statement": "For WavCodec filesize_upperbound equals the number of bits save_to writes.", "quantifier": "every WavCodec state", "why_tests_cant": "all pcm lengths", "anchors": ["src/codec/wav.rs: filesize_upperbound, save_to"]}
{"id": "C19", "title": "Worst-case expansion", "statement": "The compressed stream holds at most 18 bits per encoded sample plus 48 bits per channel for the first frame: a frame never expands beyond that, whatever the signal.", "quantifier": "every signal, every call split", "why_tests_cant": "adversarial signals are not in test corpora", "anchors": ["src/codec/adhoc/frame.rs: FrameCodec::compute_optimal_divisor_exponent", "src/collections/bitstream.rs: BitStream::write_compressed"]}
{"id": "C20", "title": "The Rice parameter is optimal", "statement": "For every frame whose residuals fit in 16 bits, the parameter chosen by the encoder (1..15) makes the frame's bit count minimal among all parameters 1..15.", "quantifier": "every frame of every length and content", "why_tests_cant": "optimality is a claim about all alternatives for all inputs", "anchors": ["src/codec/adhoc/frame.rs: FrameCodec::compute_optimal_divisor_exponent", "src/collections/bitstream.rs: BitStream::write_compressed"]}
{"id": "C21", "title": "Reusing a codec after rewinding", "statement": "Documented: after init() or seek(Start(0)) a codec may be used to encode a new signal into the memory already allocated; decoding then yields the new signal.", "quantifier": "every pair of old and new signals", "why_tests_cant": "corruption depends on how new fields straddle 128-bit boundaries over old bits and on the old number of frames", "anchors": ["src/codec.rs: Streamable::seek doc comment", "src/collections/bitstream.rs: BitStream::write_bits (next-chunk mask)", "src/codec/adhoc/frame.rs: FrameHeaders::push"]}
{"id": "C22", "title": "encode's return value", "statement": "encode returns the number of samples it actually encoded.", "quantifier": "every sample slice length and channel count", "why_tests_cant": "all lengths modulo all channel counts", "anchors": ["src/codec.rs: Streamable::encode", "src/codec/adhoc.rs: Streamable::encode for AdhocCodec", "src/codec/wav.rs: encode"]}
{"id": "C23", "title": "decode leaves the rest of the buffer alone", "statement": "decode changes only the first k entries of the caller's buffer, where k is the count it reports.", "quantifier": "every buffer content and every level", "why_tests_cant": "every old buffer content", "anchors": ["src/codec/adhoc.rs: AdhocCodec::decode (scale up loop)"]}
{"id": "C24", "title": "Channels do not leak into each other", "statement": "At level 0 the decoded samples of a channel are a function of that channel's input alone: two signals that agree on channel j decode identically on channel j.", "quantifier": "every pair of multi-channel signals agreeing on one channel, every admissible call split (as in C01)", "why_tests_cant": "relational property over pairs of signals", "anchors": ["src/codec/adhoc.rs: AdhocCodec::encode, AdhocCodec::decode"]}
{"id": "C25", "title": "No panic on documented use", "statement": "In release builds, after with_info with at least one channel, encode calls (first call at least 3 blocks), rewind and decode calls never panic, whatever the samples; the first encode call with fewer than 3 blocks panics.", "quantifier": "every signal and every call history of that shape", "why_tests_cant": "absence of panics over all inputs", "anchors": ["src/codec/adhoc.rs: AdhocCodec", "src/codec/adhoc/frame.rs: FrameCodec::encode_frame"]}
{"id": "C26", "title": "No arithmetic overflow in debug builds", "statement": "With overflow checks on, encode never panics for any samples.", "quantifier": "every signal", "why_tests_cant": "overflow happens only for exponent 15, reachable only with near full-scale Nyquist signals", "anchors": ["src/collections/bitstream.rs: BitStream::write_compressed ((1 << exponent) - 1)"]}
{"id": "C27", "title": "Call-order protocol", "statement": "decode right after encode (no rewind) delivers nothing and does not panic; encode after a decode that delivered samples, without rewind, panics rather than corrupting the stream; encode after load starts overwriting from the beginning.", "quantifier": "every reachable codec state of that kind", "why_tests_cant": "all histories", "anchors": ["src/codec/adhoc.rs: CodecState", "src/codec/adhoc/frame.rs: FrameCodec::encode_frame, decode_frame"]}
{"id": "C28", "title": "Bit stream is a faithful bit list", "statement": "Any sequence of write_bit/write_bits/write/write_compressed calls on a fresh stream, followed by a rewind and the matching reads, returns the written values; the number of bits is the sum of the field widths.", "quantifier": "every sequence of fields of widths 0..128 with arbitrary values", "why_tests_cant": "every alignment of every field against 128-bit chunks, unbounded sequences", "anchors": ["src/collections/bitstream.rs: BitStream"]}
{"id": "C29", "title": "Rice code round trip", "statement": "read_compressed(k) after write_compressed(k, v) returns v for every v in [-32767,32767] and k in 0..15 at every bit position (release build).", "quantifier": "every v, k, position, and every surrounding content", "why_tests_cant": "2^16 values x 16 parameters x unbounded positions", "anchors": ["src/collections/bitstream.rs: BitStream::write_compressed, read_compressed"]}
{"id": "C30", "title": "Capped Rice code round trip", "statement": "read_compressed_capped after write_compressed_capped returns the value clamped to the 14-bit range whenever the escape is used, and the value itself otherwise.", "quantifier": "every value in [-32767,32767], every power-of-two divisor 1..16384, every position", "why_tests_cant": "see C29", "anchors": ["src/collections/bitstream.rs: BitStream::write_compressed_capped, read_compressed_capped"]}
{"id": "C31", "title": "Decoding always terminates", "statement": "On any bit stream contents whatsoever, reading a compressed value finishes after at most (number of chunks + 2) refills.", "quantifier": "every stream content, e.g. from a corrupt file", "why_tests_cant": "non-termination cannot be observed by a test", "anchors": ["src/collections/bitstream.rs: BitStream::read_compressed"]}
{"id": "C32", "title": "Corrupt .adhoc files are rejected or decoded without panic", "statement": "Loading arbitrary bytes either returns None or a codec whose decode does not panic.", "quantifier": "every byte string", "why_tests_cant": "all byte strings", "anchors": ["src/codec/adhoc.rs: AdhocCodec::load", "src/codec/adhoc/frame.rs: FrameHeaders::next"]}
{"id": "C33", "title": "WAV save/load round trip", "statement": "For every WavCodec holding whole samples, saving and loading gives back the same info and PCM bytes.", "quantifier": "every pcm content and length, every sample rate and channel count whose header arithmetic fits", "why_tests_cant": "fails for clips shorter than 212 bytes and for headers containing the bytes 'data'; all other sizes must work", "anchors": ["src/codec/wav.rs: WavCodec::save_to, WavCodec::load"]}
{"id": "C34", "title": "WAV codec is a sample tape", "statement": "Any sequence of encode/decode calls on a WavCodec behaves like a tape of 16-bit samples with a cursor: encode overwrites at the cursor and extends at the end, decode reads from the cursor, both move the cursor by the number of samples reported.", "quantifier": "every sequence of operations", "why_tests_cant": "unbounded histories of mixed reads, writes and seeks", "anchors": ["src/codec/wav.rs: encode, decode, write_sample, offset_cursor"]}
{"id": "C35", "title": "Truncated WAV files load as a prefix", "statement": "Loading any prefix of a saved WAV file that is at least 256 bytes long succeeds and yields exactly a prefix of the PCM; shorter prefixes are rejected.", "quantifier": "every file and every truncation point", "why_tests_cant": "every crash point of every file", "anchors": ["src/codec/wav.rs: WavCodec::load"]}
{"id": "C36", "title": "WAV load never panics", "statement": "WavCodec::load returns Ok or Err on every byte string.", "quantifier": "every byte string", "why_tests_cant": "all byte strings; the panic needs the 'data' tag in the last bytes of the first 256", "anchors": ["src/codec/wav.rs: WavCodec::load (header_slice[0..3])"]}
{"id": "C37", "title": "WAV load reads only the data chunk", "statement": "The loaded PCM is the content of the data chunk: its declared length bounds what is read.", "quantifier": "every well-formed WAV file, with or without chunks after 'data'", "why_tests_cant": "all trailing chunk contents", "anchors": ["src/codec/wav.rs: WavCodec::load (read_to_end)"]}
{"id": "C38", "title": "16-bit sample conversion is faithful", "statement": "Decoding a 16-bit WAV sample to f32 and encoding it again gives the same 16-bit value.", "quantifier": "every i16", "why_tests_cant": "a test on a sound file covers the values in that file; 1537 of 65536 values fail", "anchors": ["src/codec.rs: normalize_sample, truncate_sample"]}
{"id": "C39", "title": "Sample conversion is bounded, monotone and accurate", "statement": "Converting f32 to 16 bits never leaves [-32767, 32767], is monotone, sends NaN to 0, and converting back is within 1.01/32767 of the input on [-1,1]; re-converting a converted value is idempotent after one pass.", "quantifier": "every f32 (2^32 values) and every pair of f32", "why_tests_cant": "2^64 pairs", "anchors": ["src/codec.rs: normalize_sample, truncate_sample"]}
{"id": "C40", "title": "WAV seek semantics", "statement": "seek(Start(ms)) positions the cursor at min(block(ms)*channels, last sample); Current moves relative to the current block; the cursor always stays inside the stream.", "quantifier": "every stream, ms and cursor", "why_tests_cant": "all combinations", "anchors": ["src/codec/wav.rs: seek"]}
{"id": "C41", "title": "WAV seek from the end", "statement": "seek(SeekFrom::End(0)) positions the cursor at the end of the stream; End(-ms) goes back ms milliseconds from the end.", "quantifier": "every stream and every offset", "why_tests_cant": "all combinations", "anchors": ["src/codec/wav.rs: seek (block_index = num_samples - num_samples)"]}
{"id": "C42", "title": "WAV seek on an empty stream is safe", "statement": "seek on a WavCodec without samples does not panic.", "quantifier": "every empty WavCodec and every seek argument", "why_tests_cant": "all arguments", "anchors": ["src/codec/wav.rs: seek (clamp(0, num_samples - 1))"]}
{"id": "C43", "title": "WAV decode delivers whole blocks", "statement": "The count decode reports is a multiple of the channel count whenever the stream holds whole blocks.", "quantifier": "every history of encode/decode/seek", "why_tests_cant": "unbounded histories; broken by a seek past the end of a multi-channel stream", "anchors": ["src/codec/wav.rs: decode, seek"]}
{"id": "C44", "title": "WAV save_to with short writes", "statement": "save_to returns Ok only if the writer received the complete file.", "quantifier": "every conforming io::Write, including writers that accept fewer bytes than offered", "why_tests_cant": "in-memory and ordinary file writers never do short writes in tests", "anchors": ["src/codec/wav.rs: save_to (dst.write)"]}
{"id": "C45", "title": "8-bit WAV conversion", "statement": "Loading an 8-bit WAV maps sample bytes monotonically onto 16 bits, 0 to -32766 and 255 to 32766, in place, each byte exactly once and in order.", "quantifier": "every 8-bit pcm content", "why_tests_cant": "the in-place widening loop must be right for every length", "anchors": ["src/codec/wav.rs: WavCodec::load (8 bit branch)"]}
{"id": "C46", "title": "NibbleList is a list of 4-bit values", "statement": "Any sequence of push and set calls on a NibbleList behaves like a list of 4-bit values, read back by get, len and iter.", "quantifier": "every sequence of operations", "why_tests_cant": "packing two values per byte, all positions and histories", "anchors": ["src/collections/nibble_list.rs: NibbleList"]}
{"id": "C47", "title": "NibbleList can be reused after clear", "statement": "After clear, pushed values read back unchanged.", "quantifier": "every history with clear", "why_tests_cant": "depends on stale bytes left by earlier pushes", "anchors": ["src/collections/nibble_list.rs: clear, push"]}
{"id": "C48", "title": "BitVec is a list of bits", "statement": "Any sequence of push, set and clear calls on a BitVec behaves like a list of bits, read back by get, len and iter; capacity is the bits required rounded up to 64.", "quantifier": "every sequence of operations", "why_tests_cant": "64-bit packing, all positions and histories", "anchors": ["src/collections/bitvec.rs: BitVec"]}
{"id": "C49", "title": "Sample history is a window on the last four samples", "statement": "CircularStack::prev(k) returns the k-th most recently pushed item for k up to min(4, items pushed), whatever was pushed and popped before.", "quantifier": "every sequence of pushes and pops", "why_tests_cant": "wrap-around at every phase", "anchors": ["src/collections/stack.rs: CircularStack"]}
{"id": "C50", "title": "Frame headers form an overwritable log", "statement": "FrameHeaders behaves like a list of headers with a cursor: push appends or overwrites at the cursor, iteration yields headers in order, get(i) returns what was pushed at i.", "quantifier": "every sequence of operations", "why_tests_cant": "six parallel packed vectors must stay in step under all histories", "anchors": ["src/codec/adhoc/frame.rs: FrameHeaders"]}
{"id": "C51", "title": "Ring buffer is a bounded deque", "statement": "Any sequence of FixedRingBuffer operations behaves like a double-ended queue that drops pushes when full; len never exceeds capacity; iter lists front to rear.", "quantifier": "every power-of-two capacity and every sequence of operations", "why_tests_cant": "wrap-around at every phase and every capacity", "anchors": ["src/collections/queue.rs: FixedRingBuffer"]}
{"id": "C52", "title": "Linked list is a sequence", "statement": "Any sequence of LinkedList insertions and removals (at either end or at a live pointer) behaves like a sequence; pointers to live items stay valid until that item is removed; freed slots are reused, so memory never exceeds the maximal number of live items.", "quantifier": "every sequence of operations with fewer than 2^32 - 1 live items (pointers are u32), at either end or at pointers of live items", "why_tests_cant": "pointer structures with a free list; aliasing bugs need particular histories", "anchors": ["src/collections/linked_list.rs: LinkedList"]}
{"id": "C53", "title": "LRU cache", "statement": "Any sequence of put/get/get_mut/lookup/remove behaves like a recency-ordered map: lookups return the last value put, put beyond capacity evicts exactly the least recently used key, the size never exceeds the capacity, lookup does not change recency.", "quantifier": "every capacity from 1 to 2^32 - 1 (pointers are u32) and every sequence of operations", "why_tests_cant": "unbounded histories, hash table and list must stay in step", "anchors": ["src/collections/lru_cache.rs: LruCache"]}
{"id": "C54", "title": "LRU cache of capacity 0 is safe", "statement": "put on a cache of capacity 0 does not panic.", "quantifier": "every key and value", "why_tests_cant": "single edge case of a parameter", "anchors": ["src/collections/lru_cache.rs: LruCache::put"]}
{"id": "C55", "title": "Branchless convolution equals the branching one", "statement": "convolve_1d_branchless writes exactly what convolve_1d writes.", "quantifier": "every samples, kernel and result slices", "why_tests_cant": "all lengths and contents; bit-mask arithmetic on indices", "anchors": ["src/math/signal.rs: convolve_1d, convolve_1d_branchless"]}
{"id": "C56", "title": "Dither noise is bounded and overflow-free", "statement": "Every value of the dither sequence lies in (-1, 1), computing it never overflows u64, and at level 0 dithering leaves every sample unchanged.", "quantifier": "every length of the sequence and every f32 sample", "why_tests_cant": "unbounded sequence", "anchors": ["src/math/noise.rs: PseudoRandom", "src/codec/adhoc.rs: AdhocCodec::encode"]}
{"id": "C57", "title": "Predictor extrapolates", "statement": "The predictor's value is within a fixed tolerance of the quadratic extrapolation h3 - 3 h2 + 3 h1 (clamped to the 16-bit range) for every history.", "quantifier": "every triple of i16 samples", "why_tests_cant": "2^48 histories through nine f32 roundings", "anchors": ["src/math/parabola.rs: FixedParabola", "src/codec/adhoc/frame.rs: FrameCodec::encode_frame"]}
{"id": "C58", "title": "CLI conversion round trip", "statement": "Converting a 16-bit WAV to .adhoc at level 0 and back gives a WAV with the same sample rate, channels and number of samples, each sample being the original up to the conversion of C38, provided residuals fit (C01).", "quantifier": "every 16-bit WAV file of at least 3 blocks with fewer than 342 channels whose header fields are in range (data below 4 GiB, sample rate * channels * 16 below 2^31)", "why_tests_cant": "end-to-end composition over all files", "anchors": ["src/main.rs: convert_wav_to_adhoc, convert_adhoc_to_wav"]}
{"id": "C59", "title": "CLI reports failed saves", "statement": "convert_wav_to_adhoc returns Some(()) only if the output file was written completely.", "quantifier": "every input and every failing output device", "why_tests_cant": "needs a full disk at each byte position", "anchors": ["src/main.rs: convert_wav_to_adhoc"]}
{"id": "C60", "title": "Resampling to the same length is the identity", "statement": "scale_signal with dst_len equal to the input length (2 <= len <= 2^24) copies the input, for finite samples.", "quantifier": "every finite signal", "why_tests_cant": "all lengths and contents through f32 index arithmetic", "anchors": ["src/math/signal.rs: scale_signal"]}
{"id": "C61", "title": "CLI output name", "statement": "The converter writes to the input's name with its extension replaced (adhoc for wav input and wav for adhoc input); only the part after the last dot of the file name changes, and a second conversion gives the first name back.", "quantifier": "every file name", "why_tests_cant": "all strings, including several dots, none, or both extensions", "anchors": ["src/main.rs: main"]}
{"id": "C62", "title": "Linked list survives serialisation", "statement": "A linked list that is serialised and read back has the same items in the same order and the same stored pointers work on it.", "quantifier": "every list reachable by pushes, pops, removals and inserts", "why_tests_cant": "unbounded call sequences", "anchors": ["src/collections/linked_list.rs: LinkedList"]}
{"id": "C63", "title": "Debug and release builds agree", "statement": "For every codec and every sequence of encode, decode, init, seek and load calls, if the debug build does not panic then the release build does not panic, returns the same values and leaves the same codec.", "quantifier": "every call sequence and every (also corrupt) codec or file", "why_tests_cant": "wrapping arithmetic differs from checked arithmetic only on inputs tests do not reach", "anchors": ["src/codec/adhoc.rs: AdhocCodec", "src/codec/adhoc/frame.rs: FrameCodec"]}
{"id": "C64", "title": "CLI conversion keeps the shape at every level", "statement": "Converting a 16-bit WAV to .adhoc at any compression level and back gives a WAV with the same sample rate, channels and number of samples (of whole blocks), and in release builds neither conversion panics, whatever the samples are.", "quantifier": "every WAV file as in C58, every level", "why_tests_cant": "end-to-end composition over all files and levels, including signals the encoder cannot represent", "anchors": ["src/main.rs: convert_wav_to_adhoc, convert_adhoc_to_wav"]}
{"id": "C65", "title": "Saved WAV files have a correct RIFF header", "statement": "A file saved by WavCodec is a canonical RIFF/WAVE PCM file: tags RIFF, WAVE, 'fmt ' and data at the right places, RIFF size = file length - 8, fmt size 16, format 1, channel count and sample rate as initialised, byte rate = rate * channels * 2, block align = channels * 2, 16 bits per sample, data size = number of data bytes, and the data are the samples as little-endian 16-bit codes.", "quantifier": "every codec whose sizes fit the header fields", "why_tests_cant": "an error in a derived field is not noticed by reading the file back with the same code", "anchors": ["src/codec/wav.rs: WavCodec"]}
{"id": "C66", "title": "Which WAV files are accepted", "statement": "WavCodec::load accepts a byte string exactly when its header has a supported format, and then the header fields and samples are those in the file; unsupported encodings are reported as errors and not misread.", "quantifier": "every byte string of at least a header", "why_tests_cant": "all header field combinations", "anchors": ["src/codec/wav.rs: WavCodec"]}
{"id": "C67", "title": "Convolution is accurate", "statement": "convolve_1d stores at place i of the result the sum over j of sample[i + j - m/2] * kernel[j] (zero outside the signal), up to rounding errors of 2^-22 per kernel item, and leaves places behind the signal alone; a result slice shorter than the signal makes it panic.", "quantifier": "every signal with samples in [-1, 1] and every kernel whose absolute values sum to less than 2", "why_tests_cant": "accumulated f32 rounding over all lengths and contents, and index arithmetic at both borders", "anchors": ["src/math/signal.rs: convolve_1d"]}
{"id": "C68", "title": "Resampling is linear interpolation", "statement": "scale_signal from n to d samples writes at place k the input linearly interpolated at k (n - 1) / (d - 1), up to rounding errors of n / 2^21, and does not panic.", "quantifier": "every signal with 1 <= n <= 2^23 samples in [-1, 1], every d from 1 to 2^24", "why_tests_cant": "the place is computed in f32 and its error could pick the wrong neighbours", "anchors": ["src/math/signal.rs: scale_signal"]}
{"id": "C69", "title": "Parallel conversion does not depend on the schedule", "statement": "When the converter is run on several files, which it converts in parallel, the files on disk at the end do not depend on how the threads are scheduled: each output is the conversion of its original input and no other file changes.", "quantifier": "every list of inputs, every interleaving of the threads' reads and writes, every size of read and write", "why_tests_cant": "a race needs a schedule that tests do not produce", "anchors": ["src/main.rs: cli, convert_file"]}
{"id": "C70", "title": "An interrupted conversion damages nothing else", "statement": "When no two inputs share an output file and no output is an input, then at any moment of a run of the converter, so also after a crash or a failed write, each file is either as it was or is the output of a conversion and holds a prefix of that conversion's result; an incomplete .adhoc file does not load.", "quantifier": "every moment of every interleaving, with failing reads and writes", "why_tests_cant": "crash points between any two system calls of any thread", "anchors": ["src/main.rs: cli, convert_file"]}
{"id": "C71", "title": "Repeated transcoding settles", "statement": "Recording at level 0, playing, recording what was played and so on changes the samples at most once more: the second playback is reproduced exactly by every later one, and the third recording is the same codec (stream, headers, state) as the second. More generally two recordings with the same 16-bit codes are identical.", "quantifier": "every signal of whole blocks whose first two generations are in sync (C01), every cut into calls", "why_tests_cant": "drift over generations depends on sample values; identity of all internal state for all inputs", "anchors": ["src/codec/adhoc.rs: encode, decode", "src/codec/adhoc/frame.rs: encode_frame"]}
{"id": "C72", "title": "Smooth signals are compressed", "statement": "If the third differences of the codes are at most D, the stream takes at most 48 bits for the first three samples of a channel and 2 + k + (D+1)/2^k bits for each further one, for every k from 1 to 15; parabolas, ramps, constants and silence take exactly 3 bits per sample, and no signal takes less.", "quantifier": "every recording of any level, cut into calls of at most 131064 blocks", "why_tests_cant": "a size guarantee over all signals; also that f32 rounding in the predictor never costs bits", "anchors": ["src/codec/adhoc/frame.rs: encode_frame, compute_optimal_divisor_exponent"]}
{"id": "C73", "title": "CLI conversion error bound per level", "statement": "Converting a 16-bit WAV to .adhoc at level L (1 to 10) and back changes no sample of a whole block by more than 1.01 * 2^L + 36 of 32768 (whenever the codec is in sync, at levels 4 to 10 always).", "quantifier": "every WAV file as in C58, every sample including -32768, every level 1..10", "why_tests_cant": "the level option must reach the codec, and all error sources must add up within the bound for every signal", "anchors": ["src/main.rs: convert_wav_to_adhoc, convert_adhoc_to_wav"]}
{"id": "C74", "title": "Capacity of a bit stream", "statement": "The capacity of a bit stream is, as documented, the largest number of bits ever written: after any calls of its methods it is the furthest end of a write. In particular after a recording it is the length of the stream, and rewinding keeps it.", "quantifier": "every sequence of reads, writes, peeks, rewinds and zeroings on a new stream; every recording", "why_tests_cant": "a counter maintained by a shared cursor routine; reads past the written end are needed to see the difference", "anchors": ["src/collections/bitstream.rs: capacity, offset_bit_cursor"]}
{"id": "C75", "title": "Quiet or smooth signals are in sync", "statement": "Signals in [-1, 1] with peak at most 2^L/8 - 0.00101 (1 - 1/2^L) at level L never lose sync (level 0: an eighth of full scale, level 3: 0.999), so every stored code is played; at level 0 so are signals of any loudness whose 16-bit codes have third differences of at most 32765. At level 0 the eighth cannot be raised by one 16-bit step.", "quantifier": "every signal within the peak or smoothness bound, every level 0..10, every admissible call split (as in C01), both builds", "why_tests_cant": "a loudness guarantee over all signals, including rounding in the f32 predictor and all noise values", "anchors": ["src/codec/adhoc/frame.rs: encode_frame, decode_frame, predict", "src/codec/adhoc.rs: encode"]}
{"id": "C76", "title": "Recording only appends", "statement": "An encode call changes no bit and no frame header recorded before it; a codec between two encode calls, rewound or saved and loaded, plays exactly the first part (all blocks so far) of what the finished recording plays.", "quantifier": "every level, every sequence of encode calls on a fresh codec and every place to cut it (playback: admissible calls as in C01)", "why_tests_cant": "a crash-consistency claim about every cut of every recording", "anchors": ["src/codec/adhoc.rs: encode", "src/codec/adhoc/frame.rs: encode_frame, FrameHeaders::push", "src/collections/bitstream.rs: write_bits"]}
{"id": "C77", "title": "Damage stays local", "statement": "Overwriting payload bits of a saved recording that belong to some of its encode calls leaves the file loadable; every read from the start that asks for no more blocks than were recorded before those calls returns what it returned from the undamaged file, and so does everything done after a seek whose target lies behind them.", "quantifier": "every level, every admissible sequence of encode calls (as in C01) cut into before, hit and behind, every overwriting of the bits of hit (also values the encoder never writes), every sequence of reads and seeks, debug and release decoders", "why_tests_cant": "the damaged bits, the cut and the later reads range over unbounded sets", "anchors": ["src/codec/adhoc.rs: decode, seek, load", "src/codec/adhoc/frame.rs: decode_frame", "src/collections/bitstream.rs: read_bits"]}
{"id": "C78", "title": "Every call and every conversion ends", "statement": "No call hangs: encode, decode, seek, load, save and the WAV calls return or panic on every codec, in whatever state it is, with every argument, and so do both conversions of the command line tool on every file; decompressing a file takes at most 65535 rounds for every sixteen bytes of it, and one more.", "quantifier": "every codec state (not only reachable ones), every input, every file content, both builds", "why_tests_cant": "termination for all states; the skip loops of seek and the drain loop of the converter are bounded only by data read from the file, modulo 2^64", "anchors": ["src/codec/adhoc.rs: encode, decode, seek, load", "src/codec/wav.rs", "src/main.rs: convert_wav_to_adhoc, convert_adhoc_to_wav"]}
{"id": "C79", "title": "Playing is bounded by the size of the file", "statement": "Whatever bytes load as an .adhoc file, corrupt or not, all reads up to the next seek together return at most 65535 blocks for each row of frame headers in the file, so a file of s bytes holding headers of 16 bytes each cannot be played forever; a seek starts this budget anew.", "quantifier": "every byte string that loads, every sequence of reads and seeks, both builds", "why_tests_cant": "an amplification bound over all byte strings and all call sequences", "anchors": ["src/codec/adhoc.rs: decode, seek, load", "src/codec/adhoc/frame.rs: decode_frame, FrameHeaders"]}
{"id": "C80", "title": "Loading allocates in proportion to the file", "statement": "Loading an .adhoc file makes no more channel states than the file has bytes, and the vectors of the loaded codec are no larger than the file.", "quantifier": "every byte string that loads", "why_tests_cant": "a memory bound over all byte strings", "anchors": ["src/codec/adhoc.rs: load"]}
{"id": "C81", "title": "Files are canonical", "statement": "Any bytes that load are, except for the stored cursors and trailing bytes, exactly what saving the loaded codec writes: each content has one encoding. Saving a loaded file again gives a file that is no longer and that loads as the same codec, and different contents never share a file.", "quantifier": "every byte string that loads, every pair of codecs", "why_tests_cant": "a statement about every accepted byte string, not only those written by the codec", "anchors": ["src/codec/adhoc.rs: save_to, load"]}
{"id": "C82", "title": "Dither noise is triangular and unbiased", "statement": "The noise that dithering adds repeats only after 126990 samples; over whole periods its mean is within 0.0004 of zero and each tenth of its range holds, within 0.0016, the share of samples a triangular distribution has there.", "quantifier": "every distance, and every stretch of any number of whole periods from any start", "why_tests_cant": "the period and the shares are facts about the whole sequence, and a histogram test looks at one stretch", "anchors": ["src/math/noise.rs: PseudoRandom::rand, triangle"]}
{"id": "C83", "title": "CLI compression level option", "statement": "The number given with -c, limited to 10, is the level the converter compresses with.", "quantifier": "every option value and every WAV file as in C58", "why_tests_cant": "the option is a string: signs, leading zeros, numbers beyond u32 and other text all occur", "anchors": ["src/main.rs: cli, convert_wav_to_adhoc"]}
{"id": "C84", "title": "CLI converts by extension", "statement": "The converter converts the inputs whose extension is wav or adhoc, in small or capital letters, and no others.", "quantifier": "every list of inputs, every file name and every output directory", "why_tests_cant": "file names are arbitrary strings", "anchors": ["src/main.rs: cli, convert_file"]}
{"id": "C85", "title": "Nodes are read from maps with exactly their two fields", "statement": "A node of the linked list is read from a map exactly when the map holds the fields data and children, each once and in either order, and nothing else; children beyond the second are ignored and missing ones mean no neighbour.", "quantifier": "every map, with any field names and values in any order", "why_tests_cant": "the maps are unbounded, and a self-describing format can deliver any of them", "anchors": ["src/collections.rs: Deserialize for Node, visit_map"]}
{"id": "C86", "title": "Noise histogram counts every value once", "statement": "The histogram of noise values counts each value once, in the tenth of [-1, 1) it lies in, and draws 300 stars per value of a part, divided by the number of values: 281 to 300 stars in all.", "quantifier": "every list of at most 2^64/300 values, including NaN and infinities; parts away from their bounds by 2^-20", "why_tests_cant": "rounding at the bounds of the parts and values outside the range occur for particular floats only", "anchors": ["src/math/noise.rs: NoiseDistribution"]}
{"id": "C87", "title": "Mean squared error", "statement": "compute_mse is 0 for equal signals, does not depend on the order of the signals, and ignores samples for which the other signal has none.", "quantifier": "every pair of signals of any lengths", "why_tests_cant": "unbounded signals; the empty one is easily missed", "anchors": ["src/math.rs: compute_mse"]}
{"id": "C88", "title": "Gaussian filter is symmetric", "statement": "gaussian_filter returns N numbers that are the same from both ends.", "quantifier": "every N, sigma and radius", "why_tests_cant": "the asymmetry is in the last bits of some coefficients, and N = 1 is not tried", "anchors": ["src/math/signal.rs: gaussian_filter"]}
{"id": "C89", "title": "Recording the same again changes nothing", "statement": "At compression level 0, rewinding a codec and recording the same calls over its recording leaves the bit stream and the frame headers as they were, and it plays the same.", "quantifier": "every list of calls that a new codec accepts, every channel count, both builds, every list of read buffers", "why_tests_cant": "the recording is mixed bit by bit with what was there before, and how is visible only where words of the stream are crossed", "anchors": ["src/codec/adhoc.rs: encode, init", "src/collections/bitstream.rs: write_bits"]}
{"id": "C90", "title": "Seeking restores synchronisation", "statement": "After a seek the decoder plays the differences from the first row of the encode call it starts with, given the true codes before that row; losses before the seek have no influence, and if the differences from there on fit the limits the stored codes are played exactly.", "quantifier": "every recording, in sync or not, every level, every list of reads and seeks within the recording, rewound, not rewound or loaded from a file", "why_tests_cant": "losses of synchronisation depend on the whole signal, and the tests seek only in signals in sync", "anchors": ["src/codec/adhoc.rs: seek, decode", "src/codec/adhoc/frame.rs: encode_frame, decode_frame"]}
{"id": "C91", "title": "Settings may come in any order and during a recording", "statement": "Before a recording only the stream info and the level set last count; setting the info again during a recording, with the same number of channels, changes nothing but the info; each encode call is stored with the level in force at it.", "quantifier": "every sequence of set_info, with_info, with_compression_level and encode calls, both builds", "why_tests_cant": "the sequences are unbounded, and the tests set everything once", "anchors": ["src/codec/adhoc.rs: with_info, set_info, with_compression_level, encode"]}
{"id": "C92", "title": "Setting the level of a recording does not change its loudness", "statement": "Setting the compression level of a codec that holds a recording does not change what it plays.", "quantifier": "every recording, level and sequence of reads and seeks", "why_tests_cant": "the level is set once, before recording, in every test", "anchors": ["src/codec/adhoc.rs: with_compression_level, decode"]}
{"id": "C93", "title": "Cutting the input into encode calls does not matter at any level", "statement": "At every compression level, what is decoded depends on the samples that were encoded and not on how they were cut into encode calls.", "quantifier": "every signal, every two ways to cut it into calls, every level, both builds, every list of read buffers", "why_tests_cant": "the noise depends on the position in the call; the project's tests encode with one block size only", "anchors": ["src/codec/adhoc.rs: encode, encode_channel", "src/math/noise.rs: triangle"]}
{"id": "C94", "title": "A channel is treated as if recorded alone", "statement": "At compression level 0 each channel of a recording takes the bits and gives the samples it would take and give if it had been recorded alone: the streams of the channels recorded alone add up to the length of the stream, and decoding one gives the channel's part of what decoding the recording gives.", "quantifier": "every number of channels, every list of calls, in sync or not, both builds, every list of read buffers", "why_tests_cant": "any number of channels of any content; crosstalk would show only for particular contents", "anchors": ["src/codec/adhoc.rs: encode, encode_channel, decode", "src/codec/adhoc/frame.rs: encode_frame, decode_frame"]}
{"id": "C95", "title": "CLI conversions settle after one round", "statement": "Converting a WAV file to .adhoc at level 0, back to WAV and again to .adhoc gives the first .adhoc file, byte for byte: only the first conversion can change anything.", "quantifier": "every 16-bit WAV file in sync with at least 106 samples that form whole blocks, fewer than 342 channels, both builds", "why_tests_cant": "samples that change when converted exist for particular values only, and a second change would need a chain of two", "anchors": ["src/main.rs: convert_wav_to_adhoc, convert_adhoc_to_wav", "src/codec/wav.rs: decode, encode, save_to, load"]}
{"id": "C96", "title": "Polarity does not matter", "statement": "At compression level 0 an inverted signal takes exactly as many bits as the signal, and while both are in sync what is decoded from it is the inverse of what is decoded from the signal.", "quantifier": "every signal, in sync or not for the size, every number of channels, every list of calls and of read buffers, both builds", "why_tests_cant": "needs rounding, truncation, the predictor and the choice of the parameter to be symmetric for all values; the limits of a difference are not", "anchors": ["src/codec/adhoc/frame.rs: encode_frame, compute_optimal_divisor_exponent", "src/math/parabola.rs", "src/codec.rs: truncate_sample, normalize_sample"]}
{"id": "C97", "title": "Every way to seek works", "statement": "Streamable::seek on an AdhocCodec accepts all of std's SeekFrom: a seek relative to the current position or to the end goes where it says, as on a WavCodec, and a codec that was sought can be used further.", "quantifier": "every codec state, every SeekFrom value, both builds", "why_tests_cant": "a test seeks to a few times from the start", "anchors": ["src/codec/adhoc.rs:332-433", "src/codec.rs:60-102"]}
{"id": "C98", "title": "A saved recording can be continued", "statement": "When a recording is saved and loaded and further samples are encoded into the loaded codec, it plays like a recording that was not interrupted.", "quantifier": "every recording, every continuation, every level, both builds; what recording into a loaded codec does, for every file", "why_tests_cant": "a test continues a few recordings; what old memory does to new bits depends on all of it", "anchors": ["src/codec/adhoc.rs:183-254", "src/codec/adhoc/frame.rs:193-291", "src/codec/adhoc/frame.rs:86-113"]}
{"id": "C99", "title": "A wrong channel count, corrected at once, does no harm", "statement": "If set_info is called with a wrong channel count in the middle of a recording or of playing, and again with the right one before the next call, nothing changes.", "quantifier": "every sequence of calls before, every wrong channel count, both builds", "why_tests_cant": "a test tries a few wrong counts at a few moments", "anchors": ["src/codec/adhoc.rs:73-88"]}
{"id": "C100", "title": "Silence stays silent", "statement": "Silence is played back as silence at every compression level, also between other sounds.", "quantifier": "every silent recording of any length, every level, both builds; every recording in [-1, 1] with silent samples in it at the levels 5 to 10", "why_tests_cant": "the noise that is added differs for every sample, so that a short silence may or may not stay silent", "anchors": ["src/codec/adhoc.rs:256-330", "src/math/noise.rs:17-29", "src/codec.rs"]}
{"id": "C101", "title": "Every seed gives noise", "statement": "With every seed, PseudoRandom delivers any number of uniform and triangular values without panic, and the values do not repeat before 253980 numbers were drawn.", "quantifier": "every 64-bit seed, every number of values, both builds", "why_tests_cant": "a test tries a few seeds; the seed for which the generator stands still is one of 507961 residues", "anchors": ["src/math/noise.rs"]}
{"id": "C102", "title": "Every file plays finite samples", "statement": "Whatever file is loaded, and whatever is read and sought in it, every sample delivered is a finite number, at most 32769/32768 times two to the level in the file; whatever is recorded, NaN and infinities included, plays samples of at most two to the level.", "quantifier": "every byte string that load accepts, every sequence of reads and seeks; every recording, every level, both builds", "why_tests_cant": "the set of damaged files is unbounded, and NaN would come out of one in particular states only", "anchors": ["src/codec/adhoc.rs: load, decode, seek", "src/codec/adhoc/frame.rs: decode_frame", "src/codec.rs: normalize_sample"]}
{"id": "C103", "title": "Samples out of range are clipped", "statement": "A sample outside [-1, 1], infinite ones included, is recorded as if it had been limited to [-1, 1] before, and NaN as 0, at every compression level.", "quantifier": "every list of calls with samples of any kind, every level, both builds, every list of read buffers", "why_tests_cant": "a test tries a few values; where a level clips depends on scale, noise and rounding", "anchors": ["src/codec/adhoc.rs: encode, with_compression_level", "src/codec.rs: truncate_sample"]}
{"id": "C104", "title": "A parabola goes through its points", "statement": "FixedParabola evaluates, up to float rounding, the polynomial of degree two through (0, f[0]), (1, f[1]) and (2, f[2]); at 0 it gives f[0] exactly.", "quantifier": "all samples up to 2^100, every place up to 1024", "why_tests_cant": "a wrong coefficient can agree on the few parabolas tried, and the rounding error grows with place and size", "anchors": ["src/math/parabola.rs: compute_coefs, eval"]}
{"id": "C105", "title": "The example programs convert completely or fail loudly", "statement": "The programs compress and decompress (examples/ and the crate documentation) either write the complete converted file or panic; compress and then decompress gives a WAV file of the same shape close to the first.", "quantifier": "every content of the input file, every behaviour of the output device, both builds, every WAV file with at most 341 channels for the round trip", "why_tests_cant": "the programs are not tested at all; full disks and short writes do not happen in tests", "anchors": ["examples/compress.rs: main", "examples/decompress.rs: main", "src/codec/wav.rs: save_to"]}
{"id": "C106", "title": "A pointer to a removed item is refused", "statement": "Passing the pointer of an item that was removed, and whose slot holds no new item, to remove_at removes nothing and to insert_at changes nothing.", "quantifier": "every history of pushes, pops, insertions and removals, every pointer to a free slot", "why_tests_cant": "which links a free slot still holds depends on the order in which slots were freed", "anchors": ["src/collections/linked_list.rs: remove_at, insert_at"]}
{"id": "C107", "title": "iter_mut hands out each item exactly once", "statement": "After any history, also with earlier edits through iter_mut, iter_mut hands out a reference to every item exactly once, in the order of iter, and what is written through the references is what the list then holds; pointers, order and length stay.", "quantifier": "every history of pushes, pops, insertions, removals and edits, every function applied to the items", "why_tests_cant": "an item handed out twice through the unsafe code would be two references to one place, which needs a particular ring of links", "anchors": ["src/collections/linked_list.rs: iter_mut"]}
{"id": "C108", "title": "The cache and the ring buffer survive serialisation", "statement": "After any history, a cache or a ring buffer over a Vec that is serialised with bincode and read back behaves under all further calls as if it had not been; a cut-off serialisation is rejected.", "quantifier": "every history, every capacity, every order in which the map is written, every type of keys, values and items that itself survives", "why_tests_cant": "the pointers stored in the map and in the list must still agree, and the order of a HashMap differs from run to run", "anchors": ["src/collections/lru_cache.rs", "src/collections/queue.rs", "src/collections.rs"]}
{"id": "C109", "title": "iter_mut is safe whatever calls were made", "statement": "Whatever calls were made before, with whatever pointers, iter_mut accesses no memory outside the list and hands out no item twice.", "quantifier": "every history, every later insertion with a pointer to no live item; for the memory every list, also one made up and deserialised", "why_tests_cant": "the ring of links must have been bent by a stale pointer; two references to one place look harmless in a test", "anchors": ["src/collections/linked_list.rs: iter_mut, insert_at"]}
{"id": "C110", "title": "A number can be overwritten in place", "statement": "A number written with write_compressed or write_compressed_capped over whatever the bit stream holds is read back from there, as the crate's own tests do with the divisor 2.", "quantifier": "every memory, every place in it, every divisor 2^k, every number of 16 bits that can be negated", "why_tests_cant": "whether old bits show through depends on the place of a 128-bit boundary inside the code word; the tests use only one divisor", "anchors": ["src/collections/bitstream.rs: write_compressed, write_compressed_capped, write_bits"]}
{"id": "C111", "title": "Every accepted WAV file is compressed", "statement": "For every WAV file that load accepts the command-line tool writes a recording of all its whole blocks and does not panic.", "quantifier": "every byte string accepted as WAV, every level, every output device, both builds", "why_tests_cant": "needs files with no, very many or more channels than samples; the tool is not tested at all", "anchors": ["src/main.rs: convert_wav_to_adhoc", "src/codec/wav.rs: decode", "src/codec/adhoc.rs: encode", "src/codec/adhoc/frame.rs: encode_frame"]}
{"id": "C112", "title": "Higher compression levels never make a recording longer", "statement": "As the README says of the levels, recording the same samples at a higher level (up to 10) never takes more bits than at a lower one.", "quantifier": "every recording of samples in [-1, 1], every two levels, every number of channels", "why_tests_cant": "depends on how the noise added from level 1 on interacts with the choice of the divisor of each frame", "anchors": ["README.md", "src/codec/adhoc/frame.rs: encode_frame", "src/codec/adhoc.rs: with_compression_level"]}
{"id": "C113", "title": "What is played depends only on what was recorded up to then", "statement": "Changing a recording from some block on changes nothing of what is played before that block; where nothing clips, each played sample depends on the recorded sample at its own place alone.", "quantifier": "every two recordings made with calls of the same lengths, every level, every number of channels, every place", "why_tests_cant": "a frame chooses its divisor from all of its samples, also the later ones; no finite set of pairs of recordings covers it", "anchors": ["src/codec/adhoc.rs: encode, decode", "src/codec/adhoc/frame.rs: encode_frame, decode_frame"]}
{"id": "C114", "title": "The sample rate is only a label", "statement": "Codecs that differ only in the sample rate behave alike in every call other than a seek; a seek depends on the rate only through the number of samples it amounts to; the files differ only in the four bytes of the rate.", "quantifier": "every codec in every state, every two rates, every sequence of calls, both builds", "why_tests_cant": "a rate could enter any calculation; tests use one or two rates", "anchors": ["src/codec/adhoc.rs: encode, decode, seek, save", "src/codec.rs: StreamInfo"]}
{"id": "C115", "title": "A codec for no channels is harmless", "statement": "Encoding and decoding with an info of no channels does nothing and does not panic, with AdhocCodec and with WavCodec.", "quantifier": "every state of a codec with an info of no channels, every call, both builds", "why_tests_cant": "tests use one or two channels; files of no channels are accepted by load", "anchors": ["src/codec/adhoc.rs: encode, decode, seek", "src/codec/wav.rs: encode, decode, seek", "src/codec.rs: StreamInfo"]}
{"id": "C116", "title": "Playing a recording leaves its file as it was", "statement": "Reading samples and seeking never alter what a rewound save writes: the headers, the format, the level and every stored bit stay, and no memory is appended.", "quantifier": "for every opened file, every build, every sequence of reads with buffers of any length and of seeks to any place", "why_tests_cant": "Decoding shares the allocating cursor code of the writer (every read first makes sure two chunks are there), so whether a read can grow the stream depends on where the last number of the recording ends within a chunk; tests compare samples, not saved bytes.", "anchors": ["src/codec/adhoc.rs", "src/codec/adhoc/frame.rs", "src/collections/bitstream.rs"]}
{"id": "C117", "title": "A bit stream works wherever its cursor stands", "statement": "Every call of the methods of a bit stream succeeds wherever its cursor stands, also after set_bit_cursor: reading sees zeros where nothing was written and writing makes the room it needs.", "quantifier": "for every build, every memory, every cursor position and every call with arguments its types allow; and for every sequence of calls", "why_tests_cant": "The allocation adds at most one chunk per check, so positions one and two chunks beyond the end behave differently, and only when a value straddles them; the crate's tests only ever write at the end.", "anchors": ["src/collections/bitstream.rs"]}
{"id": "C118", "title": "A cleared bit stream is as good as new", "statement": "After zero and seek_start a bit stream behaves like a new one: the same calls give the same answers, the same cursor and the same bits.", "quantifier": "for every build, every earlier contents, every sequence of calls with arguments their types allow", "why_tests_cant": "A cleared stream keeps its memory, and write_bits, peek_bits and read_bit treat memory that is there differently from memory that is not; the difference shows only at the end of the memory.", "anchors": ["src/collections/bitstream.rs: zero, seek_start, read_bit"]}
{"id": "C119", "title": "Resampling keeps the ends and the range", "statement": "scale_signal keeps the first and the last sample, and no output sample lies outside the range of the input; a signal in [-1, 1] stays in [-1, 1]; polarity does not matter.", "quantifier": "for every build, every signal of up to 2^23 samples in [-1, 1] and every target length from 2 to 2^24", "why_tests_cant": "Rounding in (k as f32) * scale, 1.0 - t and the two products decides whether a mixture of two equal samples exceeds them, so it depends on the bits of every sample and weight.", "anchors": ["src/math/signal.rs: scale_signal"]}
{"id": "C120", "title": "The laws of convolution", "statement": "A kernel with a single 1 shifts the signal exactly, with the 1 in the middle it copies it; a pulse gives the kernel back to front; silence stays silence; an output sample depends only on the samples under the kernel; reversing the polarity of signal or kernel reverses the result.", "quantifier": "for every signal and kernel of any length (finite ones for the shift, response and silence laws)", "why_tests_cant": "Tests check one kernel and one signal; the centre convention (kernel_len / 2) differs for even and odd kernels and the ends are padded with zeros.", "anchors": ["src/math/signal.rs: convolve_1d"]}
{"id": "C121", "title": "The tool decompresses every recording completely", "statement": "Whatever was recorded with the library and saved, the command line tool converts to a WAV file with the same stream info and exactly the samples one hears when playing the recording, in 16 bits.", "quantifier": "for every build, level, stream info and sequence of encode calls whose counters fit the two file formats", "why_tests_cant": "The tool plays through a fixed buffer of 1024 samples and stops at the first empty answer; whether nothing is lost depends on how the recording was cut into calls and how channels divide the buffer.", "anchors": ["src/main.rs: convert_adhoc_to_wav", "src/codec/adhoc.rs: decode"]}
{"id": "C122", "title": "The .adhoc file is determined byte by byte", "statement": "The saved file of a recording is a fixed function of stream info, level and the calls: a layout of little-endian numbers and packed bits, with the Rice parameter of every frame the first cheapest one, unused bits zero, and lists of exactly the given lengths.", "quantifier": "for every build, stream info with channels, level and sequence of encode calls that does not panic", "why_tests_cant": "A round trip is blind to mistakes made alike on both sides, such as swapped fields, another bit order or rubbish in unused bits; a fixed sample file checks one recording.", "anchors": ["src/codec/adhoc.rs: encode, save_to", "src/codec/adhoc/frame.rs: push, encode_frame", "src/collections/bitstream.rs: write_bits", "src/collections/nibble_list.rs: push"]}
{"id": "C123", "title": "How large files are and what the tool saves", "statement": "A saved recording takes 117 bytes, 16 bytes and a nibble and a bit for each frame, and 16 bytes for each 128 bits of sound and up to 32 bytes more. At levels 6 to 10 the tool's file for any mono or stereo 16-bit WAV file with at least 2200 samples is smaller than the samples, at level 10 and from 6000 samples on by at least 28 percent, and never by more than 81.25 percent.", "quantifier": "for every build, every WAV file with these formats whatever its samples, and for the first sentence every sequence of encode calls, level and number of channels", "why_tests_cant": "The README reports savings of 20 to 70 percent on a few songs; the worst case is noise at full scale with the least favourable dither, and depends on the headers, the spare block and the choice of Rice parameters together.", "anchors": ["src/main.rs: convert_wav_to_adhoc", "src/codec/adhoc.rs: encode, save_to", "src/codec/adhoc/frame.rs: push"]}
{"id": "C124", "title": "Indexing the ring buffer and the sample history", "statement": "Whatever calls were made, q[i] on the ring buffer is the i-th item from the front, and assigning to q[i] replaces this item.", "quantifier": "for every backing store, capacity, sequence of calls, and index", "why_tests_cant": "Tests that only push at the rear cannot see that the index goes straight to the backing store; it takes removals and wrap-around.", "anchors": ["src/collections/queue.rs: Index, IndexMut", "src/collections/stack.rs: Index"]}
{"id": "C125", "title": "The unit tests pass whatever data they use", "statement": "The tests of the Rice code pass for all numbers but -32768 (capped: of 14 bits) in any order; the shotgun test with aligned numbers for all numbers of 32 bits, the one with unaligned numbers for all of 31 bits (but not of 32 bits); the test of the bit vector for all bits; the tests of the codec for all data in [-1, 1] at every level up to 8 while the codec is in sync, which at levels 4 to 8 it always is.", "quantifier": "for every list of numbers, trials, bits or samples in place of those in the tests, and both builds", "why_tests_cant": "The tests run on fixed or random data, on one stream that is written over and over: what is left from one round can only show up in the next one with data that the tests do not use (the unaligned test takes numbers modulo 10).", "anchors": ["src/collections/bitstream.rs: tests", "src/collections/bitvec.rs: tests", "src/codec/adhoc.rs: tests"]}
{"id": "C126", "title": "Copying a WAV file", "statement": "Decoding a WAV file a buffer at a time and encoding what was read into a new codec, as the tests do, gives a file with the same info and all complete blocks of samples, each the same except for 1537 of the 65536 values, which come back one closer to 0; a copy of a copy has the same bytes, and already the first copy does if no such value occurs.", "quantifier": "for every WAV file that is accepted, and every buffer that holds a block", "why_tests_cant": "The test only writes a file for somebody to listen to; which values are not preserved, what happens at the end of a file that does not fill the buffer and whether further copies get worse is not visible in one run.", "anchors": ["src/codec/wav.rs: decode, encode, tests"]}
{"id": "C127", "title": "A player written from the format plays recordings like the library", "statement": "A small decoder that only knows the file format (tables, Rice codes, prediction; no cursors, chunks, states or buffers) takes the same sound out of the file of a recording as loading it with the library and decoding it with any buffers, whatever comes after the file.", "quantifier": "for every recording, level, build and sequence of buffers", "why_tests_cant": "There is only one implementation, so encoder and decoder could agree on anything; an independent reader shows that the file alone, read in the simplest way, determines the sound.", "anchors": ["src/codec/adhoc.rs: save_to, load, decode", "src/codec/adhoc/frame.rs: decode_frame"]}
{"id": "C128", "title": "The library plays the files of any encoder", "statement": "Any file the library loads that stores pieces in the format (any Rice parameters, sizes, first codes and steps) plays like the small player says; the stored positions, histories, flags and cursors do not matter, nor does what comes after the file.", "quantifier": "for every file, set of pieces in it, build and sequence of buffers", "why_tests_cant": "The only files the tests decode were written by this encoder a moment before; the freedom the format leaves to other encoders and later versions is never tried.", "anchors": ["src/codec/adhoc.rs: load, decode", "src/codec/adhoc/frame.rs: decode_frame", "src/codec/adhoc/frame.rs: FrameHeaders"]}
{"id": "C129", "title": "The test re_encode works for every WAV file", "statement": "Compressing a WAV file, rewinding, saving, and decompressing it upside down as the test re_encode does runs to its end; at every level the WAV file holds the negatives of the samples the tool would restore, and the saved file loads as the tool's. At level 4 each sample is the negative of the original one up to 52 of 32768.", "quantifier": "for every 16-bit WAV file of fewer than 342 channels and at least three blocks, both builds, every level", "why_tests_cant": "The test converts one file and asserts nothing about the result (it is there to be listened to).", "anchors": ["src/codec/adhoc.rs: re_encode", "src/codec/wav.rs: encode, decode"]}
{"id": "C130", "title": "Seeking in the files of any encoder", "statement": "In a file of any encoder whose flags, positions and histories agree with its sound, any sequence of reads and seeks behaves like a tape that holds what a player written from the format plays. Only the position of the first piece of a row and the histories after the first row matter. A seek behind the end panics.", "quantifier": "for every loadable file with rows of pieces in the format (as in C128) and tables that fit, every sequence of reads and of seeks inside the signal, both builds", "why_tests_cant": "Tests seek only in files written by the library itself, at a few places.", "anchors": ["src/codec/adhoc.rs: load, seek, decode", "src/codec/adhoc/frame.rs: get, set_cursor, decode_frame"]}
{"id": "C131", "title": "Recordings made in the browser are those made on a server", "statement": "On a target with a 32-bit usize (wasm32) a recording that fits into its memory is bit for bit that of a 64-bit target, and reads and seeks give the same on both. More generally, with any width of usize any sequence of calls on any codec gives the same results as long as the cursor stays where that width can index, and every file that fits into memory gives the same when loaded.", "quantifier": "for every recording of at most 2^32 bytes of sound, every sequence of reads and of seeks inside the signal, directly or after saving and loading; for every codec, every sequence of calls and every width; both builds", "why_tests_cant": "Tests run on the 64-bit machine of the developer; the conversions to usize cut off only beyond what they record.", "anchors": ["README.md: What is this?", "src/collections/bitstream.rs: chunk_index, write_bits, peek_bits, write_bit, read_bit"]}
{"id": "C132", "title": "Sizes in the browser", "statement": "On a target with a 32-bit usize filesize_upperbound is what it is on a 64-bit target, for every recording that fits into memory.", "quantifier": "for every recording of at most 2^32 bytes of sound, both builds", "why_tests_cant": "It takes 512 megabytes of compressed sound in memory on a 32-bit target to see the product overflow.", "anchors": ["src/collections/bitstream.rs: capacity_upperbound, with_capacity_in_megabytes, len, capacity", "src/codec/adhoc.rs: filesize_upperbound"]}
{"id": "C133", "title": "How a reader hands out its bytes does not matter", "statement": "Loading from a reader that gives its bytes in any pieces and is interrupted any number of times gives exactly what its content gives, for .adhoc and for WAV. A reader that fails at some point gives that or an error (None): never another codec and no other panic.", "quantifier": "for every content, every position in it and every way of answering the calls of read; both builds", "why_tests_cant": "Tests load from byte vectors and local files, which hand out everything at once and do not fail.", "anchors": ["src/codec/adhoc.rs: load", "src/codec/wav.rs: load"]}
{"id": "C134", "title": "Recordings one after the other in one file", "statement": "Recordings saved one after the other to the same writer are loaded back one after the other from the same reader, each with its info, its level and its sound, whatever comes before and behind them; the reader then stands behind the last one.", "quantifier": "for every list of recordings with any settings, every writer that takes all the bytes in any pieces, every reader that does not fail, and every other content; both builds", "why_tests_cant": "Every test saves and loads one recording, and load takes the reader by value; only all files together show that none is read too far.", "anchors": ["src/codec/adhoc.rs: save_to, load"]}
{"id": "C135", "title": "Half a sample at the end of a WAV file changes nothing", "statement": "A 16-bit WAV file with one byte behind the last whole sample plays and seeks like the file without it, and is compressed to the same bytes.", "quantifier": "for every 16-bit WAV file that loads with whole samples, every further byte, buffer, seek, level and output file; both builds", "why_tests_cant": "The test files have whole samples, and the number of samples is the number of bytes halved, rounded down.", "anchors": ["src/codec/wav.rs: load, num_samples, get_pcm, decode, seek", "src/main.rs: convert_wav_to_adhoc", "examples/compress.rs"]}
{"id": "C136", "title": "The unsafe views of the WAV codec are valid", "statement": "Every slice made by from_raw_parts in wav.rs is aligned, inside its memory and initialised, so that decode is defined for every codec wherever its bytes are.", "quantifier": "for every codec, also one without samples, every address the allocator may choose for a vector of bytes, and every buffer", "why_tests_cant": "Allocators hand out even addresses in practice and old compilers do not check; the tests never decode an empty codec.", "anchors": ["src/codec/wav.rs: get_pcm, decode, RawWavHeader, as_bytes, as_bytes_mut"]}
{"id": "C137", "title": "WAV files do not depend on the machine", "statement": "On a machine with the other byte order the WAV codec saves the same files, loads the same files and decodes the same samples.", "quantifier": "for both byte orders, every codec, file, buffer and output file; both builds", "why_tests_cant": "Tests run on little-endian machines; encode stores the low byte first by arithmetic while decode and the header use the memory as it is.", "anchors": ["src/codec/wav.rs: get_pcm, as_bytes, as_bytes_mut, save_to, load, write_sample"]}
{"id": "C138", "title": "A recording allocates memory logarithmically often", "statement": "The vectors that encode fills are allocated a number of times that grows with the logarithm of the samples and frames given, and the copying that their growth takes is linear, as the README says.", "quantifier": "for every sequence of calls that succeeds, any number of channels above 0, both builds", "why_tests_cant": "Tests do not count allocations; a vector that is rebuilt, or grown by a constant amount, gives the same samples.", "anchors": ["README.md", "src/codec/adhoc.rs: encode", "src/collections/bitstream.rs: allocate_if_needed", "src/codec/adhoc/frame.rs: push"]}
{"id": "C139", "title": "Encoding and decoding take linear time", "statement": "The steps of all encode calls together are linear in the samples and frames given; the steps of all decode calls together are linear in the samples asked for, the samples that the headers declare and the bytes of the file, as the README says. This holds also for files of any other encoder.", "quantifier": "for every codec with stream info, every recording and every file that loads; all buffers; both builds", "why_tests_cant": "Timing tests see a few inputs; a crafted file could make one decode call scan the same bits again and again, or a cost table could be searched for every sample.", "anchors": ["README.md", "src/codec/adhoc.rs: encode, decode", "src/codec/adhoc/frame.rs: encode_frame, decode_frame, compute_optimal_divisor_exponent", "src/collections/bitstream.rs: write_compressed, read_compressed"]}
{"id": "C140", "title": "A seek looks at the rows and decodes one of them", "statement": "A seek in a file looks at each row of frame headers at most once and decodes one row of frames: beyond the number of rows and of bytes its steps are bounded by a number that depends on the channels only.", "quantifier": "for every file that loads, every position, both builds", "why_tests_cant": "A seek that decodes everything before its target gives the same samples.", "anchors": ["src/codec/adhoc.rs: seek"]}
{"id": "C141", "title": "Playing takes bounded memory", "statement": "However long and however often a file is played, no channel keeps more than 65535 decoded samples waiting, and the stream in memory stays below a bound that the file fixes: the chunks in it, two more, and 17 bits for every declared sample and 48 for every frame.", "quantifier": "for every file that loads, of whatever encoder, every sequence of reads and rewinds with buffers of any length, both builds", "why_tests_cant": "Every read may append chunks, and headers may declare samples that are not there; a leak of a chunk for each rewind, or a queue that is filled before it is empty, shows only in long sessions or with crafted files.", "anchors": ["src/codec/adhoc.rs: decode, buffer_audio, init", "src/codec/adhoc/frame.rs: decode_frame", "src/collections/bitstream.rs: allocate_chunks_if_needed, peek_bits, read_compressed"]}
{"id": "C142", "title": "The frame index holds every frame, however many", "statement": "Pushing frame headers never fails, and the index returns exactly the headers that were pushed, in order.", "quantifier": "for every list of headers whose values fit their fields, of any length, both builds", "why_tests_cant": "The counters have 32 bits; a test would need four thousand million frames to see them overflow.", "anchors": ["src/collections/nibble_list.rs: push, len", "src/codec/adhoc/frame.rs: push, next, get"]}
{"id": "C143", "title": "A seek forgets the past", "statement": "What a seek and everything after it give, panics included, does not depend on what has been read of the file before, or on where it has been sought.", "quantifier": "for every file that loads, every sequence of reads and seeks before, every place sought and every sequence of reads and seeks after, both builds", "why_tests_cant": "The codec keeps decoder state for each channel, queues of decoded samples, three cursors and a stream that grows as it is read; leftovers of any of them change the result only for particular histories.", "anchors": ["src/codec/adhoc.rs: seek, init, decode", "src/codec/adhoc/frame.rs: init, reset, get, next", "src/collections/bitstream.rs: set_bit_cursor, peek_bits"]}
{"id": "C144", "title": "A list read from bytes can be iterated over", "statement": "In every LinkedList that Deserialize accepts, iter and iter_mut reach all items without a panic, and iter_mut hands out no item twice.", "quantifier": "for every type of items, every sequence of bytes and every function applied to the items", "why_tests_cant": "The derived Deserialize checks nothing, and iter_mut makes its references with unsafe code from the stored links and length; only bytes made up on purpose show two mutable references to one item.", "anchors": ["src/collections/linked_list.rs: LinkedList, iter, iter_mut, LinkedListIterator::next", "src/collections.rs: Node, Deserialize"]}
{"id": "C145", "title": "Negative zero is nothing special", "statement": "Recordings that differ only in the signs of zeros are the same, no sample that is delivered is -0.0 unless the level in the loaded file is 31 modulo 32 (then every zero is -0.0), and playing never depends on the sign of a zero in a buffer except for the places it does not fill.", "quantifier": "for all samples, buffers, reads and seeks, all bytes loaded, both codecs and both builds", "why_tests_cant": "Tests compare floats with ==, for which the two zeros are equal; the sign of a zero shows only in its bits, and what makes one is a chain of products and sums.", "anchors": ["src/codec.rs: normalize_sample, truncate_sample", "src/codec/adhoc.rs: encode, decode, load", "src/codec/adhoc/frame.rs: encode_frame, decode_frame", "src/codec/wav.rs: encode, decode", "src/math/noise.rs: triangle", "src/math/parabola.rs", "src/math/signal.rs: convolve_1d"]}
{"id": "C146", "title": "A linked list holds any number of items", "statement": "Whatever the number of items pushed to a LinkedList, iterating over it gives all of them in order and len is their number.", "quantifier": "for every list of items of any type and every length, both builds", "why_tests_cant": "The length and the pointers are u32, and u32::MAX is the null pointer; a test would have to push four thousand million items to see what happens when these run out.", "anchors": ["src/collections/linked_list.rs: insert_at, push_rear, push_front, allocate, iter", "src/collections.rs: Ptr, NULL"]}
{"id": "C147", "title": "A ring buffer read from bytes is a deque", "statement": "Whatever bytes a FixedRingBuffer was read from, all further calls on it behave like a double-ended queue bounded by its capacity, without a panic.", "quantifier": "for every byte string, every type of items, every sequence of calls, both builds", "why_tests_cant": "The derived Deserialize skips the checks of new; which of the fields go together, and which u32 sums overflow, depends on all later calls.", "anchors": ["src/collections/queue.rs: FixedRingBuffer, Deserialize, push_front, push_rear, pop_front, pop_rear, iter, clear"]}
{"id": "C148", "title": "The tool writes only into the output directory", "statement": "Whatever the input files are called, every file that the command line tool creates lies directly in the output directory.", "quantifier": "for all paths of inputs and output directories (as written, Unix)", "why_tests_cant": "The path is put together by push and set_extension, whose behaviour on dots, trailing slashes and hidden names makes unboundedly many cases.", "anchors": ["src/main.rs 107, 120-126: convert_wav_to_adhoc", "src/main.rs 136, 147-149: convert_adhoc_to_wav"]}
{"id": "C149", "title": "A conversion does not overwrite its input", "statement": "The path to which the command line tool writes the conversion of a file never ends in the name of that file, so the input (which need not be inside the output directory, but may be) survives, even if the tool runs both conversions on it.", "quantifier": "for all paths of inputs and output directories (as written, Unix)", "why_tests_cant": "The extension is matched by contains and replaced by set_extension on a stem that may itself have an extension; no list of examples covers all names.", "anchors": ["src/main.rs 94-103: convert_file", "src/main.rs 107, 120-126: convert_wav_to_adhoc", "src/main.rs 136, 147-149: convert_adhoc_to_wav"]}
{"id": "C150", "title": "A call that is too long loses only its own end", "statement": "When some call of encode has 65536 blocks or more, playing the recording gives for every call the first (number of blocks modulo 65536) blocks of it, quantised, and the other calls as they were.", "quantifier": "for all calls in sync at level 0, every number of channels, every sequence of read buffers", "why_tests_cant": "A header keeps the size modulo 65536 and the decoder goes on reading where it stopped, so whether anything else is harmed depends on the bits that are left over; only signals above 65536 blocks show it.", "anchors": ["src/codec/adhoc/frame.rs 86-112, 115-130: FrameHeaders::push, get", "src/codec/adhoc/frame.rs 193-292, 294-371: encode_frame, decode_frame"]}
{"id": "C151", "title": "A cache read from bytes is a cache", "statement": "A cache with room that was read from any bytes answers every sequence of calls without a panic.", "quantifier": "for all bytes that are read as a cache and every sequence of put, get, get_mut, lookup and remove", "why_tests_cant": "The derived Deserialize checks nothing; tests read back what was written, while a damaged or made-up file can lead the table or the links anywhere.", "anchors": ["src/collections/lru_cache.rs 5-13: LruCache", "src/collections/lru_cache.rs 34-107", "src/collections/linked_list.rs 17-24: LinkedList"]}
{"id": "C152", "title": "Any file can be recorded over", "statement": "Into a codec that was loaded from any file, with at least one channel, a recording that begins with three blocks can be made without a panic (release build).", "quantifier": "for all files that load accepts and all calls of encode, whatever the samples", "why_tests_cant": "Recording into a loaded codec writes over the headers of the file; tests load files that the codec has saved itself, in which the lists have the same length.", "anchors": ["src/codec/adhoc.rs 183-214: load", "src/codec/adhoc.rs 216-254: encode", "src/codec/adhoc/frame.rs 86-113: FrameHeaders::push", "src/collections/nibble_list.rs 32-40: push", "src/collections/bitvec.rs 40-51: push"]}
{"id": "C153", "title": "Seeking in a file panics only beyond its end", "statement": "In a codec loaded from any file with at least one channel whose lists have all the headers it counts, every sequence of reads and seeks succeeds if all the times that are sought are the start or in the complete rows of frames (release build).", "quantifier": "for all files that load accepts, all buffers and all times", "why_tests_cant": "Files from elsewhere may hold any positions, sizes and counts; tests seek in recordings that the codec has made itself.", "anchors": ["src/codec/adhoc.rs 183-214: load", "src/codec/adhoc.rs 256-308: decode", "src/codec/adhoc.rs 332-433: seek", "src/codec/adhoc/frame.rs 115-135: FrameHeaders::get"]}
{"id": "C154", "title": "A debug build only adds overflow panics", "statement": "Whatever is called on whatever codec, bit stream, container or file, a debug build returns what a release build returns and panics where it panics and for the same reason, except that it may panic because of an arithmetic overflow before.", "quantifier": "for all codecs and sequences of calls (loads of corrupt files among them), all bit streams, caches, ring buffers, lists and signals, all inputs and outputs of the tool", "why_tests_cant": "A test runs in one of the two builds; that nothing but overflows sets them apart is a statement about pairs of runs, for all inputs.", "anchors": ["src/codec/adhoc.rs 183-433: load, encode, decode, seek", "src/codec/wav.rs 112-131: save_to", "src/codec/wav.rs 298-323: seek", "src/collections/bitstream.rs 255-354: compressed fields", "src/main.rs 105-154: the conversions", "src/math/signal.rs 47-58: scale_signal", "src/collections/queue.rs 48-97", "src/collections/linked_list.rs 97-128: insert_at", "src/collections/lru_cache.rs 43-107"]}
{"id": "C155", "title": "An incomplete block changes nothing", "statement": "The samples behind the last whole block of a call of encode are dropped and the places behind the last whole block of a buffer for decode are not filled; otherwise, panics included, the call does what it does without them. This holds for both codecs in every state.", "quantifier": "for all codecs in any state, all samples and buffers, both builds", "why_tests_cant": "That no state ever keeps a part of a block, for any state a codec may be in, takes a comparison of all pairs of runs.", "anchors": ["src/codec/adhoc.rs 216-254: encode", "src/codec/adhoc.rs 256-308: decode", "src/codec/wav.rs 267-296: encode, decode"]}
{"id": "C156", "title": "Every time behind the end of a recording is refused", "statement": "A seek to a time behind the end of a recording panics, however far behind the end the time is; no time is taken for another one.", "quantifier": "for all recordings, all times of 64 bits, release build", "why_tests_cant": "The times that go wrong amount to 2^64 samples and more, which no recording of a test comes near to.", "anchors": ["src/codec/adhoc.rs 332-420: seek"]}
{"id": "C157", "title": "The two codecs play the same", "statement": "A signal recorded with AdhocCodec at level 0 (in sync) and with WavCodec is played by both with the same samples and the same counts, whatever times of the recording are sought and whatever buffers are used.", "quantifier": "for all recordings in sync, all times up to the end, all sequences of seeks and reads", "why_tests_cant": "It relates two implementations of one trait over all recordings and all sequences of calls.", "anchors": ["src/codec.rs 80-102: Streamable", "src/codec/adhoc.rs 256-420: decode, seek", "src/codec/wav.rs 267-325: encode, decode, seek"]}
{"id": "C158", "title": "The calls of a WAV codec may come in any order", "statement": "As documented, encode, decode and seek of WavCodec can be called in any order: every sequence of them does what it does on a tape of samples with a head, and none panics.", "quantifier": "for all codecs with whole samples, all sequences of calls, all arguments, release build", "why_tests_cant": "The sequences are infinitely many, and every call depends on all before it.", "anchors": ["src/codec.rs 99-101: seek", "src/codec/wav.rs 267-325: encode, decode, seek"]}
{"id": "C159", "title": "How a recording was cut into calls cannot be heard, seeks included", "statement": "Two recordings of the same signal at level 0, cut into encode calls in different ways, give the same samples and counts under every sequence of seeks and reads up to the end, rewound or saved and loaded.", "quantifier": "for all stream infos, all signals with in-sync channels, any two ways of cutting them into non-empty lists of calls of fewer than 65536 blocks, the first of at least three, with at most eight calls without a block in a row, all sequences of seeks (up to the end) and reads, both builds", "why_tests_cant": "The ways of cutting are exponentially many, and a seek goes over chunk tables that differ between them.", "anchors": ["src/codec/adhoc.rs 216-254: encode", "src/codec/adhoc.rs 256-308: decode", "src/codec/adhoc.rs 332-420: seek"]}
