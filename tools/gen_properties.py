#!/usr/bin/env python3
"""Writes /verif/properties.jsonl. Kept as a script only so that the JSON stays well formed."""
import json, os
P = []
def p(title, statement, quantifier, why, anchors):
    P.append(dict(id="C%02d" % (len(P) + 1), title=title, statement=statement,
                  quantifier=quantifier, why_tests_cant=why, anchors=anchors))

A = "src/codec/adhoc.rs"; F = "src/codec/adhoc/frame.rs"; W = "src/codec/wav.rs"; C = "src/codec.rs"
B = "src/collections/bitstream.rs"; M = "src/main.rs"

p("Level-0 round trip",
  "At compression level 0, encoding a PCM signal with any sequence of AdhocCodec::encode calls, rewinding, and decoding returns, sample for sample and in order, the 16-bit quantisation of the input (truncate to i16, rescale to f32), provided every quadratic-prediction residual of the quantised signal lies in [-32767, 32766].",
  "every channel count >= 1, every sequence of encode calls that is admissible (first call at least 3 blocks, each call fewer than 65536 blocks, never nine calls without a block in a row; C25, C16 and C07 say what happens otherwise), every f32 sample including NaN/inf, every sequence of decode buffers",
  "the state is adaptive and carried across frames and channels; a test samples a few signals, but the claim is over all signals, all call splits and all interleavings of channels",
  [f"{A}: AdhocCodec::encode, AdhocCodec::decode, AdhocCodec::init", f"{F}: FrameCodec::encode_frame, FrameCodec::decode_frame"])
p("Level-0 round trip for every signal (as documented: 'level 0 is basically lossless')",
  "At compression level 0 every signal decodes to its own 16-bit quantisation, with no condition on the signal.",
  "every signal",
  "the failing signals (full-scale alternation) are a thin set which sample files do not contain; only a proof or a counterexample settles it",
  ["README.md: 'level 0 means no quantization ,so its basically lossless'", f"{F}: FrameCodec::encode_frame (residual clamp)"])
p("Loud, high-level signals never lose sync",
  "At compression levels 4 to 10, for every signal with samples in [-1, 1], the residual condition of C01 holds automatically, so encode/rewind/decode never loses sync: each decoded sample equals the rescaled 16-bit code of the dithered, scaled input.",
  "every signal in [-1,1], every level 4..10, every admissible call split (as in C01), every channel count",
  "needs a rounding-error bound for the f32 predictor over all histories (2^48 of them)",
  [f"{A}: AdhocCodec::encode (dither, inv_scale)", f"{F}: FrameCodec::encode_frame", "src/math/parabola.rs: FixedParabola"])
p("Quantisation error bound per level",
  "For every sample x in [-1,1] and level L, whenever the codec stays in sync the decoded sample differs from x by at most 2^L * 1.01/32767 + 0.00101*(1 - 2^-L).",
  "every f32 sample in [-1,1], every level 0..10, every dither value, every admissible call split (as in C01)",
  "the bound is over every f32 and every state of the noise generator",
  [f"{A}: AdhocCodec::encode, AdhocCodec::decode, with_compression_level", f"{C}: truncate_sample, normalize_sample", "src/math/noise.rs: PseudoRandom::triangle"])
p("Splitting the input over encode calls does not matter",
  "At level 0, two codecs fed the same whole-block signal split differently over encode calls decode to the same samples.",
  "every two admissible splits (as in C01) of every signal",
  "there are exponentially many splits of each signal",
  [f"{A}: AdhocCodec::encode", f"{F}: FrameCodec::encode_frame"])
p("Decode buffer sizes do not matter; decode delivers everything exactly once",
  "Draining a rewound codec with any sequence of decode buffers yields consecutive segments of one fixed sample sequence: each call returns Some(k) with k = min(whole blocks that fit, samples left), or None when that is 0, until every encoded sample has been delivered exactly once.",
  "every sequence of decode buffer lengths, every admissible stream (as in C01)",
  "unbounded histories of calls with arbitrary buffer lengths",
  [f"{A}: AdhocCodec::decode, MAX_DECODE_ATTEMPTS"])
p("decode returns None only when nothing is left",
  "After rewinding, decode with a buffer of at least one block returns None only if every encoded sample has been delivered.",
  "every history of encode calls, including encode calls with less than one block of samples",
  "the failure needs nine or more consecutive empty encode calls; tests never produce them",
  [f"{A}: AdhocCodec::decode, MAX_DECODE_ATTEMPTS", f"{C}: Streamable::decode"])
p("End of stream is sticky",
  "Once a rewound codec has delivered all samples, every further decode call returns None and does not panic.",
  "every number of further decode calls with every buffer length, every stream recorded with calls of fewer than 65536 blocks (C16)",
  "unbounded number of further calls",
  [f"{A}: AdhocCodec::decode"])
p("Save/load transparency",
  "Saving a codec and loading the bytes gives a codec with the same info and level that decodes to exactly the samples the original would decode after a rewind; trailing bytes after the saved data are ignored.",
  "every codec state reachable by encode calls with fewer than 2^32 frames and 2^64 bits, every suffix of trailing bytes, every decode-call sequence",
  "byte-level round trip for every length and content of seven vectors and all cursors",
  [f"{A}: AdhocCodec::save_to, AdhocCodec::load", "src/codec/adhoc/audio_stream.rs: AudioStream", f"{F}: FrameHeaders", f"{B}: BitStream"])
p("A torn save is never accepted",
  "If saving an .adhoc file is interrupted at any byte, loading the partial file returns None: no proper prefix of a saved file loads.",
  "every saved codec (as in C09) and every crash point (every proper prefix)",
  "one file has as many crash points as bytes and there are unboundedly many files",
  [f"{A}: AdhocCodec::save_to, AdhocCodec::load"])
p("save_to reports exactly whether all bytes were accepted",
  "AdhocCodec::save_to returns Some(()) iff the writer accepted the whole file; on failure what was written is a proper prefix of the file.",
  "every codec, every writer that fails after n bytes",
  "every failure point of the writer",
  [f"{A}: AdhocCodec::save_to"])
p("Seek equals skipping",
  "After encoding (or loading), seek(SeekFrom::Start(ms)) to a position inside the stream followed by decoding yields exactly the samples that a full decode yields from block floor_f32(rate/1000*ms) on.",
  "every in-sync admissible stream (as in C01) below 2^64 bits, every ms whose target block is <= the number of encoded blocks, every later decode-call sequence",
  "every target position in every stream; state is restored from per-frame headers",
  [f"{A}: Streamable::seek for AdhocCodec", f"{F}: FrameHeaders::get, FrameHeaders::set_cursor"])
p("Seek beyond the end is safe",
  "seek(SeekFrom::Start(ms)) with a target beyond the last block does not panic.",
  "every stream and every ms",
  "depends on the relation of an arbitrary target to an arbitrary stream length",
  [f"{A}: Streamable::seek for AdhocCodec ('start frame failed to fetch')"])
p("Seek time is monotone and accurate",
  "For both codecs the block index computed for SeekFrom::Start(ms) is monotone in ms and lies within 1 + 2^-21 relative of sample_rate*ms/1000.",
  "every sample rate (u32) and every ms (u64)",
  "2^96 pairs of inputs through three f32 roundings",
  [f"{A}: Streamable::seek for AdhocCodec", f"{W}: Streamable::seek for WavCodec"])
p("Sample count matches what was encoded",
  "calculate_sample_count_per_channel returns the number of whole blocks passed to encode, in total.",
  "every history of encode calls with fewer than 65536 blocks each",
  "unbounded histories",
  [f"{A}: AdhocCodec::calculate_sample_count_per_channel"])
p("Long frames",
  "A single encode call may carry any number of blocks: the frame length is recorded faithfully (so that C01, C15 hold for calls of any length).",
  "every encode call length",
  "fails only from 65536 blocks per call on, larger than any test buffer",
  [f"{F}: FrameCodec::encode_frame (size: pcm.len() as u16)"])
p("filesize_upperbound is an upper bound (AdhocCodec)",
  "filesize_upperbound is at least the number of bits that save_to writes.",
  "every codec state",
  "the estimate and the real format are different formulas over all vector lengths",
  [f"{A}: AdhocCodec::filesize_upperbound", f"{F}: FrameHeaders::calculate_weight_upperbound"])
p("filesize_upperbound is exact (WavCodec)",
  "For WavCodec filesize_upperbound equals the number of bits save_to writes.",
  "every WavCodec state",
  "all pcm lengths",
  [f"{W}: filesize_upperbound, save_to"])
p("Worst-case expansion",
  "The compressed stream holds at most 18 bits per encoded sample plus 48 bits per channel for the first frame: a frame never expands beyond that, whatever the signal.",
  "every signal, every call split",
  "adversarial signals are not in test corpora",
  [f"{F}: FrameCodec::compute_optimal_divisor_exponent", f"{B}: BitStream::write_compressed"])
p("The Rice parameter is optimal",
  "For every frame whose residuals fit in 16 bits, the parameter chosen by the encoder (1..15) makes the frame's bit count minimal among all parameters 1..15.",
  "every frame of every length and content",
  "optimality is a claim about all alternatives for all inputs",
  [f"{F}: FrameCodec::compute_optimal_divisor_exponent", f"{B}: BitStream::write_compressed"])
p("Reusing a codec after rewinding",
  "Documented: after init() or seek(Start(0)) a codec may be used to encode a new signal into the memory already allocated; decoding then yields the new signal.",
  "every pair of old and new signals",
  "corruption depends on how new fields straddle 128-bit boundaries over old bits and on the old number of frames",
  [f"{C}: Streamable::seek doc comment", f"{B}: BitStream::write_bits (next-chunk mask)", f"{F}: FrameHeaders::push"])
p("encode's return value",
  "encode returns the number of samples it actually encoded.",
  "every sample slice length and channel count",
  "all lengths modulo all channel counts",
  [f"{C}: Streamable::encode", f"{A}: Streamable::encode for AdhocCodec", f"{W}: encode"])
p("decode leaves the rest of the buffer alone",
  "decode changes only the first k entries of the caller's buffer, where k is the count it reports.",
  "every buffer content and every level",
  "every old buffer content",
  [f"{A}: AdhocCodec::decode (scale up loop)"])
p("Channels do not leak into each other",
  "At level 0 the decoded samples of a channel are a function of that channel's input alone: two signals that agree on channel j decode identically on channel j.",
  "every pair of multi-channel signals agreeing on one channel, every admissible call split (as in C01)",
  "relational property over pairs of signals",
  [f"{A}: AdhocCodec::encode, AdhocCodec::decode"])
p("No panic on documented use",
  "In release builds, after with_info with at least one channel, encode calls (first call at least 3 blocks), rewind and decode calls never panic, whatever the samples; the first encode call with fewer than 3 blocks panics.",
  "every signal and every call history of that shape",
  "absence of panics over all inputs",
  [f"{A}: AdhocCodec", f"{F}: FrameCodec::encode_frame"])
p("No arithmetic overflow in debug builds",
  "With overflow checks on, encode never panics for any samples.",
  "every signal",
  "overflow happens only for exponent 15, reachable only with near full-scale Nyquist signals",
  [f"{B}: BitStream::write_compressed ((1 << exponent) - 1)"])
p("Call-order protocol",
  "decode right after encode (no rewind) delivers nothing and does not panic; encode after a decode that delivered samples, without rewind, panics rather than corrupting the stream; encode after load starts overwriting from the beginning.",
  "every reachable codec state of that kind",
  "all histories",
  [f"{A}: CodecState", f"{F}: FrameCodec::encode_frame, decode_frame"])
p("Bit stream is a faithful bit list",
  "Any sequence of write_bit/write_bits/write/write_compressed calls on a fresh stream, followed by a rewind and the matching reads, returns the written values; the number of bits is the sum of the field widths.",
  "every sequence of fields of widths 0..128 with arbitrary values",
  "every alignment of every field against 128-bit chunks, unbounded sequences",
  [f"{B}: BitStream"])
p("Rice code round trip",
  "read_compressed(k) after write_compressed(k, v) returns v for every v in [-32767,32767] and k in 0..15 at every bit position (release build).",
  "every v, k, position, and every surrounding content",
  "2^16 values x 16 parameters x unbounded positions",
  [f"{B}: BitStream::write_compressed, read_compressed"])
p("Capped Rice code round trip",
  "read_compressed_capped after write_compressed_capped returns the value clamped to the 14-bit range whenever the escape is used, and the value itself otherwise.",
  "every value in [-32767,32767], every power-of-two divisor 1..16384, every position",
  "see C29",
  [f"{B}: BitStream::write_compressed_capped, read_compressed_capped"])
p("Decoding always terminates",
  "On any bit stream contents whatsoever, reading a compressed value finishes after at most (number of chunks + 2) refills.",
  "every stream content, e.g. from a corrupt file",
  "non-termination cannot be observed by a test",
  [f"{B}: BitStream::read_compressed"])
p("Corrupt .adhoc files are rejected or decoded without panic",
  "Loading arbitrary bytes either returns None or a codec whose decode does not panic.",
  "every byte string",
  "all byte strings",
  [f"{A}: AdhocCodec::load", f"{F}: FrameHeaders::next"])
p("WAV save/load round trip",
  "For every WavCodec holding whole samples, saving and loading gives back the same info and PCM bytes.",
  "every pcm content and length, every sample rate and channel count whose header arithmetic fits",
  "fails for clips shorter than 212 bytes and for headers containing the bytes 'data'; all other sizes must work",
  [f"{W}: WavCodec::save_to, WavCodec::load"])
p("WAV codec is a sample tape",
  "Any sequence of encode/decode calls on a WavCodec behaves like a tape of 16-bit samples with a cursor: encode overwrites at the cursor and extends at the end, decode reads from the cursor, both move the cursor by the number of samples reported.",
  "every sequence of operations",
  "unbounded histories of mixed reads, writes and seeks",
  [f"{W}: encode, decode, write_sample, offset_cursor"])
p("Truncated WAV files load as a prefix",
  "Loading any prefix of a saved WAV file that is at least 256 bytes long succeeds and yields exactly a prefix of the PCM; shorter prefixes are rejected.",
  "every file and every truncation point",
  "every crash point of every file",
  [f"{W}: WavCodec::load"])
p("WAV load never panics",
  "WavCodec::load returns Ok or Err on every byte string.",
  "every byte string",
  "all byte strings; the panic needs the 'data' tag in the last bytes of the first 256",
  [f"{W}: WavCodec::load (header_slice[0..3])"])
p("WAV load reads only the data chunk",
  "The loaded PCM is the content of the data chunk: its declared length bounds what is read.",
  "every well-formed WAV file, with or without chunks after 'data'",
  "all trailing chunk contents",
  [f"{W}: WavCodec::load (read_to_end)"])
p("16-bit sample conversion is faithful",
  "Decoding a 16-bit WAV sample to f32 and encoding it again gives the same 16-bit value.",
  "every i16",
  "a test on a sound file covers the values in that file; 1537 of 65536 values fail",
  [f"{C}: normalize_sample, truncate_sample"])
p("Sample conversion is bounded, monotone and accurate",
  "Converting f32 to 16 bits never leaves [-32767, 32767], is monotone, sends NaN to 0, and converting back is within 1.01/32767 of the input on [-1,1]; re-converting a converted value is idempotent after one pass.",
  "every f32 (2^32 values) and every pair of f32",
  "2^64 pairs",
  [f"{C}: normalize_sample, truncate_sample"])
p("WAV seek semantics",
  "seek(Start(ms)) positions the cursor at min(block(ms)*channels, last sample); Current moves relative to the current block; the cursor always stays inside the stream.",
  "every stream, ms and cursor",
  "all combinations",
  [f"{W}: seek"])
p("WAV seek from the end",
  "seek(SeekFrom::End(0)) positions the cursor at the end of the stream; End(-ms) goes back ms milliseconds from the end.",
  "every stream and every offset",
  "all combinations",
  [f"{W}: seek (block_index = num_samples - num_samples)"])
p("WAV seek on an empty stream is safe",
  "seek on a WavCodec without samples does not panic.",
  "every empty WavCodec and every seek argument",
  "all arguments",
  [f"{W}: seek (clamp(0, num_samples - 1))"])
p("WAV decode delivers whole blocks",
  "The count decode reports is a multiple of the channel count whenever the stream holds whole blocks.",
  "every history of encode/decode/seek",
  "unbounded histories; broken by a seek past the end of a multi-channel stream",
  [f"{W}: decode, seek"])
p("WAV save_to with short writes",
  "save_to returns Ok only if the writer received the complete file.",
  "every conforming io::Write, including writers that accept fewer bytes than offered",
  "in-memory and ordinary file writers never do short writes in tests",
  [f"{W}: save_to (dst.write)"])
p("8-bit WAV conversion",
  "Loading an 8-bit WAV maps sample bytes monotonically onto 16 bits, 0 to -32766 and 255 to 32766, in place, each byte exactly once and in order.",
  "every 8-bit pcm content",
  "the in-place widening loop must be right for every length",
  [f"{W}: WavCodec::load (8 bit branch)"])
p("NibbleList is a list of 4-bit values",
  "Any sequence of push and set calls on a NibbleList behaves like a list of 4-bit values, read back by get, len and iter.",
  "every sequence of operations",
  "packing two values per byte, all positions and histories",
  ["src/collections/nibble_list.rs: NibbleList"])
p("NibbleList can be reused after clear",
  "After clear, pushed values read back unchanged.",
  "every history with clear",
  "depends on stale bytes left by earlier pushes",
  ["src/collections/nibble_list.rs: clear, push"])
p("BitVec is a list of bits",
  "Any sequence of push, set and clear calls on a BitVec behaves like a list of bits, read back by get, len and iter; capacity is the bits required rounded up to 64.",
  "every sequence of operations",
  "64-bit packing, all positions and histories",
  ["src/collections/bitvec.rs: BitVec"])
p("Sample history is a window on the last four samples",
  "CircularStack::prev(k) returns the k-th most recently pushed item for k up to min(4, items pushed), whatever was pushed and popped before.",
  "every sequence of pushes and pops",
  "wrap-around at every phase",
  ["src/collections/stack.rs: CircularStack"])
p("Frame headers form an overwritable log",
  "FrameHeaders behaves like a list of headers with a cursor: push appends or overwrites at the cursor, iteration yields headers in order, get(i) returns what was pushed at i.",
  "every sequence of operations",
  "six parallel packed vectors must stay in step under all histories",
  [f"{F}: FrameHeaders"])
p("Ring buffer is a bounded deque",
  "Any sequence of FixedRingBuffer operations behaves like a double-ended queue that drops pushes when full; len never exceeds capacity; iter lists front to rear.",
  "every power-of-two capacity and every sequence of operations",
  "wrap-around at every phase and every capacity",
  ["src/collections/queue.rs: FixedRingBuffer"])
p("Linked list is a sequence",
  "Any sequence of LinkedList insertions and removals (at either end or at a live pointer) behaves like a sequence; pointers to live items stay valid until that item is removed; freed slots are reused, so memory never exceeds the maximal number of live items.",
  "every sequence of operations with fewer than 2^32 - 1 live items (pointers are u32), at either end or at pointers of live items",
  "pointer structures with a free list; aliasing bugs need particular histories",
  ["src/collections/linked_list.rs: LinkedList"])
p("LRU cache",
  "Any sequence of put/get/get_mut/lookup/remove behaves like a recency-ordered map: lookups return the last value put, put beyond capacity evicts exactly the least recently used key, the size never exceeds the capacity, lookup does not change recency.",
  "every capacity from 1 to 2^32 - 1 (pointers are u32) and every sequence of operations",
  "unbounded histories, hash table and list must stay in step",
  ["src/collections/lru_cache.rs: LruCache"])
p("LRU cache of capacity 0 is safe",
  "put on a cache of capacity 0 does not panic.",
  "every key and value",
  "single edge case of a parameter",
  ["src/collections/lru_cache.rs: LruCache::put"])
p("Branchless convolution equals the branching one",
  "convolve_1d_branchless writes exactly what convolve_1d writes.",
  "every samples, kernel and result slices",
  "all lengths and contents; bit-mask arithmetic on indices",
  ["src/math/signal.rs: convolve_1d, convolve_1d_branchless"])
p("Dither noise is bounded and overflow-free",
  "Every value of the dither sequence lies in (-1, 1), computing it never overflows u64, and at level 0 dithering leaves every sample unchanged.",
  "every length of the sequence and every f32 sample",
  "unbounded sequence",
  ["src/math/noise.rs: PseudoRandom", f"{A}: AdhocCodec::encode"])
p("Predictor extrapolates",
  "The predictor's value is within a fixed tolerance of the quadratic extrapolation h3 - 3 h2 + 3 h1 (clamped to the 16-bit range) for every history.",
  "every triple of i16 samples",
  "2^48 histories through nine f32 roundings",
  ["src/math/parabola.rs: FixedParabola", f"{F}: FrameCodec::encode_frame"])
p("CLI conversion round trip",
  "Converting a 16-bit WAV to .adhoc at level 0 and back gives a WAV with the same sample rate, channels and number of samples, each sample being the original up to the conversion of C38, provided residuals fit (C01).",
  "every 16-bit WAV file of at least 3 blocks with fewer than 342 channels whose header fields are in range (data below 4 GiB, sample rate * channels * 16 below 2^31)",
  "end-to-end composition over all files",
  [f"{M}: convert_wav_to_adhoc, convert_adhoc_to_wav"])
p("CLI reports failed saves",
  "convert_wav_to_adhoc returns Some(()) only if the output file was written completely.",
  "every input and every failing output device",
  "needs a full disk at each byte position",
  [f"{M}: convert_wav_to_adhoc"])
p("Resampling to the same length is the identity",
  "scale_signal with dst_len equal to the input length (2 <= len <= 2^24) copies the input, for finite samples.",
  "every finite signal",
  "all lengths and contents through f32 index arithmetic",
  ["src/math/signal.rs: scale_signal"])
p("CLI output name",
  "The converter writes to the input's name with its extension replaced (adhoc for wav input and wav for adhoc input); only the part after the last dot of the file name changes, and a second conversion gives the first name back.",
  "every file name",
  "all strings, including several dots, none, or both extensions",
  [f"{M}: main"])
p("Linked list survives serialisation",
  "A linked list that is serialised and read back has the same items in the same order and the same stored pointers work on it.",
  "every list reachable by pushes, pops, removals and inserts",
  "unbounded call sequences",
  ["src/collections/linked_list.rs: LinkedList"])
p("Debug and release builds agree",
  "For every codec and every sequence of encode, decode, init, seek and load calls, if the debug build does not panic then the release build does not panic, returns the same values and leaves the same codec.",
  "every call sequence and every (also corrupt) codec or file",
  "wrapping arithmetic differs from checked arithmetic only on inputs tests do not reach",
  [f"{A}: AdhocCodec", f"{F}: FrameCodec"])
p("CLI conversion keeps the shape at every level",
  "Converting a 16-bit WAV to .adhoc at any compression level and back gives a WAV with the same sample rate, channels and number of samples (of whole blocks), and in release builds neither conversion panics, whatever the samples are.",
  "every WAV file as in C58, every level",
  "end-to-end composition over all files and levels, including signals the encoder cannot represent",
  ["src/main.rs: convert_wav_to_adhoc, convert_adhoc_to_wav"])
p("Saved WAV files have a correct RIFF header",
  "A file saved by WavCodec is a canonical RIFF/WAVE PCM file: tags RIFF, WAVE, 'fmt ' and data at the right places, RIFF size = file length - 8, fmt size 16, format 1, channel count and sample rate as initialised, byte rate = rate * channels * 2, block align = channels * 2, 16 bits per sample, data size = number of data bytes, and the data are the samples as little-endian 16-bit codes.",
  "every codec whose sizes fit the header fields",
  "an error in a derived field is not noticed by reading the file back with the same code",
  ["src/codec/wav.rs: WavCodec"])
p("Which WAV files are accepted",
  "WavCodec::load accepts a byte string exactly when its header has a supported format, and then the header fields and samples are those in the file; unsupported encodings are reported as errors and not misread.",
  "every byte string of at least a header",
  "all header field combinations",
  ["src/codec/wav.rs: WavCodec"])
p("Convolution is accurate",
  "convolve_1d stores at place i of the result the sum over j of sample[i + j - m/2] * kernel[j] (zero outside the signal), up to rounding errors of 2^-22 per kernel item, and leaves places behind the signal alone; a result slice shorter than the signal makes it panic.",
  "every signal with samples in [-1, 1] and every kernel whose absolute values sum to less than 2",
  "accumulated f32 rounding over all lengths and contents, and index arithmetic at both borders",
  ["src/math/signal.rs: convolve_1d"])
p("Resampling is linear interpolation",
  "scale_signal from n to d samples writes at place k the input linearly interpolated at k (n - 1) / (d - 1), up to rounding errors of n / 2^21, and does not panic.",
  "every signal with 1 <= n <= 2^23 samples in [-1, 1], every d from 1 to 2^24",
  "the place is computed in f32 and its error could pick the wrong neighbours",
  ["src/math/signal.rs: scale_signal"])
p("Parallel conversion does not depend on the schedule",
  "When the converter is run on several files, which it converts in parallel, the files on disk at the end do not depend on how the threads are scheduled: each output is the conversion of its original input and no other file changes.",
  "every list of inputs, every interleaving of the threads' reads and writes, every size of read and write",
  "a race needs a schedule that tests do not produce",
  ["src/main.rs: cli, convert_file"])
p("An interrupted conversion damages nothing else",
  "When no two inputs share an output file and no output is an input, then at any moment of a run of the converter, so also after a crash or a failed write, each file is either as it was or is the output of a conversion and holds a prefix of that conversion's result; an incomplete .adhoc file does not load.",
  "every moment of every interleaving, with failing reads and writes",
  "crash points between any two system calls of any thread",
  ["src/main.rs: cli, convert_file"])
p("Repeated transcoding settles",
  "Recording at level 0, playing, recording what was played and so on changes the samples at most once more: the second playback is reproduced exactly by every later one, and the third recording is the same codec (stream, headers, state) as the second. More generally two recordings with the same 16-bit codes are identical.",
  "every signal of whole blocks whose first two generations are in sync (C01), every cut into calls",
  "drift over generations depends on sample values; identity of all internal state for all inputs",
  ["src/codec/adhoc.rs: encode, decode", "src/codec/adhoc/frame.rs: encode_frame"])
p("Smooth signals are compressed",
  "If the third differences of the codes are at most D, the stream takes at most 48 bits for the first three samples of a channel and 2 + k + (D+1)/2^k bits for each further one, for every k from 1 to 15; parabolas, ramps, constants and silence take exactly 3 bits per sample, and no signal takes less.",
  "every recording of any level, cut into calls of at most 131064 blocks",
  "a size guarantee over all signals; also that f32 rounding in the predictor never costs bits",
  ["src/codec/adhoc/frame.rs: encode_frame, compute_optimal_divisor_exponent"])
p("CLI conversion error bound per level",
  "Converting a 16-bit WAV to .adhoc at level L (1 to 10) and back changes no sample of a whole block by more than 1.01 * 2^L + 36 of 32768 (whenever the codec is in sync, at levels 4 to 10 always).",
  "every WAV file as in C58, every sample including -32768, every level 1..10",
  "the level option must reach the codec, and all error sources must add up within the bound for every signal",
  ["src/main.rs: convert_wav_to_adhoc, convert_adhoc_to_wav"])
p("Capacity of a bit stream",
  "The capacity of a bit stream is, as documented, the largest number of bits ever written: after any calls of its methods it is the furthest end of a write. In particular after a recording it is the length of the stream, and rewinding keeps it.",
  "every sequence of reads, writes, peeks, rewinds and zeroings on a new stream; every recording",
  "a counter maintained by a shared cursor routine; reads past the written end are needed to see the difference",
  ["src/collections/bitstream.rs: capacity, offset_bit_cursor"])
p("Quiet or smooth signals are in sync",
  "Signals in [-1, 1] with peak at most 2^L/8 - 0.00101 (1 - 1/2^L) at level L never lose sync (level 0: an eighth of full scale, level 3: 0.999), so every stored code is played; at level 0 so are signals of any loudness whose 16-bit codes have third differences of at most 32765. At level 0 the eighth cannot be raised by one 16-bit step.",
  "every signal within the peak or smoothness bound, every level 0..10, every admissible call split (as in C01), both builds",
  "a loudness guarantee over all signals, including rounding in the f32 predictor and all noise values",
  [f"{F}: encode_frame, decode_frame, predict", "src/codec/adhoc.rs: encode"])
p("Recording only appends",
  "An encode call changes no bit and no frame header recorded before it; a codec between two encode calls, rewound or saved and loaded, plays exactly the first part (all blocks so far) of what the finished recording plays.",
  "every level, every sequence of encode calls on a fresh codec and every place to cut it (playback: admissible calls as in C01)",
  "a crash-consistency claim about every cut of every recording",
  ["src/codec/adhoc.rs: encode", f"{F}: encode_frame, FrameHeaders::push", f"{B}: write_bits"])
p("Damage stays local",
  "Overwriting payload bits of a saved recording that belong to some of its encode calls leaves the file loadable; every read from the start that asks for no more blocks than were recorded before those calls returns what it returned from the undamaged file, and so does everything done after a seek whose target lies behind them.",
  "every level, every admissible sequence of encode calls (as in C01) cut into before, hit and behind, every overwriting of the bits of hit (also values the encoder never writes), every sequence of reads and seeks, debug and release decoders",
  "the damaged bits, the cut and the later reads range over unbounded sets",
  ["src/codec/adhoc.rs: decode, seek, load", f"{F}: decode_frame", f"{B}: read_bits"])
p("Every call and every conversion ends",
  "No call hangs: encode, decode, seek, load, save and the WAV calls return or panic on every codec, in whatever state it is, with every argument, and so do both conversions of the command line tool on every file; decompressing a file takes at most 65535 rounds for every sixteen bytes of it, and one more.",
  "every codec state (not only reachable ones), every input, every file content, both builds",
  "termination for all states; the skip loops of seek and the drain loop of the converter are bounded only by data read from the file, modulo 2^64",
  ["src/codec/adhoc.rs: encode, decode, seek, load", "src/codec/wav.rs", "src/main.rs: convert_wav_to_adhoc, convert_adhoc_to_wav"])
p("Playing is bounded by the size of the file",
  "Whatever bytes load as an .adhoc file, corrupt or not, all reads up to the next seek together return at most 65535 blocks for each row of frame headers in the file, so a file of s bytes holding headers of 16 bytes each cannot be played forever; a seek starts this budget anew.",
  "every byte string that loads, every sequence of reads and seeks, both builds",
  "an amplification bound over all byte strings and all call sequences",
  ["src/codec/adhoc.rs: decode, seek, load", f"{F}: decode_frame, FrameHeaders"])
p("Loading allocates in proportion to the file",
  "Loading an .adhoc file makes no more channel states than the file has bytes, and the vectors of the loaded codec are no larger than the file.",
  "every byte string that loads",
  "a memory bound over all byte strings",
  ["src/codec/adhoc.rs: load"])
p("Files are canonical",
  "Any bytes that load are, except for the stored cursors and trailing bytes, exactly what saving the loaded codec writes: each content has one encoding. Saving a loaded file again gives a file that is no longer and that loads as the same codec, and different contents never share a file.",
  "every byte string that loads, every pair of codecs",
  "a statement about every accepted byte string, not only those written by the codec",
  ["src/codec/adhoc.rs: save_to, load"])
p("Dither noise is triangular and unbiased", "The noise that dithering adds repeats only after 126990 samples; over whole periods its mean is within 0.0004 of zero and each tenth of its range holds, within 0.0016, the share of samples a triangular distribution has there.",
  "every distance, and every stretch of any number of whole periods from any start", "the period and the shares are facts about the whole sequence, and a histogram test looks at one stretch",
  ["src/math/noise.rs: PseudoRandom::rand, triangle"])
p("CLI compression level option", "The number given with -c, limited to 10, is the level the converter compresses with.",
  "every option value and every WAV file as in C58", "the option is a string: signs, leading zeros, numbers beyond u32 and other text all occur",
  ["src/main.rs: cli, convert_wav_to_adhoc"])
p("CLI converts by extension", "The converter converts the inputs whose extension is wav or adhoc, in small or capital letters, and no others.",
  "every list of inputs, every file name and every output directory", "file names are arbitrary strings",
  ["src/main.rs: cli, convert_file"])

p("Nodes are read from maps with exactly their two fields", "A node of the linked list is read from a map exactly when the map holds the fields data and children, each once and in either order, and nothing else; children beyond the second are ignored and missing ones mean no neighbour.",
  "every map, with any field names and values in any order", "the maps are unbounded, and a self-describing format can deliver any of them",
  ["src/collections.rs: Deserialize for Node, visit_map"])
p("Noise histogram counts every value once", "The histogram of noise values counts each value once, in the tenth of [-1, 1) it lies in, and draws 300 stars per value of a part, divided by the number of values: 281 to 300 stars in all.",
  "every list of at most 2^64/300 values, including NaN and infinities; parts away from their bounds by 2^-20", "rounding at the bounds of the parts and values outside the range occur for particular floats only",
  ["src/math/noise.rs: NoiseDistribution"])
p("Mean squared error", "compute_mse is 0 for equal signals, does not depend on the order of the signals, and ignores samples for which the other signal has none.",
  "every pair of signals of any lengths", "unbounded signals; the empty one is easily missed",
  ["src/math.rs: compute_mse"])
p("Gaussian filter is symmetric", "gaussian_filter returns N numbers that are the same from both ends.",
  "every N, sigma and radius", "the asymmetry is in the last bits of some coefficients, and N = 1 is not tried",
  ["src/math/signal.rs: gaussian_filter"])
p("Recording the same again changes nothing", "At compression level 0, rewinding a codec and recording the same calls over its recording leaves the bit stream and the frame headers as they were, and it plays the same.",
  "every list of calls that a new codec accepts, every channel count, both builds, every list of read buffers", "the recording is mixed bit by bit with what was there before, and how is visible only where words of the stream are crossed",
  ["src/codec/adhoc.rs: encode, init", "src/collections/bitstream.rs: write_bits"])

p("Seeking restores synchronisation", "After a seek the decoder plays the differences from the first row of the encode call it starts with, given the true codes before that row; losses before the seek have no influence, and if the differences from there on fit the limits the stored codes are played exactly.",
  "every recording, in sync or not, every level, every list of reads and seeks within the recording, rewound, not rewound or loaded from a file", "losses of synchronisation depend on the whole signal, and the tests seek only in signals in sync",
  ["src/codec/adhoc.rs: seek, decode", "src/codec/adhoc/frame.rs: encode_frame, decode_frame"])

p("Settings may come in any order and during a recording", "Before a recording only the stream info and the level set last count; setting the info again during a recording, with the same number of channels, changes nothing but the info; each encode call is stored with the level in force at it.",
  "every sequence of set_info, with_info, with_compression_level and encode calls, both builds", "the sequences are unbounded, and the tests set everything once",
  ["src/codec/adhoc.rs: with_info, set_info, with_compression_level, encode"])
p("Setting the level of a recording does not change its loudness", "Setting the compression level of a codec that holds a recording does not change what it plays.",
  "every recording, level and sequence of reads and seeks", "the level is set once, before recording, in every test",
  ["src/codec/adhoc.rs: with_compression_level, decode"])

p("Cutting the input into encode calls does not matter at any level", "At every compression level, what is decoded depends on the samples that were encoded and not on how they were cut into encode calls.",
  "every signal, every two ways to cut it into calls, every level, both builds, every list of read buffers", "the noise depends on the position in the call; the project's tests encode with one block size only",
  ["src/codec/adhoc.rs: encode, encode_channel", "src/math/noise.rs: triangle"])
p("A channel is treated as if recorded alone", "At compression level 0 each channel of a recording takes the bits and gives the samples it would take and give if it had been recorded alone: the streams of the channels recorded alone add up to the length of the stream, and decoding one gives the channel's part of what decoding the recording gives.",
  "every number of channels, every list of calls, in sync or not, both builds, every list of read buffers", "any number of channels of any content; crosstalk would show only for particular contents",
  ["src/codec/adhoc.rs: encode, encode_channel, decode", "src/codec/adhoc/frame.rs: encode_frame, decode_frame"])

p("CLI conversions settle after one round", "Converting a WAV file to .adhoc at level 0, back to WAV and again to .adhoc gives the first .adhoc file, byte for byte: only the first conversion can change anything.",
  "every 16-bit WAV file in sync with at least 106 samples that form whole blocks, fewer than 342 channels, both builds", "samples that change when converted exist for particular values only, and a second change would need a chain of two",
  ["src/main.rs: convert_wav_to_adhoc, convert_adhoc_to_wav", "src/codec/wav.rs: decode, encode, save_to, load"])

p("Polarity does not matter", "At compression level 0 an inverted signal takes exactly as many bits as the signal, and while both are in sync what is decoded from it is the inverse of what is decoded from the signal.",
  "every signal, in sync or not for the size, every number of channels, every list of calls and of read buffers, both builds", "needs rounding, truncation, the predictor and the choice of the parameter to be symmetric for all values; the limits of a difference are not",
  ["src/codec/adhoc/frame.rs: encode_frame, compute_optimal_divisor_exponent", "src/math/parabola.rs", "src/codec.rs: truncate_sample, normalize_sample"])

p("Every way to seek works",
  "Streamable::seek on an AdhocCodec accepts all of std's SeekFrom: a seek relative to the current position or to the end goes where it says, as on a WavCodec, and a codec that was sought can be used further.",
  "every codec state, every SeekFrom value, both builds",
  "a test seeks to a few times from the start",
  ["src/codec/adhoc.rs:332-433", "src/codec.rs:60-102"])
p("A saved recording can be continued",
  "When a recording is saved and loaded and further samples are encoded into the loaded codec, it plays like a recording that was not interrupted.",
  "every recording, every continuation, every level, both builds; what recording into a loaded codec does, for every file",
  "a test continues a few recordings; what old memory does to new bits depends on all of it",
  ["src/codec/adhoc.rs:183-254", "src/codec/adhoc/frame.rs:193-291", "src/codec/adhoc/frame.rs:86-113"])
p("A wrong channel count, corrected at once, does no harm",
  "If set_info is called with a wrong channel count in the middle of a recording or of playing, and again with the right one before the next call, nothing changes.",
  "every sequence of calls before, every wrong channel count, both builds",
  "a test tries a few wrong counts at a few moments",
  ["src/codec/adhoc.rs:73-88"])

p("Silence stays silent",
  "Silence is played back as silence at every compression level, also between other sounds.",
  "every silent recording of any length, every level, both builds; every recording in [-1, 1] with silent samples in it at the levels 5 to 10",
  "the noise that is added differs for every sample, so that a short silence may or may not stay silent",
  ["src/codec/adhoc.rs:256-330", "src/math/noise.rs:17-29", "src/codec.rs"])

p("Every seed gives noise",
  "With every seed, PseudoRandom delivers any number of uniform and triangular values without panic, and the values do not repeat before 253980 numbers were drawn.",
  "every 64-bit seed, every number of values, both builds",
  "a test tries a few seeds; the seed for which the generator stands still is one of 507961 residues",
  ["src/math/noise.rs"])
p("Every file plays finite samples",
  "Whatever file is loaded, and whatever is read and sought in it, every sample delivered is a finite number, at most 32769/32768 times two to the level in the file; whatever is recorded, NaN and infinities included, plays samples of at most two to the level.",
  "every byte string that load accepts, every sequence of reads and seeks; every recording, every level, both builds",
  "the set of damaged files is unbounded, and NaN would come out of one in particular states only",
  ["src/codec/adhoc.rs: load, decode, seek", "src/codec/adhoc/frame.rs: decode_frame", "src/codec.rs: normalize_sample"])

p("Samples out of range are clipped",
  "A sample outside [-1, 1], infinite ones included, is recorded as if it had been limited to [-1, 1] before, and NaN as 0, at every compression level.",
  "every list of calls with samples of any kind, every level, both builds, every list of read buffers",
  "a test tries a few values; where a level clips depends on scale, noise and rounding",
  ["src/codec/adhoc.rs: encode, with_compression_level", "src/codec.rs: truncate_sample"])

p("A parabola goes through its points",
  "FixedParabola evaluates, up to float rounding, the polynomial of degree two through (0, f[0]), (1, f[1]) and (2, f[2]); at 0 it gives f[0] exactly.",
  "all samples up to 2^100, every place up to 1024",
  "a wrong coefficient can agree on the few parabolas tried, and the rounding error grows with place and size",
  ["src/math/parabola.rs: compute_coefs, eval"])

p("The example programs convert completely or fail loudly",
  "The programs compress and decompress (examples/ and the crate documentation) either write the complete converted file or panic; compress and then decompress gives a WAV file of the same shape close to the first.",
  "every content of the input file, every behaviour of the output device, both builds, every WAV file with at most 341 channels for the round trip",
  "the programs are not tested at all; full disks and short writes do not happen in tests",
  ["examples/compress.rs: main", "examples/decompress.rs: main", "src/codec/wav.rs: save_to"])

p("A pointer to a removed item is refused",
  "Passing the pointer of an item that was removed, and whose slot holds no new item, to remove_at removes nothing and to insert_at changes nothing.",
  "every history of pushes, pops, insertions and removals, every pointer to a free slot",
  "which links a free slot still holds depends on the order in which slots were freed",
  ["src/collections/linked_list.rs: remove_at, insert_at"])

p("iter_mut hands out each item exactly once",
  "After any history, also with earlier edits through iter_mut, iter_mut hands out a reference to every item exactly once, in the order of iter, and what is written through the references is what the list then holds; pointers, order and length stay.",
  "every history of pushes, pops, insertions, removals and edits, every function applied to the items",
  "an item handed out twice through the unsafe code would be two references to one place, which needs a particular ring of links",
  ["src/collections/linked_list.rs: iter_mut"])

p("The cache and the ring buffer survive serialisation",
  "After any history, a cache or a ring buffer over a Vec that is serialised with bincode and read back behaves under all further calls as if it had not been; a cut-off serialisation is rejected.",
  "every history, every capacity, every order in which the map is written, every type of keys, values and items that itself survives",
  "the pointers stored in the map and in the list must still agree, and the order of a HashMap differs from run to run",
  ["src/collections/lru_cache.rs", "src/collections/queue.rs", "src/collections.rs"])

p("iter_mut is safe whatever calls were made",
  "Whatever calls were made before, with whatever pointers, iter_mut accesses no memory outside the list and hands out no item twice.",
  "every history, every later insertion with a pointer to no live item; for the memory every list, also one made up and deserialised",
  "the ring of links must have been bent by a stale pointer; two references to one place look harmless in a test",
  ["src/collections/linked_list.rs: iter_mut, insert_at"])

p("A number can be overwritten in place",
  "A number written with write_compressed or write_compressed_capped over whatever the bit stream holds is read back from there, as the crate's own tests do with the divisor 2.",
  "every memory, every place in it, every divisor 2^k, every number of 16 bits that can be negated",
  "whether old bits show through depends on the place of a 128-bit boundary inside the code word; the tests use only one divisor",
  ["src/collections/bitstream.rs: write_compressed, write_compressed_capped, write_bits"])

p("Every accepted WAV file is compressed",
  "For every WAV file that load accepts the command-line tool writes a recording of all its whole blocks and does not panic.",
  "every byte string accepted as WAV, every level, every output device, both builds",
  "needs files with no, very many or more channels than samples; the tool is not tested at all",
  ["src/main.rs: convert_wav_to_adhoc", "src/codec/wav.rs: decode", "src/codec/adhoc.rs: encode", "src/codec/adhoc/frame.rs: encode_frame"])

p("Higher compression levels never make a recording longer",
  "As the README says of the levels, recording the same samples at a higher level (up to 10) never takes more bits than at a lower one.",
  "every recording of samples in [-1, 1], every two levels, every number of channels",
  "depends on how the noise added from level 1 on interacts with the choice of the divisor of each frame",
  ["README.md", "src/codec/adhoc/frame.rs: encode_frame", "src/codec/adhoc.rs: with_compression_level"])

p("What is played depends only on what was recorded up to then",
  "Changing a recording from some block on changes nothing of what is played before that block; where nothing clips, each played sample depends on the recorded sample at its own place alone.",
  "every two recordings made with calls of the same lengths, every level, every number of channels, every place",
  "a frame chooses its divisor from all of its samples, also the later ones; no finite set of pairs of recordings covers it",
  ["src/codec/adhoc.rs: encode, decode", "src/codec/adhoc/frame.rs: encode_frame, decode_frame"])

p("The sample rate is only a label",
  "Codecs that differ only in the sample rate behave alike in every call other than a seek; a seek depends on the rate only through the number of samples it amounts to; the files differ only in the four bytes of the rate.",
  "every codec in every state, every two rates, every sequence of calls, both builds",
  "a rate could enter any calculation; tests use one or two rates",
  ["src/codec/adhoc.rs: encode, decode, seek, save", "src/codec.rs: StreamInfo"])

p("A codec for no channels is harmless",
  "Encoding and decoding with an info of no channels does nothing and does not panic, with AdhocCodec and with WavCodec.",
  "every state of a codec with an info of no channels, every call, both builds",
  "tests use one or two channels; files of no channels are accepted by load",
  ["src/codec/adhoc.rs: encode, decode, seek", "src/codec/wav.rs: encode, decode, seek", "src/codec.rs: StreamInfo"])

p("Playing a recording leaves its file as it was",
  "Reading samples and seeking never alter what a rewound save writes: the headers, the format, the level and every stored bit stay, and no memory is appended.",
  "for every opened file, every build, every sequence of reads with buffers of any length and of seeks to any place",
  "Decoding shares the allocating cursor code of the writer (every read first makes sure two chunks are there), so whether a read can grow the stream depends on where the last number of the recording ends within a chunk; tests compare samples, not saved bytes.",
  ["src/codec/adhoc.rs", "src/codec/adhoc/frame.rs", "src/collections/bitstream.rs"])
p("A bit stream works wherever its cursor stands",
  "Every call of the methods of a bit stream succeeds wherever its cursor stands, also after set_bit_cursor: reading sees zeros where nothing was written and writing makes the room it needs.",
  "for every build, every memory, every cursor position and every call with arguments its types allow; and for every sequence of calls",
  "The allocation adds at most one chunk per check, so positions one and two chunks beyond the end behave differently, and only when a value straddles them; the crate's tests only ever write at the end.",
  ["src/collections/bitstream.rs"])
p("A cleared bit stream is as good as new",
  "After zero and seek_start a bit stream behaves like a new one: the same calls give the same answers, the same cursor and the same bits.",
  "for every build, every earlier contents, every sequence of calls with arguments their types allow",
  "A cleared stream keeps its memory, and write_bits, peek_bits and read_bit treat memory that is there differently from memory that is not; the difference shows only at the end of the memory.",
  ["src/collections/bitstream.rs: zero, seek_start, read_bit"])
p("Resampling keeps the ends and the range",
  "scale_signal keeps the first and the last sample, and no output sample lies outside the range of the input; a signal in [-1, 1] stays in [-1, 1]; polarity does not matter.",
  "for every build, every signal of up to 2^23 samples in [-1, 1] and every target length from 2 to 2^24",
  "Rounding in (k as f32) * scale, 1.0 - t and the two products decides whether a mixture of two equal samples exceeds them, so it depends on the bits of every sample and weight.",
  ["src/math/signal.rs: scale_signal"])
p("The laws of convolution",
  "A kernel with a single 1 shifts the signal exactly, with the 1 in the middle it copies it; a pulse gives the kernel back to front; silence stays silence; an output sample depends only on the samples under the kernel; reversing the polarity of signal or kernel reverses the result.",
  "for every signal and kernel of any length (finite ones for the shift, response and silence laws)",
  "Tests check one kernel and one signal; the centre convention (kernel_len / 2) differs for even and odd kernels and the ends are padded with zeros.",
  ["src/math/signal.rs: convolve_1d"])
p("The tool decompresses every recording completely",
  "Whatever was recorded with the library and saved, the command line tool converts to a WAV file with the same stream info and exactly the samples one hears when playing the recording, in 16 bits.",
  "for every build, level, stream info and sequence of encode calls whose counters fit the two file formats",
  "The tool plays through a fixed buffer of 1024 samples and stops at the first empty answer; whether nothing is lost depends on how the recording was cut into calls and how channels divide the buffer.",
  ["src/main.rs: convert_adhoc_to_wav", "src/codec/adhoc.rs: decode"])
p("The .adhoc file is determined byte by byte",
  "The saved file of a recording is a fixed function of stream info, level and the calls: a layout of little-endian numbers and packed bits, with the Rice parameter of every frame the first cheapest one, unused bits zero, and lists of exactly the given lengths.",
  "for every build, stream info with channels, level and sequence of encode calls that does not panic",
  "A round trip is blind to mistakes made alike on both sides, such as swapped fields, another bit order or rubbish in unused bits; a fixed sample file checks one recording.",
  ["src/codec/adhoc.rs: encode, save_to", "src/codec/adhoc/frame.rs: push, encode_frame", "src/collections/bitstream.rs: write_bits", "src/collections/nibble_list.rs: push"])
p("How large files are and what the tool saves",
  "A saved recording takes 117 bytes, 16 bytes and a nibble and a bit for each frame, and 16 bytes for each 128 bits of sound and up to 32 bytes more. At levels 6 to 10 the tool's file for any mono or stereo 16-bit WAV file with at least 2200 samples is smaller than the samples, at level 10 and from 6000 samples on by at least 28 percent, and never by more than 81.25 percent.",
  "for every build, every WAV file with these formats whatever its samples, and for the first sentence every sequence of encode calls, level and number of channels",
  "The README reports savings of 20 to 70 percent on a few songs; the worst case is noise at full scale with the least favourable dither, and depends on the headers, the spare block and the choice of Rice parameters together.",
  ["src/main.rs: convert_wav_to_adhoc", "src/codec/adhoc.rs: encode, save_to", "src/codec/adhoc/frame.rs: push"])
p("Indexing the ring buffer and the sample history",
  "Whatever calls were made, q[i] on the ring buffer is the i-th item from the front, and assigning to q[i] replaces this item.",
  "for every backing store, capacity, sequence of calls, and index",
  "Tests that only push at the rear cannot see that the index goes straight to the backing store; it takes removals and wrap-around.",
  ["src/collections/queue.rs: Index, IndexMut", "src/collections/stack.rs: Index"])
p("The unit tests pass whatever data they use",
  "The tests of the Rice code pass for all numbers but -32768 (capped: of 14 bits) in any order; the shotgun test with aligned numbers for all numbers of 32 bits, the one with unaligned numbers for all of 31 bits (but not of 32 bits); the test of the bit vector for all bits; the tests of the codec for all data in [-1, 1] at every level up to 8 while the codec is in sync, which at levels 4 to 8 it always is.",
  "for every list of numbers, trials, bits or samples in place of those in the tests, and both builds",
  "The tests run on fixed or random data, on one stream that is written over and over: what is left from one round can only show up in the next one with data that the tests do not use (the unaligned test takes numbers modulo 10).",
  ["src/collections/bitstream.rs: tests", "src/collections/bitvec.rs: tests", "src/codec/adhoc.rs: tests"])
p("Copying a WAV file",
  "Decoding a WAV file a buffer at a time and encoding what was read into a new codec, as the tests do, gives a file with the same info and all complete blocks of samples, each the same except for 1537 of the 65536 values, which come back one closer to 0; a copy of a copy has the same bytes, and already the first copy does if no such value occurs.",
  "for every WAV file that is accepted, and every buffer that holds a block",
  "The test only writes a file for somebody to listen to; which values are not preserved, what happens at the end of a file that does not fill the buffer and whether further copies get worse is not visible in one run.",
  ["src/codec/wav.rs: decode, encode, tests"])
p("A player written from the format plays recordings like the library",
  "A small decoder that only knows the file format (tables, Rice codes, prediction; no cursors, chunks, states or buffers) takes the same sound out of the file of a recording as loading it with the library and decoding it with any buffers, whatever comes after the file.",
  "for every recording, level, build and sequence of buffers",
  "There is only one implementation, so encoder and decoder could agree on anything; an independent reader shows that the file alone, read in the simplest way, determines the sound.",
  ["src/codec/adhoc.rs: save_to, load, decode", "src/codec/adhoc/frame.rs: decode_frame"])
p("The library plays the files of any encoder",
  "Any file the library loads that stores pieces in the format (any Rice parameters, sizes, first codes and steps) plays like the small player says; the stored positions, histories, flags and cursors do not matter, nor does what comes after the file.",
  "for every file, set of pieces in it, build and sequence of buffers",
  "The only files the tests decode were written by this encoder a moment before; the freedom the format leaves to other encoders and later versions is never tried.",
  ["src/codec/adhoc.rs: load, decode", "src/codec/adhoc/frame.rs: decode_frame", "src/codec/adhoc/frame.rs: FrameHeaders"])
p("The test re_encode works for every WAV file",
  "Compressing a WAV file, rewinding, saving, and decompressing it upside down as the test re_encode does runs to its end; at every level the WAV file holds the negatives of the samples the tool would restore, and the saved file loads as the tool's. At level 4 each sample is the negative of the original one up to 52 of 32768.",
  "for every 16-bit WAV file of fewer than 342 channels and at least three blocks, both builds, every level",
  "The test converts one file and asserts nothing about the result (it is there to be listened to).",
  ["src/codec/adhoc.rs: re_encode", "src/codec/wav.rs: encode, decode"])
p("Seeking in the files of any encoder",
  "In a file of any encoder whose flags, positions and histories agree with its sound, any sequence of reads and seeks behaves like a tape that holds what a player written from the format plays. Only the position of the first piece of a row and the histories after the first row matter. A seek behind the end panics.",
  "for every loadable file with rows of pieces in the format (as in C128) and tables that fit, every sequence of reads and of seeks inside the signal, both builds",
  "Tests seek only in files written by the library itself, at a few places.",
  ["src/codec/adhoc.rs: load, seek, decode", "src/codec/adhoc/frame.rs: get, set_cursor, decode_frame"])
p("Recordings made in the browser are those made on a server",
  "On a target with a 32-bit usize (wasm32) a recording that fits into its memory is bit for bit that of a 64-bit target, and reads and seeks give the same on both. More generally, with any width of usize any sequence of calls on any codec gives the same results as long as the cursor stays where that width can index, and every file that fits into memory gives the same when loaded.",
  "for every recording of at most 2^32 bytes of sound, every sequence of reads and of seeks inside the signal, directly or after saving and loading; for every codec, every sequence of calls and every width; both builds",
  "Tests run on the 64-bit machine of the developer; the conversions to usize cut off only beyond what they record.",
  ["README.md: What is this?", "src/collections/bitstream.rs: chunk_index, write_bits, peek_bits, write_bit, read_bit"])
p("Sizes in the browser",
  "On a target with a 32-bit usize filesize_upperbound is what it is on a 64-bit target, for every recording that fits into memory.",
  "for every recording of at most 2^32 bytes of sound, both builds",
  "It takes 512 megabytes of compressed sound in memory on a 32-bit target to see the product overflow.",
  ["src/collections/bitstream.rs: capacity_upperbound, with_capacity_in_megabytes, len, capacity", "src/codec/adhoc.rs: filesize_upperbound"])
p("How a reader hands out its bytes does not matter",
  "Loading from a reader that gives its bytes in any pieces and is interrupted any number of times gives exactly what its content gives, for .adhoc and for WAV. A reader that fails at some point gives that or an error (None): never another codec and no other panic.",
  "for every content, every position in it and every way of answering the calls of read; both builds",
  "Tests load from byte vectors and local files, which hand out everything at once and do not fail.",
  ["src/codec/adhoc.rs: load", "src/codec/wav.rs: load"])
p("Recordings one after the other in one file",
  "Recordings saved one after the other to the same writer are loaded back one after the other from the same reader, each with its info, its level and its sound, whatever comes before and behind them; the reader then stands behind the last one.",
  "for every list of recordings with any settings, every writer that takes all the bytes in any pieces, every reader that does not fail, and every other content; both builds",
  "Every test saves and loads one recording, and load takes the reader by value; only all files together show that none is read too far.",
  ["src/codec/adhoc.rs: save_to, load"])
p("Half a sample at the end of a WAV file changes nothing",
  "A 16-bit WAV file with one byte behind the last whole sample plays and seeks like the file without it, and is compressed to the same bytes.",
  "for every 16-bit WAV file that loads with whole samples, every further byte, buffer, seek, level and output file; both builds",
  "The test files have whole samples, and the number of samples is the number of bytes halved, rounded down.",
  ["src/codec/wav.rs: load, num_samples, get_pcm, decode, seek", "src/main.rs: convert_wav_to_adhoc", "examples/compress.rs"])
p("The unsafe views of the WAV codec are valid",
  "Every slice made by from_raw_parts in wav.rs is aligned, inside its memory and initialised, so that decode is defined for every codec wherever its bytes are.",
  "for every codec, also one without samples, every address the allocator may choose for a vector of bytes, and every buffer",
  "Allocators hand out even addresses in practice and old compilers do not check; the tests never decode an empty codec.",
  ["src/codec/wav.rs: get_pcm, decode, RawWavHeader, as_bytes, as_bytes_mut"])
p("WAV files do not depend on the machine",
  "On a machine with the other byte order the WAV codec saves the same files, loads the same files and decodes the same samples.",
  "for both byte orders, every codec, file, buffer and output file; both builds",
  "Tests run on little-endian machines; encode stores the low byte first by arithmetic while decode and the header use the memory as it is.",
  ["src/codec/wav.rs: get_pcm, as_bytes, as_bytes_mut, save_to, load, write_sample"])
p("A recording allocates memory logarithmically often",
  "The vectors that encode fills are allocated a number of times that grows with the logarithm of the samples and frames given, and the copying that their growth takes is linear, as the README says.",
  "for every sequence of calls that succeeds, any number of channels above 0, both builds",
  "Tests do not count allocations; a vector that is rebuilt, or grown by a constant amount, gives the same samples.",
  ["README.md", "src/codec/adhoc.rs: encode", "src/collections/bitstream.rs: allocate_if_needed", "src/codec/adhoc/frame.rs: push"])
p("Encoding and decoding take linear time",
  "The steps of all encode calls together are linear in the samples and frames given; the steps of all decode calls together are linear in the samples asked for, the samples that the headers declare and the bytes of the file, as the README says. This holds also for files of any other encoder.",
  "for every codec with stream info, every recording and every file that loads; all buffers; both builds",
  "Timing tests see a few inputs; a crafted file could make one decode call scan the same bits again and again, or a cost table could be searched for every sample.",
  ["README.md", "src/codec/adhoc.rs: encode, decode", "src/codec/adhoc/frame.rs: encode_frame, decode_frame, compute_optimal_divisor_exponent", "src/collections/bitstream.rs: write_compressed, read_compressed"])
p("A seek looks at the rows and decodes one of them",
  "A seek in a file looks at each row of frame headers at most once and decodes one row of frames: beyond the number of rows and of bytes its steps are bounded by a number that depends on the channels only.",
  "for every file that loads, every position, both builds",
  "A seek that decodes everything before its target gives the same samples.",
  ["src/codec/adhoc.rs: seek"])
p("Playing takes bounded memory",
  "However long and however often a file is played, no channel keeps more than 65535 decoded samples waiting, and the stream in memory stays below a bound that the file fixes: the chunks in it, two more, and 17 bits for every declared sample and 48 for every frame.",
  "for every file that loads, of whatever encoder, every sequence of reads and rewinds with buffers of any length, both builds",
  "Every read may append chunks, and headers may declare samples that are not there; a leak of a chunk for each rewind, or a queue that is filled before it is empty, shows only in long sessions or with crafted files.",
  ["src/codec/adhoc.rs: decode, buffer_audio, init", "src/codec/adhoc/frame.rs: decode_frame", "src/collections/bitstream.rs: allocate_chunks_if_needed, peek_bits, read_compressed"])
p("The frame index holds every frame, however many",
  "Pushing frame headers never fails, and the index returns exactly the headers that were pushed, in order.",
  "for every list of headers whose values fit their fields, of any length, both builds",
  "The counters have 32 bits; a test would need four thousand million frames to see them overflow.",
  ["src/collections/nibble_list.rs: push, len", "src/codec/adhoc/frame.rs: push, next, get"])
p("A seek forgets the past",
  "What a seek and everything after it give, panics included, does not depend on what has been read of the file before, or on where it has been sought.",
  "for every file that loads, every sequence of reads and seeks before, every place sought and every sequence of reads and seeks after, both builds",
  "The codec keeps decoder state for each channel, queues of decoded samples, three cursors and a stream that grows as it is read; leftovers of any of them change the result only for particular histories.",
  ["src/codec/adhoc.rs: seek, init, decode", "src/codec/adhoc/frame.rs: init, reset, get, next", "src/collections/bitstream.rs: set_bit_cursor, peek_bits"])
p("A list read from bytes can be iterated over",
  "In every LinkedList that Deserialize accepts, iter and iter_mut reach all items without a panic, and iter_mut hands out no item twice.",
  "for every type of items, every sequence of bytes and every function applied to the items",
  "The derived Deserialize checks nothing, and iter_mut makes its references with unsafe code from the stored links and length; only bytes made up on purpose show two mutable references to one item.",
  ["src/collections/linked_list.rs: LinkedList, iter, iter_mut, LinkedListIterator::next", "src/collections.rs: Node, Deserialize"])
p("Negative zero is nothing special",
  "Recordings that differ only in the signs of zeros are the same, no sample that is delivered is -0.0 unless the level in the loaded file is 31 modulo 32 (then every zero is -0.0), and playing never depends on the sign of a zero in a buffer except for the places it does not fill.",
  "for all samples, buffers, reads and seeks, all bytes loaded, both codecs and both builds",
  "Tests compare floats with ==, for which the two zeros are equal; the sign of a zero shows only in its bits, and what makes one is a chain of products and sums.",
  ["src/codec.rs: normalize_sample, truncate_sample", "src/codec/adhoc.rs: encode, decode, load", "src/codec/adhoc/frame.rs: encode_frame, decode_frame", "src/codec/wav.rs: encode, decode", "src/math/noise.rs: triangle", "src/math/parabola.rs", "src/math/signal.rs: convolve_1d"])
p("A linked list holds any number of items",
  "Whatever the number of items pushed to a LinkedList, iterating over it gives all of them in order and len is their number.",
  "for every list of items of any type and every length, both builds",
  "The length and the pointers are u32, and u32::MAX is the null pointer; a test would have to push four thousand million items to see what happens when these run out.",
  ["src/collections/linked_list.rs: insert_at, push_rear, push_front, allocate, iter", "src/collections.rs: Ptr, NULL"])
p("A ring buffer read from bytes is a deque",
  "Whatever bytes a FixedRingBuffer was read from, all further calls on it behave like a double-ended queue bounded by its capacity, without a panic.",
  "for every byte string, every type of items, every sequence of calls, both builds",
  "The derived Deserialize skips the checks of new; which of the fields go together, and which u32 sums overflow, depends on all later calls.",
  ["src/collections/queue.rs: FixedRingBuffer, Deserialize, push_front, push_rear, pop_front, pop_rear, iter, clear"])
p("The tool writes only into the output directory",
  "Whatever the input files are called, every file that the command line tool creates lies directly in the output directory.",
  "for all paths of inputs and output directories (as written, Unix)",
  "The path is put together by push and set_extension, whose behaviour on dots, trailing slashes and hidden names makes unboundedly many cases.",
  ["src/main.rs 107, 120-126: convert_wav_to_adhoc", "src/main.rs 136, 147-149: convert_adhoc_to_wav"])
p("A conversion does not overwrite its input",
  "The path to which the command line tool writes the conversion of a file never ends in the name of that file, so the input (which need not be inside the output directory, but may be) survives, even if the tool runs both conversions on it.",
  "for all paths of inputs and output directories (as written, Unix)",
  "The extension is matched by contains and replaced by set_extension on a stem that may itself have an extension; no list of examples covers all names.",
  ["src/main.rs 94-103: convert_file", "src/main.rs 107, 120-126: convert_wav_to_adhoc", "src/main.rs 136, 147-149: convert_adhoc_to_wav"])
p("A call that is too long loses only its own end",
  "When some call of encode has 65536 blocks or more, playing the recording gives for every call the first (number of blocks modulo 65536) blocks of it, quantised, and the other calls as they were.",
  "for all calls in sync at level 0, every number of channels, every sequence of read buffers",
  "A header keeps the size modulo 65536 and the decoder goes on reading where it stopped, so whether anything else is harmed depends on the bits that are left over; only signals above 65536 blocks show it.",
  ["src/codec/adhoc/frame.rs 86-112, 115-130: FrameHeaders::push, get", "src/codec/adhoc/frame.rs 193-292, 294-371: encode_frame, decode_frame"])
p("A cache read from bytes is a cache",
  "A cache with room that was read from any bytes answers every sequence of calls without a panic.",
  "for all bytes that are read as a cache and every sequence of put, get, get_mut, lookup and remove",
  "The derived Deserialize checks nothing; tests read back what was written, while a damaged or made-up file can lead the table or the links anywhere.",
  ["src/collections/lru_cache.rs 5-13: LruCache", "src/collections/lru_cache.rs 34-107", "src/collections/linked_list.rs 17-24: LinkedList"])
p("Any file can be recorded over",
  "Into a codec that was loaded from any file, with at least one channel, a recording that begins with three blocks can be made without a panic (release build).",
  "for all files that load accepts and all calls of encode, whatever the samples",
  "Recording into a loaded codec writes over the headers of the file; tests load files that the codec has saved itself, in which the lists have the same length.",
  ["src/codec/adhoc.rs 183-214: load", "src/codec/adhoc.rs 216-254: encode", "src/codec/adhoc/frame.rs 86-113: FrameHeaders::push", "src/collections/nibble_list.rs 32-40: push", "src/collections/bitvec.rs 40-51: push"])
p("Seeking in a file panics only beyond its end",
  "In a codec loaded from any file with at least one channel whose lists have all the headers it counts, every sequence of reads and seeks succeeds if all the times that are sought are the start or in the complete rows of frames (release build).",
  "for all files that load accepts, all buffers and all times",
  "Files from elsewhere may hold any positions, sizes and counts; tests seek in recordings that the codec has made itself.",
  ["src/codec/adhoc.rs 183-214: load", "src/codec/adhoc.rs 256-308: decode", "src/codec/adhoc.rs 332-433: seek", "src/codec/adhoc/frame.rs 115-135: FrameHeaders::get"])
p("A debug build only adds overflow panics",
  "Whatever is called on whatever codec, bit stream, container or file, a debug build returns what a release build returns and panics where it panics and for the same reason, except that it may panic because of an arithmetic overflow before.",
  "for all codecs and sequences of calls (loads of corrupt files among them), all bit streams, caches, ring buffers, lists and signals, all inputs and outputs of the tool",
  "A test runs in one of the two builds; that nothing but overflows sets them apart is a statement about pairs of runs, for all inputs.",
  ["src/codec/adhoc.rs 183-433: load, encode, decode, seek", "src/codec/wav.rs 112-131: save_to", "src/codec/wav.rs 298-323: seek", "src/collections/bitstream.rs 255-354: compressed fields", "src/main.rs 105-154: the conversions", "src/math/signal.rs 47-58: scale_signal", "src/collections/queue.rs 48-97", "src/collections/linked_list.rs 97-128: insert_at", "src/collections/lru_cache.rs 43-107"])
p("An incomplete block changes nothing",
  "The samples behind the last whole block of a call of encode are dropped and the places behind the last whole block of a buffer for decode are not filled; otherwise, panics included, the call does what it does without them. This holds for both codecs in every state.",
  "for all codecs in any state, all samples and buffers, both builds",
  "That no state ever keeps a part of a block, for any state a codec may be in, takes a comparison of all pairs of runs.",
  ["src/codec/adhoc.rs 216-254: encode", "src/codec/adhoc.rs 256-308: decode", "src/codec/wav.rs 267-296: encode, decode"])
p("Every time behind the end of a recording is refused",
  "A seek to a time behind the end of a recording panics, however far behind the end the time is; no time is taken for another one.",
  "for all recordings, all times of 64 bits, release build",
  "The times that go wrong amount to 2^64 samples and more, which no recording of a test comes near to.",
  ["src/codec/adhoc.rs 332-420: seek"])
p("The two codecs play the same",
  "A signal recorded with AdhocCodec at level 0 (in sync) and with WavCodec is played by both with the same samples and the same counts, whatever times of the recording are sought and whatever buffers are used.",
  "for all recordings in sync, all times up to the end, all sequences of seeks and reads",
  "It relates two implementations of one trait over all recordings and all sequences of calls.",
  ["src/codec.rs 80-102: Streamable", "src/codec/adhoc.rs 256-420: decode, seek", "src/codec/wav.rs 267-325: encode, decode, seek"])
p("The calls of a WAV codec may come in any order",
  "As documented, encode, decode and seek of WavCodec can be called in any order: every sequence of them does what it does on a tape of samples with a head, and none panics.",
  "for all codecs with whole samples, all sequences of calls, all arguments, release build",
  "The sequences are infinitely many, and every call depends on all before it.",
  ["src/codec.rs 99-101: seek", "src/codec/wav.rs 267-325: encode, decode, seek"])
p("How a recording was cut into calls cannot be heard, seeks included",
  "Two recordings of the same signal at level 0, cut into encode calls in different ways, give the same samples and counts under every sequence of seeks and reads up to the end, rewound or saved and loaded.",
  "for all stream infos, all signals with in-sync channels, any two ways of cutting them into non-empty lists of calls of fewer than 65536 blocks, the first of at least three, with at most eight calls without a block in a row, all sequences of seeks (up to the end) and reads, both builds",
  "The ways of cutting are exponentially many, and a seek goes over chunk tables that differ between them.",
  ["src/codec/adhoc.rs 216-254: encode", "src/codec/adhoc.rs 256-308: decode", "src/codec/adhoc.rs 332-420: seek"])
out = os.path.join(os.path.dirname(os.path.abspath(__file__)), "..", "properties.jsonl")
with open(out, "w") as f:
    for x in P: f.write(json.dumps(x) + "\n")
print(len(P))
